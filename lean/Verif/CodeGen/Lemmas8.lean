import Verif.CodeGen.Lemmas7
namespace Gp.CodeGen
open Gp.Heap Gp.Unify Gp.ListBip
open Gp.Term (isNaN fkey deq)

variable {N nY e c c' : Nat} {V V' V'' : St} {X X' X'' : Var → Cell} {g g' g'' : G}
  {A B C : (Var → T) → (Adr → T) → Prop} {E : Env} {O : Opts}

theorem RunOk.of_eq {m m1 : M} {r : Option M} (hX : m1.X = m.X) (he : m1.e = m.e) (hee : m1.ee = m.ee)
    (h : RunOk c N nY m1 V g g' A B r) : RunOk c N nY m V g g' A B r := by
  cases r with
  | none => rw [RunOk, hX, he] at h; exact h
  | some m' =>
    obtain ⟨t, h1, h2⟩ := h
    rw [hX, he] at t
    exact ⟨t, by rw [h1, he], by rw [h2, hee]⟩

theorem denList_inv {l : List Arg} (hs : SrcListB c nY l) {p : Nat} {mem : Heap.Mem}
    (hc : ∀ i, i < l.length → isTerm (mem (p + i)) = true) :
    ∀ ρ ρ' β β', Agree mem ρ ρ' → SameTo c β β' →
      (DenList β l (cells ρ p l.length) ↔ DenList β' l (cells ρ' p l.length)) := by
  intro ρ ρ' β β' ha hb
  rw [cells_agree ha hc]
  exact denListB_congr hb l hs _

theorem cons_run {m : M} {p0 n len k' : Nat} {l : List Arg} (hlen : l.length = len) {i : Ins} {code : List Ins} {r : Option M}
    {A1 F : (Var → T) → (Adr → T) → Prop} (hsrc : SrcListB c nY l) (hi : Inv N nY m.e V m.X g)
    (hc : Cur N V m g p0 (n + (len + 1)))
    (hel : ∀ m, Inv N nY m.e V m.X g → Cur N V m g (p0 + n) (len + 1) → ∀ r, step E m i = some r →
      ElemOk (c := c) N nY m V g g' (p0 + n) len A1 r)
    (ih : ∀ m1 V1, Inv N nY m1.e V1 m1.X g' → Cur N V1 m1 g' (p0 + n + 1) len → exec E code m1 = some r →
      RunOk c N nY m1 V1 g' g'' (fun β ρ => DenList β l (cells ρ (p0 + n + 1) len)) (fun β _ => Aux O β l k') r)
    (hF : ∀ ρ ρ' β β', SameTo c β β' → (F β ρ ↔ F β' ρ'))
    (h : exec E (voids n ++ [i] ++ code) m = some r) :
    RunOk c N nY m V g g'' (fun β ρ => A1 β ρ ∧ DenList β l (cells ρ (p0 + n + 1) len) ∧ F β ρ)
      (fun β ρ => Aux O β l k' ∧ F β ρ) r := by
  rw [List.append_assoc] at h
  obtain ⟨m1, c1, x1, e1, e2, h1⟩ := voids_run hc h
  have hi1 : Inv N nY m1.e V m1.X g := by rw [x1, e1]; exact hi
  refine RunOk.of_eq x1 e1 e2 (elem_run (hel m1 hi1 c1) (fun m1 V1 _ h1 h2 h3 => ih m1 V1 h1 h2 h3) ?_ hF h1)
  subst hlen
  refine denList_inv hsrc (fun i hi => ?_)
  have := (c1.cells (i + 1) (by omega)).2
  rw [show p0 + n + (i + 1) = p0 + n + 1 + i by omega] at this
  exact this

/-- The arguments of a structure. -/
theorem sub_ok (O : Opts) (E : Env) : (as : List Arg) → (k n : Nat) → (g : G) → (m : M) → (V : St) → (p : Nat) →
    (r : Option M) → SrcListB k nY as → Inv N nY m.e V m.X g → Cur N V m g p (n + as.length) →
    (∀ j, k ≤ j → g.info (.tmp j) = none) → (flatList O as k).2 ≤ g.tmp →
    exec E (genSubList n (flatList O as k).1 g).1 m = some r →
    RunOk k N nY m V g (genSubList n (flatList O as k).1 g).2
      (fun β ρ => DenList β as (cells ρ (p + n) as.length)) (fun β _ => Aux O β as k) r
  | [], k, n, g, m, V, p, r, _, hi, hc, _, _, h => by
    have h' : exec E (voids n ++ []) m = some r := by rw [List.append_nil]; exact h
    obtain ⟨m1, c1, x1, e1, e2, h1⟩ := voids_run (q := 0) hc h'
    simp only [exec, Option.some.injEq] at h1
    subst h1
    refine ⟨?_, e1, e2⟩
    rw [x1, ← c1.done]
    exact (Tr.refl hi (A := fun _ _ => True)).conseq (fun _ _ _ _ => by simp [cells, Den.DenList]) (fun _ _ _ _ => by simp [Aux])
  | a :: l, k, n, g, m, V, p, r, hs, hi, hc, hf, ht, h => by
    have hcs : ∀ ρ : Adr → T, cells ρ (p + n) (a :: l).length = ρ (p + n) :: cells ρ (p + n + 1) l.length :=
      fun ρ => cells_succ ρ _ _
    cases a with
    | void =>
      have ih := sub_ok O E l k (n + 1) g m V p r hs.2 hi
        (by rw [show n + 1 + l.length = n + (Arg.void :: l).length by simp only [List.length_cons]; omega]; exact hc) hf ht h
      refine ih.conseq (fun ρ β _ _ => ?_) (fun β _ => by rw [Aux])
      rw [hcs]
      show _ ↔ True ∧ DenList β l _
      rw [true_and]; rfl
    | var v =>
      have hv := srcB_var hs.1
      have hkl := flatList_le O (.var v :: l) k
      have hst := genSubVar_tmp v g
      have key := cons_run (c := k) (k' := k) (O := O) (F := fun _ _ => True) (A1 := fun β ρ => ρ (p + n) = β v) rfl hs.2 hi hc
        (fun m h1 h2 r h3 => genSubVar_elem h1 h2 (fun j hj => by have := hv j hj; omega)
          (fun i hi => by subst hi; exact hs.1) h3)
        (fun m1 V1 h1 h2 h3 => sub_ok O E l k 0 (genSubVar v g).2 m1 V1 (p + n + 1) r hs.2 h1 (by rw [Nat.zero_add]; exact h2)
          (fun j hj => by rw [genSubVar_info v g (fun h => by have := hv j h.symm; omega)]; exact hf j hj) (by rw [hst]; exact ht) h3)
        (fun _ _ _ _ _ => Iff.rfl) h
      refine key.conseq (fun ρ β _ _ => ?_) (fun β _ => by rw [Aux]; simp)
      rw [hcs]
      show _ ↔ ρ (p + n) = β v ∧ DenList β l _
      simp
    | atm i =>
      have key := cons_run (c := k) (k' := k) (O := O) (F := fun _ _ => True) (A1 := fun _ ρ => ρ (p + n) = .atm i) (E := E) (i := .unifyAtom i) rfl hs.2 hi hc
        (fun m h1 h2 r h3 => cst_elem (w := .atm i) h1 h2 trivial (fun _ _ => rfl) atm_unique (fun b h => by cases h) h3)
        (fun m1 V1 h1 h2 h3 => sub_ok O E l k 0 g m1 V1 (p + n + 1) r hs.2 h1 (by rw [Nat.zero_add]; exact h2) hf ht h3)
        (fun _ _ _ _ _ => Iff.rfl) h
      refine key.conseq (fun ρ β _ _ => ?_) (fun β _ => by rw [Aux]; simp)
      rw [hcs]
      show _ ↔ ρ (p + n) = .atm i ∧ DenList β l _
      simp
    | nil =>
      have key := cons_run (c := k) (k' := k) (O := O) (F := fun _ _ => True) (A1 := fun _ ρ => ρ (p + n) = .atm 256) (E := E) (i := .unifyNil) rfl hs.2 hi hc
        (fun m h1 h2 r h3 => cst_elem (w := .atm 256) h1 h2 trivial (fun _ _ => rfl) atm_unique (fun b h => by cases h) h3)
        (fun m1 V1 h1 h2 h3 => sub_ok O E l k 0 g m1 V1 (p + n + 1) r hs.2 h1 (by rw [Nat.zero_add]; exact h2) hf ht h3)
        (fun _ _ _ _ _ => Iff.rfl) h
      refine key.conseq (fun ρ β _ _ => ?_) (fun β _ => by rw [Aux]; simp)
      rw [hcs]
      show _ ↔ ρ (p + n) = .atm 256 ∧ DenList β l _
      simp
    | int z =>
      have key := cons_run (c := k) (k' := k) (O := O) (F := fun _ _ => True) (A1 := fun _ ρ => ρ (p + n) = .int z) rfl hs.2 hi hc
        (fun m h1 h2 r h3 => by
          refine cst_elem (w := .int z) h1 h2 trivial (fun _ _ => rfl) int_unique (fun b h => by cases h) ?_
          simp only [step] at h3
          cases hS : m.S with
          | none => rw [hS] at h3; exact h3
          | some a =>
            rw [hS] at h3
            rcases h2.mode with ⟨k1, k2⟩ | ⟨k1, _⟩
            · rw [hS] at k1; have k1 := Option.some.inj k1; subst k1
              have h0 := h2.cells 0 (by omega)
              have hw := (h1.ok.wf _ (Nat.lt_of_lt_of_le h0.1 h1.ok.top) h0.2).1
              simp only [Nat.add_zero] at hw
              rw [k2] at hw h1
              simp only at h3 ⊢
              rw [getInt_eq h1.ok hw] at h3
              exact h3
            · rw [hS] at k1; cases k1)
        (fun m1 V1 h1 h2 h3 => sub_ok O E l k 0 g m1 V1 (p + n + 1) r hs.2 h1 (by rw [Nat.zero_add]; exact h2) hf ht h3)
        (fun _ _ _ _ _ => Iff.rfl) h
      refine key.conseq (fun ρ β _ _ => ?_) (fun β _ => by rw [Aux]; simp)
      rw [hcs]
      show _ ↔ ρ (p + n) = .int z ∧ DenList β l _
      simp
    | flt b =>
      have hk1 : (flatList O (.flt b :: l) k).2 = (flatList O l (k + 1)).2 := rfl
      have hkl := flatList_le O l (k + 1)
      rw [hk1] at ht
      have key := cons_run (c := k + 1) (k' := k + 1) (O := O) (F := fun β _ => β (.tmp k) = .flt (fkey b))
        (A1 := fun β ρ => ρ (p + n) = β (.tmp k)) rfl (srcListB_mono (Nat.le_succ k) l hs.2) hi hc
        (fun m h1 h2 r h3 => genSubVar_elem (v := .tmp k) h1 h2 (fun j hj => by cases hj; omega)
          (fun i hi => by cases hi) h3)
        (fun m1 V1 h1 h2 h3 => sub_ok O E l (k + 1) 0 (genSubVar (.tmp k) g).2 m1 V1 (p + n + 1) r (srcListB_mono (Nat.le_succ k) l hs.2) h1
          (by rw [Nat.zero_add]; exact h2)
          (fun j hj => by rw [genSubVar_info _ g (fun h => by cases h; omega)]; exact hf j (by omega))
          (by rw [genSubVar_tmp]; exact ht) h3)
        (fun ρ ρ' β β' hss => by rw [hss (.tmp k) (fun n hn => by cases hn; omega)]) h
      have hcl : ∀ i, i < l.length → isTerm (V.mem (p + n + 1 + i)) = true := fun i hi' => by
        have := (hc.cells (n + (i + 1)) (by simp only [List.length_cons]; omega)).2
        rw [show p + (n + (i + 1)) = p + n + 1 + i by omega] at this
        exact this
      have hren := rename_tr (k := k) (p := p + n) (P := fun _ t => t = .flt (fkey b))
        (F := fun β ρ => DenList β l (cells ρ (p + n + 1) l.length)) hi (hf k (Nat.le_refl _)) (fun _ _ _ _ => Iff.rfl)
        (fun ρ β β' hss => denListB_congr hss l hs.2 _)
      refine ((RunOk.pre hren (Nat.le_succ k) key).conseq (fun ρ β _ _ => ?_) (fun β _ => ?_))
      · rw [hcs]; exact Iff.rfl
      · rw [Aux]; exact and_comm
    | stc f as' =>
      by_cases hlast : (l.isEmpty && O.lastSubterm) = true
      · -- the last sub-term
        have hl : l = [] := by
          simp only [Bool.and_eq_true, List.isEmpty_iff] at hlast; exact hlast.1
        subst hl
        have hfl : flatList O [.stc f as'] k = ([.stc f (flatList O as' k).1], (flatList O as' k).2) := by
          show (_, _) = _
          simp only [flatArg, flatArg.flatList, hlast, if_true]
        have hlen : (flatList O as' k).1.length = as'.length := flatList_length O as' k
        rw [hfl] at h ht ⊢
        have h' : exec E (voids n ++ ((if isList f as'.length then .unifyList else .unifyStructure f as'.length) ::
            (genSubList 0 (flatList O as' k).1 g).1)) m = some r := by
          rw [← hlen]
          have : (genSubList n [.stc f (flatList O as' k).1] g).1 = voids n ++ ((if isList f (flatList O as' k).1.length
              then .unifyList else .unifyStructure f (flatList O as' k).1.length) ::
            (genSubList 0 (flatList O as' k).1 g).1) ++ [] := rfl
          rw [this, List.append_nil] at h
          exact h
        obtain ⟨m1, c1, x1, e1, e2, h1⟩ := voids_run (q := 1) hc h'
        have hi1 : Inv N nY m1.e V m1.X g := by rw [x1, e1]; exact hi
        refine RunOk.of_eq x1 e1 e2 ?_
        have hpos : 0 < as'.length := by
          have := hs.1.1
          cases as' with
          | nil => exact absurd rfl this
          | cons _ _ => simp
        have hconv : ∀ β ρ, (∃ ts, ts.length = as'.length ∧ DenList β as' ts ∧ ρ (p + n) = mk f ts) ↔
            DenList β [.stc f as'] (cells ρ (p + n) [Arg.stc f as'].length) := by
          intro β ρ
          rw [hcs]
          show _ ↔ (∃ ts, DenList β as' ts ∧ ρ (p + n) = mk f ts) ∧ True
          constructor
          · rintro ⟨ts, _, h1, h2⟩; exact ⟨⟨ts, h1, h2⟩, trivial⟩
          · rintro ⟨⟨ts, h1, h2⟩, _⟩; exact ⟨ts, denList_length h1, h1, h2⟩
        rcases exec_cons h1 with ⟨h2, rfl⟩ | ⟨m2, h2, h3⟩
        · intro ρ β hρ hh hA
          obtain ⟨ts, k1, _, k3⟩ := (hconv β ρ).mpr hA
          exact (unifyCon_ok hi1 c1 hpos h2).1 rfl ρ hρ ts k1 k3
        · obtain ⟨x2, e3, e4, V', q, c2, t2⟩ := (unifyCon_ok hi1 c1 hpos h2).2 m2 rfl
          have t2 := (t2 k (fun β ts => DenList β as' ts)).conseq (fun ρ β _ _ => hconv β ρ) (fun _ _ _ _ => Iff.rfl)
          have ih := sub_ok O E as' k 0 g m2 V' q r hs.1.2 (by rw [x2, e3]; exact t2.inv)
            (by rw [Nat.zero_add]; exact c2) hf ht h3
          refine (RunOk.pre t2 (Nat.le_refl k) (RunOk.of_eq x2 e3 e4 ih)).conseq (fun _ _ _ _ => Iff.rfl) (fun β _ => ?_)
          rw [Aux, if_pos hlast]
      · have hfl : flatList O (.stc f as' :: l) k = (.var (.tmp k) :: (flatList O l (k + 1)).1, (flatList O l (k + 1)).2) := by
          show (_, _) = _
          simp only [flatArg, hlast, if_false, Bool.false_eq_true]
        have hkl := flatList_le O l (k + 1)
        rw [hfl] at ht h ⊢
        have key := cons_run (c := k + 1) (k' := k + 1) (O := O) (F := fun β _ => Den β (.stc f as') (β (.tmp k)))
          (A1 := fun β ρ => ρ (p + n) = β (.tmp k)) rfl (srcListB_mono (Nat.le_succ k) l hs.2) hi hc
          (fun m h1 h2 r h3 => genSubVar_elem (v := .tmp k) h1 h2 (fun j hj => by cases hj; simp only at ht; omega)
            (fun i hi => by cases hi) h3)
          (fun m1 V1 h1 h2 h3 => sub_ok O E l (k + 1) 0 (genSubVar (.tmp k) g).2 m1 V1 (p + n + 1) r (srcListB_mono (Nat.le_succ k) l hs.2) h1
            (by rw [Nat.zero_add]; exact h2)
            (fun j hj => by rw [genSubVar_info _ g (fun h => by cases h; omega)]; exact hf j (by omega))
            (by rw [genSubVar_tmp]; exact ht) h3)
          (fun ρ ρ' β β' hss => by
            rw [hss (.tmp k) (fun n hn => by cases hn; omega)]
            exact denB_congr hss _ (srcB_mono (Nat.le_succ k) _ hs.1) _) h
        have hren := rename_tr (k := k) (p := p + n) (P := fun β t => Den β (.stc f as') t)
          (F := fun β ρ => DenList β l (cells ρ (p + n + 1) l.length)) hi (hf k (Nat.le_refl _))
          (fun β β' t hss => denB_congr hss _ hs.1 t)
          (fun ρ β β' hss => denListB_congr hss l hs.2 _)
        refine ((RunOk.pre hren (Nat.le_succ k) key).conseq (fun ρ β _ _ => ?_) (fun β _ => ?_))
        · rw [hcs]; exact Iff.rfl
        · rw [Aux, if_neg hlast]; exact and_comm
termination_by as => sizeOf as
where
  flatList_length (O : Opts) : (l : List Arg) → (k : Nat) → (flatList O l k).1.length = l.length
    | [], _ => rfl
    | a :: l, k => by
      show (_ :: (flatList O l _).1).length = _
      simp only [List.length_cons, flatList_length O l _]

theorem flatList_length (O : Opts) (l : List Arg) (k : Nat) : (flatList O l k).1.length = l.length :=
  sub_ok.flatList_length O l k

end Gp.CodeGen
