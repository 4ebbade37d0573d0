import Verif.CodeGen.Lemmas14
namespace Gp.CodeGen
open Gp.Heap Gp.Unify Gp.ListBip
open Gp.Term (isNaN fkey deq)

variable {N nY e c c' : Nat} {V V' V'' : St} {X X' X'' : Var → Cell} {g g' g'' : G}
  {A B C : (Var → T) → (Adr → T) → Prop} {E : Env} {O : Opts}

/-! ## A temporary which does not occur stays unknown, in the head -/

theorem genUnifVar_info (v r : Var) (g : G) {u : Var} (h : u ≠ v) : (genUnifVar O v r g).2.info u = g.info u := by
  unfold genUnifVar; split <;> first | rfl | exact setInfo_other _ h

mutual
theorem unif_nocc (O : Opts) (j : Nat) : (a : Arg) → (r : Var) → (g : G) → ¬ Occ (.x j) a →
    (genUnif O a r g).2.info (.x j) = g.info (.x j)
  | .void, _, _, _ => rfl
  | .var v, r, g, h => genUnifVar_info v r g (fun h1 => h h1.symm)
  | .atm _, _, _, _ => rfl
  | .int _, _, _, _ => rfl
  | .flt _, _, _, _ => rfl
  | .nil, _, _, _ => rfl
  | .stc f as, r, g, h => (aux_nocc O j as g.tmp _ h).trans (sub_nocc O j as g.tmp 0 { g with tmp := (flatList O as g.tmp).2 } h)
theorem aux_nocc (O : Opts) (j : Nat) : (l : List Arg) → (k : Nat) → (g : G) → ¬ OccList (.x j) l →
    (genAux O l k g).2.2.info (.x j) = g.info (.x j)
  | [], _, _, _ => rfl
  | .void :: l, k, g, h => aux_nocc O j l k g (fun h1 => h (Or.inr h1))
  | .var _ :: l, k, g, h => aux_nocc O j l k g (fun h1 => h (Or.inr h1))
  | .atm _ :: l, k, g, h => aux_nocc O j l k g (fun h1 => h (Or.inr h1))
  | .int _ :: l, k, g, h => aux_nocc O j l k g (fun h1 => h (Or.inr h1))
  | .nil :: l, k, g, h => aux_nocc O j l k g (fun h1 => h (Or.inr h1))
  | .flt _ :: l, k, g, h => aux_nocc O j l (k + 1) g (fun h1 => h (Or.inr h1))
  | .stc f as :: l, k, g, h => by
    by_cases hlast : (l.isEmpty && O.lastSubterm) = true
    · rw [genAux_stc_last hlast]; exact aux_nocc O j as k g (fun h1 => h (Or.inl h1))
    · rw [genAux_stc hlast]
      exact (aux_nocc O j l (k + 1) _ (fun h1 => h (Or.inr h1))).trans (unif_nocc O j (.stc f as) (.tmp k) g (fun h1 => h (Or.inl h1)))
end

theorem unifList_nocc (O : Opts) (j : Nat) : (l : List (Arg × Var)) → (g : G) → (∀ x ∈ l, ¬ Occ (.x j) x.1) →
    (genUnifList O l g).2.info (.x j) = g.info (.x j)
  | [], _, _ => rfl
  | (a, r) :: l, g, h => (unifList_nocc O j l _ (fun x hx => h x (List.mem_cons_of_mem _ hx))).trans
      (unif_nocc O j a r g (h (a, r) List.mem_cons_self))

theorem loadList_nocc (O : Opts) (j : Nat) : (l : List (Arg × Var)) → (g : G) → (∀ x ∈ l, ¬ Occ (.x j) x.1 ∧ x.2.isArg = true) →
    (genLoadList O l g).2.info (.x j) = g.info (.x j)
  | [], _, _ => rfl
  | (a, r) :: l, g, h => (loadList_nocc O j l _ (fun x hx => h x (List.mem_cons_of_mem _ hx))).trans
      (load_nocc O j a r g (h (a, r) List.mem_cons_self).1 (fun h1 => by have := (h (a, r) List.mem_cons_self).2; rw [h1] at this; cases this))

theorem mem_occList {v : Var} {a : Arg} {l : List Arg} (h : a ∈ l) (ho : Occ v a) : OccList v l := by
  induction l with
  | nil => cases h
  | cons b l ih =>
    rcases List.mem_cons.mp h with rfl | h
    · exact Or.inl ho
    · exact Or.inr (ih h)

theorem occList_append {v : Var} {l l' : List Arg} : OccList v (l ++ l') ↔ OccList v l ∨ OccList v l' := by
  induction l with
  | nil => exact ⟨Or.inr, fun h => h.resolve_left (fun h => h)⟩
  | cons a l ih =>
    show Occ v a ∨ OccList v (l ++ l') ↔ (Occ v a ∨ OccList v l) ∨ OccList v l'
    rw [ih, or_assoc]

theorem numbered_mem {l : List Arg} {a : Arg} {v : Var} (h : (a, v) ∈ numbered l) : a ∈ l := by
  obtain ⟨i, _, h⟩ := mem_numbered.mp h
  exact List.mem_of_getElem? h

theorem head_nocc {b : Bool} {args : List Arg} {j : Nat} (h : ¬ OccList (.x j) args) (g : G) :
    (genHead O b args g).2.info (.x j) = g.info (.x j) :=
  unifList_nocc O j (headArgs b args) g (fun x hx h1 => h (mem_occList (numbered_mem (mem_headArgs.mp hx)) h1))

/-! ## Loading of the arguments of a call -/

theorem load_known (O : Opts) (a : Arg) {j : Nat} (g : G) (hs : Src nY a) : (genLoad O a (.arg j) g).2.info (.arg j) ≠ none := by
  cases a with
  | stc f as =>
    rw [genLoad_stc]
    show (genSubList 0 _ _).2.info _ ≠ none
    rw [sub_arg O j as g.tmp 0 _ hs.2, setInfo_same]; simp
  | _ => rw [genLoad]; simp only; rw [setInfo_same]; simp

/-- The argument registers which are to be loaded. -/
structure Regs (g : G) (l : List (Arg × Var)) : Prop where
  arg : ∀ x ∈ l, x.2.isArg = true
  none : ∀ x ∈ l, g.info x.2 = Option.none
  nodup : (l.map (·.2)).Nodup

theorem den_arg {a : Arg} (hs : Src nY a) {r : Var} (hr : r.isArg = true) {β β' : Var → T} (h : SameTo c β β') :
    Den β a (β r) ↔ Den β' a (β' r) := by
  rw [h r (fun n hn => by subst hn; cases hr)]
  exact den_congr h a hs _

theorem loadList_ok (O : Opts) (E : Env) : (l : List (Arg × Var)) → (g : G) → (m : M) → (res : Option M) → (∀ x ∈ l, Src nY x.1) →
    Inv N nY m.e m.s m.X g → Regs g l → exec E (genLoadList O l g).1 m = some res →
    ∃ m' : M, res = some m' ∧ Tr N nY m.e g.tmp m.s m.X g m'.s m'.X (genLoadList O l g).2 (fun β _ => ∀ x ∈ l, Den β x.1 (β x.2))
        (fun _ _ => True) ∧ m'.e = m.e ∧ m'.ee = m.ee ∧ (∀ x ∈ l, (genLoadList O l g).2.info x.2 ≠ none) ∧
      (O.lastPred = true → m.s.lssa ≤ m.ee → (∀ i, i < nY → m.ee ≤ yadr m.e i) → Safe m.ee m.e m.s m.X g →
        ∀ x ∈ l, Global m.ee (m'.X x.2))
  | [], g, m, res, _, hi, _, h => by
    simp only [genLoadList, exec, Option.some.injEq] at h
    subst h
    exact ⟨m, rfl, (Tr.refl hi (A := fun _ _ => True)).conseq (fun _ _ _ _ => by simp) (fun _ _ _ _ => Iff.rfl), rfl, rfl,
      fun x hx => (by cases hx), fun _ _ _ _ x hx => (by cases hx)⟩
  | (a, r) :: l, g, m, res, hs, hi, hk, h => by
    have hsa := hs (a, r) List.mem_cons_self
    have hsl := fun x hx => hs x (List.mem_cons_of_mem _ hx)
    have hra := hk.arg (a, r) List.mem_cons_self
    have hrn := hk.none (a, r) List.mem_cons_self
    have hnd := hk.nodup
    simp only [List.map_cons, List.nodup_cons] at hnd
    have hd : Dest g r := ⟨(by cases r <;> first | rfl | cases hra), hrn, fun j h => (by subst h; cases hra)⟩
    simp only [genLoadList] at h ⊢
    rw [exec_append] at h
    cases hx : exec E (genLoad O a r g).1 m with
    | none => rw [hx] at h; cases h
    | some o =>
      rw [hx] at h
      obtain ⟨m1, r1, t1, e1, e2, s1⟩ := load_ok O E a r g m o hsa hi hd (fun _ _ => hra) (fun n h => by subst h; cases hra) hx
      subst r1
      simp only at h
      have hk1 : Regs (genLoad O a r g).2 l := by
        refine ⟨fun x hx => hk.arg x (List.mem_cons_of_mem _ hx), fun x hx => ?_, hnd.2⟩
        have h1 := hk.arg x (List.mem_cons_of_mem _ hx)
        have h2 := hk.none x (List.mem_cons_of_mem _ hx)
        have h3 : r ≠ x.2 := fun h => hnd.1 (List.mem_map.mpr ⟨x, hx, h.symm⟩)
        cases hv : x.2 with
        | arg j => rw [hv] at h2 h3; rw [load_arg O j a r g hsa h3]; exact h2
        | _ => rw [hv] at h1; cases h1
      have hkn : (genLoad O a r g).2.info r ≠ none := by
        cases r with
        | arg j => exact load_known O a g hsa
        | _ => cases hra
      have t1f := t1.frame (F := fun β _ => ∀ x ∈ l, Den β x.1 (β x.2)) (fun _ _ β β' _ hb =>
        ⟨fun h x hx => (den_arg (hsl x hx) (hk1.arg x hx) hb).mp (h x hx), fun h x hx => (den_arg (hsl x hx) (hk1.arg x hx) hb).mpr (h x hx)⟩)
      obtain ⟨m', r2, t2, e3, e4, k2, s2⟩ := loadList_ok O E l _ m1 res hsl (by rw [e1]; exact t1.inv) hk1 h
      have hkn2 : (genLoadList O l (genLoad O a r g).2).2.info r ≠ none := by
        obtain ⟨i, hi⟩ := Option.ne_none_iff_exists'.mp hkn
        rw [t2.info _ i hi]; simp
      rw [e1] at t2
      refine ⟨m', r2, (t1f.conseq (fun ρ β _ _ => ?_) (B' := fun β _ => ∀ x ∈ l, Den β x.1 (β x.2)) (fun _ _ _ _ => by simp)).trans t2
          (genLoad_tmp O a r g), by rw [e3, e1], by rw [e4, e2], ?_, ?_⟩
      · simp only [List.mem_cons, forall_eq_or_imp]
      · intro x hx
        rcases List.mem_cons.mp hx with rfl | hx
        · exact hkn2
        · exact k2 x hx
      · intro hl h1 h2 h3 x hx
        rcases List.mem_cons.mp hx with rfl | hx
        · rw [t2.regs r hkn]; exact s1 hl h1 h2 h3
        · have := s2 hl (by rw [t1.lssa, e2]; exact h1) (by rw [e1, e2]; exact h2)
            (by rw [e1, e2]; exact t1.safe m.ee h1 h2 h3) x hx
          rw [e2] at this; exact this

/-! ## The arguments of a call -/

/-- The arguments of a call, in the order in which they are loaded. -/
def callArgs (b : Bool) (args : List Arg) : List (Arg × Var) := if b then reorderBody (numbered args) else numbered args

theorem mem_callArgs {b : Bool} {args : List Arg} {x : Arg × Var} : x ∈ callArgs b args ↔ x ∈ numbered args := by
  unfold callArgs; split
  · exact mem_reorderBody
  · exact Iff.rfl

theorem zip_nodup : (l : List Arg) → (k : Nat) → (∀ v ∈ (l.zipIdx k).map (fun p => Var.arg p.2), ∃ i, v = .arg i ∧ k ≤ i) ∧
    ((l.zipIdx k).map (fun p => Var.arg p.2)).Nodup
  | [], k => by simp
  | a :: l, k => by
    obtain ⟨h1, h2⟩ := zip_nodup l (k + 1)
    rw [List.zipIdx_cons, List.map_cons, List.nodup_cons]
    refine ⟨fun v hv => ?_, fun h => ?_, h2⟩
    · rcases List.mem_cons.mp hv with rfl | hv
      · exact ⟨k, rfl, Nat.le_refl _⟩
      · obtain ⟨i, h3, h4⟩ := h1 v hv; exact ⟨i, h3, by omega⟩
    · obtain ⟨i, h3, h4⟩ := h1 _ h
      cases h3; omega

theorem numbered_nodup (l : List Arg) : ((numbered l).map (·.2)).Nodup := by
  have := (zip_nodup l 0).2
  unfold numbered
  rw [List.map_map]
  exact this

theorem nodup_inj {α β : Type} {f : α → β} : {l : List α} → (l.map f).Nodup → ∀ x ∈ l, ∀ y ∈ l, f x = f y → x = y
  | [], _, x, hx, _, _, _ => by cases hx
  | a :: l, h, x, hx, y, hy, he => by
    rw [List.map_cons, List.nodup_cons] at h
    rcases List.mem_cons.mp hx with h1 | h1 <;> rcases List.mem_cons.mp hy with h2 | h2
    · rw [h1, h2]
    · rw [h1] at he; exact absurd (List.mem_map.mpr ⟨y, h2, he.symm⟩) h.1
    · rw [h2] at he; exact absurd (List.mem_map.mpr ⟨x, h1, he⟩) h.1
    · exact nodup_inj h.2 x h1 y h2 he

theorem reorderBody_nodup {l : List (Arg × Var)} (h : (l.map (·.2)).Nodup) : ((reorderBody l).map (·.2)).Nodup := by
  have hf : ∀ p : Arg × Var → Bool, ((l.filter p).map (·.2)).Nodup := fun p => h.sublist (List.filter_sublist.map _)
  have hc : ∀ c c' : Class, c ≠ c' → ∀ v ∈ (l.filter fun a => classOf a.1 == c).map (·.2), ∀ w ∈ (l.filter fun a => classOf a.1 == c').map (·.2),
      v ≠ w := by
    intro c c' hne v hv w hw he
    obtain ⟨x, hx, rfl⟩ := List.mem_map.mp hv
    obtain ⟨y, hy, rfl⟩ := List.mem_map.mp hw
    rw [List.mem_filter, beq_iff_eq] at hx hy
    have := nodup_inj h x hx.1 y hy.1 he
    subst this
    exact hne (hx.2.symm.trans hy.2)
  unfold reorderBody
  rw [List.map_append, List.map_append]
  refine List.nodup_append.mpr ⟨List.nodup_append.mpr ⟨hf _, hf _, hc _ _ (by decide)⟩, hf _, ?_⟩
  intro v hv w hw
  rcases List.mem_append.mp hv with hv | hv
  · exact hc _ _ (by decide) v hv w hw
  · exact hc _ _ (by decide) v hv w hw

/-- No argument register is known. -/
def NoArg (g : G) : Prop := ∀ i, g.info (.arg i) = none

theorem callArgs_regs {b : Bool} {args : List Arg} (h : NoArg g) : Regs g (callArgs b args) := by
  refine ⟨?_, ?_, ?_⟩
  · rintro ⟨a, v⟩ hx
    obtain ⟨i, rfl, _⟩ := mem_numbered.mp (mem_callArgs.mp hx)
    rfl
  · rintro ⟨a, v⟩ hx
    obtain ⟨i, rfl, _⟩ := mem_numbered.mp (mem_callArgs.mp hx)
    exact h i
  · unfold callArgs; split
    · exact reorderBody_nodup (numbered_nodup _)
    · exact numbered_nodup _

theorem call_nocc {b : Bool} {args : List Arg} {j : Nat} (h : ¬ OccList (.x j) args) (g : G) :
    (genCall O b args g).2.info (.x j) = g.info (.x j) := by
  refine loadList_nocc O j (callArgs b args) g (fun x hx => ?_)
  obtain ⟨a, v⟩ := x
  have hx := mem_callArgs.mp hx
  obtain ⟨i, rfl, _⟩ := mem_numbered.mp hx
  exact ⟨fun h1 => h (mem_occList (numbered_mem hx) h1), rfl⟩

/-- The loading of the arguments of a call: it never fails, the argument registers are equal to the arguments. -/
theorem call_run {b : Bool} {args : List Arg} {m : M} {res : Option M} (hs : SrcList nY args) (hi : Inv N nY m.e m.s m.X g)
    (hn : NoArg g) (h : exec E (genCall O b args g).1 m = some res) :
    ∃ m' : M, res = some m' ∧ Tr N nY m.e g.tmp m.s m.X g m'.s m'.X (genCall O b args g).2
        (fun β _ => DenList β args ((List.range args.length).map fun i => β (.arg i)))
        (fun _ _ => True) ∧ m'.e = m.e ∧ m'.ee = m.ee ∧ (∀ i, i < args.length → (genCall O b args g).2.info (.arg i) ≠ none) ∧
      (O.lastPred = true → m.s.lssa ≤ m.ee → (∀ i, i < nY → m.ee ≤ yadr m.e i) → Safe m.ee m.e m.s m.X g →
        ∀ i, i < args.length → Global m.ee (m'.X (.arg i))) := by
  obtain ⟨m', h1, h2, h3, h4, h5, h6⟩ := loadList_ok O E (callArgs b args) g m res
    (fun x hx => srcList_mem hs _ (numbered_mem (mem_callArgs.mp hx))) hi (callArgs_regs hn) h
  have hmem : ∀ i, i < args.length → ∃ a, (a, Var.arg i) ∈ callArgs b args := fun i hi =>
    ⟨args[i], mem_callArgs.mpr (mem_numbered.mpr ⟨i, rfl, List.getElem?_eq_getElem hi⟩)⟩
  refine ⟨m', h1, h2.conseq (fun ρ β _ _ => ?_) (fun _ _ _ _ => Iff.rfl), h3, h4, fun i hi => ?_, fun k1 k2 k3 k4 i hi => ?_⟩
  · rw [← numbered_den]
    exact ⟨fun h x hx => h x (mem_callArgs.mpr hx), fun h x hx => h x (mem_callArgs.mp hx)⟩
  · obtain ⟨a, ha⟩ := hmem i hi
    exact h5 _ ha
  · obtain ⟨a, ha⟩ := hmem i hi
    exact h6 k1 k2 k3 k4 _ ha

end Gp.CodeGen
