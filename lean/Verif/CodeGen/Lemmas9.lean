import Verif.CodeGen.Lemmas8
namespace Gp.CodeGen
open Gp.Heap Gp.Unify Gp.ListBip
open Gp.Term (isNaN fkey deq)

variable {N nY e c c' : Nat} {V V' V'' : St} {X X' X'' : Var → Cell} {g g' g'' : G}
  {A B C : (Var → T) → (Adr → T) → Prop} {E : Env} {O : Opts}

theorem genSubVar_mono (v : Var) (g : G) {u : Var} (hu : g.info u ≠ none) : (genSubVar v g).2.info u ≠ none := by
  by_cases h : u = v
  · subst h; exact genSubVar_known u g
  · rw [genSubVar_info v g h]; exact hu

/-- What the code generator knows after the arguments of a structure. -/
theorem sub_pure (O : Opts) : (as : List Arg) → (k n : Nat) → (g : G) →
    (genSubList n (flatList O as k).1 g).2.tmp = g.tmp ∧
    (∀ v, g.info v ≠ none → (genSubList n (flatList O as k).1 g).2.info v ≠ none) ∧
    ∀ j, k ≤ j → j < (flatList O as k).2 → (genSubList n (flatList O as k).1 g).2.info (.tmp j) ≠ none
  | [], k, n, g => ⟨rfl, fun _ h => h, fun j h1 h2 => by simp only [flatList, flatArg.flatList] at h2; omega⟩
  | .void :: l, k, n, g => sub_pure O l k (n + 1) g
  | .atm _ :: l, k, n, g => sub_pure O l k 0 g
  | .int _ :: l, k, n, g => sub_pure O l k 0 g
  | .nil :: l, k, n, g => sub_pure O l k 0 g
  | .var v :: l, k, n, g => by
    obtain ⟨h1, h2, h3⟩ := sub_pure O l k 0 (genSubVar v g).2
    exact ⟨h1.trans (genSubVar_tmp v g), fun u hu => h2 u (genSubVar_mono v g hu), h3⟩
  | .flt b :: l, k, n, g => by
    obtain ⟨h1, h2, h3⟩ := sub_pure O l (k + 1) 0 (genSubVar (.tmp k) g).2
    refine ⟨h1.trans (genSubVar_tmp _ g), fun u hu => h2 u (genSubVar_mono _ g hu), fun j k1 k2 => ?_⟩
    by_cases hj : j = k
    · subst hj; exact h2 _ (genSubVar_known _ g)
    · exact h3 j (by omega) k2
  | .stc f as' :: l, k, n, g => by
    by_cases hlast : (l.isEmpty && O.lastSubterm) = true
    · have hl : l = [] := by
        simp only [Bool.and_eq_true, List.isEmpty_iff] at hlast; exact hlast.1
      subst hl
      have hfl : flatList O [.stc f as'] k = ([.stc f (flatList O as' k).1], (flatList O as' k).2) := by
        show (_, _) = _
        simp only [flatArg, flatArg.flatList, hlast, if_true]
      rw [hfl]
      exact sub_pure O as' k 0 g
    · have hfl : flatList O (.stc f as' :: l) k = (.var (.tmp k) :: (flatList O l (k + 1)).1, (flatList O l (k + 1)).2) := by
        show (_, _) = _
        simp only [flatArg, hlast, if_false, Bool.false_eq_true]
      rw [hfl]
      obtain ⟨h1, h2, h3⟩ := sub_pure O l (k + 1) 0 (genSubVar (.tmp k) g).2
      refine ⟨h1.trans (genSubVar_tmp _ g), fun u hu => h2 u (genSubVar_mono _ g hu), fun j k1 k2 => ?_⟩
      by_cases hj : j = k
      · subst hj; exact h2 _ (genSubVar_known _ g)
      · exact h3 j (by omega) k2
termination_by as => sizeOf as

theorem genUnifVar_tmp (O : Opts) (v r : Var) (g : G) : (genUnifVar O v r g).2.tmp = g.tmp := by
  unfold genUnifVar; split <;> rfl

mutual
theorem genUnif_tmp (O : Opts) : (a : Arg) → (r : Var) → (g : G) → g.tmp ≤ (genUnif O a r g).2.tmp
  | .void, _, _ => Nat.le_refl _
  | .var v, r, g => by rw [genUnif, genUnifVar_tmp]; exact Nat.le_refl _
  | .atm _, _, _ => Nat.le_refl _
  | .int _, _, _ => Nat.le_refl _
  | .flt _, _, _ => Nat.le_refl _
  | .nil, _, _ => Nat.le_refl _
  | .stc f as, r, g => by
    have h1 := flatList_le O as g.tmp
    have h2 := genAux_tmp O as g.tmp (genSubList 0 (flatList O as g.tmp).1 { g with tmp := (flatList O as g.tmp).2 }).2
    rw [(sub_pure O as g.tmp 0 { g with tmp := (flatList O as g.tmp).2 }).1] at h2
    exact Nat.le_trans h1 h2
theorem genAux_tmp (O : Opts) : (l : List Arg) → (k : Nat) → (g : G) → g.tmp ≤ (genAux O l k g).2.2.tmp
  | [], _, _ => Nat.le_refl _
  | .void :: l, k, g => genAux_tmp O l k g
  | .var _ :: l, k, g => genAux_tmp O l k g
  | .atm _ :: l, k, g => genAux_tmp O l k g
  | .int _ :: l, k, g => genAux_tmp O l k g
  | .nil :: l, k, g => genAux_tmp O l k g
  | .flt _ :: l, k, g => genAux_tmp O l (k + 1) g
  | .stc f as :: l, k, g => by
    show _ ≤ (genUnif.genAux O (.stc f as :: l) k g).2.2.tmp
    unfold genUnif.genAux
    by_cases hlast : (l.isEmpty && O.lastSubterm) = true
    · rw [if_pos hlast]; exact genAux_tmp O as k g
    · rw [if_neg hlast]
      exact Nat.le_trans (genUnif_tmp O (.stc f as) (.tmp k) g) (genAux_tmp O l (k + 1) _)
end

/-! ## Sequences -/

theorem seq_run {m : M} {c1 c2 : List Ins} {res : Option M} {A1 A2 : (Var → T) → (Adr → T) → Prop}
    (h1 : ∀ r, exec E c1 m = some r → RunOk c N nY m m.s g g' A1 (fun _ _ => True) r)
    (h2 : ∀ m1, Inv N nY m1.e m1.s m1.X g' → (∀ v i, g.info v = some i → g'.info v = some i) → exec E c2 m1 = some res →
      RunOk c' N nY m1 m1.s g' g'' A2 (fun _ _ => True) res)
    (hc : c ≤ c')
    (hA : ∀ ρ ρ' β β', Agree m.s.mem ρ ρ' → SameTo c β β' → (A2 β ρ ↔ A2 β' ρ'))
    (h : exec E (c1 ++ c2) m = some res) :
    RunOk c N nY m m.s g g'' (fun β ρ => A1 β ρ ∧ A2 β ρ) (fun _ _ => True) res := by
  rw [exec_append] at h
  cases hx : exec E c1 m with
  | none => rw [hx] at h; cases h
  | some o =>
    rw [hx] at h
    have hr := h1 o hx
    cases o with
    | none => simp only [Option.some.injEq] at h; subst h; exact NoSol.conseq hr (fun _ _ _ _ h => h.1)
    | some m1 =>
      simp only at h
      obtain ⟨t1, e1, e2⟩ := hr
      have t1' := (t1.frame hA).conseq (fun _ _ _ _ => Iff.rfl) (B' := A2) (fun _ _ _ _ => by simp)
      have hr2 := h2 m1 (by rw [e1]; exact t1.inv) t1.info h
      cases res with
      | none => rw [RunOk, e1] at hr2; exact t1'.fail hr2
      | some m2 =>
        obtain ⟨t2, e3, e4⟩ := hr2
        rw [e1] at t2
        exact ⟨t1'.trans t2 hc, by rw [e3, e1], by rw [e4, e2]⟩

theorem exec_one {i : Ins} {m : M} {r : Option M} (h : exec E [i] m = some r) : step E m i = some r := by
  rcases exec_cons h with ⟨h1, rfl⟩ | ⟨m', h1, h2⟩
  · exact h1
  · simp only [exec, Option.some.injEq] at h2; subst h2; exact h1

/-- An instruction which changes the memory only. -/
theorem ret_run {m : M} (hi : Inv N nY m.e m.s m.X g) {P : (Adr → T) → Prop}
    (hPA : ∀ ρ β, Model N m.s.mem ρ → Holds m.e m.s m.X g β ρ → (P ρ ↔ A β ρ))
    {x : Option (Option St)} {r : Option M} {S : Sreg} (h : m.ret S x = some r)
    (hx : ∀ o, x = some o → (o = none → ∀ ρ, Model N m.s.mem ρ → ¬ P ρ) ∧ (∀ V', o = some V' → Chg N m.s P V')) :
    RunOk c N nY m m.s g g A (fun _ _ => True) r := by
  cases x with
  | none => simp [M.ret] at h
  | some o =>
    obtain ⟨h1, h2⟩ := hx o rfl
    cases o with
    | none =>
      simp only [M.ret, Option.some.injEq] at h
      subst h
      intro ρ β hρ hh hA
      exact h1 rfl ρ hρ ((hPA ρ β hρ hh).mpr hA)
    | some V' =>
      simp only [M.ret, Option.some.injEq] at h
      subst h
      exact ⟨((h2 V' rfl).tr hi).conseq hPA (fun _ _ _ _ => Iff.rfl), rfl, rfl⟩

theorem known_lt (hi : Inv N nY e V X g) {n : Nat} (h : g.info (.tmp n) ≠ none) : n < g.tmp := by
  rcases Nat.lt_or_ge n g.tmp with h1 | h1
  · exact h1
  · exact absurd (hi.tmp n h1) h

theorem den_inv (hi : Inv N nY e V X g) {a : Arg} (hs : Src nY a) {r : Var} (hr : g.info r ≠ none) {β β' : Var → T}
    (h : SameTo g.tmp β β') : Den β a (β r) ↔ Den β' a (β' r) := by
  rw [h r (fun n hn => by subst hn; exact known_lt hi hr)]
  exact den_congr h a hs _

/-- A register whose word may be given to a variable. -/
def SrcReg (g : G) (r : Var) : Prop := r.isY = false ∧ g.info r ≠ some .unsafeEnv

theorem genUnifVar_run {m : M} (hi : Inv N nY m.e m.s m.X g) {v r : Var} (hv : Src nY (.var v)) (hr : g.info r ≠ none) (hrs : SrcReg g r)
    {res : Option M} (h : exec E (genUnifVar O v r g).1 m = some res) :
    RunOk c N nY m m.s g (genUnifVar O v r g).2 (fun β _ => β r = β v) (fun _ _ => True) res := by
  have hv' := src_var hv
  have hry := hrs.1
  obtain ⟨g1, g2⟩ := get_valid hi (see_self m) rfl hr
  unfold genUnifVar at h ⊢
  cases hin : g.info v with
  | none =>
    rw [hin] at h
    have h := exec_one h
    simp only [step, Option.some.injEq] at h
    subst h
    have hne : (if O.body && v.isY then Info.unsafeEnv else Info.notInCurEnv) = .inHeap → Global m.s.lssa (m.get r) := by
      split <;> intro h <;> cases h
    have hiff : ∀ ρ β, Model N m.s.mem ρ → Holds m.e m.s m.X g β ρ → (β v = eval m.s.mem ρ (m.get r) ↔ β r = β v) := by
      intro ρ β hρ hh
      rw [g2 ρ hρ, ← hh r hr]; exact eq_comm
    have hsf : (if O.body && v.isY then Info.unsafeEnv else Info.notInCurEnv) = .notInCurEnv →
        ∀ ee, m.s.lssa ≤ ee → Safe ee m.e m.s m.X g → Global ee (m.get r) := by
      intro _ ee h1 h2 b hb
      have hgr : m.get r = m.X r := by cases r <;> first | rfl | (simp [Var.isY] at hry; done)
      have hwr : word m.e m.s m.X r = m.X r := by cases r <;> first | rfl | (simp [Var.isY] at hry; done)
      cases hir : g.info r with
      | none => exact absurd hir hr
      | some j =>
        cases j with
        | inHeap => exact Nat.lt_of_lt_of_le (hi.heap r hry hir b (by rw [← hgr]; exact hb)) h1
        | unsafeEnv => exact absurd hir hrs.2
        | notInCurEnv => exact h2 r hir b (by rw [hwr, ← hgr]; exact hb)
    cases v with
    | y i => exact ⟨(yvar_tr hi hv hin g1 hne hsf).conseq hiff (fun _ _ _ _ => Iff.rfl), rfl, rfl⟩
    | tmp n => exact absurd rfl (hv' n)
    | _ => exact ⟨(reg_tr hi rfl hin (fun n hn => by cases hn) g1 hne (by simp [Var.isY]) hsf).conseq hiff (fun _ _ _ _ => Iff.rfl), rfl, rfl⟩
  | some i =>
    rw [hin] at h
    have h := exec_one h
    have hvk : g.info v ≠ none := by rw [hin]; simp
    obtain ⟨k1, k2⟩ := get_valid hi (see_self m) rfl hvk
    simp only [step] at h
    refine ret_run hi (P := fun ρ => eval m.s.mem ρ (m.get v) = eval m.s.mem ρ (m.get r)) ?_ h ?_
    · intro ρ β hρ hh
      rw [g2 ρ hρ, k2 ρ hρ, ← hh r hr, ← hh v hvk]; exact eq_comm
    · intro o ho
      cases hu : unify false E.fd E.fuel m.s (m.get v) (m.get r) with
      | none => rw [hu] at ho; cases ho
      | some q =>
        obtain ⟨ok, s'⟩ := q
        rw [hu] at ho
        cases ok with
        | false => cases ho; exact ⟨fun _ => unify_none hi.ok k1 g1 hu, fun _ h => by cases h⟩
        | true =>
          cases ho
          exact ⟨fun h => (by cases h), fun V' h => by cases h; exact unify_chg hi.ok k1 g1 hu⟩

/-- The number of auxiliary temporaries may be increased. -/
theorem Tr.setTmp {k : Nat} (h : Tr N nY e c V X g V' X' g' A B) (hk : g'.tmp ≤ k) :
    Tr N nY e c V X g V' X' { g' with tmp := k } A B :=
  { h with
    inv := { h.inv with tmp := fun n hn => h.inv.tmp n (Nat.le_trans hk hn) } }

theorem aux_inv (O : Opts) : (l : List Arg) → (k : Nat) → SrcList nY l → (flatList O l k).2 ≤ c →
    ∀ {β β' : Var → T}, SameTo c β β' → (Aux O β l k ↔ Aux O β' l k)
  | [], _, _, _, _, _, _ => by rw [Aux, Aux]
  | .void :: l, k, h, hc, _, _, hb => by rw [Aux, Aux]; exact aux_inv O l k h.2 hc hb
  | .var _ :: l, k, h, hc, _, _, hb => by rw [Aux, Aux]; exact aux_inv O l k h.2 hc hb
  | .atm _ :: l, k, h, hc, _, _, hb => by rw [Aux, Aux]; exact aux_inv O l k h.2 hc hb
  | .int _ :: l, k, h, hc, _, _, hb => by rw [Aux, Aux]; exact aux_inv O l k h.2 hc hb
  | .nil :: l, k, h, hc, _, _, hb => by rw [Aux, Aux]; exact aux_inv O l k h.2 hc hb
  | .flt b :: l, k, h, hc, β, β', hb => by
    have h1 : k + 1 ≤ (flatList O l (k + 1)).2 := flatList_le O l (k + 1)
    have h2 : (flatList O l (k + 1)).2 ≤ c := hc
    rw [Aux, Aux, hb (.tmp k) (fun n hn => by cases hn; omega), aux_inv O l (k + 1) h.2 h2 hb]
  | .stc f as :: l, k, h, hc, β, β', hb => by
    by_cases hlast : (l.isEmpty && O.lastSubterm) = true
    · rw [Aux, Aux, if_pos hlast, if_pos hlast]
      have hl : l = [] := by
        simp only [Bool.and_eq_true, List.isEmpty_iff] at hlast; exact hlast.1
      subst hl
      have hfl : flatList O [.stc f as] k = ([.stc f (flatList O as k).1], (flatList O as k).2) := by
        show (_, _) = _
        simp only [flatArg, flatArg.flatList, hlast, if_true]
      rw [hfl] at hc
      exact aux_inv O as k h.1.2 hc hb
    · rw [Aux, Aux, if_neg hlast, if_neg hlast]
      have hfl : flatList O (.stc f as :: l) k = (.var (.tmp k) :: (flatList O l (k + 1)).1, (flatList O l (k + 1)).2) := by
        show (_, _) = _
        simp only [flatArg, hlast, if_false, Bool.false_eq_true]
      rw [hfl] at hc
      have h1 : k + 1 ≤ (flatList O l (k + 1)).2 := flatList_le O l (k + 1)
      rw [hb (.tmp k) (fun n hn => by cases hn; simp only at hc; omega), aux_inv O l (k + 1) h.2 hc hb, den_congr hb _ h.1]
termination_by l => sizeOf l

mutual
/-- `gen_unif_arg`. -/
theorem unif_ok (O : Opts) (E : Env) : (a : Arg) → (r : Var) → (g : G) → (m : M) → (res : Option M) → Src nY a →
    Inv N nY m.e m.s m.X g → g.info r ≠ none → (∀ v, a = .var v → SrcReg g r) → exec E (genUnif O a r g).1 m = some res →
    RunOk g.tmp N nY m m.s g (genUnif O a r g).2 (fun β _ => Den β a (β r)) (fun _ _ => True) res
  | .void, r, g, m, res, _, hi, hr, hry, h => by
    simp only [genUnif, exec, Option.some.injEq] at h
    subst h
    exact ⟨(Tr.refl hi (A := fun _ _ => True)).conseq (fun _ _ _ _ => by simp [Den]) (fun _ _ _ _ => Iff.rfl), rfl, rfl⟩
  | .var v, r, g, m, res, hs, hi, hr, hry, h => genUnifVar_run hi hs hr (hry v rfl) h
  | .atm i, r, g, m, res, _, hi, hr, hry, h => by
    obtain ⟨g1, g2⟩ := get_valid hi (see_self m) rfl hr
    refine ret_run hi (P := fun ρ => eval m.s.mem ρ (m.get r) = .atm i) ?_ (exec_one h) ?_
    · intro ρ β hρ hh; rw [g2 ρ hρ, ← hh r hr]; exact Iff.rfl
    · exact fun o ho => getCst_chg (w := .atm i) hi.ok g1 trivial (fun _ _ => rfl) atm_unique (fun b h => by cases h) ho
  | .nil, r, g, m, res, _, hi, hr, hry, h => by
    obtain ⟨g1, g2⟩ := get_valid hi (see_self m) rfl hr
    refine ret_run hi (P := fun ρ => eval m.s.mem ρ (m.get r) = .atm 256) ?_ (exec_one h) ?_
    · intro ρ β hρ hh; rw [g2 ρ hρ, ← hh r hr]; exact Iff.rfl
    · exact fun o ho => getCst_chg (w := .atm 256) hi.ok g1 trivial (fun _ _ => rfl) atm_unique (fun b h => by cases h) ho
  | .int z, r, g, m, res, _, hi, hr, hry, h => by
    obtain ⟨g1, g2⟩ := get_valid hi (see_self m) rfl hr
    refine ret_run hi (P := fun ρ => eval m.s.mem ρ (m.get r) = .int z) ?_ (exec_one h) ?_
    · intro ρ β hρ hh; rw [g2 ρ hρ, ← hh r hr]; exact Iff.rfl
    · intro o ho
      rw [getInt_eq hi.ok g1] at ho
      exact getCst_chg (w := .int z) hi.ok g1 trivial (fun _ _ => rfl) int_unique (fun b h => by cases h) ho
  | .flt b, r, g, m, res, hs, hi, hr, hry, h => by
    obtain ⟨g1, g2⟩ := get_valid hi (see_self m) rfl hr
    refine ret_run hi (P := fun ρ => eval m.s.mem ρ (m.get r) = .flt (fkey b)) ?_ (exec_one h) ?_
    · intro ρ β hρ hh; rw [g2 ρ hρ, ← hh r hr]; exact Iff.rfl
    · exact fun o ho => getFlt_chg hi.ok g1 hs ho
  | .stc f as, r, g, m, res, hs, hi, hr, hry, h => by
    obtain ⟨g1, g2⟩ := get_valid hi (see_self m) rfl hr
    have hle := flatList_le O as g.tmp
    obtain ⟨sp1, sp2, sp3⟩ := sub_pure O as g.tmp 0 { g with tmp := (flatList O as g.tmp).2 }
    have h' : exec E ((if isList f as.length then .getList r else .getStructure f as.length r) ::
        ((genSubList 0 (flatList O as g.tmp).1 { g with tmp := (flatList O as g.tmp).2 }).1 ++
        (genAux O as g.tmp (genSubList 0 (flatList O as g.tmp).1 { g with tmp := (flatList O as g.tmp).2 }).2).1)) m = some res := h
    have hpos : 0 < as.length := by
      have := hs.1
      cases as with
      | nil => exact absurd rfl this
      | cons _ _ => simp
    have hst : step E m (if isList f as.length then .getList r else .getStructure f as.length r) =
        m.retS (if isList f as.length then getLst m.s (m.get r) else getStc m.s f as.length (m.get r)) := by
      by_cases hb : isList f as.length = true
      · rw [if_pos hb, if_pos hb]; rfl
      · rw [if_neg hb, if_neg hb]; rfl
    have hconv : ∀ ρ β, Model N m.s.mem ρ → Holds m.e m.s m.X g β ρ →
        ((∃ ts, ts.length = as.length ∧ DenList β as ts ∧ eval m.s.mem ρ (m.get r) = mk f ts) ↔ Den β (.stc f as) (β r)) := by
      intro ρ β hρ hh
      rw [g2 ρ hρ, ← hh r hr]
      show _ ↔ (∃ ts, DenList β as ts ∧ β r = mk f ts)
      constructor
      · rintro ⟨ts, _, h1, h2⟩; exact ⟨ts, h1, h2⟩
      · rintro ⟨ts, h1, h2⟩; exact ⟨ts, denList_length h1, h1, h2⟩
    rcases exec_cons h' with ⟨h1, rfl⟩ | ⟨m1, h1, h2⟩
    · rw [hst] at h1
      cases ho : (if isList f as.length then getLst m.s (m.get r) else getStc m.s f as.length (m.get r)) with
      | none => rw [ho] at h1; cases h1
      | some o =>
        rw [ho] at h1
        cases o with
        | some q => simp [M.retS] at h1
        | none =>
          intro ρ β hρ hh hA
          obtain ⟨ts, k1, _, k3⟩ := (hconv ρ β hρ hh).mpr hA
          exact (getCon_ok hi g1 hpos ho).1 rfl ρ hρ ts k1 k3
    · rw [hst] at h1
      cases ho : (if isList f as.length then getLst m.s (m.get r) else getStc m.s f as.length (m.get r)) with
      | none => rw [ho] at h1; cases h1
      | some o =>
        rw [ho] at h1
        cases o with
        | none => simp [M.retS] at h1
        | some q =>
          obtain ⟨s', S'⟩ := q
          simp only [M.retS, Option.some.injEq] at h1
          obtain ⟨V', q, c1, t1⟩ := (getCon_ok hi g1 hpos ho).2 s' S' rfl
          have t1 := ((t1 g.tmp (fun β ts => DenList β as ts)).conseq hconv (fun _ _ _ _ => Iff.rfl)).setTmp hle
          have x1 : m1.X = m.X := by rw [← h1]
          have e1 : m1.e = m.e := by rw [← h1]
          have e2 : m1.ee = m.ee := by rw [← h1]
          have c1' : Cur N V' m1 { g with tmp := (flatList O as g.tmp).2 } q (0 + as.length) := by
            rw [Nat.zero_add, ← h1]
            exact ⟨c1.mode.imp id (fun ⟨a, b, c, d⟩ => ⟨a, b, c, ⟨d.mem, d.reg⟩⟩), c1.cells⟩
          refine RunOk.pre t1 (Nat.le_refl _) (RunOk.of_eq x1 e1 e2 ?_)
          rw [exec_append] at h2
          cases hx : exec E (genSubList 0 (flatList O as g.tmp).1 { g with tmp := (flatList O as g.tmp).2 }).1 m1 with
          | none => rw [hx] at h2; cases h2
          | some o =>
            rw [hx] at h2
            have hsub := sub_ok O E as g.tmp 0 { g with tmp := (flatList O as g.tmp).2 } m1 V' q o (srcList_srcB as hs.2)
              (by rw [x1, e1]; exact t1.inv) c1' (fun j hj => hi.tmp j hj) (Nat.le_refl _) hx
            cases o with
            | none =>
              simp only [Option.some.injEq] at h2; subst h2
              exact hsub
            | some m2 =>
              simp only at h2
              obtain ⟨t2, e3, e4⟩ := hsub
              have haux := aux_ok O E as g.tmp _ m2 res hs.2 (by rw [e3]; exact t2.inv) (Nat.le_of_eq sp1.symm)
                sp3 h2
              cases res with
              | none => rw [RunOk, e3] at haux; exact t2.fail haux
              | some m3 =>
                obtain ⟨t3, e5, e6⟩ := haux
                rw [e3] at t3
                exact ⟨t2.trans t3 (by rw [sp1]; exact hle), by rw [e5, e3], by rw [e6, e4]⟩
/-- The auxiliary arguments. -/
theorem aux_ok (O : Opts) (E : Env) : (l : List Arg) → (k : Nat) → (g : G) → (m : M) → (res : Option M) → SrcList nY l →
    Inv N nY m.e m.s m.X g → (flatList O l k).2 ≤ g.tmp →
    (∀ j, k ≤ j → j < (flatList O l k).2 → g.info (.tmp j) ≠ none) → exec E (genAux O l k g).1 m = some res →
    RunOk g.tmp N nY m m.s g (genAux O l k g).2.2 (fun β _ => Aux O β l k) (fun _ _ => True) res
  | [], k, g, m, res, _, hi, _, _, h => by
    simp only [genAux, genUnif.genAux, exec, Option.some.injEq] at h
    subst h
    exact ⟨(Tr.refl hi (A := fun _ _ => True)).conseq (fun _ _ _ _ => by simp [Aux]) (fun _ _ _ _ => Iff.rfl), rfl, rfl⟩
  | .void :: l, k, g, m, res, hs, hi, ht, hk, h =>
    (aux_ok O E l k g m res hs.2 hi ht hk h).conseq (fun _ _ _ _ => by rw [Aux]) (fun _ _ => Iff.rfl)
  | .var _ :: l, k, g, m, res, hs, hi, ht, hk, h =>
    (aux_ok O E l k g m res hs.2 hi ht hk h).conseq (fun _ _ _ _ => by rw [Aux]) (fun _ _ => Iff.rfl)
  | .atm _ :: l, k, g, m, res, hs, hi, ht, hk, h =>
    (aux_ok O E l k g m res hs.2 hi ht hk h).conseq (fun _ _ _ _ => by rw [Aux]) (fun _ _ => Iff.rfl)
  | .int _ :: l, k, g, m, res, hs, hi, ht, hk, h =>
    (aux_ok O E l k g m res hs.2 hi ht hk h).conseq (fun _ _ _ _ => by rw [Aux]) (fun _ _ => Iff.rfl)
  | .nil :: l, k, g, m, res, hs, hi, ht, hk, h =>
    (aux_ok O E l k g m res hs.2 hi ht hk h).conseq (fun _ _ _ _ => by rw [Aux]) (fun _ _ => Iff.rfl)
  | .flt b :: l, k, g, m, res, hs, hi, ht, hk, h => by
    have hle : k + 1 ≤ (flatList O l (k + 1)).2 := flatList_le O l (k + 1)
    have ht' : (flatList O l (k + 1)).2 ≤ g.tmp := ht
    have hkk : g.info (.tmp k) ≠ none := hk k (Nat.le_refl _) (show k < (flatList O l (k + 1)).2 by omega)
    have h' : exec E ([.getFloat b (.tmp k)] ++ (genAux O l (k + 1) g).1) m = some res := h
    refine (seq_run (c := g.tmp) (A1 := fun β _ => Den β (.flt b) (β (.tmp k))) (A2 := fun β _ => Aux O β l (k + 1))
      (fun r hr => unif_ok O E (.flt b) (.tmp k) g m r hs.1 hi hkk (fun v h => by cases h) hr)
      (fun m1 hi1 _ h1 => aux_ok O E l (k + 1) g m1 res hs.2 hi1 ht' (fun j h1 h2 => hk j (by omega) h2) h1)
      (Nat.le_refl _) (fun _ _ _ _ _ hb => aux_inv O l (k + 1) hs.2 ht' hb) h').conseq (fun ρ β _ _ => ?_) (fun _ _ => Iff.rfl)
    rw [Aux]; exact Iff.rfl
  | .stc f as :: l, k, g, m, res, hs, hi, ht, hk, h => by
    by_cases hlast : (l.isEmpty && O.lastSubterm) = true
    · have hl : l = [] := by
        simp only [Bool.and_eq_true, List.isEmpty_iff] at hlast; exact hlast.1
      subst hl
      have hfl : flatList O [.stc f as] k = ([.stc f (flatList O as k).1], (flatList O as k).2) := by
        show (_, _) = _
        simp only [flatArg, flatArg.flatList, hlast, if_true]
      have hge : genAux O [.stc f as] k g = genAux O as k g := by
        show genUnif.genAux O [.stc f as] k g = _
        rw [genUnif.genAux, if_pos hlast]
      rw [hfl] at ht hk
      rw [hge] at h ⊢
      exact (aux_ok O E as k g m res hs.1.2 hi ht hk h).conseq (fun _ _ _ _ => by rw [Aux, if_pos hlast]) (fun _ _ => Iff.rfl)
    · have hfl : flatList O (.stc f as :: l) k = (.var (.tmp k) :: (flatList O l (k + 1)).1, (flatList O l (k + 1)).2) := by
        show (_, _) = _
        simp only [flatArg, hlast, if_false, Bool.false_eq_true]
      have hge : genAux O (.stc f as :: l) k g = ((genUnif O (.stc f as) (.tmp k) g).1 ++
          (genAux O l (k + 1) (genUnif O (.stc f as) (.tmp k) g).2).1,
          (genAux O l (k + 1) (genUnif O (.stc f as) (.tmp k) g).2).2) := by
        show genUnif.genAux O (.stc f as :: l) k g = _
        rw [genUnif.genAux, if_neg hlast]
      have hle : k + 1 ≤ (flatList O l (k + 1)).2 := flatList_le O l (k + 1)
      rw [hfl] at ht hk
      have ht' : (flatList O l (k + 1)).2 ≤ g.tmp := ht
      rw [hge] at h ⊢
      have hkk : g.info (.tmp k) ≠ none := hk k (Nat.le_refl _) (show k < (flatList O l (k + 1)).2 by omega)
      have htm := genUnif_tmp O (.stc f as) (.tmp k) g
      refine (seq_run (c := g.tmp) (A1 := fun β _ => Den β (.stc f as) (β (.tmp k))) (A2 := fun β _ => Aux O β l (k + 1))
        (fun r hr => unif_ok O E (.stc f as) (.tmp k) g m r hs.1 hi hkk (fun v h => by cases h) hr)
        (fun m1 hi1 hin h1 => aux_ok O E l (k + 1) _ m1 res hs.2 hi1 (Nat.le_trans ht' htm) (fun j h1 h2 => by
          obtain ⟨i, hii⟩ := Option.ne_none_iff_exists'.mp (hk j (by omega) h2)
          rw [hin _ i hii]; simp) h1)
        htm (fun _ _ _ _ _ hb => aux_inv O l (k + 1) hs.2 ht' hb) h).conseq (fun ρ β _ _ => ?_) (fun _ _ => Iff.rfl)
      rw [Aux, if_neg hlast]
end

/-- `gen_unif_arg_lst`. -/
theorem unifList_ok (O : Opts) (E : Env) : (l : List (Arg × Var)) → (g : G) → (m : M) → (res : Option M) →
    (∀ x ∈ l, Src nY x.1) → Inv N nY m.e m.s m.X g → (∀ x ∈ l, g.info x.2 ≠ none ∧ SrcReg g x.2) →
    exec E (genUnifList O l g).1 m = some res →
    RunOk g.tmp N nY m m.s g (genUnifList O l g).2 (fun β _ => ∀ x ∈ l, Den β x.1 (β x.2)) (fun _ _ => True) res
  | [], g, m, res, _, hi, _, h => by
    simp only [genUnifList, exec, Option.some.injEq] at h
    subst h
    exact ⟨(Tr.refl hi (A := fun _ _ => True)).conseq (fun _ _ _ _ => by simp) (fun _ _ _ _ => Iff.rfl), rfl, rfl⟩
  | (a, r) :: l, g, m, res, hs, hi, hk, h => by
    have hsl := fun x hx => hs x (List.mem_cons_of_mem _ hx)
    have hkl := fun x hx => hk x (List.mem_cons_of_mem _ hx)
    refine (seq_run (c := g.tmp) (A1 := fun β _ => Den β a (β r)) (A2 := fun β _ => ∀ x ∈ l, Den β x.1 (β x.2))
      (fun o ho => unif_ok O E a r g m o (hs _ List.mem_cons_self) hi (hk (a, r) List.mem_cons_self).1
        (fun _ _ => (hk (a, r) List.mem_cons_self).2) ho)
      (fun m1 hi1 hin h1 => unifList_ok O E l _ m1 res hsl hi1 (fun x hx => by
        obtain ⟨i, hii⟩ := Option.ne_none_iff_exists'.mp (hkl x hx).1
        exact ⟨by rw [hin _ i hii]; simp, (hkl x hx).2.1, by rw [hin _ i hii, ← hii]; exact (hkl x hx).2.2⟩) h1)
      (genUnif_tmp O a r g) (fun _ _ β β' _ hb => ?_) h).conseq (fun ρ β _ _ => ?_) (fun _ _ => Iff.rfl)
    · constructor
      · intro h x hx; exact (den_inv hi (hsl x hx) (hkl x hx).1 hb).mp (h x hx)
      · intro h x hx; exact (den_inv hi (hsl x hx) (hkl x hx).1 hb).mpr (h x hx)
    · simp only [List.mem_cons, forall_eq_or_imp]

end Gp.CodeGen
