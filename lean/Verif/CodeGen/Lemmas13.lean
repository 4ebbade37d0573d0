import Verif.CodeGen.Lemmas12
namespace Gp.CodeGen
open Gp.Heap Gp.Unify Gp.ListBip
open Gp.Term (isNaN fkey deq)

variable {N nY e c c' : Nat} {V V' V'' : St} {X X' X'' : Var → Cell} {g g' g'' : G}
  {A B C : (Var → T) → (Adr → T) → Prop} {E : Env} {O : Opts}

/-! ## Loading of an argument -/

/-- The register `r` has been loaded. -/
def LoadOk (O : Opts) (N nY : Nat) (m : M) (g g' : G) (r : Var) (A : (Var → T) → (Adr → T) → Prop) (res : Option M) : Prop :=
  ∃ m' : M, res = some m' ∧ Tr N nY m.e g.tmp m.s m.X g m'.s m'.X g' A (fun _ _ => True) ∧ m'.e = m.e ∧ m'.ee = m.ee ∧
    (O.lastPred = true → m.s.lssa ≤ m.ee → (∀ i, i < nY → m.ee ≤ yadr m.e i) → Safe m.ee m.e m.s m.X g → Global m.ee (m'.X r))

theorem unsafe_run {m : M} (hi : Inv N nY m.e m.s m.X g) {v : Var} {j : Nat} (hv : g.info v ≠ none) (hr : g.info (.arg j) = none)
    {res : Option M} (h : step E m (.putUnsafeValue v (.arg j)) = some res) :
    ∃ m' : M, res = some m' ∧ Tr N nY m.e c m.s m.X g m'.s m'.X (g.setInfo (.arg j) .unsafeEnv) (fun β _ => β (.arg j) = β v)
      (fun _ _ => True) ∧ m'.e = m.e ∧ m'.ee = m.ee ∧ (m.s.lssa ≤ m.ee → Global m.ee (m'.X (.arg j))) := by
  obtain ⟨g1, g2⟩ := get_valid hi (see_self m) rfl hv
  simp only [step] at h
  cases hp : putUnsafe m.s m.ee (m.get v) with
  | none => rw [hp] at h; cases h
  | some q =>
    obtain ⟨w, V'⟩ := q
    rw [hp] at h
    simp only [M.retTo, Option.some.injEq] at h
    obtain ⟨c1, c2, c3, c4⟩ := putUnsafe_chg hi.ok g1 hp
    have hi' := c1.inv hi
    rw [put_nonY (v := .arg j) rfl] at h
    refine ⟨_, h.symm, ?_, rfl, rfl, fun hl => ?_⟩
    · have t1 := (c1.tr (c := c) hi).frame (F := fun β _ => True) (fun _ _ _ _ _ _ => Iff.rfl)
      have t2 := reg_tr (c := c) hi' (v := .arg j) (w := w) (i := .unsafeEnv) rfl hr (fun n hn => by cases hn) c2 (fun h => by cases h)
        (fun _ => rfl) (fun h => by cases h)
      have hiff : ∀ ρ β, Model N V'.mem ρ → Holds m.e V' m.X g β ρ → (β (.arg j) = eval V'.mem ρ w ↔ β (.arg j) = β v) := by
        intro ρ β hρ hh
        rw [c3 ρ hρ, g2 ρ (c1.down ρ hρ).1, hh v hv, val_grow hi c1.grow hv]
      have t2 := t2.conseq hiff (fun _ _ _ _ => Iff.rfl)
      refine Tr.trans (B := fun β _ => β (.arg j) = β v)
        { c1.tr (c := c) hi with
          down := fun ρ hρ => ⟨(c1.down ρ hρ).1, fun β hh hB => ⟨(((c1.tr (c := c) hi).down ρ hρ).2 β hh trivial).1, hB⟩⟩
          up := fun ρ β hρ hh hA => by
            obtain ⟨ρ', m1, a1⟩ := c1.up ρ hρ trivial
            exact ⟨ρ', β, m1, a1, SameTo.refl _, fun u hu => hh.up hi c1.grow (fun _ _ => rfl) a1 hu, hA⟩ } t2 (Nat.le_refl _)
    · show Global _ (setReg _ _ _ _)
      simp only [setReg, if_true]
      exact c4 hl

theorem loadVar_run {m : M} (hi : Inv N nY m.e m.s m.X g) {v : Var} {j : Nat} (hv : Src nY (.var v)) (hr : g.info (.arg j) = none)
    {res : Option M} (h : exec E (genLoadVar O v (.arg j) g).1 m = some res) :
    LoadOk O N nY m g ((genLoadVar O v (.arg j) g).2.setInfo (.arg j) .unsafeEnv) (.arg j) (fun β _ => β (.arg j) = β v) res := by
  unfold genLoadVar at h ⊢
  have hvalue : ∀ i, g.info v = some i → (O.lastPred = true → i ≠ .unsafeEnv) → exec E [.putValue v (.arg j)] m = some res →
      LoadOk O N nY m g (g.setInfo (.arg j) .unsafeEnv) (.arg j) (fun β _ => β (.arg j) = β v) res := by
    intro i hin hne h
    have hvk : g.info v ≠ none := by rw [hin]; simp
    obtain ⟨g1, g2⟩ := get_valid hi (see_self m) rfl hvk
    have h := exec_one h
    simp only [step, Option.some.injEq] at h
    rw [put_nonY (v := .arg j) rfl] at h
    refine ⟨_, h.symm, ?_, rfl, rfl, fun hl h1 h2 h3 => ?_⟩
    · refine (reg_tr hi (v := .arg j) (i := .unsafeEnv) rfl hr (fun n hn => by cases hn) g1 (fun h => by cases h)
        (fun _ => rfl) (fun h => by cases h)).conseq (fun ρ β hρ hh => ?_) (fun _ _ _ _ => Iff.rfl)
      rw [g2 ρ hρ, hh v hvk]
    · show Global _ (setReg _ _ _ _)
      simp only [setReg, if_true]
      intro b hb
      cases i with
      | inHeap => exact Nat.lt_of_lt_of_le (get_global hi (see_self m) rfl hin b hb) h1
      | unsafeEnv => exact absurd rfl (hne hl)
      | notInCurEnv =>
        refine h3 v hin b ?_
        rw [← hb]; cases v <;> rfl
  cases hin : g.info v with
  | none =>
    rw [hin] at h
    cases v with
    | tmp n => exact hv.elim
    | arg n => exact hv.elim
    | y k =>
      simp only [Var.isY, if_true] at h ⊢
      obtain ⟨t1, v1⟩ := selfY_tr (c := g.tmp) hi hv hin
      have hr1 : (g.setInfo (.y k) .unsafeEnv).info (.arg j) = none := by rw [setInfo_other _ (by intro h; cases h)]; exact hr
      have hk1 : (g.setInfo (.y k) .unsafeEnv).info (.y k) ≠ none := by rw [setInfo_same]; simp
      have t1' := (t1.frame (F := fun β _ => β (.arg j) = β (.y k)) (fun _ _ β β' _ hb => by
        rw [hb _ (fun n hn => by cases hn), hb _ (fun n hn => by cases hn)])).conseq
          (A' := fun β _ => β (.arg j) = β (.y k)) (B' := fun β _ => β (.arg j) = β (.y k)) (fun _ _ _ _ => by simp) (fun _ _ _ _ => by simp)
      rcases exec_cons h with ⟨h1, _⟩ | ⟨m1, h1, h2⟩
      · simp [step] at h1
      · simp only [step, Option.some.injEq] at h1
        have hm1 : m1 = { m with s := setMem m.s (yadr m.e k) (.ref (yadr m.e k)), X := setReg m.X (.arg j) (.ref (yadr m.e k)) } := by
          rw [← h1, put_nonY (v := .arg j) rfl]; rfl
        by_cases hl : O.lastPred = true
        · rw [if_pos hl] at h2
          have t2 := junk_tr (c := g.tmp) (A := fun β _ => β (.arg j) = β (.y k)) t1.inv (w := .ref (yadr m.e k)) hr1
          subst hm1
          obtain ⟨m2, r1, r2, r3, r4, r5⟩ := unsafe_run (c := g.tmp) (m := { m with s := setMem m.s (yadr m.e k) (.ref (yadr m.e k)), X := setReg m.X (.arg j) (.ref (yadr m.e k)) })
            t2.inv hk1 hr1 (exec_one h2)
          exact ⟨m2, r1, t1'.trans (t2.trans r2 (Nat.le_refl _)) (Nat.le_refl _), r3, r4, fun _ h1 _ _ => r5 h1⟩
        · rw [if_neg hl] at h2
          simp only [exec, Option.some.injEq] at h2
          subst hm1
          refine ⟨_, h2.symm, t1'.trans ?_ (Nat.le_refl _), rfl, rfl, fun h => absurd h hl⟩
          refine (reg_tr t1.inv (v := .arg j) (i := .unsafeEnv) rfl hr1 (fun n hn => by cases hn) v1 (fun h => by cases h)
            (fun _ => rfl) (fun h => by cases h)).conseq (fun ρ β hρ hh => ?_) (fun _ _ _ _ => Iff.rfl)
          rw [hh (.y k) hk1]; exact Iff.rfl
    | x n =>
      simp only [Var.isY, Bool.false_eq_true, if_false] at h ⊢
      have h := exec_one h
      simp only [step, putX] at h
      cases hp : push m.s (.ref m.s.h) with
      | none => rw [hp] at h; cases h
      | some V1 =>
        rw [hp] at h
        simp only [Option.some.injEq] at h
        obtain ⟨t1, v1, v2⟩ := newvar_tr (c := g.tmp) hi hp (fun β => β (.x n))
        have hr1 : (g.setInfo (.x n) .inHeap).info (.arg j) = none := by rw [setInfo_other _ (by intro h; cases h)]; exact hr
        have hm : ((({ m with s := V1 } : M).put (.arg j) (.ref m.s.h)).put (.x n) (.ref m.s.h)) =
            { m with s := V1, X := setReg (setReg m.X (.x n) (.ref m.s.h)) (.arg j) (.ref m.s.h) } := by
          rw [put_nonY (v := .arg j) rfl, put_nonY (v := .x n) rfl]
          simp only
          rw [setReg_comm]
        rw [hm] at h
        have t1' := (t1.frame (F := fun β _ => β (.arg j) = β (.x n)) (fun _ _ β β' _ hb => by
          rw [hb _ (fun n hn => by cases hn), hb _ (fun n hn => by cases hn)])).conseq
          (A' := fun β _ => β (.arg j) = β (.x n)) (B' := fun β ρ => β (.x n) = ρ m.s.h ∧ β (.arg j) = β (.x n)) (fun _ _ _ _ => by simp)
          (fun _ _ _ _ => by rw [eq_comm])
        have t2 := (reg_tr (c := g.tmp) t1.inv (v := .x n) (w := .ref m.s.h) (i := .inHeap) rfl hin (fun n hn => by cases hn) v1 (fun _ => v2)
          (fun h => by cases h) (fun h => by cases h)).frame (F := fun β _ => β (.arg j) = β (.x n)) (fun _ _ β β' _ hb => by
          rw [hb _ (fun n hn => by cases hn), hb _ (fun n hn => by cases hn)])
        have t3 := reg_tr (c := g.tmp) t2.inv (v := .arg j) (w := .ref m.s.h) (i := .unsafeEnv) rfl hr1 (fun n hn => by cases hn) v1
          (fun h => by cases h) (fun _ => rfl) (fun h => by cases h)
        refine ⟨_, h.symm, t1'.trans (t2.trans (t3.conseq (fun ρ β hρ hh => ?_) (fun _ _ _ _ => Iff.rfl)) (Nat.le_refl _)) (Nat.le_refl _),
          rfl, rfl, fun _ h1 _ _ => ?_⟩
        · rw [hh (.x n) (by rw [setInfo_same]; simp)]
          simp [val, setReg]
        · show Global _ (setReg _ _ _ _)
          simp only [setReg, if_true]
          intro b hb
          have := v2 b hb
          have e1 := t1.lssa
          omega
  | some i =>
    rw [hin] at h
    cases i with
    | inHeap => exact hvalue .inHeap hin (fun _ h => by cases h) h
    | notInCurEnv => exact hvalue .notInCurEnv hin (fun _ h => by cases h) h
    | unsafeEnv =>
      simp only at h ⊢
      by_cases hl : O.lastPred = true
      · rw [if_pos hl] at h ⊢
        obtain ⟨m2, r1, r2, r3, r4, r5⟩ := unsafe_run (c := g.tmp) hi (by rw [hin]; simp) hr (exec_one h)
        exact ⟨m2, r1, r2, r3, r4, fun _ h1 _ _ => r5 h1⟩
      · rw [if_neg hl] at h ⊢
        exact hvalue .unsafeEnv hin (fun h => absurd h hl) h

end Gp.CodeGen
