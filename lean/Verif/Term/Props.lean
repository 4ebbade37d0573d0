import Verif.Term.Trans
/-! Property C10: the comparison of terms is the standard order, a total order. -/
namespace Gp.Term

/-- **C10** (specification). The sign of the comparison is exactly the standard order `StdLt`/`Same`
on the terms of the engine. -/
theorem C10_compare_is_standard_order (u v : Tree) (hu : Ok u) (hv : Ok v) :
    (termLt u v = true ↔ StdLt u v) ∧ (termEq u v = true ↔ Same u v) ∧ (termGt u v = true ↔ StdLt v u) ∧
    (termLte u v = true ↔ StdLt u v ∨ Same u v) ∧ (termGte u v = true ↔ StdLt v u ∨ Same u v) ∧
    (termNeq u v = true ↔ ¬ Same u v) := by
  obtain ⟨h1, h2, h3⟩ := compare_spec hu hv
  simp only [termLt, termEq, termGt, termLte, termGte, termNeq, decide_eq_true_eq]
  refine ⟨h1, h2, h3, ?_, ?_, ?_⟩
  · rw [← h1, ← h2]; omega
  · rw [← h3, ← h2]; omega
  · rw [← h2]

/-- **C10** (total order). The comparison is total, antisymmetric and transitive: exactly one of
`<`, `=`, `>` holds, swapping the arguments swaps the answer, and `=<` chains. -/
theorem C10_total_order (a b c : Tree) (ha : Ok a) (hb : Ok b) (hc : Ok c) :
    termEq a a = true ∧
    (termLt a b = termGt b a) ∧ (termEq a b = termEq b a) ∧
    ((termLt a b = true ∧ termEq a b = false ∧ termGt a b = false) ∨
     (termLt a b = false ∧ termEq a b = true ∧ termGt a b = false) ∨
     (termLt a b = false ∧ termEq a b = false ∧ termGt a b = true)) ∧
    (termLte a b = true → termLte b c = true → termLte a c = true) ∧
    (termLt a b = true → termLte b c = true → termLt a c = true) ∧
    (termLte a b = true → termLt b c = true → termLt a c = true) ∧
    (termEq a b = true → termEq b c = true → termEq a c = true) := by
  have hrefl : Same a a := by
    rcases trichotomy a a ha ha with h | h | h
    · exact h
    · have := compare_of_lt h ha ha; omega
    · have := compare_of_lt h ha ha; omega
  have h0 := compare_of_same hrefl ha ha
  obtain ⟨l1, e1, g1⟩ := compare_spec ha hb
  obtain ⟨l2, e2, g2⟩ := compare_spec hb ha
  have t := compare_trans a b c ha hb hc
  have es : compare a b = 0 ↔ compare b a = 0 := by rw [e1, e2]; exact ⟨Same.symm, Same.symm⟩
  have ls : compare a b < 0 ↔ compare b a > 0 := by rw [l1, g2]
  have es' : compare b c = 0 ↔ compare c b = 0 := by
    rw [(compare_spec hb hc).2.1, (compare_spec hc hb).2.1]; exact ⟨Same.symm, Same.symm⟩
  have es'' : compare a c = 0 ↔ compare c a = 0 := by
    rw [(compare_spec ha hc).2.1, (compare_spec hc ha).2.1]; exact ⟨Same.symm, Same.symm⟩
  have ls'' : compare a c < 0 ↔ compare c a > 0 := by
    rw [(compare_spec ha hc).1, (compare_spec hc ha).2.2]
  have t' := compare_trans c b a hc hb ha
  simp only [termLt, termEq, termGt, termLte, decide_eq_true_eq, decide_eq_false_iff_not, decide_eq_decide]
  refine ⟨h0, ls, es, by omega, fun x y => (t x y).1, ?_, ?_, ?_⟩
  · intro x y; have := t (by omega) y; omega
  · intro x y; have := t x (by omega); omega
  · intro x y; have := t (by omega) (by omega); have := t' (by omega) (by omega); omega

/-- A term containing no float minus zero. -/
inductive NoNegZero : Tree → Prop where
  | var (a) : NoNegZero (.var a)
  | fdv (a) : NoNegZero (.fdv a)
  | flt (b) : b ≠ 0x8000000000000000#64 → NoNegZero (.flt b)
  | int (z) : NoNegZero (.int z)
  | atm (s) : NoNegZero (.atm s)
  | app (f us) : (∀ u ∈ us, NoNegZero u) → NoNegZero (.app f us)

theorem fkey_inj {a b : BitVec 64} (ha : a ≠ 0x8000000000000000#64) (hb : b ≠ 0x8000000000000000#64)
    (h : fkey a = fkey b) : a = b := by
  have h1 : a.toNat ≠ 2 ^ 63 := fun e => ha (BitVec.eq_of_toNat_eq (by rw [e]; rfl))
  have h2 : b.toNat ≠ 2 ^ 63 := fun e => hb (BitVec.eq_of_toNat_eq (by rw [e]; rfl))
  apply BitVec.eq_of_toNat_eq
  have := a.isLt
  have := b.isLt
  unfold fkey fneg fmag at h
  simp only [decide_eq_true_eq] at h
  split at h <;> split at h <;> omega

theorem same_eq {u v : Tree} (h : Same u v) (hu : NoNegZero u) (hv : NoNegZero v) : u = v := by
  induction h with
  | flt a b e =>
    cases hu with | flt _ ha => cases hv with | flt _ hb => rw [fkey_inj ha hb e]
  | app f us vs hl _ ih =>
    cases hu with | app _ _ hu => cases hv with | app _ _ hv =>
    congr 1
    apply List.ext_getElem hl
    intro i h1 h2
    exact ih i h1 (hu _ (List.getElem_mem _)) (hv _ (List.getElem_mem _))
  | _ => rfl

theorem ok_same_refl (u : Tree) (hu : Ok u) : Same u u := by
  rcases trichotomy u u hu hu with h | h | h
  · exact h
  · have := compare_of_lt h hu hu; omega
  · have := compare_of_lt h hu hu; omega

/-- **C10** (identity). `==` holds exactly for identical terms (terms with a float `-0.0` excepted:
the comparison identifies it with `0.0`). -/
theorem C10_equal_is_identical (u v : Tree) (hu : Ok u) (hv : Ok v) (nu : NoNegZero u) (nv : NoNegZero v) :
    termEq u v = true ↔ u = v := by
  rw [(C10_compare_is_standard_order u v hu hv).2.1]
  constructor
  · intro h; exact same_eq h nu nv
  · rintro rfl; exact ok_same_refl u hu

/-- **C10** (compare/3). The order atom tells which of `@<`, `==`, `@>` succeeds. -/
theorem C10_compare_atom (u v : Tree) :
    (compareChar u v = '<' ↔ termLt u v = true) ∧ (compareChar u v = '=' ↔ termEq u v = true) ∧
    (compareChar u v = '>' ↔ termGt u v = true) := by
  simp only [compareChar, termLt, termEq, termGt, decide_eq_true_eq]
  rcases Int.lt_trichotomy (compare u v) 0 with h | h | h
  · simp [h]; omega
  · simp [h]
  · have h1 : ¬ compare u v < 0 := by omega
    have h2 : compare u v ≠ 0 := by omega
    simp [h1, h2, h]

/-- The two zeros are identified although they are different terms. -/
example : termEq (.flt 0x8000000000000000#64) (.flt 0#64) = true := by decide

/-- `f(X, 1.5)` and `g(a)` are terms of the engine and `g(a) @< f(X, 1.5)` (arity first). -/
example : Ok (.app [102] [.var 3, .flt 0x3FF8000000000000#64]) ∧ Ok (.app [103] [.atm [97]]) ∧
    termLt (.app [103] [.atm [97]]) (.app [102] [.var 3, .flt 0x3FF8000000000000#64]) = true := by
  refine ⟨.app _ _ (by decide) ?_, .app _ _ (by decide) ?_, by decide⟩
  · intro u hu
    simp only [List.mem_cons, List.not_mem_nil, or_false] at hu
    rcases hu with rfl | rfl
    · exact .var _
    · exact .flt _ (by decide)
  · intro u hu
    simp only [List.mem_cons, List.not_mem_nil, or_false] at hu
    subst hu; exact .atm _ (by decide)

end Gp.Term
