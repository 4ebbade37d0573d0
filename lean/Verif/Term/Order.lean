import Verif.Term.Compare
/-!
Specification of the standard order of terms, and lemmas about the model of the comparison.
-/
namespace Gp.Term

/-- Terms that exist in the engine: atom names are C strings (no byte 0), floats are not NaN (the
evaluator raises an error instead of building one). -/
inductive Ok : Tree → Prop where
  | var (a) : Ok (.var a)
  | fdv (a) : Ok (.fdv a)
  | flt (b) : isNaN b = false → Ok (.flt b)
  | int (z) : Ok (.int z)
  | atm (s) : 0 ∉ s → Ok (.atm s)
  | app (f us) : 0 ∉ f → (∀ u ∈ us, Ok u) → Ok (.app f us)

/-- Two terms are identical (the two float zeros are identified). -/
inductive Same : Tree → Tree → Prop where
  | var (a) : Same (.var a) (.var a)
  | fdv (a) : Same (.fdv a) (.fdv a)
  | flt (a b) : fkey a = fkey b → Same (.flt a) (.flt b)
  | int (z) : Same (.int z) (.int z)
  | atm (s) : Same (.atm s) (.atm s)
  | app (f) (us vs : List Tree) (hl : us.length = vs.length) :
      (∀ i (h : i < us.length), Same us[i] (vs[i]'(hl ▸ h))) → Same (.app f us) (.app f vs)

/-- Var < FD var < Float < Integer < Atom < Compound. -/
def rank : Tree → Nat
  | .var _ => 0 | .fdv _ => 1 | .flt _ => 2 | .int _ => 3 | .atm _ => 4 | .app _ _ => 5

/-- The standard order. -/
inductive StdLt : Tree → Tree → Prop where
  | rank (u v) : rank u < rank v → StdLt u v
  | var (a b) : a < b → StdLt (.var a) (.var b)
  | fdv (a b) : a < b → StdLt (.fdv a) (.fdv b)
  | flt (a b) : fkey a < fkey b → StdLt (.flt a) (.flt b)
  | int (x y) : x < y → StdLt (.int x) (.int y)
  | atm (s t) : s < t → StdLt (.atm s) (.atm t)
  | arity (f g us vs) : us.length < vs.length → StdLt (.app f us) (.app g vs)
  | functor (f g us vs) : us.length = vs.length → f < g → StdLt (.app f us) (.app g vs)
  | args (f) (us vs : List Tree) (hl : us.length = vs.length) (i : Nat) (hi : i < us.length) :
      (∀ j (h : j < i), Same (us[j]'(Nat.lt_trans h hi)) (vs[j]'(hl ▸ Nat.lt_trans h hi))) →
      StdLt us[i] (vs[i]'(hl ▸ hi)) → StdLt (.app f us) (.app f vs)

/-! ### strcmp -/

theorem strcmp_self : ∀ s, strcmp s s = 0
  | [] => rfl
  | a :: s => by simp [strcmp, strcmp_self s]

theorem u8_ne {a b : UInt8} (h : a ≠ b) : a.toNat ≠ b.toNat := fun e => h (UInt8.toNat_inj.1 e)

theorem strcmp_anti : ∀ s t, strcmp t s = - strcmp s t
  | [], [] => rfl
  | [], b :: _ => by simp [strcmp]
  | a :: _, [] => by simp [strcmp]
  | a :: s, b :: t => by
    by_cases h : a = b
    · subst h; simp [strcmp, strcmp_anti s t]
    · simp only [strcmp, if_neg h, if_neg (Ne.symm h)]; omega

theorem u8_pos {b : UInt8} {t : Name} (h : 0 ∉ b :: t) : 0 < b.toNat := by
  simp only [List.mem_cons, not_or] at h
  have := u8_ne h.1
  simp at this; omega

theorem tail_nul {b : UInt8} {t : Name} (h : 0 ∉ b :: t) : 0 ∉ t := by
  simp only [List.mem_cons, not_or] at h; exact h.2

theorem strcmp_eq : ∀ s t, 0 ∉ s → 0 ∉ t → (strcmp s t = 0 ↔ s = t)
  | [], [], _, _ => by simp [strcmp]
  | [], b :: t, _, h => by have := u8_pos h; simp [strcmp]; omega
  | a :: s, [], h, _ => by have := u8_pos h; simp [strcmp]; omega
  | a :: s, b :: t, h1, h2 => by
    by_cases h : a = b
    · subst h; simp [strcmp, strcmp_eq s t (tail_nul h1) (tail_nul h2)]
    · have := u8_ne h
      have e : strcmp (a :: s) (b :: t) = (a.toNat : Int) - b.toNat := by rw [strcmp, if_neg h]
      rw [e]
      simp only [List.cons.injEq, h, false_and, iff_false]; omega

theorem strcmp_lt : ∀ s t, 0 ∉ s → 0 ∉ t → (strcmp s t < 0 ↔ s < t)
  | [], [], _, _ => by simp [strcmp]
  | [], b :: t, _, h => by have := u8_pos h; simp [strcmp]; omega
  | a :: s, [], h, _ => by simp [strcmp]
  | a :: s, b :: t, h1, h2 => by
    by_cases h : a = b
    · subst h
      have := strcmp_lt s t (tail_nul h1) (tail_nul h2)
      simp [strcmp, this, List.cons_lt_cons_iff]
    · have e : strcmp (a :: s) (b :: t) = (a.toNat : Int) - b.toNat := by rw [strcmp, if_neg h]
      rw [e]
      simp only [List.cons_lt_cons_iff, h, false_and, or_false, UInt8.lt_iff_toNat_lt]
      omega

/-! ### compare -/

theorem Ok.name {f us} (h : Ok (.app f us)) : 0 ∉ f := by cases h; assumption
theorem Ok.arg {f us} (h : Ok (.app f us)) : ∀ u ∈ us, Ok u := by cases h; assumption
theorem Ok.atmName {s} (h : Ok (.atm s)) : 0 ∉ s := by cases h; assumption
theorem Ok.fltNum {b} (h : Ok (.flt b)) : isNaN b = false := by cases h; assumption

theorem compareArgs_zero : ∀ us vs : List Tree, (hl : us.length = vs.length) →
    (∀ i (h : i < us.length), compare us[i] (vs[i]'(hl ▸ h)) = 0) → compareArgs us vs = 0
  | [], [], _, _ => by simp [compareArgs]
  | [], _ :: _, h, _ => by simp at h
  | _ :: _, [], h, _ => by simp at h
  | u :: us, v :: vs, hl, h => by
    have h0 := h 0 (by simp)
    simp at h0
    simp only [compareArgs, h0, ne_eq, not_true_eq_false, if_false]
    exact compareArgs_zero us vs (by simpa using hl) (fun i hi => by
      have := h (i + 1) (by simpa using hi)
      simpa using this)

theorem compareArgs_first : ∀ us vs : List Tree, (hl : us.length = vs.length) → ∀ i (hi : i < us.length),
    (∀ j (h : j < i), compare (us[j]'(Nat.lt_trans h hi)) (vs[j]'(hl ▸ Nat.lt_trans h hi)) = 0) →
    compare us[i] (vs[i]'(hl ▸ hi)) ≠ 0 → compareArgs us vs = compare us[i] (vs[i]'(hl ▸ hi))
  | [], _, _, i, hi, _, _ => by simp at hi
  | _ :: _, [], h, _, _, _, _ => by simp at h
  | u :: us, v :: vs, hl, 0, hi, _, hne => by
    simp at hne
    simp [compareArgs, hne]
  | u :: us, v :: vs, hl, i + 1, hi, hs, hne => by
    have h0 := hs 0 (by omega)
    simp at h0
    simp only [compareArgs, h0, ne_eq, not_true_eq_false, if_false]
    have := compareArgs_first us vs (by simpa using hl) i (by simpa using hi)
      (fun j hj => by have := hs (j + 1) (by omega); simpa using this) (by simpa using hne)
    simpa using this

theorem compare_of_same {u v : Tree} (h : Same u v) (hu : Ok u) (hv : Ok v) : compare u v = 0 := by
  induction h with
  | var a => simp [compare]
  | fdv a => simp [compare]
  | flt a b e =>
    have := hu.fltNum; have := hv.fltNum
    simp [compare, dlt, deq, *]
  | int z => simp [compare]
  | atm s => simp [compare, strcmp_self]
  | app f us vs hl _ ih =>
    simp only [compare, hl, ne_eq, not_true_eq_false, if_false]
    exact compareArgs_zero us vs hl (fun i hi => ih i hi (hu.arg _ (List.getElem_mem _))
      (hv.arg _ (List.getElem_mem _)))

theorem compare_of_lt {u v : Tree} (h : StdLt u v) (hu : Ok u) (hv : Ok v) :
    compare u v < 0 ∧ compare v u > 0 := by
  induction h with
  | rank u v h => cases u <;> cases v <;> simp [rank] at h <;> simp [compare]
  | var a b h => simp [compare]; omega
  | fdv a b h => simp [compare]; omega
  | flt a b h =>
    have h1 := hu.fltNum; have h2 := hv.fltNum
    have : ¬ fkey b < fkey a := by omega
    have : ¬ fkey b = fkey a := by omega
    simp [compare, dlt, deq, *]
  | int x y h => simp [compare]; omega
  | atm s t h =>
    have := (strcmp_lt s t hu.atmName hv.atmName).2 h
    have h2 := strcmp_anti s t
    simp only [compare]; omega
  | arity f g us vs h =>
    have h1 : us.length ≠ vs.length := by omega
    simp only [compare, ne_eq, h1, h1.symm, not_false_eq_true, if_true]; omega
  | functor f g us vs hl h =>
    have h1 := (strcmp_lt f g hu.name hv.name).2 h
    have h2 := strcmp_anti f g
    have h3 : f ≠ g := by
      rintro rfl; rw [strcmp_self] at h1; omega
    simp only [compare, hl, ne_eq, not_true_eq_false, if_false, h3, h3.symm, not_false_eq_true, if_true]
    omega
  | args f us vs hl i hi hs _ ih =>
    have hi' : i < vs.length := hl ▸ hi
    have := ih (hu.arg _ (List.getElem_mem _)) (hv.arg _ (List.getElem_mem _))
    have e1 := compareArgs_first us vs hl i hi
      (fun j hj => compare_of_same (hs j hj) (hu.arg _ (List.getElem_mem _)) (hv.arg _ (List.getElem_mem _)))
      (by omega)
    have hsym : ∀ {u v}, Same u v → Same v u := by
      intro u v h
      induction h with
      | flt a b e => exact .flt b a e.symm
      | app f us vs hl _ ih => exact .app f vs us hl.symm (fun i hi => ih i (hl ▸ hi))
      | _ => constructor
    have e2 := compareArgs_first vs us hl.symm i hi'
      (fun j hj => compare_of_same (hsym (hs j hj)) (hv.arg _ (List.getElem_mem _)) (hu.arg _ (List.getElem_mem _)))
      (by omega)
    simp only [compare, hl, ne_eq, not_true_eq_false, if_false, e1, e2]
    exact this

theorem Same.symm {u v : Tree} (h : Same u v) : Same v u := by
  induction h with
  | flt a b e => exact .flt b a e.symm
  | app f us vs hl _ ih => exact .app f vs us hl.symm (fun i hi => ih i (hl ▸ hi))
  | _ => constructor

/-- Comparison of argument lists in specification terms. -/
inductive ArgsRel : List Tree → List Tree → Prop where
  | same (us vs : List Tree) (hl : us.length = vs.length) :
      (∀ i (h : i < us.length), Same us[i] (vs[i]'(hl ▸ h))) → ArgsRel us vs
  | lt (us vs : List Tree) (hl : us.length = vs.length) (i) (hi : i < us.length) :
      (∀ j (h : j < i), Same (us[j]'(Nat.lt_trans h hi)) (vs[j]'(hl ▸ Nat.lt_trans h hi))) →
      StdLt us[i] (vs[i]'(hl ▸ hi)) → ArgsRel us vs
  | gt (us vs : List Tree) (hl : us.length = vs.length) (i) (hi : i < us.length) :
      (∀ j (h : j < i), Same (us[j]'(Nat.lt_trans h hi)) (vs[j]'(hl ▸ Nat.lt_trans h hi))) →
      StdLt (vs[i]'(hl ▸ hi)) us[i] → ArgsRel us vs

mutual
/-- Every two terms are related by the specification. -/
theorem trichotomy : ∀ u v : Tree, Ok u → Ok v → Same u v ∨ StdLt u v ∨ StdLt v u
  | .var a, v, _, _ => by
    cases v with
    | var b =>
      rcases Nat.lt_trichotomy a b with h | h | h
      · exact .inr (.inl (.var _ _ h))
      · subst h; exact .inl (.var _)
      · exact .inr (.inr (.var _ _ h))
    | _ => exact .inr (.inl (.rank _ _ (by simp [rank])))
  | .fdv a, v, _, _ => by
    cases v with
    | fdv b =>
      rcases Nat.lt_trichotomy a b with h | h | h
      · exact .inr (.inl (.fdv _ _ h))
      · subst h; exact .inl (.fdv _)
      · exact .inr (.inr (.fdv _ _ h))
    | var _ => exact .inr (.inr (.rank _ _ (by simp [rank])))
    | _ => exact .inr (.inl (.rank _ _ (by simp [rank])))
  | .flt a, v, _, _ => by
    cases v with
    | flt b =>
      rcases Int.lt_trichotomy (fkey a) (fkey b) with h | h | h
      · exact .inr (.inl (.flt _ _ h))
      · exact .inl (.flt _ _ h)
      · exact .inr (.inr (.flt _ _ h))
    | var _ => exact .inr (.inr (.rank _ _ (by simp [rank])))
    | fdv _ => exact .inr (.inr (.rank _ _ (by simp [rank])))
    | _ => exact .inr (.inl (.rank _ _ (by simp [rank])))
  | .int a, v, _, _ => by
    cases v with
    | int b =>
      rcases Int.lt_trichotomy a b with h | h | h
      · exact .inr (.inl (.int _ _ h))
      · subst h; exact .inl (.int _)
      · exact .inr (.inr (.int _ _ h))
    | atm _ => exact .inr (.inl (.rank _ _ (by simp [rank])))
    | app _ _ => exact .inr (.inl (.rank _ _ (by simp [rank])))
    | _ => exact .inr (.inr (.rank _ _ (by simp [rank])))
  | .atm s, v, hu, hv => by
    cases v with
    | atm t =>
      have e := strcmp_eq s t hu.atmName hv.atmName
      have l := strcmp_lt s t hu.atmName hv.atmName
      have g := strcmp_lt t s hv.atmName hu.atmName
      have an := strcmp_anti s t
      rcases Int.lt_trichotomy (strcmp s t) 0 with h | h | h
      · exact .inr (.inl (.atm _ _ (l.1 h)))
      · rw [e.1 h]; exact .inl (.atm _)
      · exact .inr (.inr (.atm _ _ (g.1 (by omega))))
    | app _ _ => exact .inr (.inl (.rank _ _ (by simp [rank])))
    | _ => exact .inr (.inr (.rank _ _ (by simp [rank])))
  | .app f us, v, hu, hv => by
    cases v with
    | app g vs =>
      rcases Nat.lt_trichotomy us.length vs.length with h | hl | h
      · exact .inr (.inl (.arity _ _ _ _ h))
      · have e := strcmp_eq f g hu.name hv.name
        have l := strcmp_lt f g hu.name hv.name
        have gg := strcmp_lt g f hv.name hu.name
        have an := strcmp_anti f g
        rcases Int.lt_trichotomy (strcmp f g) 0 with h | h | h
        · exact .inr (.inl (.functor _ _ _ _ hl (l.1 h)))
        · have hfg := e.1 h
          subst hfg
          cases trichotomyArgs us vs hl hu.arg hv.arg with
          | same hl h => exact .inl (.app f us vs hl h)
          | lt hl i hi hs h => exact .inr (.inl (.args f us vs hl i hi hs h))
          | gt hl i hi hs h =>
            exact .inr (.inr (.args f vs us hl.symm i (hl ▸ hi) (fun j hj => (hs j hj).symm) h))
        · exact .inr (.inr (.functor _ _ _ _ hl.symm (gg.1 (by omega))))
      · exact .inr (.inr (.arity _ _ _ _ h))
    | _ => exact .inr (.inr (.rank _ _ (by simp [rank])))

theorem trichotomyArgs : ∀ us vs : List Tree, us.length = vs.length → (∀ u ∈ us, Ok u) →
    (∀ v ∈ vs, Ok v) → ArgsRel us vs
  | [], [], _, _, _ => .same _ _ rfl (fun i h => by simp at h)
  | [], _ :: _, h, _, _ => by simp at h
  | _ :: _, [], h, _, _ => by simp at h
  | u :: us, v :: vs, hl, hu, hv => by
    rcases trichotomy u v (hu u (by simp)) (hv v (by simp)) with h | h | h
    · have hl' : us.length = vs.length := by simpa using hl
      cases trichotomyArgs us vs hl' (fun x hx => hu x (by simp [hx]))
          (fun x hx => hv x (by simp [hx])) with
      | same hl'' hh =>
        refine .same _ _ hl ?_
        intro i hi
        cases i with
        | zero => simpa using h
        | succ i => simpa using hh i (by simpa using hi)
      | lt hl'' i hi hs hh =>
        refine .lt _ _ hl (i + 1) (by simpa using hi) ?_ (by simpa using hh)
        intro j hj
        cases j with
        | zero => simpa using h
        | succ j => simpa using hs j (by omega)
      | gt hl'' i hi hs hh =>
        refine .gt _ _ hl (i + 1) (by simpa using hi) ?_ (by simpa using hh)
        intro j hj
        cases j with
        | zero => simpa using h
        | succ j => simpa using hs j (by omega)
    · exact .lt _ _ hl 0 (by simp) (fun j hj => by omega) (by simpa using h)
    · exact .gt _ _ hl 0 (by simp) (fun j hj => by omega) (by simpa using h)
end

theorem compare_spec {u v : Tree} (hu : Ok u) (hv : Ok v) :
    (compare u v < 0 ↔ StdLt u v) ∧ (compare u v = 0 ↔ Same u v) ∧ (compare u v > 0 ↔ StdLt v u) := by
  rcases trichotomy u v hu hv with h | h | h
  · have h0 := compare_of_same h hu hv
    refine ⟨⟨fun h => by omega, fun h => by have := compare_of_lt h hu hv; omega⟩,
      ⟨fun _ => h, fun _ => h0⟩, ⟨fun h => by omega, fun h => by have := compare_of_lt h hv hu; omega⟩⟩
  · have h0 := compare_of_lt h hu hv
    refine ⟨⟨fun _ => h, fun _ => h0.1⟩, ⟨fun h => by omega, fun h => by
      have := compare_of_same h hu hv; omega⟩, ⟨fun h => by omega, fun h => by
      have := compare_of_lt h hv hu; omega⟩⟩
  · have h0 := compare_of_lt h hv hu
    refine ⟨⟨fun h => by omega, fun h => by have := compare_of_lt h hu hv; omega⟩, ⟨fun h => by omega, fun h => by
      have := compare_of_same h hu hv; omega⟩, ⟨fun _ => h, fun _ => h0.2⟩⟩

end Gp.Term
