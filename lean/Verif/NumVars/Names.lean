import Verif.NumVars.Spec
namespace Gp.NumVars

theorem isDigit_iff {c : Nat} : isDigit c = true ↔ 48 ≤ c ∧ c ≤ 57 := by
  simp [isDigit]

theorem digitChar_toNat {d : Nat} (h : d < 10) : (Nat.digitChar d).toNat = 48 + d := by
  have : d = 0 ∨ d = 1 ∨ d = 2 ∨ d = 3 ∨ d = 4 ∨ d = 5 ∨ d = 6 ∨ d = 7 ∨ d = 8 ∨ d = 9 := by omega
  rcases this with h | h | h | h | h | h | h | h | h | h <;> subst h <;> rfl

/-- The digits read after a value. -/
theorem digits_append {l r : List Nat} : ∀ {v : Nat}, (∀ c ∈ l, isDigit c = true) → digits (l ++ r) v = digits r (digits l v).1 := by
  induction l with
  | nil => intro v _; rfl
  | cons c l ih =>
    intro v h
    have hc := h c (by simp)
    simp only [List.cons_append, digits, hc, if_true]
    exact ih fun d hd => h d (by simp [hd])

theorem digits_all {l : List Nat} : ∀ {v : Nat}, (∀ c ∈ l, isDigit c = true) → (digits l v).2 = [] := by
  induction l with
  | nil => intro v _; rfl
  | cons c l ih =>
    intro v h
    have hc := h c (by simp)
    simp only [digits, hc, if_true]
    exact ih fun d hd => h d (by simp [hd])

theorem decimal_step {n : Nat} : decimal n = (if n < 10 then [] else decimal (n / 10)) ++ [48 + n % 10] := by
  unfold decimal
  by_cases h : n < 10
  · rw [if_pos h, Nat.toDigits_of_lt_base h]
    simp [digitChar_toNat (show n < 10 from h), Nat.mod_eq_of_lt h]
  · rw [if_neg h, Nat.toDigits_of_base_le (by omega) (by omega)]
    simp [digitChar_toNat (show n % 10 < 10 by omega)]

theorem decimal_digits (n : Nat) : ∀ c ∈ decimal n, isDigit c = true := by
  induction n using Nat.strongRecOn with
  | _ n ih =>
    intro c hc
    rw [decimal_step] at hc
    by_cases h : n < 10
    · rw [if_pos h] at hc; simp only [List.nil_append, List.mem_singleton] at hc; rw [isDigit_iff]; omega
    · rw [if_neg h] at hc
      rcases List.mem_append.mp hc with hc | hc
      · exact ih (n / 10) (by omega) c hc
      · simp only [List.mem_singleton] at hc; rw [isDigit_iff]; omega

theorem digits_decimal (n : Nat) : (digits (decimal n) 0).1 = n := by
  induction n using Nat.strongRecOn with
  | _ n ih =>
    rw [decimal_step]
    by_cases h : n < 10
    · rw [if_pos h]
      simp only [List.nil_append, digits]
      rw [if_pos (isDigit_iff.mpr (by omega))]
      simp only
      omega
    · rw [if_neg h, digits_append (decimal_digits _), ih (n / 10) (by omega)]
      simp only [digits]
      rw [if_pos (isDigit_iff.mpr (by omega))]
      simp only
      omega

theorem decimal_ne (n : Nat) : decimal n ≠ [] := by rw [decimal_step]; simp

theorem strtol_decimal {n : Nat} (h : n < 2 ^ 63) : strtol (decimal n) = ((n : Int), true) := by
  have hd := decimal_digits n
  have hv := digits_decimal n
  have he := digits_all (v := 0) hd
  cases hl : decimal n with
  | nil => exact absurd hl (decimal_ne n)
  | cons c l =>
    rw [hl] at hd hv he
    have hc := hd c (by simp)
    have hc' := isDigit_iff.mp hc
    have hsp : (c :: l).dropWhile isSpace = c :: l := by
      rw [List.dropWhile_cons_of_neg]
      simp [isSpace]; omega
    have hsg : sign (c :: l) = (1, c :: l) := by
      unfold sign
      split
      · next h => simp at h; omega
      · next h => simp at h; omega
      · rfl
    unfold strtol
    rw [hsp, hsg]
    simp only [hc, if_true]
    generalize digits (c :: l) 0 = p at hv he
    obtain ⟨v, r⟩ := p
    simp only at hv he
    subst hv; subst he
    simp only [List.isEmpty_nil]
    congr 1
    omega

/-- The number of the name of a number is this number. -/
theorem varNumber_varName {n : Nat} (h : n < 2 ^ 31 - 65) : varNumber (varName n) = some (n : Int) := by
  unfold varName varNumber
  simp only
  rw [if_neg (by omega)]
  have hs : strtol (if n / 26 = 0 then [] else decimal (n / 26)) = (((n / 26 : Nat) : Int), true) := by
    by_cases h0 : n / 26 = 0
    · rw [if_pos h0, h0]; decide
    · rw [if_neg h0]; exact strtol_decimal (by omega)
  rw [hs]
  simp only
  have ht : toInt ((n / 26 : Nat) : Int) = ((n / 26 : Nat) : Int) := by unfold toInt; omega
  rw [ht, if_neg (by omega)]
  exact congrArg some (by omega)

end Gp.NumVars
