import Verif.Arith.Lemmas
/-!
Properties C06 (exact or error), C07 (division laws), C08 (bitwise operations and shifts) and
C09 (gcd, bit scans) of integer arithmetic. The specification is `Verif/Arith/Spec.lean`.
Every theorem quantifies over all Prolog integers; `tagInt` builds the argument words.
-/
namespace Gp.Arith
open Gp.Tag

theorem ir {z : Int} (h : -2 ^ 60 ≤ z ∧ z < 2 ^ 60) : InRange z := h

/-! ### C06 -/

/-- **C06**. Addition, subtraction, multiplication, negation, `inc`, `dec`, `abs`: the exact integer or the overflow error, never a wrapped value
and never undefined behaviour. -/
theorem C06_exact_or_overflow (x y : Int) (hx : InRange x) (hy : InRange y) :
    fastAdd (tagInt x) (tagInt y) = exactOrOverflow (x + y) ∧
    fastSub (tagInt x) (tagInt y) = exactOrOverflow (x - y) ∧
    fastMul (tagInt x) (tagInt y) = exactOrOverflow (x * y) ∧
    fastNeg (tagInt x) = exactOrOverflow (-x) ∧
    fastInc (tagInt x) = exactOrOverflow (x + 1) ∧
    fastDec (tagInt x) = exactOrOverflow (x - 1) ∧
    fastAbs (tagInt x) = exactOrOverflow (x.natAbs : Int) := by
  have ov : ∀ z : Int, (if testIntOverflow z = true then Out.err Err.intOverflow else Out.ok (tagInt z))
      = exactOrOverflow z := by
    intro z
    unfold exactOrOverflow
    by_cases h : InRange z
    · rw [overflow_false h]; simp [h]
    · rw [overflow_true h]; simp [h]
  have hx' := hx; have hy' := hy
  unfold InRange at hx' hy'
  refine ⟨?_, ?_, ?_, ?_, ?_, ?_, ?_⟩
  · unfold fastAdd
    rw [hx.untag, hy.untag, chk_ok (by omega)]
    exact ov _
  · unfold fastSub
    rw [hx.untag, hy.untag, chk_ok (by omega)]
    exact ov _
  · unfold fastMul
    rw [hx.untag, hy.untag]
    dsimp only
    cases h : (mulOverflow x y).1 with
    | false => rw [(mulOverflow_ok h).1]; simpa using ov (x * y)
    | true =>
      have := mulOverflow_true h
      unfold exactOrOverflow
      rw [if_neg (c := InRange (x * y))]
      · simp
      · unfold InRange; generalize x * y = z at *; omega
  · unfold fastNeg exactOrOverflow
    rw [hx.untag]
    have hl : intLowest = -2 ^ 60 := rfl
    dsimp only
    by_cases h : x = -2 ^ 60
    · subst h; decide
    · rw [if_neg (by omega), chk_ok (by omega), if_pos (ir (by omega))]; rfl
  · unfold fastInc exactOrOverflow
    rw [hx.untag]
    have hl : intGreatest = 2 ^ 60 - 1 := rfl
    dsimp only
    by_cases h : x = 2 ^ 60 - 1
    · subst h; decide
    · rw [if_neg (by omega), chk_ok (by omega), if_pos (ir (by omega))]; rfl
  · unfold fastDec exactOrOverflow
    rw [hx.untag]
    have hl : intLowest = -2 ^ 60 := rfl
    dsimp only
    by_cases h : x = -2 ^ 60
    · subst h; decide
    · rw [if_neg (by omega), chk_ok (by omega), if_pos (ir (by omega))]; rfl
  · unfold fastAbs exactOrOverflow
    rw [hx.untag]
    have hl : intLowest = -2 ^ 60 := rfl
    dsimp only
    by_cases h : x = -2 ^ 60
    · subst h; decide
    · rw [if_neg (by omega)]
      by_cases h2 : x < 0
      · rw [if_pos h2, chk_ok (by omega), if_pos (ir (by omega)), show (x.natAbs : Int) = -x by omega]; rfl
      · rw [if_neg h2, if_pos (ir (by omega)), show (x.natAbs : Int) = x by omega]

example : InRange (2 ^ 60 - 1) ∧ InRange (-2 ^ 60) ∧
    exactOrOverflow (2 ^ 60 - 1 + 1) = .err .intOverflow ∧
    exactOrOverflow (7 + 8) = .ok (tagInt 15) := by decide

/-- **C06** (sign and comparison). `sign` and the six comparisons agree with the integers. -/
theorem C06_sign_and_compare (x y : Int) (hx : InRange x) (hy : InRange y) :
    fastSign (tagInt x) = .ok (tagInt x.sign) ∧
    (fastEq (tagInt x) (tagInt y) = true ↔ x = y) ∧
    (fastNeq (tagInt x) (tagInt y) = true ↔ x ≠ y) ∧
    (fastLt (tagInt x) (tagInt y) = true ↔ x < y) ∧
    (fastLte (tagInt x) (tagInt y) = true ↔ x ≤ y) ∧
    (fastGt (tagInt x) (tagInt y) = true ↔ x > y) ∧
    (fastGte (tagInt x) (tagInt y) = true ↔ x ≥ y) := by
  have he : tagInt x = tagInt y ↔ x = y :=
    ⟨tagInt_inj hx.1 hx.2 hy.1 hy.2, fun h => by rw [h]⟩
  refine ⟨?_, ?_, ?_, ?_, ?_, ?_, ?_⟩
  · unfold fastSign
    rw [hx.untag]
    rcases Int.lt_trichotomy x 0 with h | h | h
    · simp [h, Int.sign_eq_neg_one_of_neg h]
    · subst h; simp
    · rw [Int.sign_eq_one_of_pos h]
      simp only
      rw [if_neg (by omega), if_neg (by omega)]
  · simp [fastEq, he]
  · simp [fastNeq, he]
  · simp [fastLt, hx.untag, hy.untag]
  · simp [fastLte, hx.untag, hy.untag]
  · simp [fastGt, hx.untag, hy.untag]
  · simp [fastGte, hx.untag, hy.untag]

example : InRange (-5) ∧ InRange 3 := by decide

/-- **C06** (power). `x ^ y` for `y ≥ 0` is the exact power or the overflow error. -/
theorem C06_power_exact_or_overflow (x : Int) (n : Nat) (hx : InRange x) (hn : InRange n) :
    fastIPow (tagInt x) (tagInt n) = exactOrOverflow (x ^ n) := by
  have big : ∀ z : Int, 2 ^ 63 ≤ z.natAbs → exactOrOverflow z = .err .intOverflow := by
    intro z hz; unfold exactOrOverflow; rw [if_neg (by unfold InRange; omega)]
  have fin : ∀ z : Int, (if testIntOverflow z = true then Out.err Err.intOverflow else Out.ok (tagInt z))
      = exactOrOverflow z := by
    intro z
    unfold exactOrOverflow
    by_cases h : InRange z
    · rw [overflow_false h]; simp [h]
    · rw [overflow_true h]; simp [h]
  unfold fastIPow
  rw [hx.untag, hn.untag]
  unfold powOverflow
  by_cases h1 : x = 1
  · subst h1; rw [Int.one_pow]; simp only [if_true]; decide
  by_cases h2 : x = -1
  · subst h2
    simp only [h1, if_false, if_true]
    rw [fin]
    congr 1
    rcases Nat.mod_two_eq_zero_or_one n with h | h
    · obtain ⟨k, rfl⟩ : ∃ k, n = 2 * k := ⟨n / 2, by omega⟩
      rw [Int.pow_mul, show (-1 : Int) ^ 2 = 1 by decide, Int.one_pow]; omega
    · obtain ⟨k, rfl⟩ : ∃ k, n = 2 * k + 1 := ⟨n / 2, by omega⟩
      rw [Int.pow_succ, Int.pow_mul, show (-1 : Int) ^ 2 = 1 by decide, Int.one_pow]; omega
  by_cases h3 : x = 0
  · subst h3
    simp only [h1, h2, if_false, if_true]
    have hn0 : (n : Int) ≥ 0 := by omega
    rw [if_pos hn0]
    simp only
    rw [fin]
    congr 1
    cases n with
    | zero => simp
    | succ n => rw [Int.pow_succ]; simp; omega
  · simp only [h1, h2, h3, if_false]
    have hn0 : ¬ (n : Int) < 0 := by omega
    rw [if_neg hn0]
    have := powLoop_spec n 1 x (by omega) (by decide)
    rw [Int.one_mul] at this
    simp only [Int.toNat_natCast]
    cases hp : powLoop 1 x n with
    | none =>
      rw [hp] at this
      exact (big _ this).symm
    | some v =>
      rw [hp] at this
      simp only at this ⊢
      rw [fin, this]

/-- **C06** (power with a negative exponent): only 1 and -1 have an integer power, 0 is undefined,
the others are a type error. -/
theorem C06_power_negative (x y : Int) (hx : InRange x) (hy : InRange y) (hneg : y < 0) :
    fastIPow (tagInt x) (tagInt y) =
      if x = 1 then .ok (tagInt 1)
      else if x = -1 then .ok (tagInt (if y % 2 = 0 then 1 else -1))
      else if x = 0 then .err .undefined
      else .err .typeFloat := by
  unfold fastIPow
  rw [hx.untag, hy.untag]
  unfold powOverflow
  by_cases h1 : x = 1
  · subst h1; simp only [if_true]; decide
  by_cases h2 : x = -1
  · subst h2
    simp only [h1, if_false, if_true]
    rcases Int.emod_two_eq y with h | h <;> rw [h] <;> decide
  by_cases h3 : x = 0
  · subst h3
    have : ¬ y ≥ 0 := by omega
    simp [this]
  · simp [h1, h2, h3, hneg]

example : InRange (-3) ∧ InRange ((37 : Nat) : Int) ∧ exactOrOverflow ((-3) ^ 37) = .ok (tagInt (-450283905890997363)) ∧
    exactOrOverflow ((-3) ^ 38) = .err .intOverflow := by decide

/-! ### C07 -/

/-- Specification of the two integer divisions: quotient `q` and remainder `r` of `x` by `y`, the
remainder having the sign of the dividend (truncation)... -/
def TruncDiv (x y q r : Int) : Prop := x = q * y + r ∧ r.natAbs < y.natAbs ∧ (0 ≤ x → 0 ≤ r) ∧ (x ≤ 0 → r ≤ 0)
/-- ... or of the divisor (flooring). -/
def FloorDiv (x y q r : Int) : Prop := x = q * y + r ∧ r.natAbs < y.natAbs ∧ (0 < y → 0 ≤ r) ∧ (y < 0 → r ≤ 0)

theorem truncDiv_tdiv (x y : Int) (hy : y ≠ 0) : TruncDiv x y (x.tdiv y) (x.tmod y) := by
  refine ⟨?_, ?_, ?_, ?_⟩
  · rw [Int.mul_comm]; exact (Int.mul_tdiv_add_tmod x y).symm
  · rw [Int.natAbs_tmod]; exact Nat.mod_lt _ (by omega)
  · exact fun h => Int.tmod_nonneg y h
  · intro h
    have h1 := Int.tmod_nonneg y (a := -x) (by omega)
    rw [Int.neg_tmod] at h1; omega

/-- Truncated division is bounded by the dividend. -/
theorem tdiv_bound (x y : Int) (hx : InRange x) : -2 ^ 60 ≤ x.tdiv y ∧ x.tdiv y ≤ 2 ^ 60 := by
  have : (x.tdiv y).natAbs ≤ x.natAbs := by
    rw [Int.natAbs_tdiv]; exact Nat.div_le_self _ _
  unfold InRange at hx; omega

theorem tdiv_overflow (x y : Int) (hx : InRange x) (hy : y ≠ 0) (h : ¬ InRange (x.tdiv y)) :
    x = -2 ^ 60 ∧ y = -1 := by
  have hb := tdiv_bound x y hx
  have h60 : x.tdiv y = 2 ^ 60 := by unfold InRange at h; omega
  have h1 : (x.tdiv y).natAbs = x.natAbs / y.natAbs := Int.natAbs_tdiv x y
  rw [h60] at h1
  have hx60 : x.natAbs ≤ 2 ^ 60 := by unfold InRange at hx; omega
  have hy1 : y.natAbs = 1 := by
    by_cases hyy : y.natAbs = 1
    · exact hyy
    · exfalso
      have : x.natAbs / y.natAbs ≤ x.natAbs / 2 := Nat.div_le_div_left (by omega) (by decide)
      have e : Int.natAbs (2 ^ 60) = 2 ^ 60 := by decide
      rw [e] at h1
      omega
  have e : Int.natAbs (2 ^ 60) = 2 ^ 60 := by decide
  rw [hy1, Nat.div_one, e] at h1
  unfold InRange at hx
  have hxl : x = -2 ^ 60 := by omega
  refine ⟨hxl, ?_⟩
  rcases Int.natAbs_eq y with h' | h'
  · rw [hy1] at h'
    have : y = 1 := by simpa using h'
    subst this; rw [hxl] at h60; exact absurd h60 (by decide)
  · rw [hy1] at h'; simpa using h'

/-- **C07** (`//` and `rem`). For every dividend and non-zero divisor, `rem` is defined, `//` is
defined or overflows, and quotient and remainder satisfy the truncating division law. -/
theorem C07_truncating_division (x y : Int) (hx : InRange x) (hy : InRange y) (hy0 : y ≠ 0) :
    ∃ q r, TruncDiv x y q r ∧
      fastIntegerDiv (tagInt x) (tagInt y) = exactOrOverflow q ∧
      fastRem (tagInt x) (tagInt y) = .ok (tagInt r) := by
  refine ⟨x.tdiv y, x.tmod y, truncDiv_tdiv x y hy0, ?_, ?_⟩
  · unfold fastIntegerDiv exactOrOverflow
    rw [hx.untag, hy.untag]
    have hl : intLowest = -2 ^ 60 := rfl
    simp only [hy0, if_false]
    by_cases h : x = -2 ^ 60 ∧ y = -1
    · obtain ⟨rfl, rfl⟩ := h; decide
    · rw [if_neg (by omega)]
      have hr : InRange (x.tdiv y) := by
        by_cases hr : InRange (x.tdiv y)
        · exact hr
        · exact absurd (tdiv_overflow x y hx hy0 hr) h
      unfold cdiv
      rw [if_neg hy0, chk_ok (by unfold InRange at hr; omega), if_pos hr]
      rfl
  · unfold fastRem crem
    rw [hx.untag, hy.untag]
    simp only [hy0, if_false]
    have hx' := hx; unfold InRange at hx'
    have hc : ¬ (False ∨ (x = -2 ^ 63 ∧ y = -1)) := by rintro (h | h); exact h; omega
    rw [if_neg hc]
    rfl

/-- Result of the flooring correction of the C code, from the truncating one. -/
theorem floor_fix (x y : Int) (hx : InRange x) (hy : InRange y) (hy0 : y ≠ 0) :
    ∃ m, (do
      let m ← crem x y
      floorFix m y) = Out.ok m ∧
      m = x.fmod y ∧ m.natAbs < y.natAbs := by
  have hx' := hx; have hy' := hy
  unfold InRange at hx' hy'
  have ht := truncDiv_tdiv x y hy0
  obtain ⟨h1, h2, h3, h4⟩ := ht
  have hcr : crem x y = .ok (x.tmod y) := by unfold crem; rw [if_neg (by omega)]
  have hsd := signsDiffer_iff (m := x.tmod y) (y := y) (by omega) (by omega)
  rw [hcr]
  simp only [ok_bind]
  have hfl : x.fmod y = if x.tmod y ≠ 0 ∧ ¬ (x.tmod y < 0 ↔ y < 0) then x.tmod y + y else x.tmod y := by
    -- uniqueness of the flooring remainder
    have hf := Int.mul_fdiv_add_fmod x y
    have hb : (0 < y → 0 ≤ x.fmod y ∧ x.fmod y < y) ∧ (y < 0 → y < x.fmod y ∧ x.fmod y ≤ 0) := by
      constructor
      · intro hp; exact ⟨Int.fmod_nonneg_of_pos x hp, Int.fmod_lt_of_pos x hp⟩
      · intro hn
        have e := Int.neg_fmod_neg x y
        have g1 := Int.fmod_nonneg_of_pos (-x) (b := -y) (by omega)
        have g2 := Int.fmod_lt_of_pos (-x) (b := -y) (by omega)
        omega
    generalize hR : (if x.tmod y ≠ 0 ∧ ¬ (x.tmod y < 0 ↔ y < 0) then x.tmod y + y else x.tmod y) = R
    have hRb : (0 < y → 0 ≤ R ∧ R < y) ∧ (y < 0 → y < R ∧ R ≤ 0) := by
      constructor
      · intro hp; rw [← hR]; split <;> omega
      · intro hn; rw [← hR]; split <;> omega
    have hRq : ∃ k, x.fmod y - R = y * k := by
      refine ⟨x.tdiv y - x.fdiv y + (if x.tmod y ≠ 0 ∧ ¬ (x.tmod y < 0 ↔ y < 0) then -1 else 0), ?_⟩
      have e1 : x.tdiv y * y = y * x.tdiv y := Int.mul_comm _ _
      rw [← hR, Int.mul_add, Int.mul_sub]
      split <;> omega
    obtain ⟨k, hk⟩ := hRq
    have hk0 : k = 0 := by
      rcases Int.lt_trichotomy k 0 with h | h | h
      · exfalso
        rcases Int.lt_or_gt_of_ne hy0 with hyn | hyp
        · have : y * k ≥ y * (-1) := Int.mul_le_mul_of_nonpos_left (by omega) (by omega)
          omega
        · have : y * k ≤ y * (-1) := Int.mul_le_mul_of_nonneg_left (by omega) (by omega)
          omega
      · exact h
      · exfalso
        rcases Int.lt_or_gt_of_ne hy0 with hyn | hyp
        · have : y * k ≤ y * 1 := Int.mul_le_mul_of_nonpos_left (by omega) (by omega)
          omega
        · have : y * k ≥ y * 1 := Int.mul_le_mul_of_nonneg_left (by omega) (by omega)
          omega
    rw [hk0] at hk; omega
  refine ⟨x.fmod y, ?_, rfl, ?_⟩
  · rw [hfl]
    unfold floorFix
    by_cases hc : x.tmod y ≠ 0 ∧ ¬ (x.tmod y < 0 ↔ y < 0)
    · rw [if_pos hc, if_pos ⟨hc.1, hsd.2 hc.2⟩, chk_ok (by omega)]
    · rw [if_neg hc, if_neg (fun h => hc ⟨h.1, hsd.1 h.2⟩)]
  · rw [hfl]; split <;> omega

/-- **C07** (`div` and `mod`). For every dividend and non-zero divisor, `mod` is defined, `div` is
defined or overflows, and quotient and remainder satisfy the flooring division law. -/
theorem C07_flooring_division (x y : Int) (hx : InRange x) (hy : InRange y) (hy0 : y ≠ 0) :
    ∃ q r, FloorDiv x y q r ∧
      fastIntegerDiv2 (tagInt x) (tagInt y) = exactOrOverflow q ∧
      fastMod (tagInt x) (tagInt y) = .ok (tagInt r) := by
  have hx' := hx; have hy' := hy
  unfold InRange at hx' hy'
  obtain ⟨m, hm, hmf, hmb⟩ := floor_fix x y hx hy hy0
  have hcr : crem x y = .ok (x.tmod y) := by unfold crem; rw [if_neg (by omega)]
  rw [hcr] at hm
  simp only [ok_bind] at hm
  have hlaw : FloorDiv x y (x.fdiv y) m := by
    refine ⟨?_, hmb, ?_, ?_⟩
    · rw [hmf, Int.mul_comm]; exact (Int.mul_fdiv_add_fmod x y).symm
    · intro hp; rw [hmf]; exact Int.fmod_nonneg_of_pos x hp
    · intro hn; rw [hmf]
      have e := Int.neg_fmod_neg x y
      have := Int.fmod_nonneg_of_pos (-x) (b := -y) (by omega)
      omega
  refine ⟨x.fdiv y, m, hlaw, ?_, ?_⟩
  · unfold fastIntegerDiv2 exactOrOverflow
    rw [hx.untag, hy.untag]
    have hl : intLowest = -2 ^ 60 := rfl
    simp only [hy0, if_false]
    by_cases h : x = -2 ^ 60 ∧ y = -1
    · obtain ⟨rfl, rfl⟩ := h; decide
    · rw [if_neg (by omega), hcr]
      simp only [ok_bind]
      rw [hm]
      simp only [ok_bind]
      rw [chk_ok (by omega)]
      simp only [ok_bind]
      have hq : (x - m).tdiv y = x.fdiv y := by
        have : x - m = x.fdiv y * y := by have := hlaw.1; omega
        rw [this]; exact Int.mul_tdiv_cancel _ hy0
      -- the quotient is in range
      have hr : InRange (x.fdiv y) := by
        have e : x - m = x.fdiv y * y := by have := hlaw.1; omega
        by_cases hy1 : y.natAbs = 1
        · have hm0 : m = 0 := by omega
          have hyc : y = 1 ∨ y = -1 := by omega
          rcases hyc with rfl | rfl
          · unfold InRange; omega
          · unfold InRange; omega
        · have hab : (x.fdiv y).natAbs * y.natAbs = (x - m).natAbs := by
            rw [← Int.natAbs_mul, ← e]
          have h2 : (x.fdiv y).natAbs * 2 ≤ (x.fdiv y).natAbs * y.natAbs :=
            Nat.mul_le_mul_left _ (by omega)
          unfold InRange
          by_cases hq0 : (x.fdiv y).natAbs < 2 ^ 60
          · omega
          · -- |q| ≥ 2^60 and |y| ≥ 2: then |x - m| ≥ 2^61
            exfalso
            have h3 : 2 ^ 60 * y.natAbs ≤ (x.fdiv y).natAbs * y.natAbs :=
              Nat.mul_le_mul_right _ (by omega)
            omega
      unfold cdiv
      rw [if_neg hy0, hq, chk_ok (by unfold InRange at hr; omega), if_pos hr]
      rfl
  · unfold fastMod
    rw [hx.untag, hy.untag]
    simp only [hy0, if_false]
    rw [hcr]
    simp only [ok_bind]
    rw [hm]
    rfl

example : InRange (-7) ∧ InRange 2 ∧ TruncDiv (-7) 2 (-3) (-1) ∧ FloorDiv (-7) 2 (-4) 1 := by
  refine ⟨by decide, by decide, ?_, ?_⟩ <;> refine ⟨by decide, by decide, by decide, by decide⟩

/-- The division laws determine quotient and remainder, so the specification above is not loose. -/
theorem C07_law_determines (x y q r q' r' : Int) (h : FloorDiv x y q r) (h' : FloorDiv x y q' r') :
    q = q' ∧ r = r' := by
  obtain ⟨a1, a2, a3, a4⟩ := h
  obtain ⟨b1, b2, b3, b4⟩ := h'
  have hy0 : y ≠ 0 := by intro h; subst h; simp at a2
  have e : (q - q') * y = r' - r := by rw [Int.sub_mul]; omega
  have hq : q - q' = 0 := by
    by_cases hq : q - q' = 0
    · exact hq
    · exfalso
      have h1 : (q - q').natAbs * y.natAbs = (r' - r).natAbs := by rw [← Int.natAbs_mul, e]
      have h2 : 1 * y.natAbs ≤ (q - q').natAbs * y.natAbs := Nat.mul_le_mul_right _ (by omega)
      omega
  rw [hq] at e
  omega

theorem C07_trunc_law_determines (x y q r q' r' : Int) (h : TruncDiv x y q r)
    (h' : TruncDiv x y q' r') : q = q' ∧ r = r' := by
  obtain ⟨a1, a2, a3, a4⟩ := h
  obtain ⟨b1, b2, b3, b4⟩ := h'
  have hy0 : y ≠ 0 := by intro h; subst h; simp at a2
  have e : (q - q') * y = r' - r := by rw [Int.sub_mul]; omega
  have hq : q - q' = 0 := by
    by_cases hq : q - q' = 0
    · exact hq
    · exfalso
      have h1 : (q - q').natAbs * y.natAbs = (r' - r).natAbs := by rw [← Int.natAbs_mul, e]
      have h2 : 1 * y.natAbs ≤ (q - q').natAbs * y.natAbs := Nat.mul_le_mul_right _ (by omega)
      omega
  rw [hq] at e
  omega

/-- **C07** (zero divisor). Division by zero is always the evaluation error. -/
theorem C07_zero_divisor (x : Int) :
    fastIntegerDiv (tagInt x) (tagInt 0) = .err .zeroDivisor ∧
    fastIntegerDiv2 (tagInt x) (tagInt 0) = .err .zeroDivisor ∧
    fastRem (tagInt x) (tagInt 0) = .err .zeroDivisor ∧
    fastMod (tagInt x) (tagInt 0) = .err .zeroDivisor := by
  have h0 : untagInt (tagInt 0) = 0 := by decide
  unfold fastIntegerDiv fastIntegerDiv2 fastRem fastMod
  rw [h0]
  simp

/-! ### C08 -/

/-- **C08** (bitwise). `/\`, `\/`, `xor` and `\` are the bitwise operations on infinite two's
complement integers, for every bit position, and always give a Prolog integer. -/
theorem C08_bitwise (x y : Int) (hx : InRange x) (hy : InRange y) :
    (∃ z, InRange z ∧ fastAnd (tagInt x) (tagInt y) = .ok (tagInt z) ∧
      ∀ i, ibit z i = (ibit x i && ibit y i)) ∧
    (∃ z, InRange z ∧ fastOr (tagInt x) (tagInt y) = .ok (tagInt z) ∧
      ∀ i, ibit z i = (ibit x i || ibit y i)) ∧
    (∃ z, InRange z ∧ fastXor (tagInt x) (tagInt y) = .ok (tagInt z) ∧
      ∀ i, ibit z i = (ibit x i ^^ ibit y i)) ∧
    (∃ z, InRange z ∧ fastNot (tagInt x) = .ok (tagInt z) ∧ z = -x - 1 ∧
      ∀ i, ibit z i = !ibit x i) := by
  have lx := (low_bits _).1 (tagInt_low x)
  have ly := (low_bits _).1 (tagInt_low y)
  refine ⟨?_, ?_, ?_, ?_⟩
  · obtain ⟨z, hz, he⟩ := exists_untag (tagInt x &&& tagInt y) (by
      rw [low_bits]; simp [BitVec.getLsbD_and, lx, ly])
    refine ⟨z, hz, by rw [← he]; rfl, fun i => ?_⟩
    rw [ibit_tag hz, ibit_tag hx, ibit_tag hy, ← he, BitVec.getLsbD_and]
  · obtain ⟨z, hz, he⟩ := exists_untag (tagInt x ||| tagInt y) (by
      rw [low_bits]; simp [BitVec.getLsbD_or, lx, ly])
    refine ⟨z, hz, by rw [← he]; rfl, fun i => ?_⟩
    rw [ibit_tag hz, ibit_tag hx, ibit_tag hy, ← he, BitVec.getLsbD_or]
  · obtain ⟨z, hz, he⟩ := exists_untag ((tagInt x ^^^ tagInt y) ||| tagMask) (by
      rw [low_bits]; simp only [BitVec.getLsbD_or, BitVec.getLsbD_xor, lx, ly]; decide)
    refine ⟨z, hz, by rw [← he]; rfl, fun i => ?_⟩
    rw [ibit_tag hz, ibit_tag hx, ibit_tag hy, ← he, BitVec.getLsbD_or, BitVec.getLsbD_xor]
    have : tagMask.getLsbD (min i 60 + 3) = false := by
      show BitVec.getLsbD 7#64 _ = false
      simp only [BitVec.getLsbD_ofNat]
      rw [Nat.testBit_lt_two_pow, Bool.and_false]
      calc 7 < 2 ^ 3 := by decide
        _ ≤ 2 ^ (min i 60 + 3) := Nat.pow_le_pow_right (by decide) (by omega)
    rw [this, Bool.or_false]
  · have hx' := hx; unfold InRange at hx'
    have e : (~~~ (BitVec.ofInt 64 x)).toInt = -x - 1 := by
      rw [BitVec.toInt_not]
      have h1 : ((BitVec.ofInt 64 x).toNat : Int) = x % 2 ^ 64 := by
        rw [BitVec.toNat_ofInt]
        have : 0 ≤ x % ((2 ^ 64 : Nat) : Int) := by omega
        rw [Int.toNat_of_nonneg this]; rfl
      rw [h1]
      have h2 : (2 ^ 64 - 1 - x % 2 ^ 64 : Int) = if x < 0 then -x - 1 else -x - 1 + 2 ^ 64 * 1 := by
        split <;> omega
      rw [h2]
      split
      · apply Int.bmod_eq_of_le <;> omega
      · have : (-x - 1 + 2 ^ 64 * 1 : Int) = (-x - 1) + ((2 ^ 64 : Nat) : Int) * 1 := by omega
        rw [this, Int.add_mul_bmod_self_left]
        apply Int.bmod_eq_of_le <;> omega
    refine ⟨-x - 1, by unfold InRange; omega, ?_, rfl, ?_⟩
    · unfold fastNot; rw [hx.untag, e]
    · intro i
      unfold ibit
      have hp : (0 : Int) < 2 ^ i := Int.pow_pos (by decide)
      have e2 : (-x - 1) / 2 ^ i = -(x / 2 ^ i) - 1 := by
        generalize (2 : Int) ^ i = p at hp
        have h1 := Int.mul_ediv_add_emod x p
        have h2 := Int.emod_lt_of_pos x hp
        have h3 := Int.emod_nonneg x (Int.ne_of_gt hp)
        have h4 : -x - 1 = p * (-(x / p) - 1) + (p - 1 - x % p) := by
          rw [Int.mul_sub, Int.mul_neg]; omega
        have h5 : (p - 1 - x % p) / p = 0 := Int.ediv_eq_zero_of_lt (by omega) (by omega)
        rw [h4, Int.mul_add_ediv_left _ _ (Int.ne_of_gt hp), h5]
        omega
      rw [e2]
      generalize x / 2 ^ i = q
      by_cases hq : q % 2 = 1 <;> simp [hq] <;> omega

example : InRange (-6) ∧ ibit (-6) 0 = false ∧ ibit (-6) 1 = true ∧ ibit (-6) 100 = true := by
  refine ⟨by decide, by decide, by decide, by decide⟩

/-- **C08** (right shift). For every `x` and every shift count `n ≥ 0`, `x >> n` is the floor of
`x / 2^n`. -/
theorem C08_shift_right (x : Int) (n : Nat) (hx : InRange x) (hn : InRange n) :
    fastShr (tagInt x) (tagInt n) = .ok (tagInt (x / 2 ^ n)) := by
  unfold fastShr shrPos
  rw [hx.untag, hn.untag]
  simp only
  rw [if_neg (by omega)]
  have hx' := hx; unfold InRange at hx'
  congr 2
  split
  · rename_i h
    have hp : (2 : Int) ^ 60 ≤ 2 ^ n := by
      have : (2 : Nat) ^ 60 ≤ 2 ^ n := Nat.pow_le_pow_right (by decide) (by omega)
      exact_mod_cast this
    split
    · symm; exact Int.ediv_eq_zero_of_lt (by omega) (by omega)
    · have h1 : x / 2 ^ n < 0 := Int.ediv_neg_of_neg_of_pos (by omega) (by omega)
      have h2 : -1 ≤ x / 2 ^ n := by rw [Int.le_ediv_iff_mul_le (by omega)]; omega
      omega
  · rw [Int.toNat_natCast, Int.shiftRight_eq_div_pow]; norm_cast

theorem shlPos_val (x : Int) (n : Nat) (hx : InRange x) (hn : n < 61) :
    tagInt ((BitVec.ofInt 64 x <<< n).toInt) = tagInt (x * 2 ^ n) := by
  unfold tagInt
  congr 2
  rw [BitVec.ofInt_toInt, BitVec.ofInt_mul, BitVec.shiftLeft_eq_mul_twoPow]
  congr 1
  apply BitVec.eq_of_toNat_eq
  rw [BitVec.toNat_twoPow, BitVec.toNat_ofInt]
  have : ((2 : Int) ^ n) = ((2 ^ n : Nat) : Int) := by norm_cast
  rw [this, ← Int.natCast_emod, Int.toNat_natCast]

/-- **C08** (left shift, non-negative operand). `x << n` is `x * 2^n` or the overflow error. -/
theorem C08_shift_left_nonneg_partial (x : Int) (n : Nat) (hx : InRange x) (hn : InRange n)
    (hx0 : 0 ≤ x) : fastShl (tagInt x) (tagInt n) = exactOrOverflow (x * 2 ^ n) := by
  unfold fastShl shlPos
  rw [hx.untag, hn.untag]
  simp only
  rw [if_neg (by omega)]
  have hx' := hx; unfold InRange at hx'
  unfold exactOrOverflow
  have hp1 : (1 : Int) ≤ 2 ^ n := by
    have : (1 : Nat) ≤ 2 ^ n := Nat.one_le_two_pow
    exact_mod_cast this
  split
  · rename_i h
    have hp : (2 : Int) ^ 61 ≤ 2 ^ n := by
      have : (2 : Nat) ^ 61 ≤ 2 ^ n := Nat.pow_le_pow_right (by decide) (by omega)
      exact_mod_cast this
    split
    · rename_i hne
      rw [if_neg]
      have : 1 * 2 ^ n ≤ x * 2 ^ n := Int.mul_le_mul_of_nonneg_right (by omega) (by omega)
      unfold InRange; omega
    · rename_i he
      have : x = 0 := by omega
      subst this
      rw [Int.zero_mul, if_pos (by decide)]
  · rename_i h
    rw [Int.toNat_natCast, Int.shiftRight_eq_div_pow, intGreatest]
    have e2 : ((2 ^ n : Nat) : Int) = 2 ^ n := by norm_cast
    rw [e2]
    have key : x > (2 ^ 60 - 1) / 2 ^ n ↔ ¬ InRange (x * 2 ^ n) := by
      rw [gt_iff_lt, Int.ediv_lt_iff_lt_mul (by omega)]
      have : 0 ≤ x * 2 ^ n := Int.mul_nonneg hx0 (by omega)
      unfold InRange
      omega
    by_cases hr : InRange (x * 2 ^ n)
    · rw [if_neg (fun h => (key.1 h) hr), if_pos hr]
      rw [shlPos_val x n hx (by omega)]
    · rw [if_pos (key.2 hr), if_neg hr]

/-- **C08** (left shift, negative operand; partial). The result is right when `x * 2^n` is a Prolog
integer; otherwise the code answers the product *modulo 2^61* (as `tagInt` wraps) for `n < 61`, and
reports an overflow only for `n ≥ 61`. Missing: the overflow error, which the code does not raise
(see `C08_shift_left_negative_wraps`). -/
theorem C08_shift_left_negative_partial (x : Int) (n : Nat) (hx : InRange x) (hn : InRange n)
    (hx0 : x < 0) :
    fastShl (tagInt x) (tagInt n) =
      if n < 61 then .ok (tagInt (x * 2 ^ n)) else .err .intOverflow := by
  unfold fastShl shlPos
  rw [hx.untag, hn.untag]
  simp only
  rw [if_neg (by omega)]
  by_cases h : n < 61
  · rw [if_neg (by omega), if_pos h, Int.toNat_natCast, Int.shiftRight_eq_div_pow, intGreatest]
    have : (0 : Int) ≤ (2 ^ 60 - 1) / ((2 ^ n : Nat) : Int) := Int.ediv_nonneg (by decide) (Int.natCast_nonneg _)
    rw [if_neg (by omega), shlPos_val x n hx h]
  · rw [if_neg h, if_pos (by omega), if_pos (by omega)]

/-- The claim "`<<` is exact or an overflow error" is false of the code: `-3 << 60` silently gives
`-2^60`, and `1 << 60` (same magnitude class) is an overflow. -/
theorem C08_shift_left_negative_wraps :
    fastShl (tagInt (-3)) (tagInt 60) = .ok (tagInt (-2 ^ 60)) ∧ ¬ InRange (-3 * 2 ^ 60) ∧
    fastShl (tagInt 1) (tagInt 60) = .err .intOverflow := by decide

/-- **C08** (negative counts). Shifting by `-n` is the opposite shift by `n`, for every count except
the lowest integer. -/
theorem C08_shift_negative_count (x : Int) (n : Nat) (hx : InRange x) (hn : InRange n) (hn0 : 0 < n) :
    fastShl (tagInt x) (tagInt (-n)) = fastShr (tagInt x) (tagInt n) ∧
    fastShr (tagInt x) (tagInt (-n)) = fastShl (tagInt x) (tagInt n) := by
  have hn' := hn; unfold InRange at hn'
  have hneg : InRange (-(n : Int)) := by unfold InRange; omega
  unfold fastShl fastShr
  rw [hx.untag, hn.untag, hneg.untag]
  have h1 : -(n : Int) < 0 := by omega
  have h2 : ¬ (n : Int) < 0 := by omega
  have h3 : -(n : Int) ≠ intLowest := by unfold intLowest intGreatest; omega
  simp only [h1, h2, h3, if_true, if_false, Int.neg_neg, hn.untag]
  exact ⟨trivial, trivial⟩

/-- For the lowest integer as a count the law fails: a negative number shifted right that far is -1,
but the code answers 0. -/
theorem C08_shift_lowest_count_wrong :
    fastShl (tagInt (-1)) (tagInt (-2 ^ 60)) = .ok (tagInt 0) ∧
    (-1 : Int) / 2 ^ 70 = -1 := by decide

example : InRange 5 ∧ InRange ((58 : Nat) : Int) ∧ exactOrOverflow (5 * 2 ^ 58) = .err .intOverflow ∧
    exactOrOverflow (5 * 2 ^ 57) = .ok (tagInt 720575940379279360) := by decide

/-! ### C09 -/

theorem fastGCD_val (x y : Int) (hx : InRange x) (hy : InRange y)
    (h : ¬ ((x = -2 ^ 60 ∧ y = 0) ∨ (x = 0 ∧ y = -2 ^ 60))) :
    fastGCD (tagInt x) (tagInt y) = .ok (tagInt (gcdLoop x.natAbs y.natAbs)) := by
  have hx' := hx; have hy' := hy
  unfold InRange at hx' hy'
  unfold fastGCD
  rw [hx.untag, hy.untag]
  have hl : intLowest = -2 ^ 60 := rfl
  dsimp only
  rw [if_neg (by omega)]
  have e : ∀ z : Int, InRange z → cabs z = .ok (z.natAbs : Int) := by
    intro z hz
    unfold cabs
    unfold InRange at hz
    split
    · rw [chk_ok (by omega)]; congr 1; omega
    · congr 1; omega
  rw [e x hx]
  simp only [ok_bind]
  rw [e y hy]
  simp only [ok_bind, Int.toNat_natCast]

/-- **C09** (gcd). For all integers except the pair of two lowest integers, `gcd` overflows exactly
when the gcd is not a Prolog integer, and otherwise is the non-negative greatest common divisor. -/
theorem C09_gcd_partial (x y : Int) (hx : InRange x) (hy : InRange y)
    (hne : ¬ (x = -2 ^ 60 ∧ y = -2 ^ 60)) :
    ∃ g : Nat, (∀ d : Nat, d ∣ g ↔ (d : Int) ∣ x ∧ (d : Int) ∣ y) ∧
      fastGCD (tagInt x) (tagInt y) = exactOrOverflow g := by
  refine ⟨gcdLoop x.natAbs y.natAbs, ?_, ?_⟩
  · intro d
    rw [gcdLoop_dvd, Int.ofNat_dvd_left, Int.ofNat_dvd_left]
  · have hx' := hx; have hy' := hy
    unfold InRange at hx' hy'
    by_cases h : (x = -2 ^ 60 ∧ y = 0) ∨ (x = 0 ∧ y = -2 ^ 60)
    · rcases h with ⟨rfl, rfl⟩ | ⟨rfl, rfl⟩
      · have e : gcdLoop (-2 ^ 60 : Int).natAbs (0 : Int).natAbs = 2 ^ 60 := by
          rw [gcdLoop]; rfl
        rw [e]; unfold fastGCD; rw [hx.untag, hy.untag]; simp [intLowest, intGreatest]; decide
      · have e : gcdLoop (0 : Int).natAbs (-2 ^ 60 : Int).natAbs = 2 ^ 60 := by
          rw [gcdLoop, gcdLoop]; rfl
        rw [e]; unfold fastGCD; rw [hx.untag, hy.untag]; simp [intLowest, intGreatest]; decide
    · rw [fastGCD_val x y hx hy h]
      unfold exactOrOverflow
      rw [if_pos]
      -- the gcd divides both, so it reaches 2^60 only if both are multiples of 2^60
      generalize hg : gcdLoop x.natAbs y.natAbs = g
      have hd := (gcdLoop_dvd x.natAbs y.natAbs g).1 (by rw [hg]; exact Nat.dvd_refl _)
      have bx : x = 0 ∨ g ≤ x.natAbs := by
        by_cases h0 : x = 0
        · exact Or.inl h0
        · exact Or.inr (Nat.le_of_dvd (by omega) hd.1)
      have by' : y = 0 ∨ g ≤ y.natAbs := by
        by_cases h0 : y = 0
        · exact Or.inl h0
        · exact Or.inr (Nat.le_of_dvd (by omega) hd.2)
      by_cases hz : x = 0 ∧ y = 0
      · obtain ⟨rfl, rfl⟩ := hz
        have e : gcdLoop (0 : Int).natAbs (0 : Int).natAbs = 0 := by rw [gcdLoop]; rfl
        rw [← hg, e]; decide
      · unfold InRange; omega

/-- For the pair of lowest integers the code wraps: the result is negative. -/
theorem C09_gcd_lowest_wrong :
    fastGCD (tagInt (-2 ^ 60)) (tagInt (-2 ^ 60)) = .ok (tagInt (-2 ^ 60)) := by
  rw [fastGCD_val _ _ (by decide) (by decide) (by decide)]
  have e : gcdLoop (-2 ^ 60 : Int).natAbs (-2 ^ 60 : Int).natAbs = 2 ^ 60 := by
    rw [gcdLoop, gcdLoop]; rfl
  rw [e]; decide

example : ¬ ((12 : Int) = -2 ^ 60 ∧ (18 : Int) = -2 ^ 60) ∧ InRange 12 ∧ InRange (-18) := by decide

theorem bit_ofInt {x : Int} {i : Nat} (hi : i < 64) :
    (BitVec.ofInt 64 x).getLsbD i = ibit x i := ofInt_getLsbD x hi

theorem ofInt_ne_zero {x : Int} (hx : InRange x) (h0 : x ≠ 0) : BitVec.ofInt 64 x ≠ 0#64 := by
  intro h
  have := congrArg BitVec.toInt h
  rw [BitVec.toInt_ofInt, BitVec.toInt_zero] at this
  unfold InRange at hx
  rw [Int.bmod_eq_of_le (by omega) (by omega)] at this
  exact h0 this

/-- **C09** (bit scans). For `x > 0`, `lsb` and `msb` are the positions of the lowest and highest set
bit, and `popcount` the number of set bits; for 0 they are -1, -1 and 0. -/
theorem C09_bit_scans (x : Int) (hx : InRange x) (hx0 : 0 ≤ x) :
    (∃ l : Int, fastLSB (tagInt x) = .ok (tagInt l) ∧
      (x = 0 → l = -1) ∧
      (x ≠ 0 → ∃ n : Nat, l = n ∧ ibit x n = true ∧ ∀ j < n, ibit x j = false)) ∧
    (∃ m : Int, fastMSB (tagInt x) = .ok (tagInt m) ∧
      (x = 0 → m = -1) ∧
      (x ≠ 0 → ∃ n : Nat, m = n ∧ ibit x n = true ∧ ∀ j, n < j → ibit x j = false)) ∧
    fastPopcount (tagInt x) = .ok (tagInt (bitCount x 64)) := by
  have hneg : ¬ x < 0 := by omega
  have hhigh : ∀ j, 60 ≤ j → ibit x j = false := by
    intro j hj
    rw [ibit_high hx hj]
    unfold ibit InRange at *
    have : x / 2 ^ 60 = 0 := Int.ediv_eq_zero_of_lt hx0 hx.2
    rw [this]; decide
  refine ⟨?_, ?_, ?_⟩
  · refine ⟨if x = 0 then -1 else lsb (BitVec.ofInt 64 x), ?_, ?_, ?_⟩
    · unfold fastLSB; rw [hx.untag]; simp only [hneg, if_false]
    · intro h; simp [h]
    · intro h0
      obtain ⟨h1, h2, h3⟩ := lsb_spec (ofInt_ne_zero hx h0)
      refine ⟨lsb (BitVec.ofInt 64 x), by simp [h0], ?_, ?_⟩
      · rw [← bit_ofInt h1]; exact h2
      · intro j hj; rw [← bit_ofInt (by omega)]; exact h3 j hj
  · refine ⟨if x = 0 then -1 else msb (BitVec.ofInt 64 x), ?_, ?_, ?_⟩
    · unfold fastMSB; rw [hx.untag]; simp only [hneg, if_false]
    · intro h; simp [h]
    · intro h0
      obtain ⟨h1, h2, h3⟩ := msb_spec (ofInt_ne_zero hx h0)
      refine ⟨msb (BitVec.ofInt 64 x), by simp [h0], ?_, ?_⟩
      · rw [← bit_ofInt h1]; exact h2
      · intro j hj
        by_cases h64 : j < 64
        · rw [← bit_ofInt h64]; exact h3 j hj h64
        · exact hhigh j (by omega)
  · unfold fastPopcount
    rw [hx.untag]
    simp only [hneg, if_false]
    congr 2
    rw [popcount_eq]
    have : ∀ n, n ≤ 64 → countBits (BitVec.ofInt 64 x) 0 n = bitCount x n := by
      intro n
      induction n with
      | zero => intro _; rfl
      | succ n ih =>
        intro hn
        simp only [countBits, bitCount, Nat.zero_add]
        rw [ih (by omega), bit_ofInt (by omega)]
    rw [this 64 (by omega)]

example : InRange 40 ∧ (0 : Int) ≤ 40 ∧ fastLSB (tagInt 40) = .ok (tagInt 3) ∧
    fastMSB (tagInt 40) = .ok (tagInt 5) ∧ fastPopcount (tagInt 40) = .ok (tagInt 2) := by decide

/-- **C09** (negative operands; partial). The bit scans of a negative integer raise a domain error.
Missing: the error should carry the offending integer; it carries the untagged word
(`C09_negative_culprit_wrong`). -/
theorem C09_negative_is_error_partial (x : Int) (hx : InRange x) (hx0 : x < 0) :
    ∃ w, fastLSB (tagInt x) = .err (.notLessThanZero w) ∧
      fastMSB (tagInt x) = .err (.notLessThanZero w) ∧
      fastPopcount (tagInt x) = .err (.notLessThanZero w) := by
  refine ⟨BitVec.ofInt 64 x, ?_, ?_, ?_⟩ <;>
    simp [fastLSB, fastMSB, fastPopcount, hx.untag, hx0]

/-- `lsb(-9)` reports the culprit `-2`, and `lsb(-2)` a word whose tag (6) denotes no term at all. -/
theorem C09_negative_culprit_wrong :
    fastLSB (tagInt (-9)) = .err (.notLessThanZero (tagInt (-2))) ∧
    (∃ w, fastLSB (tagInt (-2)) = .err (.notLessThanZero w) ∧ ∀ t : Tag, tagIs t w = false) := by
  refine ⟨by decide, ⟨BitVec.ofInt 64 (-2), by decide, ?_⟩⟩
  intro t; cases t <;> decide

end Gp.Arith
