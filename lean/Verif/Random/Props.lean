import Verif.Random.Model
/-
C68. random/3 with integer bounds: the result is in the interval when the bounds are exact doubles, and every value can be drawn from a
small interval; beyond 2^53 the result can be out of the interval.
-/
namespace Gp.Random

/-! ## Lemmas -/

theorem roundNat_small {m : Nat} (h : m ≤ 2 ^ 53) : roundNat m = m := by
  by_cases q : m = 2 ^ 53
  · subst q; decide +kernel
  · have hlt : m < 2 ^ 53 := by omega
    have he : Nat.log2 m + 1 - 53 = 0 := by
      by_cases h0 : m = 0
      · subst h0; decide
      · have := (Nat.log2_lt h0).mpr hlt
        omega
    unfold roundNat
    simp only [he]
    simp [Nat.mod_one]

/-- The relative error of the rounding. -/
theorem roundNat_le (m : Nat) : 2 ^ 53 * roundNat m ≤ (2 ^ 53 + 1) * m := by
  by_cases h : m ≤ 2 ^ 53
  · rw [roundNat_small h]; exact Nat.mul_le_mul_right _ (by omega)
  · have h0 : m ≠ 0 := by omega
    have hlog : 53 ≤ Nat.log2 m := (Nat.le_log2 h0).mpr (by omega)
    have hself : 2 ^ Nat.log2 m ≤ m := Nat.log2_self_le h0
    unfold roundNat
    generalize he : Nat.log2 m + 1 - 53 = e
    have hle : Nat.log2 m = e + 52 := by omega
    rw [hle, Nat.pow_add] at hself
    have hdm : m / 2 ^ e * 2 ^ e + m % 2 ^ e = m := Nat.div_add_mod' m (2 ^ e)
    simp only
    generalize hE : (2 : Nat) ^ e = E at *
    generalize hr : m % E = r at *
    generalize hq : m / E = q at *
    split
    · rename_i hc
      have h2 : E ≤ 2 * r := by rcases hc with hc | hc <;> omega
      rw [Nat.add_mul, Nat.one_mul]
      generalize q * E = qe at *
      omega
    · generalize q * E = qe at *
      omega

theorem toDouble_small {z : Int} (h : z.natAbs ≤ 2 ^ 53) : toDouble z = z := by
  unfold toDouble
  rw [roundNat_small h]
  split <;> omega

/-! ## The theorems -/

/-- The random integer below n is below n, for every n and every number drawn, in spite of both roundings. -/
theorem C68_random_integer {n r : Nat} (hn : 0 < n) (hr : r < 2 ^ 31) : randomInteger n r < n := by
  unfold randomInteger
  rw [Nat.div_lt_iff_lt_mul (by omega)]
  have h1 := roundNat_le n
  have h2 := roundNat_le (roundNat n * r)
  generalize roundNat (roundNat n * r) = P at *
  have h3 : roundNat n * r ≤ roundNat n * (2 ^ 31 - 1) := Nat.mul_le_mul_left _ (by omega)
  generalize roundNat n * r = Q at *
  generalize roundNat n = N at *
  omega

/-- random(L, U, X) with integers up to 2^53 in absolute value: it fails when L ≥ U, otherwise X is an integer with L ≤ X < U. -/
theorem C68_random_partial {l u : Int} {r : Nat} (hl : l.natAbs ≤ 2 ^ 53) (hu : u.natAbs ≤ 2 ^ 53) (hr : r < 2 ^ 31) :
    (u ≤ l → random3 l u r = none) ∧ (l < u → ∃ x, random3 l u r = some x ∧ l ≤ x ∧ x < u) := by
  unfold random3
  rw [toDouble_small hl, toDouble_small hu]
  constructor
  · intro h; rw [if_pos h]
  · intro h
    rw [if_neg (by omega)]
    have := C68_random_integer (n := (u - l).toNat) (r := r) (by omega) hr
    exact ⟨_, rfl, by omega, by omega⟩

/-- Every integer of an interval of at most 2^22 integers is the result for some number drawn. -/
theorem C68_every_value {l u x : Int} (hl : l.natAbs ≤ 2 ^ 53) (hu : u.natAbs ≤ 2 ^ 53) (hlen : u - l ≤ 2 ^ 22) (h1 : l ≤ x) (h2 : x < u) :
    ∃ r, r < 2 ^ 31 ∧ random3 l u r = some x := by
  obtain ⟨n, hn⟩ : ∃ n : Nat, (n : Int) = u - l := ⟨(u - l).toNat, by omega⟩
  obtain ⟨y, hy⟩ : ∃ y : Nat, (y : Int) = x - l := ⟨(x - l).toNat, by omega⟩
  have hpos : 0 < n := by omega
  have hyn : y < n := by omega
  have hn22 : n ≤ 2 ^ 22 := by omega
  -- the smallest number drawn which gives y
  have hdm := Nat.div_add_mod (y * 2 ^ 31 + (n - 1)) n
  have hml := Nat.mod_lt (y * 2 ^ 31 + (n - 1)) hpos
  generalize hr : (y * 2 ^ 31 + (n - 1)) / n = r at hdm
  generalize (y * 2 ^ 31 + (n - 1)) % n = k at hdm hml
  have hlt : r < 2 ^ 31 := by
    by_cases q : r < 2 ^ 31
    · exact q
    · have : n * 2 ^ 31 ≤ n * r := Nat.mul_le_mul_left _ (by omega)
      omega
  have hprod : n * r ≤ 2 ^ 53 := by
    have : n * r ≤ 2 ^ 22 * 2 ^ 31 := Nat.mul_le_mul hn22 (by omega)
    omega
  refine ⟨r, hlt, ?_⟩
  unfold random3
  rw [toDouble_small hl, toDouble_small hu, if_neg (by omega)]
  have hnn : (u - l).toNat = n := by omega
  rw [hnn]
  unfold randomInteger
  rw [roundNat_small (m := n) (by omega), roundNat_small hprod]
  have : n * r / 2 ^ 31 = y := by omega
  rw [this]
  congr 1
  omega

/-- Beyond 2^53 the claim is false: the bounds are rounded. random(9007199254740993, 9007199254740995, X) can give X below the lower bound, or the
upper bound itself; random(9007199254740992, 9007199254740993, X) fails although the interval has one integer. -/
theorem C68_large_bounds_violated :
    random3 9007199254740993 9007199254740995 0 = some 9007199254740992 ∧
    random3 9007199254740993 9007199254740995 (2 ^ 31 - 1) = some 9007199254740995 ∧
    (∀ r, random3 9007199254740992 9007199254740993 r = none) := by
  refine ⟨by decide +kernel, by decide +kernel, fun r => ?_⟩
  have : toDouble 9007199254740992 ≥ toDouble 9007199254740993 := by decide +kernel
  unfold random3
  rw [if_pos this]

/-! ## The hypotheses are met -/

example : (0 : Nat) < 2 ^ 60 + 1 ∧ 2 ^ 31 - 1 < 2 ^ 31 ∧ randomInteger (2 ^ 60 + 1) (2 ^ 31 - 1) = 2 ^ 60 - 2 ^ 29 := by decide +kernel

example : (-5 : Int).natAbs ≤ 2 ^ 53 ∧ (7 : Int).natAbs ≤ 2 ^ 53 ∧ (7 : Int) - -5 ≤ 2 ^ 22 ∧ random3 (-5) 7 0 = some (-5) ∧
    random3 (-5) 7 (2 ^ 31 - 1) = some 6 ∧ random3 (-5) 7 (2 ^ 30) = some 1 := by decide +kernel

end Gp.Random
