import Verif.Arith.Spec
import Verif.Tag.Lemmas
namespace Gp.Arith
open Gp.Tag

theorem InRange.untag {z : Int} (h : InRange z) : untagInt (tagInt z) = z := untag_tagInt h.1 h.2

theorem chk_ok {z : Int} (h : -2 ^ 63 ≤ z ∧ z < 2 ^ 63) : chk z = .ok z := by
  unfold chk; rw [if_pos h]

theorem overflow_false {z : Int} (h : InRange z) : testIntOverflow z = false := by
  cases ht : testIntOverflow z
  · rfl
  · exact absurd h ((testIntOverflow_iff z).1 ht)

theorem overflow_true {z : Int} (h : ¬ InRange z) : testIntOverflow z = true :=
  (testIntOverflow_iff z).2 h

@[simp] theorem ok_bind {α β : Type} (a : α) (f : α → Out β) : (Out.ok a >>= f) = f a := rfl

theorem ofInt_getLsbD (x : Int) {i : Nat} (hi : i < 64) : (BitVec.ofInt 64 x).getLsbD i = ibit x i := by
  unfold ibit
  have h1 : (BitVec.ofInt 64 x).getLsbD i = (BitVec.ofInt 64 x).toNat.testBit i := rfl
  rw [h1, BitVec.toNat_ofInt, Nat.testBit_eq_decide_div_mod_eq]
  congr 1
  have hx : x = 2 ^ i * (2 ^ (64 - i) * (x / 2 ^ 64)) + x % 2 ^ 64 := by
    rw [← Int.mul_assoc, ← Int.pow_add, show i + (64 - i) = 64 by omega]
    have := Int.mul_ediv_add_emod x (2 ^ 64)
    omega
  have hpos : (0 : Int) < 2 ^ i := Int.pow_pos (by decide)
  have e1 : x / 2 ^ i = 2 ^ (64 - i) * (x / 2 ^ 64) + (x % 2 ^ 64) / 2 ^ i := by
    conv => lhs; rw [hx]
    rw [Int.mul_add_ediv_left _ _ (by omega)]
  have e2 : (2 : Int) ^ (64 - i) = 2 * 2 ^ (63 - i) := by
    rw [show 64 - i = (63 - i) + 1 by omega, Int.pow_succ, Int.mul_comm]
  rw [e2, Int.mul_assoc] at e1
  have e3 : (((x % ((2 ^ 64 : Nat) : Int)).toNat / 2 ^ i : Nat) : Int) = (x % 2 ^ 64) / 2 ^ i := by
    rw [Int.natCast_ediv, Int.toNat_of_nonneg (by omega)]
    simp
  generalize (x % ((2 ^ 64 : Nat) : Int)).toNat / 2 ^ i = n at *
  rw [e1, ← e3]
  generalize 2 ^ (63 - i) * (x / 2 ^ 64) = q
  apply propext
  omega

theorem tagInt_getLsbD (x : Int) {i : Nat} (hi : i < 61) : (tagInt x).getLsbD (i + 3) = ibit x i := by
  unfold tagInt tagMask
  rw [BitVec.getLsbD_or, BitVec.getLsbD_shiftLeft]
  have h7 : BitVec.getLsbD (7 : Word) (i + 3) = false := by
    show BitVec.getLsbD 7#64 (i + 3) = false
    simp only [BitVec.getLsbD_ofNat]
    rw [Nat.testBit_lt_two_pow, Bool.and_false]
    calc 7 < 2 ^ 3 := by decide
      _ ≤ 2 ^ (i + 3) := Nat.pow_le_pow_right (by decide) (by omega)
  rw [h7]
  have : i + 3 < 64 := by omega
  simp only [this, decide_true, Bool.true_and, Nat.add_sub_cancel, Bool.or_false]
  rw [ofInt_getLsbD x (by omega)]
  simp

theorem ibit_high {z : Int} (h : InRange z) {i : Nat} (hi : 60 ≤ i) : ibit z i = ibit z 60 := by
  have key : ∀ j, 60 ≤ j → z / 2 ^ j = if z < 0 then -1 else 0 := by
    intro j hj
    have hp : (2 : Int) ^ 60 ≤ 2 ^ j := by
      have : (2 : Nat) ^ 60 ≤ 2 ^ j := Nat.pow_le_pow_right (by decide) hj
      exact_mod_cast this
    obtain ⟨h1, h2⟩ := h
    split
    · have : (0 : Int) < 2 ^ j := by omega
      have h3 : z / 2 ^ j < 0 := Int.ediv_neg_of_neg_of_pos (by omega) this
      have h4 : -1 ≤ z / 2 ^ j := by rw [Int.le_ediv_iff_mul_le this]; omega
      omega
    · exact Int.ediv_eq_zero_of_lt (by omega) (by omega)
  unfold ibit
  rw [key i hi, key 60 (by omega)]

theorem ibit_tag {z : Int} (h : InRange z) (i : Nat) :
    ibit z i = (tagInt z).getLsbD (min i 60 + 3) := by
  rw [tagInt_getLsbD z (by omega)]
  by_cases hi : i ≤ 60
  · rw [Nat.min_eq_left hi]
  · rw [Nat.min_eq_right (by omega), ibit_high h (by omega)]

theorem exists_untag (w : Word) (h : w.toNat % 8 = 7) : ∃ z, InRange z ∧ w = tagInt z := by
  have h1 := @BitVec.le_toInt 64 w
  have h2 := @BitVec.toInt_lt 64 w
  have h3 : w.toInt % 8 = 7 := by
    rw [BitVec.toInt_eq_toNat_cond]; split <;> omega
  have hr : InRange (w.toInt / 8) := by unfold InRange; omega
  refine ⟨w.toInt / 8, hr, ?_⟩
  apply BitVec.eq_of_toInt_eq
  rw [tagInt_toInt hr.1 hr.2]
  omega

theorem low_bits (w : Word) : w.toNat % 8 = 7 ↔
    w.getLsbD 0 = true ∧ w.getLsbD 1 = true ∧ w.getLsbD 2 = true := by
  have h : ∀ i, w.getLsbD i = w.toNat.testBit i := fun _ => rfl
  simp only [h, Nat.testBit_eq_decide_div_mod_eq, decide_eq_true_eq]
  omega

theorem tagInt_low (z : Int) : (tagInt z).toNat % 8 = 7 := by
  have := tagInt_mask z
  have h2 := tagMaskOf_toNat (tagInt z)
  rw [this] at h2
  exact h2.symm

theorem signsDiffer_iff {m y : Int} (hm : -2 ^ 63 ≤ m ∧ m < 2 ^ 63) (hy : -2 ^ 63 ≤ y ∧ y < 2 ^ 63) :
    signsDiffer m y = true ↔ ¬ (m < 0 ↔ y < 0) := by
  have e : ∀ z : Int, -2 ^ 63 ≤ z ∧ z < 2 ^ 63 → (BitVec.ofInt 64 z).toInt = z := by
    intro z hz
    rw [BitVec.toInt_ofInt]
    apply Int.bmod_eq_of_le <;> omega
  unfold signsDiffer
  rw [← BitVec.msb_eq_toInt, BitVec.msb_xor, BitVec.msb_eq_toInt, BitVec.msb_eq_toInt, e m hm, e y hy]
  by_cases h1 : m < 0 <;> by_cases h2 : y < 0 <;> simp [h1, h2]

/-! ### gcd -/

theorem gcdLoop_dvd (x y d : Nat) : d ∣ gcdLoop x y ↔ d ∣ x ∧ d ∣ y := by
  induction y using Nat.strongRecOn generalizing x with
  | ind y ih =>
    rw [gcdLoop]
    split
    · rename_i h; subst h; simp
    · rename_i h
      rw [ih (x % y) (Nat.mod_lt _ (Nat.pos_of_ne_zero h))]
      constructor
      · rintro ⟨a, b⟩; exact ⟨(Nat.dvd_mod_iff a).1 b, a⟩
      · rintro ⟨a, b⟩; exact ⟨b, (Nat.dvd_mod_iff b).2 a⟩

/-! ### power -/

theorem mulOverflow_ok {a b : Int} (h : (mulOverflow a b).1 = false) :
    (mulOverflow a b).2 = a * b ∧ -2 ^ 63 ≤ a * b ∧ a * b < 2 ^ 63 := by
  unfold mulOverflow at *
  simp only [Bool.not_eq_false', decide_eq_true_eq] at h
  refine ⟨?_, h⟩
  simp only [BitVec.toInt_ofInt]
  apply Int.bmod_eq_of_le <;> omega

theorem mulOverflow_true {a b : Int} (h : (mulOverflow a b).1 = true) :
    2 ^ 63 ≤ (a * b).natAbs := by
  unfold mulOverflow at h
  simp only [Bool.not_eq_true', decide_eq_false_iff_not] at h
  generalize a * b = z at *
  omega

theorem natAbs_pow (a : Int) (n : Nat) : (a ^ n).natAbs = a.natAbs ^ n := by
  induction n with
  | zero => simp
  | succ n ih => rw [Int.pow_succ, Int.natAbs_mul, ih, Nat.pow_succ]

theorem powLoop_spec (b : Nat) : ∀ (r a : Int), 2 ≤ a.natAbs → r ≠ 0 → 
    match powLoop r a b with
    | some v => v = r * a ^ b
    | none => 2 ^ 63 ≤ (r * a ^ b).natAbs := by
  induction b using Nat.strongRecOn with
  | ind b ih =>
    intro r a ha hr
    have hone : ∀ n, 1 ≤ a.natAbs ^ n := fun n => Nat.one_le_iff_ne_zero.2 (by
      intro h; have := Nat.pow_eq_zero.1 h; omega)
    rw [powLoop]
    -- the factor contributed by the low bit
    have hs : ∃ s : Bool × Int, s = (if b % 2 = 1 then mulOverflow r a else (false, r)) ∧
        (s.1 = true → 2 ^ 63 ≤ (r * a ^ b).natAbs) ∧
        (s.1 = false → s.2 = r * a ^ (b % 2)) := by
      refine ⟨_, rfl, ?_, ?_⟩
      · split
        · rename_i hb
          intro h
          have h1 := mulOverflow_true h
          obtain ⟨k, rfl⟩ : ∃ k, b = k + 1 := ⟨b - 1, by omega⟩
          rw [Int.pow_succ, Int.mul_comm (a ^ k) a, ← Int.mul_assoc, Int.natAbs_mul, natAbs_pow]
          calc 2 ^ 63 ≤ (r * a).natAbs * 1 := by omega
            _ ≤ _ := Nat.mul_le_mul_left _ (hone k)
        · simp
      · split
        · rename_i hb; intro h; rw [hb, Int.pow_succ, Int.pow_zero, Int.one_mul]; exact (mulOverflow_ok h).1
        · rename_i hb; intro _; rw [show b % 2 = 0 by omega]; simp
    obtain ⟨s, hse, hs1, hs2⟩ := hs
    simp only [← hse]
    cases h1 : s.1 with
    | true => simpa using hs1 h1
    | false =>
      simp only [Bool.false_eq_true, if_false]
      have hs3 := hs2 h1
      have hb2 : r * a ^ b = s.2 * (a * a) ^ (b / 2) := by
        rw [hs3, Int.mul_assoc, show a * a = a ^ 2 by rw [Int.pow_succ, Int.pow_succ]; simp,
          ← Int.pow_mul, ← Int.pow_add, show b % 2 + 2 * (b / 2) = b by omega]
      have hsne : s.2 ≠ 0 := by
        rw [hs3]
        apply Int.mul_ne_zero hr
        intro h
        have := congrArg Int.natAbs h
        rw [natAbs_pow] at this
        have := hone (b % 2)
        simp at *; omega
      by_cases hb : b / 2 = 0
      · simp only [hb, dite_true]
        rw [hb2, hb]; simp
      · simp only [hb, dite_false]
        have haa : 2 ≤ (a * a).natAbs := by
          rw [Int.natAbs_mul]
          calc 2 ≤ 2 * 2 := by decide
            _ ≤ _ := Nat.mul_le_mul ha ha
        cases hq : (mulOverflow a a).1 with
        | true =>
          simp only [if_true]
          have h2 := mulOverflow_true hq
          rw [hb2, Int.natAbs_mul, natAbs_pow]
          have h3 : 1 ≤ s.2.natAbs := by omega
          calc 2 ^ 63 ≤ (a * a).natAbs ^ 1 := by simpa using h2
            _ ≤ (a * a).natAbs ^ (b / 2) := Nat.pow_le_pow_right (by omega) (by omega)
            _ = 1 * (a * a).natAbs ^ (b / 2) := by rw [Nat.one_mul]
            _ ≤ _ := Nat.mul_le_mul_right _ h3
        | false =>
          simp only [Bool.false_eq_true, if_false]
          have := ih (b / 2) (by omega) s.2 (mulOverflow a a).2
            (by rw [(mulOverflow_ok hq).1]; exact haa) hsne
          rw [(mulOverflow_ok hq).1] at this ⊢
          rw [hb2]
          exact this

/-! ### bit scans -/

theorem shl_eq_zero_iff (x : Word) {k : Nat} (hk : k ≤ 64) :
    x <<< (64 - k) = 0#64 ↔ ∀ i < k, x.getLsbD i = false := by
  constructor
  · intro h i hi
    have := congrArg (fun b => BitVec.getLsbD b (i + (64 - k))) h
    simp only [BitVec.getLsbD_shiftLeft, BitVec.getLsbD_zero] at this
    have h1 : i + (64 - k) < 64 := by omega
    have h2 : ¬ (i + (64 - k) < 64 - k) := by omega
    simpa [h1, h2] using this
  · intro h
    apply BitVec.eq_of_getLsbD_eq
    intro i hi
    simp only [BitVec.getLsbD_shiftLeft, BitVec.getLsbD_zero]
    by_cases h2 : i < 64 - k
    · simp [h2]
    · rw [h (i - (64 - k)) (by omega)]; simp

structure LsbInv (x : Word) (w : Nat) (s : Nat × Word) : Prop where
  low : ∀ j < s.1, x.getLsbD j = false
  cur : ∀ i < w, s.2.getLsbD i = x.getLsbD (i + s.1)
  ex : ∃ i < w, s.2.getLsbD i = true
  bound : s.1 + w ≤ 64

theorem lsbStep_inv {x : Word} {k : Nat} (hk : 2 * k ≤ 64) {s : Nat × Word}
    (h : LsbInv x (2 * k) s) : LsbInv x k (lsbStep k s) := by
  unfold lsbStep
  have hb := h.bound
  split
  · rename_i hz
    rw [shl_eq_zero_iff _ (by omega)] at hz
    have hsh : ∀ i < k, (s.2.sshiftRight k).getLsbD i = s.2.getLsbD (i + k) := by
      intro i hi
      rw [BitVec.getLsbD_sshiftRight]
      have h1 : ¬ (64 ≤ i) := by omega
      have h2 : k + i < 64 := by omega
      simp [h1, h2, Nat.add_comm]
    refine ⟨?_, ?_, ?_, by simp only; omega⟩
    · intro j hj
      simp only at hj
      by_cases h2 : j < s.1
      · exact h.low j h2
      · have := h.cur (j - s.1) (by omega)
        rw [hz _ (by omega), Nat.sub_add_cancel (by omega)] at this
        exact this.symm
    · intro i hi
      rw [hsh i hi, h.cur _ (by omega)]
      congr 1; simp only; omega
    · obtain ⟨i, hi, he⟩ := h.ex
      have : k ≤ i := by
        by_cases h3 : i < k
        · rw [hz i h3] at he; cases he
        · omega
      refine ⟨i - k, by omega, ?_⟩
      rw [hsh _ (by omega), Nat.sub_add_cancel this]; exact he
  · rename_i hz
    rw [shl_eq_zero_iff _ (by omega)] at hz
    refine ⟨h.low, fun i hi => h.cur i (by omega), ?_, by omega⟩
    simp only [Classical.not_forall] at hz
    obtain ⟨i, hi, he⟩ := hz
    exact ⟨i, hi, by simpa using he⟩

theorem lsb_spec {x : Word} (hx : x ≠ 0#64) :
    lsb x < 64 ∧ x.getLsbD (lsb x) = true ∧ ∀ j < lsb x, x.getLsbD j = false := by
  have h0 : LsbInv x (2 * 32) (0, x) := by
    refine ⟨by simp, by simp, ?_, by simp⟩
    have : ¬ ∀ i < 64, x.getLsbD i = false := by
      intro h; apply hx; apply BitVec.eq_of_getLsbD_eq; intro i hi; rw [h i hi]; simp
    simp only [Classical.not_forall] at this
    obtain ⟨i, hi, he⟩ := this
    exact ⟨i, by omega, by simpa using he⟩
  have h1 := lsbStep_inv (k := 32) (by omega) h0
  have h2 := lsbStep_inv (k := 16) (by omega) h1
  have h3 := lsbStep_inv (k := 8) (by omega) h2
  have h4 := lsbStep_inv (k := 4) (by omega) h3
  have h5 := lsbStep_inv (k := 2) (by omega) h4
  have h6 := lsbStep_inv (k := 1) (by omega) h5
  have hb := h6.bound
  refine ⟨by unfold lsb; omega, ?_, fun j hj => h6.low j hj⟩
  obtain ⟨i, hi, he⟩ := h6.ex
  have : i = 0 := by omega
  subst this
  have := h6.cur 0 (by omega)
  rw [he] at this
  simp only [Nat.zero_add] at this
  exact this.symm

theorem sshr_eq_zero_iff (x : Word) {k : Nat} (hk1 : 1 ≤ k) (hk : k ≤ 64) :
    x.sshiftRight (64 - k) = 0#64 ↔ ∀ i < k, x.getLsbD (63 - i) = false := by
  constructor
  · intro h i hi
    have := congrArg (fun b => BitVec.getLsbD b (k - 1 - i)) h
    simp only [BitVec.getLsbD_sshiftRight, BitVec.getLsbD_zero] at this
    have h1 : ¬ (64 ≤ k - 1 - i) := by omega
    have h2 : 64 - k + (k - 1 - i) < 64 := by omega
    have h3 : 64 - k + (k - 1 - i) = 63 - i := by omega
    have h4 : 63 - i < 64 := by omega
    simpa [h1, h2, h3, h4] using this
  · intro h
    apply BitVec.eq_of_getLsbD_eq
    intro i hi
    simp only [BitVec.getLsbD_sshiftRight, BitVec.getLsbD_zero]
    have h1 : ¬ (64 ≤ i) := by omega
    simp only [h1, decide_false, Bool.not_false, Bool.true_and]
    split
    · have := h (k - 1 - i) (by omega)
      rw [show 63 - (k - 1 - i) = 64 - k + i by omega] at this
      exact this
    · have := h 0 (by omega)
      rw [BitVec.msb_eq_getLsbD_last]; exact this

structure MsbInv (x : Word) (w : Nat) (s : Nat × Word) : Prop where
  high : ∀ j, s.1 < j → j < 64 → x.getLsbD j = false
  cur : ∀ i < w, s.2.getLsbD (63 - i) = x.getLsbD (s.1 - i)
  ex : ∃ i < w, s.2.getLsbD (63 - i) = true
  bound : w ≤ s.1 + 1 ∧ s.1 < 64

theorem msbStep_inv {x : Word} {k : Nat} (hk1 : 1 ≤ k) (hk : 2 * k ≤ 64) {s : Nat × Word}
    (h : MsbInv x (2 * k) s) : MsbInv x k (msbStep k s) := by
  unfold msbStep
  have hb := h.bound
  split
  · rename_i hz
    rw [sshr_eq_zero_iff _ hk1 (by omega)] at hz
    have hsh : ∀ i < k, (s.2 <<< k).getLsbD (63 - i) = s.2.getLsbD (63 - (i + k)) := by
      intro i hi
      rw [BitVec.getLsbD_shiftLeft]
      have h1 : 63 - i < 64 := by omega
      have h2 : ¬ 63 - i < k := by omega
      simp only [h1, h2, decide_true, decide_false, Bool.not_false, Bool.and_self, Bool.true_and]
      congr 1; omega
    refine ⟨?_, ?_, ?_, by simp only; omega⟩
    · intro j hj hj2
      simp only at hj
      by_cases h2 : s.1 < j
      · exact h.high j h2 hj2
      · have := h.cur (s.1 - j) (by omega)
        rw [hz _ (by omega)] at this
        rw [show s.1 - (s.1 - j) = j by omega] at this
        exact this.symm
    · intro i hi
      rw [hsh i hi, h.cur _ (by omega)]
      congr 1; simp only; omega
    · obtain ⟨i, hi, he⟩ := h.ex
      have : k ≤ i := by
        by_cases h3 : i < k
        · rw [hz i h3] at he; cases he
        · omega
      refine ⟨i - k, by omega, ?_⟩
      rw [hsh _ (by omega), Nat.sub_add_cancel this]; exact he
  · rename_i hz
    rw [sshr_eq_zero_iff _ hk1 (by omega)] at hz
    refine ⟨h.high, fun i hi => h.cur i (by omega), ?_, by omega⟩
    simp only [Classical.not_forall] at hz
    obtain ⟨i, hi, he⟩ := hz
    exact ⟨i, hi, by simpa using he⟩

theorem msb_spec {x : Word} (hx : x ≠ 0#64) :
    msb x < 64 ∧ x.getLsbD (msb x) = true ∧ ∀ j, msb x < j → j < 64 → x.getLsbD j = false := by
  have h0 : MsbInv x (2 * 32) (63, x) := by
    refine ⟨fun j h1 h2 => by simp only at h1; omega, by simp, ?_, by simp⟩
    have : ¬ ∀ i < 64, x.getLsbD i = false := by
      intro h; apply hx; apply BitVec.eq_of_getLsbD_eq; intro i hi; rw [h i hi]; simp
    simp only [Classical.not_forall] at this
    obtain ⟨i, hi, he⟩ := this
    refine ⟨63 - i, by omega, ?_⟩
    rw [show 63 - (63 - i) = i by omega]
    simpa using he
  have h1 := msbStep_inv (k := 32) (by omega) (by omega) h0
  have h2 := msbStep_inv (k := 16) (by omega) (by omega) h1
  have h3 := msbStep_inv (k := 8) (by omega) (by omega) h2
  have h4 := msbStep_inv (k := 4) (by omega) (by omega) h3
  have h5 := msbStep_inv (k := 2) (by omega) (by omega) h4
  have h6 := msbStep_inv (k := 1) (by omega) (by omega) h5
  have hb := h6.bound
  refine ⟨by unfold msb; omega, ?_, fun j h h' => h6.high j h h'⟩
  obtain ⟨i, hi, he⟩ := h6.ex
  have : i = 0 := by omega
  subst this
  have := h6.cur 0 (by omega)
  rw [he] at this
  simp only [Nat.sub_zero] at this
  exact this.symm

/-- Number of set bits among bits `lo .. lo+n-1`. -/
def countBits (x : Word) (lo : Nat) : Nat → Nat
  | 0 => 0
  | n + 1 => countBits x lo n + (if x.getLsbD (lo + n) then 1 else 0)

theorem countBits_add (x : Word) (lo n m : Nat) :
    countBits x lo (n + m) = countBits x lo n + countBits x (lo + n) m := by
  induction m with
  | zero => simp [countBits]
  | succ m ih => rw [← Nat.add_assoc, countBits, ih, countBits]; simp only [Nat.add_assoc]

/-- Every entry of the table is the number of bits of its index. -/
theorem table_ok : ∀ b : Fin 256, nbBitsInByte[b.val]? = some (countBits (BitVec.ofNat 64 b.val) 0 8) := by
  decide +kernel

theorem byteCount_eq (x : Word) {i : Nat} (hi : i < 8) : byteCount x i = countBits x (8 * i) 8 := by
  unfold byteCount
  have hff : ((x.sshiftRight (8 * i)) &&& 0xFF#64).toNat = (x.sshiftRight (8 * i)).toNat % 256 := by
    rw [BitVec.toNat_and]; exact Nat.and_two_pow_sub_one_eq_mod _ 8
  rw [hff]
  have := table_ok ⟨(x.sshiftRight (8 * i)).toNat % 256, Nat.mod_lt _ (by decide)⟩
  rw [this]
  simp only [Option.getD_some]
  have hb : ∀ j < 8, (BitVec.ofNat 64 ((x.sshiftRight (8 * i)).toNat % 256)).getLsbD j
      = x.getLsbD (8 * i + j) := by
    intro j hj
    rw [BitVec.getLsbD_ofNat, show (256 : Nat) = 2 ^ 8 from rfl, Nat.testBit_mod_two_pow]
    have e : (x.sshiftRight (8 * i)).toNat.testBit j = (x.sshiftRight (8 * i)).getLsbD j := rfl
    rw [e, BitVec.getLsbD_sshiftRight]
    have h1 : ¬ 64 ≤ j := by omega
    have h2 : 8 * i + j < 64 := by omega
    have h3 : j < 64 := by omega
    simp [h1, h2, h3, hj]
  simp only [countBits, Nat.zero_add]
  rw [hb 0 (by omega), hb 1 (by omega), hb 2 (by omega), hb 3 (by omega), hb 4 (by omega),
    hb 5 (by omega), hb 6 (by omega), hb 7 (by omega)]

theorem popcount_eq (x : Word) : popcount x = countBits x 0 64 := by
  unfold popcount
  rw [byteCount_eq x (i := 0) (by omega), byteCount_eq x (i := 1) (by omega),
    byteCount_eq x (i := 2) (by omega), byteCount_eq x (i := 3) (by omega),
    byteCount_eq x (i := 4) (by omega), byteCount_eq x (i := 5) (by omega),
    byteCount_eq x (i := 6) (by omega), byteCount_eq x (i := 7) (by omega)]
  have h := countBits_add x 0
  rw [show 64 = 8 + 8 + 8 + 8 + 8 + 8 + 8 + 8 from rfl]
  simp only [h, Nat.zero_add]

end Gp.Arith
