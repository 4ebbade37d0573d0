import Verif.Tag.Model
namespace Gp.Tag

theorem getElem_shl3_or7 (x : Word) : x <<< 3 &&& 7#64 = 0#64 := by
  apply BitVec.eq_of_getLsbD_eq
  intro i hi
  simp only [BitVec.getLsbD_and, BitVec.getLsbD_shiftLeft, BitVec.getLsbD_zero]
  by_cases h : i < 3
  · simp [h]
  · have : (7#64).getLsbD i = false := by
      simp only [BitVec.getLsbD_ofNat]
      rw [Nat.testBit_lt_two_pow, Bool.and_false]
      calc 7 < 2 ^ 3 := by decide
        _ ≤ 2 ^ i := Nat.pow_le_pow_right (by decide) (by omega)
    rw [this]; simp

theorem tagInt_eq (z : Int) : tagInt z = BitVec.ofInt 64 (8 * z + 7) := by
  have h1 : BitVec.ofInt 64 (8 * z + 7) = (BitVec.ofInt 64 z <<< 3) + 7#64 := by
    rw [BitVec.ofInt_add, BitVec.ofInt_mul, BitVec.shiftLeft_eq_mul_twoPow, BitVec.mul_comm]
    rfl
  rw [h1]
  unfold tagInt tagMask
  symm
  exact BitVec.add_eq_or_of_and_eq_zero _ _ (getElem_shl3_or7 _)

theorem tagInt_toInt {z : Int} (h1 : -2 ^ 60 ≤ z) (h2 : z < 2 ^ 60) : (tagInt z).toInt = 8 * z + 7 := by
  rw [tagInt_eq, BitVec.toInt_ofInt]
  apply Int.bmod_eq_of_le <;> omega

theorem untag_tagInt {z : Int} (h1 : -2 ^ 60 ≤ z) (h2 : z < 2 ^ 60) : untagInt (tagInt z) = z := by
  unfold untagInt
  rw [BitVec.toInt_sshiftRight, tagInt_toInt h1 h2, Int.shiftRight_eq_div_pow]
  omega

theorem tagInt_inj {x y : Int} (hx1 : -2 ^ 60 ≤ x) (hx2 : x < 2 ^ 60) (hy1 : -2 ^ 60 ≤ y)
    (hy2 : y < 2 ^ 60) (h : tagInt x = tagInt y) : x = y := by
  rw [← untag_tagInt hx1 hx2, h, untag_tagInt hy1 hy2]

theorem and7_toNat (w : Word) : (w &&& 7#64).toNat = w.toNat % 8 := by
  rw [BitVec.toNat_and]
  exact Nat.and_two_pow_sub_one_eq_mod _ 3

theorem tagMaskOf_toNat (w : Word) : (tagMaskOf w).toNat = w.toNat % 8 := and7_toNat w

theorem valueMask_toNat (w : Word) : (w &&& valueMask).toNat = w.toNat - w.toNat % 8 := by
  have h : w = (w &&& valueMask) + (w &&& tagMask) := by
    rw [BitVec.add_eq_or_of_and_eq_zero]
    · apply BitVec.eq_of_getLsbD_eq
      intro i hi
      simp only [valueMask, BitVec.getLsbD_or, BitVec.getLsbD_and, BitVec.getLsbD_not, hi, decide_true, Bool.true_and]
      cases w.getLsbD i <;> cases tagMask.getLsbD i <;> rfl
    · apply BitVec.eq_of_getLsbD_eq
      intro i hi
      simp only [valueMask, BitVec.getLsbD_and, BitVec.getLsbD_not, hi, decide_true, Bool.true_and, BitVec.getLsbD_zero]
      cases w.getLsbD i <;> cases tagMask.getLsbD i <;> rfl
  have h2 := tagMaskOf_toNat w
  unfold tagMaskOf at h2
  have h3 : (w &&& valueMask).toNat ≤ w.toNat := by
    rw [BitVec.toNat_and]; exact Nat.and_le_left
  have h4 := congrArg BitVec.toNat h
  rw [BitVec.toNat_add, h2] at h4
  have h5 := w.isLt
  have h6 := (w &&& valueMask).isLt
  omega

theorem tagInt_mask (z : Int) : tagMaskOf (tagInt z) = 7#64 := by
  apply BitVec.eq_of_toNat_eq
  rw [tagMaskOf_toNat, tagInt_eq]
  have : (BitVec.ofInt 64 (8 * z + 7)).toNat = ((8 * z + 7) % 2 ^ 64).toNat := by
    simp [BitVec.toNat_ofInt]
  rw [this]
  show _ = 7
  omega

theorem tagAtm_toNat {v : Nat} (h : v < 2 ^ 31) : (tagAtm v).toNat = 8 * v + 3 := by
  unfold tagAtm Tag.mask
  rw [BitVec.toNat_add, BitVec.toNat_shiftLeft, BitVec.toNat_ofNat, Nat.shiftLeft_eq]
  show (_ + 3) % _ = _
  omega

theorem untag_tagAtm {v : Nat} (h : v < 2 ^ 31) : untagAtm (tagAtm v) = v := by
  unfold untagAtm
  have h2 : ((tagAtm v >>> 3).truncate 32).toNat = v := by
    rw [BitVec.truncate_eq_setWidth, BitVec.toNat_setWidth, BitVec.toNat_ushiftRight, tagAtm_toNat h, Nat.shiftRight_eq_div_pow]
    omega
  rw [BitVec.toInt_eq_toNat_of_lt (by rw [h2]; omega), h2]

theorem tagAtm_mask {v : Nat} (h : v < 2 ^ 31) : tagMaskOf (tagAtm v) = 3#64 := by
  apply BitVec.eq_of_toNat_eq
  rw [tagMaskOf_toNat, tagAtm_toNat h]
  show _ = 3
  omega

theorem mask_lt (t : Tag) : t.mask.toNat < 8 := by cases t <;> decide

theorem tagAdr_toNat (t : Tag) {a : Word} (h : a.toNat % 8 = 0) :
    (tagAdr t a).toNat = a.toNat + t.mask.toNat := by
  unfold tagAdr
  rw [BitVec.toNat_add]
  have := mask_lt t
  have := a.isLt
  omega

theorem untag_tagAdr (t : Tag) {a : Word} (h : a.toNat % 8 = 0) : untagAdr t (tagAdr t a) = a := by
  unfold untagAdr
  split
  · rename_i ht; subst ht; unfold tagAdr Tag.mask; simp
  · apply BitVec.eq_of_toNat_eq
    rw [valueMask_toNat, tagAdr_toNat t h]
    have := mask_lt t
    omega

theorem tagAdr_mask (t : Tag) {a : Word} (h : a.toNat % 8 = 0) : tagMaskOf (tagAdr t a) = t.mask := by
  apply BitVec.eq_of_toNat_eq
  rw [tagMaskOf_toNat, tagAdr_toNat t h]
  have := mask_lt t
  omega

theorem mask_inj {t u : Tag} (h : t.mask = u.mask) : t = u := by
  revert h; cases t <;> cases u <;> decide

theorem functorArity_toNat {f n : Nat} (hf : f < 2 ^ 31) (hn : n < 2 ^ 10) :
    (functorArity f n).toNat = n * 2 ^ 54 + f := by
  have : functorArity f n = (BitVec.ofNat 64 n <<< atomMaxBits) + BitVec.ofNat 64 f := by
    unfold functorArity atomMaxBits
    symm
    apply BitVec.add_eq_or_of_and_eq_zero
    apply BitVec.eq_of_getLsbD_eq
    intro i hi
    simp only [BitVec.getLsbD_and, BitVec.getLsbD_shiftLeft, BitVec.getLsbD_zero, BitVec.getLsbD_ofNat]
    by_cases h : i < 54
    · simp [h]
    · rw [Nat.testBit_lt_two_pow (x := f)]
      · simp
      · calc f < 2 ^ 31 := hf
          _ ≤ 2 ^ i := Nat.pow_le_pow_right (by decide) (by omega)
  rw [this, BitVec.toNat_add, BitVec.toNat_shiftLeft, BitVec.toNat_ofNat, BitVec.toNat_ofNat,
    Nat.shiftLeft_eq]
  unfold atomMaxBits
  omega

theorem functorOf_functorArity {f n : Nat} (hf : f < 2 ^ 31) (hn : n < 2 ^ 10) :
    functorOf (functorArity f n) = f := by
  unfold functorOf
  have h2 : ((functorArity f n &&& ((1#64 <<< atomMaxBits) - 1#64)).truncate 32).toNat = f := by
    rw [BitVec.truncate_eq_setWidth, BitVec.toNat_setWidth, BitVec.toNat_and, functorArity_toNat hf hn]
    have : ((1#64 <<< atomMaxBits) - 1#64).toNat = 2 ^ 54 - 1 := by decide
    rw [this, Nat.and_two_pow_sub_one_eq_mod]
    omega
  rw [BitVec.toInt_eq_toNat_of_lt (by rw [h2]; omega), h2]

theorem arityOf_functorArity {f n : Nat} (hf : f < 2 ^ 31) (hn : n < 2 ^ 10) :
    arityOf (functorArity f n) = n := by
  unfold arityOf
  have h2 : ((functorArity f n >>> atomMaxBits).truncate 32).toNat = n := by
    rw [BitVec.truncate_eq_setWidth, BitVec.toNat_setWidth, BitVec.toNat_ushiftRight,
      functorArity_toNat hf hn, Nat.shiftRight_eq_div_pow]
    unfold atomMaxBits
    omega
  rw [BitVec.toInt_eq_toNat_of_lt (by rw [h2]; omega), h2]

theorem testIntOverflow_iff (z : Int) : testIntOverflow z = true ↔ ¬ (-2 ^ 60 ≤ z ∧ z < 2 ^ 60) := by
  unfold testIntOverflow intLowest intGreatest
  simp only [Bool.or_eq_true, decide_eq_true_eq]
  omega

theorem and3_toNat (w : Word) : (w &&& 3#64).toNat = w.toNat % 4 := by
  rw [BitVec.toNat_and]
  exact Nat.and_two_pow_sub_one_eq_mod _ 2

end Gp.Tag
