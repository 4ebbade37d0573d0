import Verif.FdRange.Model
import Verif.Arith.Lemmas
/- Vectors: the bits of the vectors built by the functions on vectors. -/
namespace Gp.FdRange

open Gp.Tag (Word)
open Gp.Arith (lsb msb popcount lsb_spec msb_spec popcount_eq countBits)

/-- The bit `n` of the vector. -/
def bit (v : Vec) (n : Nat) : Bool := (v.getD (n / 64) 0#64).getLsbD (n % 64)

theorem word_ne_zero {w : Word} (h : w ≠ 0#64) : ∃ j, j < 64 ∧ w.getLsbD j = true := by
  apply Classical.byContradiction
  intro hc
  apply h
  apply BitVec.eq_of_getLsbD_eq
  intro i hi
  simp only [BitVec.getLsbD_zero]
  cases hw : w.getLsbD i with
  | false => rfl
  | true => exact absurd ⟨i, hi, hw⟩ hc

theorem one_shl (b j : Nat) (hb : b < 64) : (1#64 <<< b).getLsbD j = decide (j = b) := by
  rw [BitVec.getLsbD_shiftLeft]
  by_cases h : j = b
  · subst h; simp [hb]
  · by_cases h1 : j < b
    · simp [h, h1]
    · have h2 : ¬ (j - b = 0) := by omega
      simp [h, h1, h2, BitVec.getLsbD_one]

theorem tst_eq (v : Vec) (n : Nat) : tst v n = bit v n := by
  unfold tst bit
  have hb : n % 64 < 64 := Nat.mod_lt _ (by omega)
  cases h : (v.getD (n / 64) 0#64).getLsbD (n % 64) with
  | true =>
    rw [bne_iff_ne]
    intro hz
    have := congrArg (fun w => BitVec.getLsbD w (n % 64)) hz
    simp only [BitVec.getLsbD_and, one_shl _ _ hb, h, BitVec.getLsbD_zero] at this
    simp at this
  | false =>
    rw [bne_eq_false_iff_eq]
    apply BitVec.eq_of_getLsbD_eq
    intro i hi
    rw [BitVec.getLsbD_and, one_shl _ _ hb, BitVec.getLsbD_zero]
    by_cases hi' : i = n % 64
    · subst hi'; rw [h]; rfl
    · simp [hi']

theorem bit_ge (v : Vec) (n : Nat) (h : v.length * 64 ≤ n) : bit v n = false := by
  unfold bit
  have : v.length ≤ n / 64 := by omega
  rw [List.getD_eq_getElem?_getD, List.getElem?_eq_none this]
  simp

theorem bit_lt {v : Vec} {n : Nat} (h : bit v n = true) : n < v.length * 64 := by
  apply Classical.byContradiction
  intro hc
  rw [bit_ge v n (by omega)] at h
  cases h

theorem bit_mk (v : Vec) (i j : Nat) (hj : j < 64) : bit v (i * 64 + j) = (v.getD i 0#64).getLsbD j := by
  unfold bit
  rw [show (i * 64 + j) / 64 = i by omega, show (i * 64 + j) % 64 = j by omega]

/-! set, reset -/

theorem modify_getD (v : Vec) (i k : Nat) (f : Word → Word) :
    (v.modify i f).getD k 0#64 = if i = k ∧ k < v.length then f (v.getD k 0#64) else v.getD k 0#64 := by
  rw [List.getD_eq_getElem?_getD, List.getElem?_modify, List.getD_eq_getElem?_getD]
  by_cases hk : k < v.length
  · rw [List.getElem?_eq_getElem hk]
    by_cases h : i = k
    · simp [h, hk]
    · simp [h]
  · rw [List.getElem?_eq_none (by omega)]
    simp [hk]

theorem setV_some {v : Vec} {n : Int} (h0 : 0 ≤ n) (h1 : n < v.length * 64) :
    ∃ v', setV v n = some v' ∧ v'.length = v.length ∧ ∀ m, bit v' m = (bit v m || decide ((m : Int) = n)) := by
  have hl : n.toNat / 64 < v.length := by omega
  refine ⟨_, by unfold setV; rw [if_pos ⟨h0, hl⟩], by simp, ?_⟩
  intro m
  unfold bit
  rw [modify_getD]
  have hb : n.toNat % 64 < 64 := Nat.mod_lt _ (by omega)
  by_cases hc : n.toNat / 64 = m / 64
  · rw [if_pos ⟨hc, by omega⟩, BitVec.getLsbD_or, one_shl _ _ hb]
    congr 1
    rw [decide_eq_decide]
    omega
  · rw [if_neg (by intro h; exact hc h.1)]
    have : ¬ ((m : Int) = n) := by omega
    simp [this]

theorem setV_none {v : Vec} {n : Int} (h : n < 0 ∨ (v.length : Int) * 64 ≤ n) : setV v n = none := by
  unfold setV
  rw [if_neg (by omega)]

theorem resetV_len (v : Vec) (n : Nat) : (resetV v n).length = v.length := by simp [resetV]

theorem resetV_bit (v : Vec) (n m : Nat) : bit (resetV v n) m = (bit v m && !decide (m = n)) := by
  unfold bit resetV
  rw [modify_getD]
  have hb : n % 64 < 64 := Nat.mod_lt _ (by omega)
  have hb' : m % 64 < 64 := Nat.mod_lt _ (by omega)
  by_cases hc : n / 64 = m / 64 ∧ m / 64 < v.length
  · rw [if_pos hc, BitVec.getLsbD_and, BitVec.getLsbD_not, one_shl _ _ hb]
    simp only [hb', decide_true, Bool.true_and]
    congr 2
    rw [decide_eq_decide]
    omega
  · rw [if_neg hc]
    by_cases hm : m = n
    · subst hm
      have : v.length * 64 ≤ m := by omega
      have := bit_ge v m this
      unfold bit at this
      rw [this]; rfl
    · simp [hm]

/-! intervals -/

theorem all1_bit (j : Nat) : all1.getLsbD j = decide (j < 64) := by
  unfold all1; exact BitVec.getLsbD_allOnes

theorem fromInterval_len (size mn mx : Nat) (h : mn ≤ mx) (hs : mx < size * 64) :
    (vecFromInterval size mn mx).length = size := by
  simp [vecFromInterval]; omega

theorem fromInterval_bit (size mn mx : Nat) (h : mn ≤ mx) (hs : mx < size * 64) (m : Nat) :
    bit (vecFromInterval size mn mx) m = decide (mn ≤ m ∧ m ≤ mx) := by
  have hword : ∀ k, (List.replicate (mn / 64) 0#64 ++ List.replicate (mx / 64 + 1 - mn / 64) all1
      ++ List.replicate (size - (mx / 64 + 1)) 0#64 : Vec).getD k 0#64
      = if mn / 64 ≤ k ∧ k ≤ mx / 64 then all1 else 0#64 := by
    intro k
    rw [List.getD_eq_getElem?_getD]
    by_cases h1 : k < mn / 64
    · rw [List.append_assoc, List.getElem?_append_left (by simp; omega), List.getElem?_replicate, if_pos h1, if_neg (by omega)]; rfl
    · by_cases h2 : k ≤ mx / 64
      · rw [List.getElem?_append_left (by simp; omega), List.getElem?_append_right (by simp; omega), List.getElem?_replicate,
          if_pos (by simp; omega), if_pos (by omega)]; rfl
      · rw [List.getElem?_append_right (by simp; omega), List.getElem?_replicate, if_neg (c := _ ∧ _) (by omega)]
        split <;> rfl
  have hlen : (List.replicate (mn / 64) 0#64 ++ List.replicate (mx / 64 + 1 - mn / 64) all1
      ++ List.replicate (size - (mx / 64 + 1)) 0#64 : Vec).length = size := by simp; omega
  unfold bit vecFromInterval
  simp only
  rw [modify_getD, modify_getD, hword, List.length_modify, hlen]
  have hm : m % 64 < 64 := Nat.mod_lt _ (by omega)
  by_cases h1 : mn / 64 ≤ m / 64 ∧ m / 64 ≤ mx / 64
  · rw [if_pos h1]
    by_cases h2 : mn / 64 = m / 64
    · rw [if_pos (c := mn / 64 = m / 64 ∧ _) ⟨h2, by omega⟩]
      by_cases h3 : mx / 64 = m / 64
      · rw [if_pos ⟨h3, by omega⟩]
        simp only [BitVec.getLsbD_and, BitVec.getLsbD_shiftLeft, BitVec.getLsbD_ushiftRight, all1_bit]
        simp only [← Bool.decide_and, ← decide_not, decide_eq_decide]
        omega
      · rw [if_neg (by intro h; exact h3 h.1)]
        simp only [BitVec.getLsbD_and, BitVec.getLsbD_shiftLeft, all1_bit]
        simp only [← Bool.decide_and, ← decide_not, decide_eq_decide]
        omega
    · rw [if_neg (c := mn / 64 = m / 64 ∧ _) (by intro h; exact h2 h.1)]
      by_cases h3 : mx / 64 = m / 64
      · rw [if_pos ⟨h3, by omega⟩]
        simp only [BitVec.getLsbD_and, BitVec.getLsbD_ushiftRight, all1_bit]
        simp only [← Bool.decide_and, decide_eq_decide]
        omega
      · rw [if_neg (by intro h; exact h3 h.1), all1_bit, decide_eq_decide]
        omega
  · rw [if_neg h1, if_neg (by omega), if_neg (by omega), BitVec.getLsbD_zero]
    symm
    rw [decide_eq_false_iff_not]
    omega

/-! the words -/

theorem empty_bit (size m : Nat) : bit (vecEmpty size) m = false := by
  unfold bit vecEmpty
  rw [List.getD_eq_getElem?_getD, List.getElem?_replicate]
  split <;> simp

theorem full_bit (size m : Nat) : bit (vecFull size) m = decide (m < size * 64) := by
  unfold bit vecFull
  rw [List.getD_eq_getElem?_getD, List.getElem?_replicate]
  have hm : m % 64 < 64 := Nat.mod_lt _ (by omega)
  by_cases h : m / 64 < size
  · rw [if_pos h]
    show all1.getLsbD _ = _
    rw [all1_bit, decide_eq_decide]; omega
  · rw [if_neg h]
    symm
    simp; omega

theorem getD_zipWith (f : Word → Word → Word) (hf : f 0#64 0#64 = 0#64) (v v1 : Vec) (h : v.length = v1.length) (k : Nat) :
    (List.zipWith f v v1).getD k 0#64 = f (v.getD k 0#64) (v1.getD k 0#64) := by
  simp only [List.getD_eq_getElem?_getD, List.getElem?_zipWith]
  by_cases hk : k < v.length
  · rw [List.getElem?_eq_getElem hk, List.getElem?_eq_getElem (by omega : k < v1.length)]
    rfl
  · rw [List.getElem?_eq_none (by omega), List.getElem?_eq_none (by omega : v1.length ≤ k)]
    exact hf.symm

theorem union_bit (v v1 : Vec) (h : v.length = v1.length) (m : Nat) : bit (vecUnion v v1) m = (bit v m || bit v1 m) := by
  unfold bit vecUnion
  rw [getD_zipWith _ (by decide) _ _ h, BitVec.getLsbD_or]

theorem inter_bit (v v1 : Vec) (h : v.length = v1.length) (m : Nat) : bit (vecInter v v1) m = (bit v m && bit v1 m) := by
  unfold bit vecInter
  rw [getD_zipWith _ (by decide) _ _ h, BitVec.getLsbD_and]

theorem union_len (v v1 : Vec) (h : v.length = v1.length) : (vecUnion v v1).length = v.length := by
  simp [vecUnion, ← h]

theorem inter_len (v v1 : Vec) (h : v.length = v1.length) : (vecInter v v1).length = v.length := by
  simp [vecInter, ← h]

theorem compl_len (v : Vec) : (vecCompl v).length = v.length := by simp [vecCompl]

theorem compl_bit (v : Vec) (m : Nat) (h : m < v.length * 64) : bit (vecCompl v) m = !bit v m := by
  unfold bit vecCompl
  have hk : m / 64 < v.length := by omega
  have hm : m % 64 < 64 := Nat.mod_lt _ (by omega)
  simp only [List.getD_eq_getElem?_getD, List.getElem?_map, List.getElem?_eq_getElem hk]
  simp [hm]

theorem nullInter_iff : ∀ (v v1 : Vec), v.length = v1.length →
    (vecNullInter v v1 = true ↔ ∀ m, ¬ (bit v m = true ∧ bit v1 m = true))
  | [], v1, h => by
    have : v1 = [] := List.length_eq_zero_iff.1 h.symm
    subst this
    simp [vecNullInter, bit]
  | w :: v, [], h => by simp at h
  | w :: v, w1 :: v1, h => by
    have ih := nullInter_iff v v1 (by simpa using h)
    unfold vecNullInter
    by_cases hw : w &&& w1 = 0#64
    · rw [if_neg (by simp [hw]), ih]
      constructor
      · intro hh m ⟨h1, h2⟩
        by_cases hm : m < 64
        · have e1 : bit (w :: v) m = w.getLsbD m := by
            unfold bit; rw [show m / 64 = 0 by omega, show m % 64 = m by omega]; rfl
          have e2 : bit (w1 :: v1) m = w1.getLsbD m := by
            unfold bit; rw [show m / 64 = 0 by omega, show m % 64 = m by omega]; rfl
          have := congrArg (fun x => BitVec.getLsbD x m) hw
          simp only [BitVec.getLsbD_and, ← e1, ← e2, h1, h2, BitVec.getLsbD_zero] at this
          cases this
        · apply hh (m - 64)
          unfold bit at h1 h2 ⊢
          rw [show m / 64 = (m - 64) / 64 + 1 by omega, show m % 64 = (m - 64) % 64 by omega] at h1 h2
          exact ⟨h1, h2⟩
      · intro hh m ⟨h1, h2⟩
        apply hh (m + 64)
        unfold bit at h1 h2 ⊢
        rw [show (m + 64) / 64 = m / 64 + 1 by omega, show (m + 64) % 64 = m % 64 by omega]
        exact ⟨h1, h2⟩
    · rw [if_pos (by simpa using hw)]
      constructor
      · intro hh; cases hh
      · intro hh
        obtain ⟨j, hj, hb⟩ := word_ne_zero hw
        exfalso
        rw [BitVec.getLsbD_and, Bool.and_eq_true] at hb
        apply hh j
        unfold bit
        rw [show j / 64 = 0 by omega, show j % 64 = j by omega]
        exact hb

/-! enumeration -/

theorem filter_range'_cons (p : Nat → Bool) (k e : Nat) :
    (List.range' e (k + 1)).filter p = if p e then e :: (List.range' (e + 1) k).filter p else (List.range' (e + 1) k).filter p := by
  rw [List.range'_succ, List.filter_cons]

theorem enumWord_eq : ∀ (k : Nat) (w : Word) (e : Nat), k ≤ 64 →
    enumWord k w e = (List.range' e k).filter (fun n => w.getLsbD (n - e))
  | 0, _, _, _ => by simp [enumWord]
  | k + 1, w, e, hk => by
    unfold enumWord
    rw [enumWord_eq k _ _ (by omega), filter_range'_cons]
    have hf : (List.range' (e + 1) k).filter (fun n => (w >>> 1).getLsbD (n - (e + 1)))
        = (List.range' (e + 1) k).filter (fun n => w.getLsbD (n - e)) := by
      apply List.filter_congr
      intro x hx
      rw [BitVec.getLsbD_ushiftRight]
      have := (List.mem_range'_1.1 hx).1
      rw [show 1 + (x - (e + 1)) = x - e by omega]
    have h0 : (w &&& 1#64 != 0#64) = w.getLsbD 0 := by
      have := tst_eq [w] 0
      simpa [tst, bit] using this
    rw [hf, h0, Nat.sub_self]

theorem enumVec_eq : ∀ (v : Vec) (e : Nat), enumVec v e = (List.range' e (v.length * 64)).filter (fun n => bit v (n - e))
  | [], e => by simp [enumVec]
  | w :: v, e => by
    unfold enumVec
    rw [enumVec_eq v, enumWord_eq 64 w e (by omega)]
    have hs : (w :: v).length * 64 = 64 + v.length * 64 := by simp; omega
    rw [hs, ← List.range'_append_1, List.filter_append]
    congr 1
    · apply List.filter_congr
      intro x hx
      have := List.mem_range'_1.1 hx
      unfold bit
      rw [show (x - e) / 64 = 0 by omega, show (x - e) % 64 = x - e by omega]; rfl
    · apply List.filter_congr
      intro x hx
      have := List.mem_range'_1.1 hx
      unfold bit
      rw [show (x - e) / 64 = (x - (e + 64)) / 64 + 1 by omega, show (x - e) % 64 = (x - (e + 64)) % 64 by omega]; rfl

/-- The elements of a vector, in increasing order. -/
theorem enum_eq (v : Vec) : enumVec v 0 = (List.range (v.length * 64)).filter (bit v) := by
  rw [enumVec_eq, List.range_eq_range']
  rfl

theorem mem_enum (v : Vec) (n : Nat) : n ∈ enumVec v 0 ↔ bit v n = true := by
  rw [enum_eq, List.mem_filter, List.mem_range]
  exact ⟨fun h => h.2, fun h => ⟨bit_lt h, h⟩⟩

theorem enum_sorted (v : Vec) : (enumVec v 0).Pairwise (· < ·) := by
  rw [enum_eq]
  exact List.Pairwise.sublist List.filter_sublist List.pairwise_lt_range

/-! number of elements -/

theorem countBits_eq (w : Word) (i : Nat) : ∀ (k : Nat), countBits w i k = ((List.range' i k).filter (fun n => w.getLsbD n)).length := by
  intro k
  induction k with
  | zero => simp [countBits]
  | succ k ih =>
    rw [List.range'_1_concat, List.filter_append, List.length_append]
    unfold countBits
    rw [ih]
    cases h : w.getLsbD (i + k) <;> simp [h]

theorem nbElem_eq : ∀ (v : Vec) (e : Nat), vecNbElem v = (enumVec v e).length
  | [], _ => rfl
  | w :: v, e => by
    unfold vecNbElem enumVec
    rw [List.length_append, ← nbElem_eq v, popcount_eq, countBits_eq, enumWord_eq 64 w e (by omega)]
    congr 1
    have : List.range' e 64 = (List.range' 0 64).map (fun x => e + x) := by
      rw [List.map_add_range']; rfl
    rw [this, List.filter_map, List.length_map]
    congr 1
    apply List.filter_congr
    intro x _
    simp

/-! first and last words -/

theorem findUp_some : ∀ {v : Vec} {i j : Nat} {w : Word}, findUp v i = some (j, w) →
    i ≤ j ∧ j - i < v.length ∧ v.getD (j - i) 0#64 = w ∧ w ≠ 0#64 ∧ ∀ k, k < j - i → v.getD k 0#64 = 0#64
  | [], i, j, w, h => by simp [findUp] at h
  | w0 :: v, i, j, w, h => by
    unfold findUp at h
    by_cases hw : w0 = 0#64
    · rw [if_neg (by simp [hw])] at h
      obtain ⟨h1, h2, h3, h4, h5⟩ := findUp_some h
      refine ⟨by omega, by simp; omega, ?_, h4, ?_⟩
      · rw [show j - i = (j - (i + 1)) + 1 by omega]; exact h3
      · intro k hk
        cases k with
        | zero => simpa using hw
        | succ k => exact h5 k (by omega)
    · rw [if_pos (by simpa using hw)] at h
      cases h
      refine ⟨Nat.le_refl _, by simp, by simp, hw, ?_⟩
      intro k hk; omega

theorem findUp_none : ∀ {v : Vec} {i : Nat}, findUp v i = none → ∀ k, v.getD k 0#64 = 0#64
  | [], _, _, k => by simp
  | w0 :: v, i, h, k => by
    unfold findUp at h
    by_cases hw : w0 = 0#64
    · rw [if_neg (by simp [hw])] at h
      cases k with
      | zero => simpa using hw
      | succ k => exact findUp_none h k
    · rw [if_pos (by simpa using hw)] at h
      cases h

theorem findDown_some {v : Vec} : ∀ {i j : Nat} {w : Word}, findDown v i = some (j, w) →
    j < i ∧ v.getD j 0#64 = w ∧ w ≠ 0#64 ∧ ∀ k, j < k → k < i → v.getD k 0#64 = 0#64
  | 0, j, w, h => by simp [findDown] at h
  | i + 1, j, w, h => by
    unfold findDown at h
    by_cases hw : v.getD i 0#64 = 0#64
    · rw [if_neg (by simpa using hw)] at h
      obtain ⟨h1, h2, h3, h4⟩ := findDown_some h
      refine ⟨by omega, h2, h3, ?_⟩
      intro k h5 h6
      by_cases hk : k = i
      · subst hk; exact hw
      · exact h4 k h5 (by omega)
    · rw [if_pos (by simpa using hw)] at h
      cases h
      exact ⟨by omega, rfl, hw, fun k h1 h2 => by omega⟩

theorem findDown_none {v : Vec} : ∀ {i : Nat}, findDown v i = none → ∀ k, k < i → v.getD k 0#64 = 0#64
  | 0, _, k, hk => by omega
  | i + 1, h, k, hk => by
    unfold findDown at h
    by_cases hw : v.getD i 0#64 = 0#64
    · rw [if_neg (by simpa using hw)] at h
      by_cases hk' : k = i
      · subst hk'; exact hw
      · exact findDown_none h k (by omega)
    · rw [if_pos (by simpa using hw)] at h
      cases h

theorem bit_of_word_zero {v : Vec} {n : Nat} (h : v.getD (n / 64) 0#64 = 0#64) : bit v n = false := by
  unfold bit; rw [h, BitVec.getLsbD_zero]

/-- The least bit of the first word which is not null. -/
theorem up_least {v : Vec} {j : Nat} {w : Word} (h : findUp v 0 = some (j, w)) :
    bit v (j * 64 + lsb w) = true ∧ ∀ m, m < j * 64 + lsb w → bit v m = false := by
  obtain ⟨_, h2, h3, h4, h5⟩ := findUp_some h
  obtain ⟨l1, l2, l3⟩ := lsb_spec h4
  rw [Nat.sub_zero] at h3 h5
  constructor
  · rw [bit_mk _ _ _ l1, h3]; exact l2
  · intro m hm
    by_cases hj : m / 64 < j
    · exact bit_of_word_zero (h5 _ hj)
    · have e : m / 64 = j := by omega
      unfold bit
      rw [e, h3]
      exact l3 _ (by omega)

theorem down_greatest {v : Vec} {i j : Nat} {w : Word} (h : findDown v i = some (j, w)) :
    bit v (j * 64 + msb w) = true ∧ ∀ m, j * 64 + msb w < m → m < i * 64 → bit v m = false := by
  obtain ⟨h1, h2, h3, h4⟩ := findDown_some h
  obtain ⟨l1, l2, l3⟩ := msb_spec h3
  constructor
  · rw [bit_mk _ _ _ l1, h2]; exact l2
  · intro m hm hm'
    by_cases hj : j < m / 64
    · exact bit_of_word_zero (h4 _ hj (by omega))
    · have e : m / 64 = j := by omega
      unfold bit
      rw [e, h2]
      exact l3 _ (by omega) (by omega)

/-! next, previous -/

theorem mask_low : ∀ (b j : Fin 64), ((1#64 <<< b.val) - 1#64).getLsbD j.val = decide (j.val < b.val) := by decide +kernel

theorem maskLow (b j : Nat) (hb : b < 64) (hj : j < 64) : ((1#64 <<< b) - 1#64).getLsbD j = decide (j < b) :=
  mask_low ⟨b, hb⟩ ⟨j, hj⟩

theorem getD_drop (v : Vec) (k i : Nat) : (v.drop k).getD i 0#64 = v.getD (k + i) 0#64 := by
  simp only [List.getD_eq_getElem?_getD, List.getElem?_drop]

/-- The result of a search of the next element. -/
def NextOf (p : Nat → Bool) (n r : Int) : Prop :=
  (r = -1 ∧ ∀ m : Nat, n < m → p m = false) ∨
  (0 ≤ r ∧ n < r ∧ p r.toNat = true ∧ ∀ m : Nat, n < m → (m : Int) < r → p m = false)

/-- The result of a search of the previous element. -/
def PrevOf (p : Nat → Bool) (n r : Int) : Prop :=
  (r = -1 ∧ ∀ m : Nat, (m : Int) < n → p m = false) ∨
  (0 ≤ r ∧ r < n ∧ p r.toNat = true ∧ ∀ m : Nat, (m : Int) < n → r < (m : Int) → p m = false)

theorem nextAfter_spec (c : Cfg) (v : Vec) (n : Int) (hl : v.length = c.size) : NextOf (bit v) n (vecNextAfter c v n) := by
  unfold vecNextAfter
  by_cases h0 : n ≥ 0
  · rw [if_pos h0]
    by_cases h1 : n > c.vmax
    · rw [if_pos h1]
      left
      refine ⟨rfl, fun m hm => bit_ge _ _ ?_⟩
      unfold Cfg.vmax at h1
      omega
    · rw [if_neg h1]
      unfold Cfg.vmax at h1
      simp only
      generalize hword : (if n.toNat % 64 + 1 ≥ 64 then 0#64
        else v.getD (n.toNat / 64) 0#64 &&& ~~~ ((1#64 <<< (n.toNat % 64 + 1)) - 1#64)) = word
      have hbits : ∀ j, j < 64 → word.getLsbD j = (decide (n.toNat % 64 < j) && (v.getD (n.toNat / 64) 0#64).getLsbD j) := by
        intro j hj
        rw [← hword]
        by_cases hb : n.toNat % 64 + 1 ≥ 64
        · rw [if_pos hb, BitVec.getLsbD_zero]
          have : ¬ (n.toNat % 64 < j) := by omega
          simp [this]
        · rw [if_neg hb, BitVec.getLsbD_and, BitVec.getLsbD_not, maskLow _ _ (by omega) hj, Bool.and_comm]
          congr 1
          simp only [hj, decide_true, Bool.true_and, ← decide_not, decide_eq_decide]
          omega
      by_cases hw : word = 0#64
      · rw [if_neg (by simp [hw])]
        have hsame : ∀ m : Nat, n < m → m / 64 = n.toNat / 64 → bit v m = false := by
          intro m hm he
          have := hbits (m % 64) (Nat.mod_lt _ (by omega))
          rw [hw, BitVec.getLsbD_zero] at this
          have h2 : n.toNat % 64 < m % 64 := by omega
          unfold bit
          rw [he]
          simpa [h2] using this.symm
        cases hf : findUp (v.drop (n.toNat / 64 + 1)) (n.toNat / 64 + 1) with
        | none =>
          left
          refine ⟨rfl, fun m hm => ?_⟩
          by_cases he : m / 64 = n.toNat / 64
          · exact hsame m hm he
          · have := findUp_none hf (m / 64 - (n.toNat / 64 + 1))
            rw [getD_drop] at this
            apply bit_of_word_zero
            rw [← this]; congr 1; omega
        | some jw =>
          obtain ⟨j, w⟩ := jw
          obtain ⟨f1, f2, f3, f4, f5⟩ := findUp_some hf
          rw [getD_drop] at f3
          obtain ⟨l1, l2, l3⟩ := lsb_spec f4
          have e : n.toNat / 64 + 1 + (j - (n.toNat / 64 + 1)) = j := by omega
          rw [e] at f3
          right
          simp only
          refine ⟨by omega, by omega, ?_, ?_⟩
          · rw [show ((j : Int) * 64 + (lsb w : Int)).toNat = j * 64 + lsb w by omega, bit_mk _ _ _ l1, f3]; exact l2
          · intro m hm hm'
            by_cases he : m / 64 = n.toNat / 64
            · exact hsame m hm he
            · by_cases he' : m / 64 = j
              · unfold bit
                rw [he', f3]; exact l3 _ (by omega)
              · have := f5 (m / 64 - (n.toNat / 64 + 1)) (by omega)
                rw [getD_drop] at this
                apply bit_of_word_zero
                rw [← this]; congr 1; omega
      · rw [if_pos (by simpa using hw)]
        obtain ⟨l1, l2, l3⟩ := lsb_spec hw
        have l2' := l2
        rw [hbits _ l1, Bool.and_eq_true, decide_eq_true_eq] at l2'
        right
        simp only
        refine ⟨by omega, by omega, ?_, ?_⟩
        · rw [show (((n.toNat / 64 : Nat) : Int) * 64 + (lsb word : Int)).toNat = n.toNat / 64 * 64 + lsb word by omega,
            bit_mk _ _ _ l1]
          exact l2'.2
        · intro m hm hm'
          have h3 := l3 (m % 64) (by omega)
          rw [hbits _ (Nat.mod_lt _ (by omega))] at h3
          have h4 : n.toNat % 64 < m % 64 := by omega
          unfold bit
          rw [show m / 64 = n.toNat / 64 by omega]
          simpa [h4] using h3
  · rw [if_neg h0]
    cases hf : findUp v 0 with
    | none =>
      left
      exact ⟨rfl, fun m _ => bit_of_word_zero (findUp_none hf _)⟩
    | some jw =>
      obtain ⟨j, w⟩ := jw
      obtain ⟨u1, u2⟩ := up_least hf
      right
      simp only
      refine ⟨by omega, by omega, ?_, fun m _ hm => u2 m (by omega)⟩
      rw [show ((j : Int) * 64 + (lsb w : Int)).toNat = j * 64 + lsb w by omega]; exact u1

theorem nextBefore_spec (c : Cfg) (v : Vec) (n : Int) (hl : v.length = c.size) : PrevOf (bit v) n (vecNextBefore c v n) := by
  unfold vecNextBefore
  by_cases h0 : n ≤ c.vmax
  · rw [if_pos h0]
    by_cases h1 : n < 0
    · rw [if_pos h1]
      left
      exact ⟨rfl, fun m hm => by omega⟩
    · rw [if_neg h1]
      unfold Cfg.vmax at h0
      simp only
      generalize hword : (v.getD (n.toNat / 64) 0#64 &&& ((1#64 <<< (n.toNat % 64)) - 1#64)) = word
      have hbits : ∀ j, j < 64 → word.getLsbD j = (decide (j < n.toNat % 64) && (v.getD (n.toNat / 64) 0#64).getLsbD j) := by
        intro j hj
        rw [← hword, BitVec.getLsbD_and, maskLow _ _ (by omega) hj, Bool.and_comm]
      by_cases hw : word = 0#64
      · rw [if_neg (by simp [hw])]
        have hsame : ∀ m : Nat, (m : Int) < n → m / 64 = n.toNat / 64 → bit v m = false := by
          intro m hm he
          have := hbits (m % 64) (Nat.mod_lt _ (by omega))
          rw [hw, BitVec.getLsbD_zero] at this
          have h2 : m % 64 < n.toNat % 64 := by omega
          unfold bit
          rw [he]
          simpa [h2] using this.symm
        cases hf : findDown v (n.toNat / 64) with
        | none =>
          left
          refine ⟨rfl, fun m hm => ?_⟩
          by_cases he : m / 64 = n.toNat / 64
          · exact hsame m hm he
          · exact bit_of_word_zero (findDown_none hf _ (by omega))
        | some jw =>
          obtain ⟨j, w⟩ := jw
          obtain ⟨f1, _, f3, _⟩ := findDown_some hf
          obtain ⟨d1, d2⟩ := down_greatest hf
          have l1 := (msb_spec f3).1
          right
          simp only
          refine ⟨by omega, by omega, ?_, ?_⟩
          · rw [show ((j : Int) * 64 + (msb w : Int)).toNat = j * 64 + msb w by omega]; exact d1
          · intro m hm hm'
            by_cases he : m / 64 = n.toNat / 64
            · exact hsame m hm he
            · exact d2 m (by omega) (by omega)
      · rw [if_pos (by simpa using hw)]
        obtain ⟨l1, l2, l3⟩ := msb_spec hw
        have l2' := l2
        rw [hbits _ l1, Bool.and_eq_true, decide_eq_true_eq] at l2'
        right
        simp only
        refine ⟨by omega, by omega, ?_, ?_⟩
        · rw [show (((n.toNat / 64 : Nat) : Int) * 64 + (msb word : Int)).toNat = n.toNat / 64 * 64 + msb word by omega,
            bit_mk _ _ _ l1]
          exact l2'.2
        · intro m hm hm'
          have h3 := l3 (m % 64) (by omega) (by omega)
          rw [hbits _ (Nat.mod_lt _ (by omega))] at h3
          have h4 : m % 64 < n.toNat % 64 := by omega
          unfold bit
          rw [show m / 64 = n.toNat / 64 by omega]
          simpa [h4] using h3
  · rw [if_neg h0]
    unfold Cfg.vmax at h0
    cases hf : findDown v c.size with
    | none =>
      left
      refine ⟨rfl, fun m _ => ?_⟩
      by_cases hm : m / 64 < c.size
      · exact bit_of_word_zero (findDown_none hf _ hm)
      · exact bit_ge _ _ (by omega)
    | some jw =>
      obtain ⟨j, w⟩ := jw
      obtain ⟨f1, _, f3, _⟩ := findDown_some hf
      obtain ⟨d1, d2⟩ := down_greatest hf
      have l1 := (msb_spec f3).1
      right
      simp only
      refine ⟨by omega, by omega, ?_, fun m _ hm => ?_⟩
      · rw [show ((j : Int) * 64 + (msb w : Int)).toNat = j * 64 + msb w by omega]; exact d1
      · by_cases hm' : m < c.size * 64
        · exact d2 m (by omega) hm'
        · exact bit_ge _ _ (by omega)

/-! shift -/

theorem shiftUp_len (b : Nat) : ∀ (v : Vec) (rem : Word), (shiftUp b v rem).length = v.length
  | [], _ => rfl
  | w :: v, rem => by simp [shiftUp, shiftUp_len b v]

theorem shiftUp_getD (b : Nat) : ∀ (v : Vec) (rem : Word) (k : Nat), k < v.length →
    (shiftUp b v rem).getD k 0#64
      = (v.getD k 0#64 <<< b) ||| (if k = 0 then rem else v.getD (k - 1) 0#64 >>> (64 - b))
  | [], _, k, h => by simp at h
  | w :: v, rem, 0, _ => by simp [shiftUp]
  | w :: v, rem, k + 1, h => by
    show (shiftUp b v (w >>> (64 - b))).getD k 0#64 = _
    rw [shiftUp_getD b v _ k (by simpa using h)]
    cases k with
    | zero => simp
    | succ k => simp

theorem shiftDown_len (b : Nat) : ∀ (v : Vec), (shiftDown b v).1.length = v.length
  | [] => rfl
  | w :: v => by
    show ((w >>> b ||| (shiftDown b v).2) :: (shiftDown b v).1).length = _
    simp [shiftDown_len b v]

theorem shiftDown_rem (b : Nat) (v : Vec) : (shiftDown b v).2 = v.getD 0 0#64 <<< (64 - b) := by
  cases v with
  | nil => simp [shiftDown]
  | cons w v => rfl

theorem shiftDown_getD (b : Nat) : ∀ (v : Vec) (k : Nat), k < v.length →
    (shiftDown b v).1.getD k 0#64 = (v.getD k 0#64 >>> b) ||| (v.getD (k + 1) 0#64 <<< (64 - b))
  | [], k, h => by simp at h
  | w :: v, 0, _ => by
    show (w >>> b ||| (shiftDown b v).2) = _
    rw [shiftDown_rem]
    rfl
  | w :: v, k + 1, h => by
    show (shiftDown b v).1.getD k 0#64 = _
    rw [shiftDown_getD b v k (by simpa using h)]
    rfl

theorem shiftUp_bit (b : Nat) (hb : b < 64) (hb0 : b ≠ 0) (v : Vec) (m : Nat) (hm : m < v.length * 64) :
    bit (shiftUp b v 0#64) m = (decide (b ≤ m) && bit v (m - b)) := by
  have hm64 : m % 64 < 64 := Nat.mod_lt _ (by omega)
  unfold bit
  rw [shiftUp_getD b v _ _ (by omega), BitVec.getLsbD_or, BitVec.getLsbD_shiftLeft]
  by_cases h1 : m % 64 < b
  · by_cases h2 : m / 64 = 0
    · have : ¬ b ≤ m := by omega
      simp [h1, h2, this]
    · have h3 : b ≤ m := by omega
      rw [if_neg h2, BitVec.getLsbD_ushiftRight]
      simp only [h1, h3, decide_true, Bool.not_true, Bool.and_false, Bool.false_and, Bool.false_or, Bool.true_and]
      rw [show (m - b) / 64 = m / 64 - 1 by omega, show (m - b) % 64 = 64 - b + m % 64 by omega]
  · have h3 : b ≤ m := by omega
    have h4 : (if m / 64 = 0 then 0#64 else v.getD (m / 64 - 1) 0#64 >>> (64 - b)).getLsbD (m % 64) = false := by
      split
      · simp
      · rw [BitVec.getLsbD_ushiftRight, BitVec.getLsbD_of_ge _ _ (by omega)]
    rw [h4]
    simp only [h1, h3, hm64, decide_true, decide_false, Bool.not_false, Bool.true_and, Bool.or_false]
    rw [show (m - b) / 64 = m / 64 by omega, show (m - b) % 64 = m % 64 - b by omega]

theorem shiftDown_bit (b : Nat) (hb : b < 64) (hb0 : b ≠ 0) (v : Vec) (m : Nat) (hm : m < v.length * 64) :
    bit (shiftDown b v).1 m = bit v (m + b) := by
  have hm64 : m % 64 < 64 := Nat.mod_lt _ (by omega)
  unfold bit
  rw [shiftDown_getD b v _ (by omega), BitVec.getLsbD_or, BitVec.getLsbD_ushiftRight, BitVec.getLsbD_shiftLeft]
  by_cases h1 : m % 64 < 64 - b
  · simp only [h1, decide_true, Bool.not_true, Bool.and_false, Bool.false_and, Bool.or_false]
    rw [show (m + b) / 64 = m / 64 by omega, show (m + b) % 64 = b + m % 64 by omega]
  · rw [BitVec.getLsbD_of_ge _ (b + m % 64) (by omega)]
    simp only [h1, hm64, decide_true, decide_false, Bool.not_false, Bool.true_and, Bool.false_or]
    rw [show (m + b) / 64 = m / 64 + 1 by omega, show (m + b) % 64 = m % 64 - (64 - b) by omega]

theorem bit_append_left (v v1 : Vec) (m : Nat) (h : m < v.length * 64) : bit (v ++ v1) m = bit v m := by
  unfold bit
  simp only [List.getD_eq_getElem?_getD]
  rw [List.getElem?_append_left (by omega)]

theorem bit_append_right (v v1 : Vec) (m : Nat) (h : v.length * 64 ≤ m) : bit (v ++ v1) m = bit v1 (m - v.length * 64) := by
  unfold bit
  simp only [List.getD_eq_getElem?_getD]
  rw [List.getElem?_append_right (by omega), show (m - v.length * 64) / 64 = m / 64 - v.length by omega,
    show (m - v.length * 64) % 64 = m % 64 by omega]

theorem bit_take (v : Vec) (k m : Nat) : bit (v.take k) m = (decide (m < k * 64) && bit v m) := by
  unfold bit
  simp only [List.getD_eq_getElem?_getD, List.getElem?_take]
  by_cases h : m / 64 < k
  · rw [if_pos h]
    have : m < k * 64 := by omega
    simp [this]
  · rw [if_neg h]
    have : ¬ m < k * 64 := by omega
    simp [this]

theorem bit_drop (v : Vec) (k m : Nat) : bit (v.drop k) m = bit v (k * 64 + m) := by
  unfold bit
  rw [getD_drop, show (k * 64 + m) / 64 = k + m / 64 by omega, show (k * 64 + m) % 64 = m % 64 by omega]

theorem bit_zeros (k m : Nat) : bit (List.replicate k 0#64) m = false := empty_bit k m

theorem addValue_len (size : Nat) (v : Vec) (n : Int) (hl : v.length = size) : (vecAddValue size v n).length = size := by
  unfold vecAddValue
  simp only
  repeat' split
  all_goals simp [shiftUp_len, shiftDown_len, hl]
  all_goals omega

/-- Moving by words. -/
theorem wordsUp (size : Nat) (v : Vec) (wn : Nat) (hl : v.length = size) (m : Nat) (hm : m < size * 64) :
    bit (if wn ≠ 0 then (List.replicate (Min.min wn size) 0#64 ++ v).take size else v) m
      = (decide (wn * 64 ≤ m) && bit v (m - wn * 64)) := by
  by_cases hw : wn = 0
  · subst hw; simp
  · rw [if_pos hw, bit_take]
    simp only [hm, decide_true, Bool.true_and]
    by_cases h : wn * 64 ≤ m
    · rw [bit_append_right _ _ _ (by simp; omega)]
      simp only [h, decide_true, Bool.true_and, List.length_replicate]
      rw [show Min.min wn size = wn by omega]
    · rw [bit_append_left _ _ _ (by simp; omega), bit_zeros]
      simp [h]

theorem wordsDown (size : Nat) (v : Vec) (wn : Nat) (hl : v.length = size) (m : Nat) :
    bit (if wn ≠ 0 then v.drop wn ++ List.replicate (Min.min wn size) 0#64 else v) m = bit v (m + wn * 64) := by
  by_cases hw : wn = 0
  · subst hw; simp
  · rw [if_pos hw]
    by_cases h : m < (v.drop wn).length * 64
    · rw [bit_append_left _ _ _ h, bit_drop, Nat.add_comm]
    · rw [bit_append_right _ _ _ (by omega), bit_zeros, bit_ge]
      simp at h
      omega

theorem addValue_bit (size : Nat) (v : Vec) (n : Int) (hl : v.length = size) (m : Nat) (hm : m < size * 64) :
    bit (vecAddValue size v n) m = (decide (0 ≤ (m : Int) - n) && bit v ((m : Int) - n).toNat) := by
  unfold vecAddValue
  by_cases h0 : n ≥ 0
  · rw [if_pos h0]
    simp only
    generalize hv1 : (if n.toNat / 64 ≠ 0 then (List.replicate (Min.min (n.toNat / 64) size) 0#64 ++ v).take size else v) = v1
    have hb1 := fun m hm => wordsUp size v (n.toNat / 64) hl m hm
    rw [hv1] at hb1
    have hl1 : v1.length = size := by rw [← hv1]; split <;> simp [hl]
    by_cases hb : n.toNat % 64 = 0
    · rw [if_neg (by simp [hb]), hb1 m hm, show ((m : Int) - n).toNat = m - n.toNat / 64 * 64 by omega]
      congr 1
      rw [decide_eq_decide]; omega
    · rw [if_pos hb]
      by_cases hm1 : m < n.toNat / 64 * 64
      · have hk : m < (v1.take (n.toNat / 64)).length * 64 := by simp; omega
        rw [bit_append_left _ _ _ hk, bit_take, hb1 m hm]
        have h2 : ¬ n.toNat / 64 * 64 ≤ m := by omega
        have h3 : ¬ (0 ≤ (m : Int) - n) := by omega
        simp only [h2, h3, decide_false, Bool.false_and, Bool.and_false]
      · have hle : (v1.take (n.toNat / 64)).length = n.toNat / 64 := by simp; omega
        rw [bit_append_right _ _ _ (by omega), hle,
          shiftUp_bit _ (Nat.mod_lt _ (by omega)) hb _ _ (by simp; omega), bit_drop]
        by_cases h2 : n.toNat % 64 ≤ m - n.toNat / 64 * 64
        · rw [hb1 _ (by omega)]
          have h3 : 0 ≤ (m : Int) - n := by omega
          have h4 : n.toNat / 64 * 64 ≤ n.toNat / 64 * 64 + (m - n.toNat / 64 * 64 - n.toNat % 64) := by omega
          simp only [h2, h3, h4, decide_true, Bool.true_and]
          congr 1
          omega
        · have h3 : ¬ (0 ≤ (m : Int) - n) := by omega
          simp only [h2, h3, decide_false, Bool.false_and, Bool.and_false]
  · rw [if_neg h0]
    simp only
    have h3 : 0 ≤ (m : Int) - n := by omega
    simp only [h3, decide_true, Bool.true_and]
    generalize hv1 : (if (-n).toNat / 64 ≠ 0 then v.drop ((-n).toNat / 64) ++ List.replicate (Min.min ((-n).toNat / 64) size) 0#64
      else v) = v1
    have hb1 := fun m => wordsDown size v ((-n).toNat / 64) hl m
    rw [hv1] at hb1
    have hl1 : v1.length = size := by rw [← hv1]; split <;> simp [hl]; omega
    by_cases hb : (-n).toNat % 64 = 0
    · rw [if_neg (by simp [hb]), hb1 m]
      congr 1; omega
    · rw [if_pos hb]
      have hle : (shiftDown ((-n).toNat % 64) (v1.take (size - (-n).toNat / 64))).1.length = size - (-n).toNat / 64 := by
        rw [shiftDown_len]; simp; omega
      by_cases hm1 : m < (size - (-n).toNat / 64) * 64
      · rw [bit_append_left _ _ _ (by rw [hle]; exact hm1), shiftDown_bit _ (Nat.mod_lt _ (by omega)) hb _ _ (by simp; omega),
          bit_take]
        by_cases hm2 : m + (-n).toNat % 64 < (size - (-n).toNat / 64) * 64
        · rw [hb1]
          simp only [hm2, decide_true, Bool.true_and]
          congr 1; omega
        · simp only [hm2, decide_false, Bool.false_and]
          rw [bit_ge _ _ (by omega)]
      · rw [bit_append_right _ _ _ (by omega), hle, bit_drop, hb1, bit_ge _ _ (by omega), bit_ge _ _ (by omega)]

end Gp.FdRange
