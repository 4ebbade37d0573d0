import Verif.Format.Lemmas
namespace Gp.Format
open Spec

theorem dec_eq (x : Nat) : dec x = decimal x := by
  fun_induction dec x with
  | case1 x h => rw [decimal, digits, dif_neg (by omega)]; simp [digitChar, h]
  | case2 x h ih =>
    have h10 : x % 10 < 10 := Nat.mod_lt _ (by omega)
    rw [decimal, digits, dif_pos (by omega), List.map_append, ih, decimal]
    simp [digitChar, h10]

theorem decimal_small {x : Nat} (h : x < 10) : decimal x = [48 + x] := by
  rw [← dec_eq, dec, if_pos h]

theorem decimal_big {x : Nat} (h : 10 ≤ x) : decimal x = decimal (x / 10) ++ [48 + x % 10] := by
  rw [← dec_eq, dec, if_neg (by omega), dec_eq]

theorem decimal_ne (x : Nat) : decimal x ≠ [] := by
  by_cases h : x < 10
  · rw [decimal_small h]; simp
  · rw [decimal_big (by omega)]; simp

theorem lastDigits_succ (n y : Nat) : lastDigits (n + 1) y = lastDigits n (y / 10) ++ [48 + y % 10] := by
  simp only [lastDigits, List.range_succ, List.map_append, List.map_cons, List.map_nil]
  congr 1
  · refine List.map_congr_left fun i hi => ?_
    have : i < n := List.mem_range.1 hi
    have e : n + 1 - 1 - i = (n - 1 - i) + 1 := by omega
    rw [e, Nat.pow_succ, Nat.mul_comm, Nat.div_div_eq_div_mul]
  · simp

@[simp] theorem lastDigits_length (n y : Nat) : (lastDigits n y).length = n := by simp [lastDigits]

/-- The digits of a number: those of the quotient, and the last ones. -/
theorem decimal_split (n : Nat) : ∀ {x : Nat}, 10 ^ n ≤ x → decimal x = decimal (x / 10 ^ n) ++ lastDigits n x := by
  induction n with
  | zero => intro x _; simp [lastDigits]
  | succ n ih =>
    intro x h
    have h1 : 10 ^ n ≤ x / 10 := by
      rw [Nat.le_div_iff_mul_le (by omega), ← Nat.pow_succ]; exact h
    have h10 : 10 ≤ x := by
      have : 1 ≤ 10 ^ n := Nat.pow_pos (by omega)
      have := Nat.pow_succ 10 n
      omega
    rw [decimal_big h10, ih h1, lastDigits_succ, Nat.div_div_eq_div_mul, ← Nat.pow_succ', List.append_assoc]

/-- The last digits of a small number: zeros, and its digits. -/
theorem lastDigits_small (n : Nat) : ∀ {x : Nat}, 0 < n → x < 10 ^ n →
    lastDigits n x = List.replicate (n - (decimal x).length) 48 ++ decimal x ∧ (decimal x).length ≤ n := by
  induction n with
  | zero => intro x h; omega
  | succ n ih =>
    intro x _ h
    by_cases hx : x < 10
    · have e0 : ∀ k, lastDigits k 0 = List.replicate k 48 := by
        intro k; simp only [lastDigits, Nat.zero_div, Nat.zero_mod, Nat.add_zero, List.map_const', List.length_range]
      rw [lastDigits_succ, Nat.div_eq_of_lt hx, e0, decimal_small hx, Nat.mod_eq_of_lt hx]
      simp
    · have hn : 0 < n := by
        rcases Nat.eq_zero_or_pos n with h0 | h0
        · subst h0; simp at h; omega
        · exact h0
      have h1 : x / 10 < 10 ^ n := by
        rw [Nat.div_lt_iff_lt_mul (by omega), ← Nat.pow_succ]; exact h
      obtain ⟨a, b⟩ := ih hn h1
      rw [lastDigits_succ, a, decimal_big (x := x) (by omega), List.length_append, List.length_singleton, ← List.append_assoc]
      refine ⟨?_, by omega⟩
      congr 3
      omega

theorem decimal_length_gt {n x : Nat} (h : 10 ^ n ≤ x) : n < (decimal x).length := by
  rw [decimal_split n h, List.length_append, lastDigits_length]
  have := List.length_pos_iff.2 (decimal_ne (x / 10 ^ n))
  omega

theorem group_length_le : ∀ s : List Nat, s.length ≤ (group s).length
  | [] => by simp [group]
  | c :: s => by
    have := group_length_le s
    rw [group]
    split <;> simp only [List.length_cons] <;> omega

/-- The loop without a separator: a point before the character `lg`. -/
theorem dLoop_plain (lg : Int) : ∀ (s : List Nat) (i : Int), 0 ≤ i →
    dLoop lg i (-1) s = if i ≤ lg ∧ lg < i + s.length then s.take (lg - i).toNat ++ 46 :: s.drop (lg - i).toNat else s
  | [], i, _ => by
    rw [dLoop, if_neg (by simp only [List.length_nil]; omega)]
  | c :: s, i, hi => by
    have ih := dLoop_plain lg s (i + 1) (by omega)
    have e : (if i = -1 then (-1 : Int) + 3 else -1) = -1 := if_neg (by omega)
    have e' : (if i = -1 then [44] else ([] : List Nat)) = [] := if_neg (by omega)
    by_cases h : i = lg
    · subst h
      rw [dLoop]
      simp only [if_true, e, e', List.nil_append, ih]
      rw [if_neg (by omega), if_pos (by simp only [List.length_cons]; omega)]
      simp
    · rw [dLoop]
      simp only [if_neg h, e, e', List.nil_append, ih]
      by_cases hc : i + 1 ≤ lg ∧ lg < i + 1 + s.length
      · rw [if_pos hc, if_pos (by simp only [List.length_cons]; omega)]
        have : (lg - i).toNat = (lg - (i + 1)).toNat + 1 := by omega
        rw [this]
        simp
      · rw [if_neg hc, if_neg (by simp only [List.length_cons]; omega)]

/-- The next comma: the first position from `i` at a multiple of three before `lg`. -/
theorem dLoop_group (lg : Int) : ∀ (s : List Nat) (a : List Nat) (i stop : Int), 0 ≤ i → i + a.length = lg → a ≠ [] →
    i < stop ∨ (i = stop ∧ 0 < i) → (lg - stop) % 3 = 0 → stop < i + 3 ∨ (stop = 3 ∧ i = 0) →
    dLoop lg i stop (a ++ s) =
      (if i = stop then [44] else []) ++ group a ++ (if s = [] then [] else 46 :: s)
  | s, [], _, _, _, _, h, _, _, _ => (h rfl).elim
  | s, c :: a, i, stop, hi, hlg, _, hs, hm, hb => by
    simp only [List.length_cons] at hlg
    have hne : i ≠ lg := by omega
    rw [List.cons_append, dLoop]
    simp only [if_neg hne, List.nil_append]
    rcases List.eq_nil_or_concat a with ha | ha
    · subst ha
      have hst : dLoop lg (i + 1) (if i = stop then stop + 3 else stop) s = if s = [] then [] else 46 :: s := by
        cases s with
        | nil => rfl
        | cons d s =>
          simp only [List.length_nil] at hlg
          rw [dLoop]
          simp only [show i + 1 = lg by omega, if_true, if_neg (show ¬ lg = -1 by omega), List.nil_append]
          rw [dLoop_plain lg s (lg + 1) (by omega), if_neg (by omega)]
          rfl
      have hg1 : group [c] = [c] := by simp [group]
      rw [List.nil_append, hst, hg1]
      simp
    · have hane : a ≠ [] := by obtain ⟨l, x, rfl⟩ := ha; simp
      have hal : 0 < a.length := List.length_pos_iff.2 hane
      have ih := dLoop_group lg s a (i + 1) (if i = stop then stop + 3 else stop) (by omega) (by omega) hane
        (by split <;> omega) (by split <;> omega) (by split <;> omega)
      rw [ih, group]
      have key : (i + 1 = if i = stop then stop + 3 else stop) ↔ (a ≠ [] ∧ a.length % 3 = 0) := by
        constructor
        · intro h; refine ⟨hane, ?_⟩; split at h <;> omega
        · intro h; have := h.2; split <;> omega
      by_cases hk : a ≠ [] ∧ a.length % 3 = 0
      · rw [if_pos (key.2 hk), if_pos hk]; simp
      · rw [if_neg (fun h => hk (key.1 h)), if_neg hk]; simp

theorem toInt32_id {x : Int} (h1 : -2 ^ 31 ≤ x) (h2 : x < 2 ^ 31) : toInt32 x = x := by
  unfold toInt32; omega

/-- `~Nd` and `~ND`. -/
theorem dirD_eq (big : Bool) (n x : Int) (hn : 0 ≤ n)
    (h : (shifted (if big then group else id) n.toNat x).length < 2 ^ 31) :
    dirD big n x = shifted (if big then group else id) n.toNat x := by
  have hg : ∀ s : List Nat, s.length ≤ ((if big then group else id) s).length := by
    intro s; cases big
    · exact Nat.le_refl _
    · exact group_length_le s
  unfold dirD
  by_cases h0 : n = 0 ∧ big = false
  · obtain ⟨rfl, rfl⟩ := h0
    simp only [and_self, if_true, shifted, sign, decInt, Int.toNat_zero, Nat.pow_zero, Nat.div_one, Bool.false_eq_true, if_false, id,
      List.append_nil, dec_eq]
    split <;> rfl
  · rw [if_neg h0]
    simp only [dec_eq]
    have esign : (if x < 0 then [45] else []) = sign x := rfl
    rw [esign]
    have hs : (shifted (if big then group else id) n.toNat x) = sign x ++ (if big then group else id) (decimal (x.natAbs / 10 ^ n.toNat)) ++
        (if n.toNat = 0 then [] else 46 :: lastDigits n.toNat x.natAbs) := rfl
    have hlen : ((decimal (x.natAbs / 10 ^ n.toNat)).length : Int) + n.toNat < 2 ^ 31 := by
      rw [hs] at h
      simp only [List.length_append] at h
      have h1 := hg (decimal (x.natAbs / 10 ^ n.toNat))
      have h2 : n.toNat ≤ (if n.toNat = 0 then [] else 46 :: lastDigits n.toNat x.natAbs).length := by
        split
        · omega
        · simp
      omega
    by_cases hx : 10 ^ n.toNat ≤ x.natAbs ∨ n.toNat = 0
    · have hsp : decimal x.natAbs = decimal (x.natAbs / 10 ^ n.toNat) ++ lastDigits n.toNat x.natAbs := by
        rcases hx with hx | hx
        · exact decimal_split n.toNat hx
        · rw [hx]; simp [lastDigits]
      have hl : (decimal x.natAbs).length = (decimal (x.natAbs / 10 ^ n.toNat)).length + n.toNat := by
        rw [hsp, List.length_append, lastDigits_length]
      have hpos := List.length_pos_iff.2 (decimal_ne (x.natAbs / 10 ^ n.toNat))
      have hlg : ((decimal x.natAbs).length : Int) - n = (decimal (x.natAbs / 10 ^ n.toNat)).length := by omega
      rw [hlg, toInt32_id (by omega) (by omega), if_neg (by omega), hs, List.append_assoc]
      congr 1
      rw [hsp]
      cases big with
      | false =>
        simp only [Bool.false_eq_true, if_false, id]
        rw [if_neg (by omega), dLoop_plain _ _ 0 (by omega)]
        have hn0 : n.toNat ≠ 0 := fun e => h0 ⟨by omega, rfl⟩
        rw [if_pos (by simp only [List.length_append, lastDigits_length]; omega), if_neg hn0]
        simp
      | true =>
        simp only [if_true]
        rw [dLoop_group _ (lastDigits n.toNat x.natAbs) (decimal (x.natAbs / 10 ^ n.toNat)) 0 _ (by omega) (by omega) (decimal_ne _)
          (by split <;> omega) (by split <;> omega) (by split <;> omega)]
        rw [if_neg (by split <;> omega), List.nil_append]
        congr 1
        by_cases hn0 : n.toNat = 0
        · rw [if_pos hn0, if_pos (by simp [hn0, lastDigits])]
        · rw [if_neg hn0, if_neg (by intro e; have := congrArg List.length e; simp at this; omega)]
    · have hn0 : 0 < n.toNat := by omega
      obtain ⟨h1, h2⟩ := lastDigits_small n.toNat hn0 (by omega : x.natAbs < 10 ^ n.toNat)
      have hlg : toInt32 ((decimal x.natAbs).length - n) = (decimal x.natAbs).length - n := toInt32_id (by omega) (by omega)
      rw [hlg, if_pos (by omega), hs, List.append_assoc (sign x)]
      congr 1
      rw [Nat.div_eq_of_lt (by omega), decimal_small (by omega : 0 < 10), if_neg (show ¬ n.toNat = 0 by omega), h1]
      have e : (-(((decimal x.natAbs).length : Int) - n)).toNat = n.toNat - (decimal x.natAbs).length := by omega
      rw [e]
      cases big <;> simp [group]

theorem rLoop_eq (k n : Nat) (hn : 2 ≤ n) : ∀ (x : Nat) (acc : List Nat),
    rLoop k n x acc = (digits n x).map (fun i => if i < 10 then i + 48 else i + k) ++ acc := by
  intro x
  induction x using Nat.strongRecOn with
  | ind x ih =>
    intro acc
    rw [rLoop, digits]
    by_cases h : n ≤ x
    · have h1 : x / n ≠ 0 := by
        have := Nat.div_pos h (by omega)
        omega
      rw [dif_pos ⟨hn, h1⟩, dif_pos ⟨hn, h⟩, ih (x / n) (Nat.div_lt_self (by omega) (by omega)), List.map_append, List.append_assoc]
      rfl
    · have h1 : x / n = 0 := Nat.div_eq_of_lt (by omega)
      rw [dif_neg (by simp [h1]), dif_neg (by omega), Nat.mod_eq_of_lt (by omega)]
      rfl

theorem dirR_eq (big : Bool) (n x : Int) (hn : 2 ≤ n) :
    dirR big n x = sign x ++ (digits n.toNat x.natAbs).map (digitChar (if big then 65 else 97)) := by
  unfold dirR
  rw [rLoop_eq _ _ (by omega), List.append_nil]
  show sign x ++ _ = _
  congr 1
  refine List.map_congr_left fun i _ => ?_
  unfold digitChar
  by_cases h : i < 10
  · rw [if_pos h, if_pos h]; omega
  · rw [if_neg h, if_neg h]; cases big <;> simp <;> omega

end Gp.Format
