import Verif.FdMath.Ops

/-! # The operators on loaded words -/

namespace Gp.FdMath

/-- A constant word is in the bound. -/
def WB (B : Nat) (w : W) : Prop := ∀ n, w = .int n → 0 ≤ n ∧ n ≤ (B : Int)

structure BinS (r : Res Poly) (st : St) (p : Poly) (s : Int) (w1 w2 : W) (B : Nat)
    (G : Int → Int → Option Int) : Prop where
  stat : ∀ p' st', r = .ok p' st' →
    Grow st st' ∧ Good st' ∧ PA st' p' ∧ p'.nrm one ≤ p.nrm one + B
  sound : ∀ p' st', r = .ok p' st' → ∀ τ, Dom τ → 0 ≤ w1.iv τ → 0 ≤ w2.iv τ → Sat τ st' →
    ∃ x, G (w1.iv τ) (w2.iv τ) = some x ∧ p'.eval τ = p.eval τ + s * x ∧
      (x.natAbs ≤ B → p'.nrm (nv τ) ≤ p.nrm (nv τ) + B)
  ext : ∀ τ, Dom τ → Sat τ st → 0 ≤ w1.iv τ → 0 ≤ w2.iv τ →
    ∀ x, G (w1.iv τ) (w2.iv τ) = some x → 0 ≤ x → x ≤ MAX →
      r ≠ .fail ∧ ∀ p' st', r = .ok p' st' → ∃ τ', Ext st τ st' τ'

section
variable {st : St} {p : Poly} {s : Int} {w1 w2 : W} {B : Nat} {G : Int → Int → Option Int}

/-- A constant result. -/
theorem binA {n : Int} (hs : Sgn s) (g : Good st) (hp : PA st p) (hB : n.natAbs ≤ B)
    (hG : ∀ τ, 0 ≤ w1.iv τ → 0 ≤ w2.iv τ → G (w1.iv τ) (w2.iv τ) = some n) :
    BinS (.ok (p.addCst s n) st) st p s w1 w2 B G := by
  refine ⟨fun p' st' h => ?_, fun p' st' h τ d h1 h2 sa => ?_, fun τ d sa h1 h2 x hx _ _ =>
    ⟨by simp, fun p' st' h => ?_⟩⟩ <;> simp only [Res.ok.injEq] at h <;> obtain ⟨rfl, rfl⟩ := h
  · refine ⟨Grow.refl _, g, hp, ?_⟩
    have := addCst_nrm p hs n one; omega
  · refine ⟨n, hG τ h1 h2, addCst_eval _ _ _ _, fun _ => ?_⟩
    have := addCst_nrm p hs n (nv τ); omega
  · exact ⟨τ, Ext.refl d sa⟩

/-- The result of a delayed constraint. -/
theorem binB {d : NL} (hs : Sgn s) (g : Good st) (hp : PA st p) (hB : 1 ≤ B)
    (h1 : WAlloc st w1) (h2 : WAlloc st w2) (hd : ∀ w ∈ d.words, WAlloc st w)
    (hiff : ∀ τ z, 0 ≤ w1.iv τ → 0 ≤ w2.iv τ → 0 ≤ τ z →
      (satAll τ (d.post (.var z)) ↔ G (w1.iv τ) (w2.iv τ) = some (τ z))) :
    BinS (pushAdd d 1 s p st) st p s w1 w2 B G := by
  refine ⟨fun p' st' h => ?_, fun p' st' h τ dm k1 k2 sa => ?_, fun τ dm sa k1 k2 x hx x0 xM =>
    ⟨pushAdd_not_fail, fun p' st' h => ?_⟩⟩ <;> obtain ⟨z, e1, e2, e3, e4⟩ := pushAdd_ok hs h
  · refine ⟨push_grow e1, push_good e1 g hd, e4 hp, ?_⟩
    have := e3 one
    simp only [one] at this ⊢; simp at this; omega
  · refine ⟨τ z, (hiff τ z k1 k2 (dm z).1).mp (push_sat e1 sa), by rw [e2]; simp, fun hx => ?_⟩
    have := e3 (nv τ)
    simp only [nv] at this ⊢; simp at this; have := (dm z).1; omega
  · have hz : ¬ Alloc st z := by
      obtain ⟨rfl, rfl⟩ := push_ok e1; exact fresh_heap st
    have a := agree_upd (τ := τ) (n := x) hz
    refine ⟨_, push_ext (n := x) e1 g dm sa ⟨x0, xM⟩ ((hiff _ z ?_ ?_ ?_).mpr ?_)⟩
    · rw [← iv_agree a h1]; exact k1
    · rw [← iv_agree a h2]; exact k2
    · rw [upd_same]; exact x0
    · rw [← iv_agree a h1, ← iv_agree a h2, upd_same]; exact hx

/-- The result is a word itself. -/
theorem binC {x : Var} (hs : Sgn s) (g : Good st) (hp : PA st p) (hB : 1 ≤ B) (hx : Alloc st x)
    (hG : ∀ τ, 0 ≤ w1.iv τ → 0 ≤ w2.iv τ → G (w1.iv τ) (w2.iv τ) = some (τ x)) :
    BinS (addMonom p s 1 x st) st p s w1 w2 B G := by
  refine ⟨fun p' st' h => ?_, fun p' st' h τ dm k1 k2 sa => ?_, fun τ dm sa k1 k2 x hx x0 xM =>
    ⟨addMonom_not_fail, fun p' st' h => ?_⟩⟩ <;> obtain ⟨rfl, e2, e3, e4⟩ := addMonom_ok hs h
  · refine ⟨Grow.refl _, g, e4 _ hp hx, ?_⟩
    have := e3 one
    simp only [one] at this ⊢; simp at this; omega
  · refine ⟨τ x, hG τ k1 k2, by rw [e2]; simp, fun hx => ?_⟩
    have := e3 (nv τ)
    simp only [nv] at this ⊢; simp at this; have := (dm x).1; omega
  · exact ⟨τ, Ext.refl dm sa⟩

/-- Failure. -/
theorem binD (hG : ∀ τ, 0 ≤ w1.iv τ → 0 ≤ w2.iv τ → G (w1.iv τ) (w2.iv τ) = none) :
    BinS .fail st p s w1 w2 B G :=
  ⟨by simp, by simp, fun τ _ _ h1 h2 x hx => by rw [hG τ h1 h2] at hx; cases hx⟩

theorem binE : BinS .err st p s w1 w2 B G :=
  ⟨by simp, by simp, fun _ _ _ _ _ _ _ _ _ => ⟨by simp, by simp⟩⟩

end

/-! ## `Pl_Power` -/

theorem powLoop_mod (f n xn xp : Nat) (hf : n < 2 ^ f) :
    powLoop f n xn xp % 2 ^ 32 = xn * xp ^ n % 2 ^ 32 := by
  induction f generalizing n xn xp with
  | zero => simp at hf; subst hf; simp [powLoop]
  | succ f ih =>
    unfold powLoop
    split
    · rename_i h; subst h; simp
    · have hp : xp ^ n = (xp * xp) ^ (n / 2) * xp ^ (n % 2) := by
        rw [← Nat.pow_two, ← Nat.pow_mul, ← Nat.pow_add]
        congr 1; omega
      rw [ih _ _ _ (by rw [Nat.pow_succ] at hf; omega), hp]
      have h2 : (xp * xp % 2 ^ 32) ^ (n / 2) % 2 ^ 32 = (xp * xp) ^ (n / 2) % 2 ^ 32 :=
        (Nat.pow_mod _ _ _).symm
      split
      · rename_i h1
        rw [h1, Nat.pow_one, Nat.mul_mod, h2, Nat.mod_mod, ← Nat.mul_mod, Nat.mul_assoc,
          Nat.mul_comm xp]
      · have : n % 2 = 0 := by omega
        rw [this, Nat.pow_zero, Nat.mul_one, Nat.mul_mod, h2, ← Nat.mul_mod]

theorem powLoop_lt (f n xn xp : Nat) (h : xn < 2 ^ 32) : powLoop f n xn xp < 2 ^ 32 := by
  induction f generalizing n xn xp with
  | zero => simpa [powLoop] using h
  | succ f ih =>
    unfold powLoop
    split
    · exact h
    · refine ih _ _ _ ?_
      split
      · exact Nat.mod_lt _ (by decide)
      · exact h

theorem plPower_eq {x n : Int} (hx : 0 ≤ x) (hxM : x ≤ MAX) (hn : 0 ≤ n) (hnM : n ≤ MAX)
    (h : x ^ n.toNat ≤ MAX) : plPower x n = x ^ n.toNat := by
  have hM : MAX = 268435455 := rfl
  obtain ⟨a, rfl⟩ := Int.eq_ofNat_of_zero_le hx
  obtain ⟨b, rfl⟩ := Int.eq_ofNat_of_zero_le hn
  simp only [Int.ofNat_eq_natCast, Int.toNat_natCast] at *
  have e1 : ((a : Int) % 2 ^ 32).toNat = a := by
    rw [Int.emod_eq_of_lt (by omega) (by omega)]; simp
  have e2 : ((b : Int) % 2 ^ 32).toNat = b := by
    rw [Int.emod_eq_of_lt (by omega) (by omega)]; simp
  have hp : ((a ^ b : Nat) : Int) = (a : Int) ^ b := by simp
  rw [← hp] at h ⊢
  unfold plPower
  simp only [e1, e2]
  split
  · rename_i hc
    rcases hc with rfl | rfl <;> simp
  · split
    · rename_i hc hc2; subst hc2
      have : b ≠ 0 := by omega
      rw [Nat.zero_pow (by omega)]; rfl
    · split
      · have h2 : 2 ^ 32 ≤ a ^ b :=
          Nat.le_trans (Nat.pow_le_pow_right (by decide) (by omega : 32 ≤ b))
            (Nat.pow_le_pow_left (by omega : 2 ≤ a) b)
        simp only [Nat.reducePow] at h2; omega
      · have hl := powLoop_mod 32 b 1 a (Nat.lt_of_lt_of_le (by omega : b < 32) (by decide))
        have hlt := powLoop_lt 32 b 1 a (by decide)
        rw [Nat.mod_eq_of_lt hlt, Nat.one_mul,
          Nat.mod_eq_of_lt (by simp only [Nat.reducePow]; omega)] at hl
        rw [hl]
        have : 0 < a ^ b := Nat.pow_pos (by omega)
        rw [if_pos (by omega)]

theorem pow_le_max {a b A C : Nat} (ha : a ≤ A) (hb : b ≤ C) : a ^ b ≤ Max.max 1 (A ^ C) := by
  rcases Nat.eq_zero_or_pos A with h | h
  · have : a = 0 := by omega
    subst this
    have : (0 : Nat) ^ b ≤ 1 := by
      rcases Nat.eq_zero_or_pos b with rfl | hb
      · simp
      · rw [Nat.zero_pow hb]; omega
    omega
  · have := Nat.le_trans (Nat.pow_le_pow_left ha b) (Nat.pow_le_pow_right h hb)
    omega

/-! ## The operators -/

section
variable {st : St} {p : Poly} {s : Int} {w1 w2 : W} {B1 B2 : Nat}

/-- A variable in a list of words that has been made. -/
theorem wa1 {st : St} {a : W} (h : WAlloc st a) : ∀ w ∈ [a], WAlloc st w := by
  intro w hw; simp only [List.mem_singleton] at hw; subst hw; exact h
theorem wa2 {st : St} {a b : W} (h : WAlloc st a) (k : WAlloc st b) : ∀ w ∈ [a, b], WAlloc st w := by
  intro w hw; simp only [List.mem_cons, List.not_mem_nil, or_false] at hw
  rcases hw with rfl | rfl <;> assumption
theorem wa3 {st : St} {a b c : W} (h : WAlloc st a) (k : WAlloc st b) (l : WAlloc st c) :
    ∀ w ∈ [a, b, c], WAlloc st w := by
  intro w hw; simp only [List.mem_cons, List.not_mem_nil, or_false] at hw
  rcases hw with rfl | rfl | rfl <;> assumption

theorem ione_pow (n : Nat) : (1 : Int) ^ n = 1 := by
  induction n with
  | zero => rfl
  | succ n ih => rw [Int.pow_succ, ih]; rfl

theorem powW_spec (hs : Sgn s) (g : Good st) (hp : PA st p) (a1 : WAlloc st w1) (a2 : WAlloc st w2)
    (b1 : WB B1 w1) (b2 : WB B2 w2) (m1 : (B1 : Int) ≤ MAX) (m2 : (B2 : Int) ≤ MAX)
    (m3 : ((B1 ^ B2 : Nat) : Int) ≤ MAX) :
    BinS (powW w1 w2 s p st) st p s w1 w2 (Max.max 1 (B1 ^ B2)) (fun x y => some (x ^ y.toNat)) := by
  have hM : MAX = 268435455 := rfl
  have hB : 1 ≤ Max.max 1 (B1 ^ B2) := Nat.le_max_left _ _
  unfold powW
  split
  · rename_i n1 n2
    have c1 := b1 n1 rfl
    have c2 := b2 n2 rfl
    have hle : (n1 ^ n2.toNat).natAbs ≤ Max.max 1 (B1 ^ B2) := by
      rw [Int.natAbs_pow]
      exact pow_le_max (by omega) (by omega)
    have hpos : 0 ≤ n1 ^ n2.toNat := Int.pow_nonneg c1.1
    have hm : ((Max.max 1 (B1 ^ B2) : Nat) : Int) ≤ MAX := by
      rw [Nat.max_def]; split
      · exact m3
      · decide
    have e := plPower_eq c1.1 (by omega) c2.1 (by omega) (by omega)
    rw [e, if_neg (by omega)]
    exact binA hs g hp hle (fun _ _ _ => rfl)
  · rename_i n1 x2
    have c1 := b1 n1 rfl
    split
    · rename_i h; subst h
      exact binA hs g hp (by omega) (fun _ _ _ => by simp only [W.iv, ione_pow])
    · have e1 : clamp n1 = n1 := clamp_id (by omega)
      refine binB (d := if n1 = 0 then .zeroPowerN (.var x2) else .aPowerN n1 (.var x2))
        hs g hp hB a1 a2 ?_ ?_
      · split
        · exact wa1 a2
        · exact wa1 a2
      · intro τ z _ k2 k3
        split
        · rename_i h; subst h
          simp only [NL.post, satAll_cons, satAll_nil, and_true, Cstr.sat, W.val, W.iv, Option.some.injEq] at *
          show (τ z = if τ x2 = 0 then 1 else 0) ↔ (0 : Int) ^ (τ x2).toNat = τ z
          by_cases h : τ x2 = 0
          · rw [if_pos h, h]; simp; exact eq_comm
          · rw [if_neg h, Int.zero_pow (by omega)]; exact eq_comm
        · simp only [NL.post, satAll_cons, satAll_nil, and_true, Cstr.sat, W.val, W.iv, Option.some.injEq, e1]
          exact eq_comm
  · exact binE
  · rename_i x1 n2
    have c2 := b2 n2 rfl
    have e2 : clamp n2 = n2 := clamp_id (by omega)
    split
    · rename_i h; subst h
      exact binA hs g hp (by omega) (fun _ _ _ => by simp [W.iv])
    · split
      · rename_i h; subst h
        exact binC hs g hp hB a1 (fun τ _ _ => by simp [W.iv, Int.pow_succ])
      · refine binB (d := if n2 = 2 then .x2 (.var x1) else .xPowerA (.var x1) n2) hs g hp hB a1 a2 ?_ ?_
        · split
          · exact wa1 a1
          · exact wa1 a1
        · intro τ z _ k2 k3
          split
          · rename_i h; subst h
            simp only [NL.post, satAll_cons, satAll_nil, and_true, Cstr.sat, W.val, W.iv, Option.some.injEq]
            rw [show ((2 : Int).toNat) = 2 from rfl, Int.pow_succ, Int.pow_succ, Int.pow_zero, Int.one_mul]
            exact eq_comm
          · simp only [NL.post, satAll_cons, satAll_nil, and_true, Cstr.sat, W.val, W.iv, Option.some.injEq, e2]
            exact eq_comm

theorem minW_spec (hs : Sgn s) (g : Good st) (hp : PA st p) (a1 : WAlloc st w1) (a2 : WAlloc st w2)
    (b1 : WB B1 w1) (b2 : WB B2 w2) (m1 : (B1 : Int) ≤ MAX) (m2 : (B2 : Int) ≤ MAX) :
    BinS (minW w1 w2 s p st) st p s w1 w2 (Max.max 1 (Max.max B1 B2)) (fun x y => some (Min.min x y)) := by
  have hB : 1 ≤ Max.max 1 (Max.max B1 B2) := Nat.le_max_left _ _
  unfold minW
  split
  · rename_i n1 n2
    have c1 := b1 n1 rfl
    have c2 := b2 n2 rfl
    exact binA hs g hp (by split <;> omega) (fun _ _ _ => by simp only [W.iv]; congr 1)
  · rename_i n1 x2
    have c1 := b1 n1 rfl
    have e1 : clamp n1 = n1 := clamp_id (by omega)
    refine binB (d := .minXA (.var x2) n1) hs g hp hB a1 a2 (wa1 a2) ?_
    intro τ z _ _ _
    simp only [NL.post, satAll_cons, satAll_nil, and_true, Cstr.sat, W.val, W.iv, Option.some.injEq, e1]
    omega
  · rename_i x1 n2
    have c2 := b2 n2 rfl
    have e2 : clamp n2 = n2 := clamp_id (by omega)
    refine binB (d := .minXA (.var x1) n2) hs g hp hB a1 a2 (wa1 a1) ?_
    intro τ z _ _ _
    simp only [NL.post, satAll_cons, satAll_nil, and_true, Cstr.sat, W.val, W.iv, Option.some.injEq, e2]
    omega
  · rename_i x1 x2
    refine binB (d := .minXY (.var x1) (.var x2)) hs g hp hB a1 a2 (wa2 a1 a2) ?_
    intro τ z _ _ _
    simp only [NL.post, satAll_cons, satAll_nil, and_true, Cstr.sat, W.val, W.iv, Option.some.injEq]
    omega

theorem maxW_spec (hs : Sgn s) (g : Good st) (hp : PA st p) (a1 : WAlloc st w1) (a2 : WAlloc st w2)
    (b1 : WB B1 w1) (b2 : WB B2 w2) (m1 : (B1 : Int) ≤ MAX) (m2 : (B2 : Int) ≤ MAX) :
    BinS (maxW w1 w2 s p st) st p s w1 w2 (Max.max 1 (Max.max B1 B2)) (fun x y => some (Max.max x y)) := by
  have hB : 1 ≤ Max.max 1 (Max.max B1 B2) := Nat.le_max_left _ _
  unfold maxW
  split
  · rename_i n1 n2
    have c1 := b1 n1 rfl
    have c2 := b2 n2 rfl
    exact binA hs g hp (by split <;> omega) (fun _ _ _ => by simp only [W.iv]; congr 1; split <;> omega)
  · rename_i n1 x2
    have c1 := b1 n1 rfl
    have e1 : clamp n1 = n1 := clamp_id (by omega)
    refine binB (d := .maxXA (.var x2) n1) hs g hp hB a1 a2 (wa1 a2) ?_
    intro τ z _ _ _
    simp only [NL.post, satAll_cons, satAll_nil, and_true, Cstr.sat, W.val, W.iv, Option.some.injEq, e1]
    omega
  · rename_i x1 n2
    have c2 := b2 n2 rfl
    have e2 : clamp n2 = n2 := clamp_id (by omega)
    refine binB (d := .maxXA (.var x1) n2) hs g hp hB a1 a2 (wa1 a1) ?_
    intro τ z _ _ _
    simp only [NL.post, satAll_cons, satAll_nil, and_true, Cstr.sat, W.val, W.iv, Option.some.injEq, e2]
    omega
  · rename_i x1 x2
    refine binB (d := .maxXY (.var x1) (.var x2)) hs g hp hB a1 a2 (wa2 a1 a2) ?_
    intro τ z _ _ _
    simp only [NL.post, satAll_cons, satAll_nil, and_true, Cstr.sat, W.val, W.iv, Option.some.injEq]
    omega

theorem distW_spec (hs : Sgn s) (g : Good st) (hp : PA st p) (a1 : WAlloc st w1) (a2 : WAlloc st w2)
    (b1 : WB B1 w1) (b2 : WB B2 w2) (m1 : (B1 : Int) ≤ MAX) (m2 : (B2 : Int) ≤ MAX) :
    BinS (distW w1 w2 s p st) st p s w1 w2 (Max.max 1 (Max.max B1 B2))
      (fun x y => some ((x - y).natAbs : Int)) := by
  have hB : 1 ≤ Max.max 1 (Max.max B1 B2) := Nat.le_max_left _ _
  unfold distW
  split
  · rename_i n1 n2
    have c1 := b1 n1 rfl
    have c2 := b2 n2 rfl
    exact binA hs g hp (by split <;> omega) (fun _ _ _ => by simp only [W.iv]; congr 1; split <;> omega)
  · rename_i n1 x2
    have c1 := b1 n1 rfl
    have e1 : clamp n1 = n1 := clamp_id (by omega)
    refine binB (d := .absXA (.var x2) n1) hs g hp hB a1 a2 (wa1 a2) ?_
    intro τ z _ _ _
    simp only [NL.post, satAll_cons, satAll_nil, and_true, Cstr.sat, W.val, W.iv, Option.some.injEq, e1]
    omega
  · rename_i x1 n2
    have c2 := b2 n2 rfl
    have e2 : clamp n2 = n2 := clamp_id (by omega)
    refine binB (d := .absXA (.var x1) n2) hs g hp hB a1 a2 (wa1 a1) ?_
    intro τ z _ _ _
    simp only [NL.post, satAll_cons, satAll_nil, and_true, Cstr.sat, W.val, W.iv, Option.some.injEq, e2]
    omega
  · rename_i x1 x2
    refine binB (d := .absXY (.var x1) (.var x2)) hs g hp hB a1 a2 (wa2 a1 a2) ?_
    intro τ z _ _ _
    simp only [NL.post, satAll_cons, satAll_nil, and_true, Cstr.sat, W.val, W.iv, Option.some.injEq]
    omega

/-- Exact division. -/
def divG (x y : Int) : Option Int := if y ≠ 0 ∧ x % y = 0 then some (x / y) else none

theorem divG_iff {x y z : Int} (hy : 0 ≤ y) : divG x y = some z ↔ y ≥ 1 ∧ z * y = x := by
  unfold divG
  split
  · rename_i h
    simp only [Option.some.injEq]
    constructor
    · rintro rfl
      exact ⟨by omega, Int.ediv_mul_cancel (Int.dvd_of_emod_eq_zero h.2)⟩
    · rintro ⟨_, rfl⟩
      exact Int.mul_ediv_cancel _ h.1
  · rename_i h
    simp only [reduceCtorEq, false_iff, not_and]
    rintro h1 rfl
    exact h ⟨by omega, Int.mul_emod_left _ _⟩

theorem divW_spec (hs : Sgn s) (g : Good st) (hp : PA st p) (a1 : WAlloc st w1) (a2 : WAlloc st w2)
    (b1 : WB B1 w1) (b2 : WB B2 w2) (m1 : (B1 : Int) ≤ MAX) (m2 : (B2 : Int) ≤ MAX) :
    BinS (divW w1 w2 s p st) st p s w1 w2 (Max.max 1 B1) divG := by
  have hB : 1 ≤ Max.max 1 B1 := Nat.le_max_left _ _
  unfold divW
  split
  · rename_i n1 n2
    have c1 := b1 n1 rfl
    have c2 := b2 n2 rfl
    have e1 : n1.tmod n2 = n1 % n2 := Int.tmod_eq_emod_of_nonneg c1.1
    have e2 : n1.tdiv n2 = n1 / n2 := Int.tdiv_eq_ediv_of_nonneg c1.1
    rw [e1, e2]
    split
    · rename_i h
      refine binD (fun _ _ _ => ?_)
      simp only [W.iv, divG]
      exact if_neg (fun h' => h.elim h'.1 (fun k => k h'.2))
    · rename_i h
      refine binA hs g hp ?_ (fun _ _ _ => ?_)
      · have := Int.natAbs_ediv_le_natAbs n1 n2
        omega
      · simp only [W.iv, divG]
        exact if_pos ⟨fun h' => h (.inl h'), Classical.not_not.mp (fun h' => h (.inr h'))⟩
  · rename_i n1 x2
    have c1 := b1 n1 rfl
    have e1 : n1.bmod (2 ^ 32) = n1 := bmod_id (by omega)
    refine binB (d := .divAY n1 (.var x2)) hs g hp hB a1 a2 (wa1 a2) ?_
    intro τ z _ k _
    have ec : clamp 1 = 1 := rfl
    rw [divG_iff k]
    simp only [NL.post, satAll_cons, satAll_nil, and_true, Cstr.sat, W.val, W.iv, e1, ec]
  · rename_i x1 n2
    have c2 := b2 n2 rfl
    have e2 : clamp n2 = n2 := clamp_id (by omega)
    split
    · rename_i h; subst h
      exact binD (fun _ _ _ => by simp [W.iv, divG])
    · refine binB (d := .divXA (.var x1) n2) hs g hp hB a1 a2 (wa1 a1) ?_
      intro τ z _ k _
      rw [divG_iff k]
      simp only [NL.post, satAll_cons, satAll_nil, and_true, Cstr.sat, W.val, W.iv, e2]
      rw [Int.mul_comm]
      exact ⟨fun h => ⟨by omega, h⟩, fun h => h.2⟩
  · rename_i x1 x2
    refine binB (d := .divXY (.var x1) (.var x2)) hs g hp hB a1 a2 (wa2 a1 a2) ?_
    intro τ z _ k _
    have ec : clamp 1 = 1 := rfl
    rw [divG_iff k]
    simp only [NL.post, satAll_cons, satAll_nil, and_true, Cstr.sat, W.val, W.iv, ec]

/-! ## Quotient and remainder -/

/-- The value of the three operators. -/
def QR.val (k : QR) (x y : Int) : Int :=
  match k with
  | .rem => x % y
  | _ => x / y

structure QrS (k : QR) (r : Res Poly) (st : St) (p : Poly) (s : Int) (w1 w2 w3 : W) (B : Nat) :
    Prop where
  stat : ∀ p' st', r = .ok p' st' →
    Grow st st' ∧ Good st' ∧ PA st' p' ∧ p'.nrm one ≤ p.nrm one + B
  sound : ∀ p' st', r = .ok p' st' → ∀ τ, Dom τ → 0 ≤ w1.iv τ → 0 ≤ w2.iv τ → 0 ≤ w3.iv τ →
    Sat τ st' →
    w2.iv τ ≠ 0 ∧ (k = .quotRem → w3.iv τ = w1.iv τ % w2.iv τ) ∧
      p'.eval τ = p.eval τ + s * k.val (w1.iv τ) (w2.iv τ) ∧
      ((k.val (w1.iv τ) (w2.iv τ)).natAbs ≤ B → p'.nrm (nv τ) ≤ p.nrm (nv τ) + B)
  ext : ∀ τ, Dom τ → Sat τ st → 0 ≤ w1.iv τ → 0 ≤ w2.iv τ → w2.iv τ ≠ 0 →
    w3.iv τ = w1.iv τ % w2.iv τ → w1.iv τ / w2.iv τ ≤ MAX →
      r ≠ .fail ∧ ∀ p' st', r = .ok p' st' → ∃ τ', Ext st τ st' τ'

theorem qr_iff {x y r z : Int} (hr : 0 ≤ r) (hy : 0 ≤ y) :
    (x = z * y + r ∧ r < y) ↔ (y ≠ 0 ∧ r = x % y ∧ z = x / y) := by
  constructor
  · rintro ⟨rfl, h⟩
    have hy0 : y ≠ 0 := by omega
    have : (z * y + r) / y = z := by
      rw [Int.add_comm, Int.add_mul_ediv_right _ _ hy0, Int.ediv_eq_zero_of_lt hr h]; omega
    refine ⟨hy0, ?_, this.symm⟩
    rw [Int.add_comm, Int.add_mul_emod_self_right, Int.emod_eq_of_lt hr h]
  · rintro ⟨h, rfl, rfl⟩
    have := Int.mul_ediv_add_emod x y
    rw [Int.mul_comm] at this
    exact ⟨this.symm, Int.emod_lt_of_pos x (by omega)⟩

/-- The delayed case of `quot_rem`. -/
theorem qr_delayed {k w3 d B3} (hs : Sgn s) (g : Good st) (hp : PA st p) {B} (hB : 1 ≤ B)
    (a1 : WAlloc st w1) (a2 : WAlloc st w2) (a3 : WAlloc st w3) (b3 : WB B3 w3)
    (h3 : k = .rem → ∃ v, w3 = .var v)
    (hd : ∀ w ∈ d.words, WAlloc st w)
    (hiff : ∀ τ z, 0 ≤ w1.iv τ → 0 ≤ w2.iv τ → 0 ≤ w3.iv τ →
      (satAll τ (d.post (.var z)) ↔
        w1.iv τ = τ z * w2.iv τ + w3.iv τ ∧ w3.iv τ < w2.iv τ)) :
    QrS k ((push d st).bind fun z st =>
      match k, w3 with
      | .rem, .var x3 => addMonom p s 1 x3 st
      | _, _ => addMonom p s 1 z st) st p s w1 w2 w3 B := by
  have hz : ∀ z st', push d st = .ok z st' → ¬ Alloc st z := by
    intro z st' e
    obtain ⟨rfl, rfl⟩ := push_ok e; exact fresh_heap st
  have key : ∀ p' st', ((push d st).bind fun z st =>
      match k, w3 with
      | .rem, .var x3 => addMonom p s 1 x3 st
      | _, _ => addMonom p s 1 z st) = .ok p' st' →
      ∃ z x, push d st = .ok z st' ∧ Alloc st' x ∧ addMonom p s 1 x st' = .ok p' st' ∧
        ((k = .rem ∧ w3 = .var x) ∨ (k ≠ .rem ∧ x = z)) := by
    intro p' st' h
    obtain ⟨z, st1, e1, e2⟩ := Res.bind_ok.mp h
    split at e2
    · rename_i x3
      obtain ⟨rfl, _⟩ := addMonom_ok hs e2
      exact ⟨z, x3, e1, Alloc.mono (push_grow e1) a3, e2, .inl ⟨rfl, rfl⟩⟩
    · rename_i hne
      obtain ⟨rfl, _⟩ := addMonom_ok hs e2
      refine ⟨z, z, e1, push_alloc e1, e2, .inr ⟨?_, rfl⟩⟩
      rintro rfl
      obtain ⟨v, rfl⟩ := h3 rfl
      exact hne v rfl rfl
  refine ⟨fun p' st' h => ?_, fun p' st' h τ dm k1 k2 k3 sa => ?_, fun τ dm sa k1 k2 k3 k4 xM =>
    ⟨fun h => ?_, fun p' st' h => ?_⟩⟩
  · obtain ⟨z, x, e1, e2, e3, _⟩ := key p' st' h
    obtain ⟨_, f2, f3, f4⟩ := addMonom_ok hs e3
    refine ⟨push_grow e1, push_good e1 g hd, f4 _ (hp.mono (push_grow e1)) e2, ?_⟩
    have := f3 one
    simp only [one] at this ⊢; simp at this; omega
  · obtain ⟨z, x, e1, e2, e3, e4⟩ := key p' st' h
    obtain ⟨_, f2, f3, f4⟩ := addMonom_ok hs e3
    obtain ⟨y1, y2, y3⟩ := (qr_iff k3 k2).mp ((hiff τ z k1 k2 k3).mp (push_sat e1 sa))
    have ex : τ x = k.val (w1.iv τ) (w2.iv τ) := by
      rcases e4 with ⟨rfl, rfl⟩ | ⟨hk, rfl⟩
      · exact y2
      · rw [y3]; cases k <;> first | rfl | exact absurd rfl hk
    refine ⟨y1, fun _ => y2, by rw [f2, ex]; simp, fun hx => ?_⟩
    have := f3 (nv τ)
    simp only [nv] at this ⊢; simp at this; have := (dm x).1; omega
  · rcases Res.bind_fail.mp h with h | ⟨z, st1, e1, e2⟩
    · exact push_not_fail h
    · split at e2 <;> exact addMonom_not_fail e2
  · obtain ⟨z, x, e1, e2, e3, _⟩ := key p' st' h
    have a := agree_upd (τ := τ) (n := w1.iv τ / w2.iv τ) (hz z st' e1)
    have r0 : 0 ≤ w3.iv τ := by rw [k4]; exact Int.emod_nonneg _ k3
    refine ⟨_, push_ext (n := w1.iv τ / w2.iv τ) e1 g dm sa
      ⟨Int.ediv_nonneg k1 k2, xM⟩ ((hiff _ z ?_ ?_ ?_).mpr ?_)⟩
    · rw [← iv_agree a a1]; exact k1
    · rw [← iv_agree a a2]; exact k2
    · rw [← iv_agree a a3]; exact r0
    · rw [← iv_agree a a1, ← iv_agree a a2, ← iv_agree a a3, upd_same]
      exact (qr_iff r0 k2).mpr ⟨k3, k4, rfl⟩

theorem qrW_spec {k h0 w3 B3} (hs : Sgn s) (g : Good st) (hp : PA st p)
    (a1 : WAlloc st w1) (a2 : WAlloc st w2) (a3 : WAlloc st w3)
    (b1 : WB B1 w1) (b2 : WB B2 w2) (b3 : WB B3 w3) (m1 : (B1 : Int) ≤ MAX) (m2 : (B2 : Int) ≤ MAX)
    (m3 : (B3 : Int) ≤ MAX) (h3 : k = .rem → ∃ v, w3 = .var v) :
    QrS k (qrW k h0 w1 w2 w3 s p st) st p s w1 w2 w3 (Max.max 1 B1) := by
  have hB : 1 ≤ Max.max 1 B1 := Nat.le_max_left _ _
  have ev3 : ∀ τ, w3.val τ = w3.iv τ := by
    intro τ
    cases w3 with
    | var => rfl
    | int n => exact bmod_id (by have := b3 n rfl; omega)
  cases w1 with
  | int n1 =>
    have c1 := b1 n1 rfl
    have e1 : clamp n1 = n1 := clamp_id (by omega)
    cases w2 with
    | int n2 =>
      have c2 := b2 n2 rfl
      have e1 : n1.tmod n2 = n1 % n2 := Int.tmod_eq_emod_of_nonneg c1.1
      have e2 : n1.tdiv n2 = n1 / n2 := Int.tdiv_eq_ediv_of_nonneg c1.1
      have d1 : (n1 / n2).natAbs ≤ Max.max 1 B1 := by
        have := Int.natAbs_ediv_le_natAbs n1 n2; omega
      simp only [qrW, e1, e2]
      split
      · rename_i h
        exact ⟨by simp, by simp, fun τ _ _ _ _ h' => absurd h h'⟩
      · rename_i hn
        have d2 : (n1 % n2).natAbs ≤ Max.max 1 B1 := by
          have h1 := Int.emod_nonneg n1 hn
          have h2 := Int.mul_ediv_add_emod n1 n2
          have h3 : 0 ≤ n2 * (n1 / n2) := Int.mul_nonneg c2.1 (Int.ediv_nonneg c1.1 c2.1)
          omega
        cases k with
        | quot =>
          simp only
          split
          · refine ⟨fun p' st' h => ?_, fun p' st' h τ d h1 h2 _ sa => ?_, fun τ d sa h1 h2 _ _ _ =>
              ⟨by simp, fun p' st' h => ?_⟩⟩ <;> simp only [Res.ok.injEq] at h <;> obtain ⟨rfl, rfl⟩ := h
            · exact ⟨Grow.refl _, g, hp, by have := addCst_nrm p hs (n1 / n2) one; omega⟩
            · refine ⟨hn, by simp, addCst_eval _ _ _ _, fun _ => ?_⟩
              have := addCst_nrm p hs (n1 / n2) (nv τ); omega
            · exact ⟨τ, Ext.refl d sa⟩
          · exact ⟨by simp, by simp, fun _ _ _ _ _ _ _ _ => ⟨by simp, by simp⟩⟩
        | rem =>
          refine ⟨fun p' st' h => ?_, fun p' st' h τ d h1 h2 _ sa => ?_, fun τ d sa h1 h2 _ _ _ =>
              ⟨by simp, fun p' st' h => ?_⟩⟩ <;> simp only [Res.ok.injEq] at h <;> obtain ⟨rfl, rfl⟩ := h
          · exact ⟨Grow.refl _, g, hp, by have := addCst_nrm p hs (n1 % n2) one; omega⟩
          · refine ⟨hn, by simp, addCst_eval _ _ _ _, fun _ => ?_⟩
            have := addCst_nrm p hs (n1 % n2) (nv τ); omega
          · exact ⟨τ, Ext.refl d sa⟩
        | quotRem =>
          have hx : ∀ τ, satAll τ [.xEqC w3 (n1 % n2)] ↔ w3.iv τ = n1 % n2 := by
            intro τ
            cases w3 <;> simp [Cstr.sat, W.iv]
          refine ⟨fun p' st' h => ?_, fun p' st' h τ d h1 h2 _ sa => ?_, fun τ d sa h1 h2 _ hr _ =>
              ⟨by simp, fun p' st' h => ?_⟩⟩ <;> simp only [Res.ok.injEq] at h <;> obtain ⟨rfl, rfl⟩ := h
          · refine ⟨Grow.post _ _, g.post ?_, hp.mono (Grow.post _ _), by have := addCst_nrm p hs (n1 / n2) one; omega⟩
            intro c hc w hw
            simp only [List.mem_singleton] at hc; subst hc
            exact wa1 a3 w hw
          · refine ⟨hn, fun _ => (hx τ).mp (sat_post.mp sa).2, addCst_eval _ _ _ _, fun _ => ?_⟩
            have := addCst_nrm p hs (n1 / n2) (nv τ); omega
          · exact ⟨τ, Ext.post d sa ((hx τ).mpr hr)⟩
    | var x2 =>
      refine qr_delayed (d := .quotRemAY n1 (.var x2) w3) hs g hp hB a1 a2 a3 b3 h3 (wa2 a2 a3) ?_
      intro τ z _ _ _
      simp only [NL.post, satAll_cons, satAll_nil, and_true, Cstr.sat, e1, ev3]
      rfl
  | var x1 =>
    cases w2 with
    | int n2 =>
      have c2 := b2 n2 rfl
      have e2 : clamp n2 = n2 := clamp_id (by omega)
      refine qr_delayed (d := .quotRemXA (.var x1) n2 w3) hs g hp hB a1 a2 a3 b3 h3 (wa2 a1 a3) ?_
      intro τ z _ _ _
      simp only [NL.post, satAll_cons, satAll_nil, and_true, Cstr.sat, e2, ev3]
      rfl
    | var x2 =>
      refine qr_delayed (d := .quotRemXY (.var x1) (.var x2) w3) hs g hp hB a1 a2 a3 b3 h3
        (wa3 a1 a2 a3) ?_
      intro τ z _ _ _
      simp only [NL.post, satAll_cons, satAll_nil, and_true, Cstr.sat, ev3]
      rfl

end

end Gp.FdMath
