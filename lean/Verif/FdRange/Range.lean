import Verif.FdRange.Spec
/- The operations on ranges. -/
namespace Gp.FdRange

open Gp.Arith (lsb msb lsb_spec msb_spec)

theorem mem_none {r : Range} (h : r.vec = none) (n : Int) : Mem r n ↔ r.min ≤ n ∧ n ≤ r.max := by
  unfold Mem; rw [h]
  constructor
  · intro h; exact h.2
  · intro h; exact ⟨by omega, h⟩

theorem mem_iv {e : Bool} {a b : Int} {v : Option Vec} (h : v = none) (n : Int) : Mem ⟨e, a, b, v⟩ n ↔ a ≤ n ∧ n ≤ b :=
  mem_none (r := ⟨e, a, b, v⟩) h n

theorem mem_some {r : Range} {v : Vec} (h : r.vec = some v) (n : Int) :
    Mem r n ↔ r.min ≤ r.max ∧ 0 ≤ n ∧ bit v n.toNat = true := by
  unfold Mem; rw [h]

theorem wf_none {c : Cfg} {r : Range} (h : r.vec = none) (hlo : -2147483648 < r.min) : WF c r :=
  ⟨hlo, by intro v hv; rw [h] at hv; cases hv⟩

theorem not_mem_empty {r : Range} (h : r.max < r.min) (n : Int) : ¬ Mem r n := by
  intro hm; have := hm.1; omega

theorem mem_win {c : Cfg} {r : Range} {v : Vec} (hw : WF c r) (h : r.vec = some v) {n : Int} (hm : Mem r n) : Win c n := by
  have := (mem_some h n).1 hm
  have hb := bit_lt this.2.2
  rw [(hw.2 v h).1] at hb
  exact ⟨this.2.1, by omega⟩

theorem isEmpty_iff (r : Range) : r.isEmpty = true ↔ r.max < r.min := by
  simp [Range.isEmpty]

theorem isEmpty_false (r : Range) : r.isEmpty = false ↔ r.min ≤ r.max := by
  simp [Range.isEmpty]

/-! Pl_Range_From_Vector -/

theorem fromVector_spec (c : Cfg) (hc : c.Ok) (r : Range) (hlo : -2147483648 < r.min) (v : Vec) (hl : v.length = c.size) :
    WF c (fromVector c r v) ∧ (fromVector c r v).vec = some v ∧ (fromVector c r v).extra = r.extra ∧
      ∀ n, Mem (fromVector c r v) n ↔ 0 ≤ n ∧ bit v n.toNat = true := by
  unfold fromVector
  have hempty : (∀ k, bit v k = false) → ∀ (r' : Range), r'.vec = some v → r'.extra = r.extra → -2147483648 < r'.min → r'.max < r'.min →
      WF c r' ∧ r'.vec = some v ∧ r'.extra = r.extra ∧ ∀ n, Mem r' n ↔ 0 ≤ n ∧ bit v n.toNat = true := by
    intro hz r' hv he hlo' hm
    refine ⟨⟨hlo', ?_⟩, hv, he, ?_⟩
    · intro v' hv'
      rw [hv] at hv'; cases hv'
      exact ⟨hl, fun h => by omega⟩
    · intro n
      rw [hz]
      constructor
      · intro h; exact absurd h (not_mem_empty hm n)
      · intro h; exact absurd h.2 (by simp)
  cases hu : findUp v 0 with
  | none =>
    have hz : ∀ k, bit v k = false := fun k => bit_of_word_zero (findUp_none hu _)
    simp only
    by_cases ha : c.after = 0#64
    · rw [if_pos ha]
      exact hempty hz _ rfl rfl hlo hlo
    · rw [if_neg ha]
      have := hc.below
      exact hempty hz _ rfl rfl (by simp only; omega) (by simp only; omega)
  | some jw =>
    obtain ⟨i, w⟩ := jw
    obtain ⟨u1, u2⟩ := up_least hu
    cases hd : findDown v v.length with
    | none =>
      obtain ⟨_, f2, f3, f4, _⟩ := findUp_some hu
      rw [Nat.sub_zero] at f2 f3
      exact absurd (f3.symm.trans (findDown_none hd i f2)) f4
    | some jw' =>
      obtain ⟨j, w'⟩ := jw'
      obtain ⟨d1, d2⟩ := down_greatest hd
      have hle : i * 64 + lsb w ≤ j * 64 + msb w' := by
        apply Classical.byContradiction
        intro hc'
        have := u2 _ (Nat.lt_of_not_le hc')
        rw [d1] at this; cases this
      have hmem : ∀ n, Mem { r with min := (i : Int) * 64 + (lsb w : Int), max := (j : Int) * 64 + (msb w' : Int), vec := some v } n ↔
          0 ≤ n ∧ bit v n.toNat = true := by
        intro n
        rw [mem_some rfl]
        simp only
        constructor
        · intro h; exact h.2
        · intro h; exact ⟨by omega, h⟩
      refine ⟨⟨by simp only; omega, ?_⟩, rfl, rfl, hmem⟩
      intro v' hv'
      cases hv'
      refine ⟨hl, fun _ => ⟨?_, ?_, ?_⟩⟩
      · rw [hmem]
        refine ⟨by simp only; omega, ?_⟩
        rw [show ((i : Int) * 64 + (lsb w : Int)).toNat = i * 64 + lsb w by omega]; exact u1
      · rw [hmem]
        refine ⟨by simp only; omega, ?_⟩
        rw [show ((j : Int) * 64 + (msb w' : Int)).toNat = j * 64 + msb w' by omega]; exact d1
      · intro n hn
        rw [hmem] at hn
        obtain ⟨h0, hb⟩ := hn
        simp only
        have hlt := bit_lt hb
        constructor
        · apply Classical.byContradiction
          intro hc'
          rw [u2 n.toNat (by omega)] at hb; cases hb
        · apply Classical.byContradiction
          intro hc'
          rw [d2 n.toNat (by omega) hlt] at hb; cases hb

/-! Pl_Range_Becomes_Sparse -/

theorem becomesSparse_spec (c : Cfg) (hc : c.Ok) (r : Range) (hr : r.vec = none) :
    WF c (becomesSparse c r) ∧ (∃ v, (becomesSparse c r).vec = some v ∧ v.length = c.size) ∧
      ((becomesSparse c r).extra = decide (r.max > c.vmax)) ∧
      ∀ n, Mem (becomesSparse c r) n ↔ Mem r n ∧ Win c n := by
  have hs := hc.size
  unfold becomesSparse
  simp only
  generalize hmn : (if r.min < 0 then 0 else r.min) = mn
  generalize hmx : (if r.max > c.vmax then c.vmax else r.max) = mx
  have hmn' : mn = if r.min < 0 then 0 else r.min := hmn.symm
  have hmx' : mx = if r.max > c.vmax then c.vmax else r.max := hmx.symm
  have e1 : (r.min < 0 ∧ mn = 0) ∨ (¬ r.min < 0 ∧ mn = r.min) := by
    split at hmn'
    · exact Or.inl ⟨by assumption, hmn'⟩
    · exact Or.inr ⟨by assumption, hmn'⟩
  have e2 : (r.max > c.vmax ∧ mx = c.vmax) ∨ (¬ r.max > c.vmax ∧ mx = r.max) := by
    split at hmx'
    · exact Or.inl ⟨by assumption, hmx'⟩
    · exact Or.inr ⟨by assumption, hmx'⟩
  have hvm : c.vmax = (c.size : Int) * 64 - 1 := rfl
  by_cases hge : mx ≥ mn
  · rw [if_pos hge]
    have hlen := fromInterval_len c.size mn.toNat mx.toNat (by omega) (by omega)
    have hbit := fromInterval_bit c.size mn.toNat mx.toNat (by omega) (by omega)
    have hmem : ∀ n, Mem ⟨decide (r.max > c.vmax), mn, mx, some (vecFromInterval c.size mn.toNat mx.toNat)⟩ n ↔ Mem r n ∧ Win c n := by
      intro n
      rw [mem_some rfl, mem_none hr]
      simp only [hbit, decide_eq_true_eq]
      unfold Win
      omega
    refine ⟨⟨by simp only; omega, ?_⟩, ⟨_, rfl, hlen⟩, trivial, hmem⟩
    intro v hv
    cases hv
    refine ⟨hlen, fun _ => ⟨?_, ?_, ?_⟩⟩
    · rw [hmem, mem_none hr]; unfold Win; simp only; omega
    · rw [hmem, mem_none hr]; unfold Win; simp only; omega
    · intro n hn
      rw [hmem, mem_none hr] at hn
      obtain ⟨⟨h1, h2⟩, h3, h4⟩ := hn
      simp only
      omega
  · rw [if_neg hge]
    have hl : (allocIf c r.vec).length = c.size := by rw [hr]; exact hc.junk
    refine ⟨⟨by simp only; omega, ?_⟩, ⟨_, rfl, hl⟩, trivial, ?_⟩
    · intro v hv
      cases hv
      exact ⟨hl, fun h => by simp only at h; omega⟩
    · intro n
      rw [mem_none hr]
      constructor
      · intro h; exact absurd h (not_mem_empty (by simp only; omega) n)
      · intro h
        obtain ⟨⟨h1, h2⟩, h3, h4⟩ := h
        omega

theorem sparseArg_spec (c : Cfg) (hc : c.Ok) (r : Range) (hw : WF c r) :
    WF c (sparseArg c r) ∧ (∃ v, (sparseArg c r).vec = some v ∧ v.length = c.size) ∧
      ∀ n, Mem (sparseArg c r) n ↔ Mem r n ∧ Win c n := by
  unfold sparseArg
  cases hr : r.vec with
  | none =>
    have := becomesSparse_spec c hc r hr
    exact ⟨this.1, this.2.1, this.2.2.2⟩
  | some v =>
    refine ⟨hw, ⟨v, hr, (hw.2 v hr).1⟩, fun n => ⟨fun h => ⟨h, mem_win hw hr h⟩, fun h => h.1⟩⟩

/-- What is lost by the conversion is recorded. -/
theorem sparseArg_extra (c : Cfg) (hc : c.Ok) (r : Range) (T : Nat → Prop) (hT : Repr c r T) :
    (sparseArg c r).extra = false → ∀ n : Nat, T n → Win c n := by
  unfold sparseArg
  cases hr : r.vec with
  | none =>
    intro he n hn
    rw [(becomesSparse_spec c hc r hr).2.2.1, decide_eq_false_iff_not] at he
    have := (mem_none hr n).1 ((hT.2.1 n (Or.inl hr)).1 hn)
    unfold Cfg.vmax at he
    exact ⟨by omega, by omega⟩
  | some v =>
    intro he n hn
    exact hT.2.2 (by rw [hr]; simp) he n hn

/-! Pl_Range_Union -/

theorem unionSS_spec (c : Cfg) (r r1 : Range) (v v1 : Vec) (hr : r.vec = some v) (hr1 : r1.vec = some v1)
    (hw : WF c r) (hw1 : WF c r1) :
    WF c (unionSS r r1) ∧ (unionSS r r1).vec ≠ none ∧ (unionSS r r1).extra = (r.extra || r1.extra) ∧
      ∀ n, Mem (unionSS r r1) n ↔ Mem r n ∨ Mem r1 n := by
  unfold unionSS
  simp only
  have hl := (hw.2 v hr).1
  have hl1 := (hw1.2 v1 hr1).1
  by_cases he : r.isEmpty = true
  · rw [if_pos he]
    have hne : ∀ n, ¬ Mem r n := fun n => not_mem_empty ((isEmpty_iff r).1 he) n
    refine ⟨⟨hw1.1, ?_⟩, by simp only [hr1]; simp, rfl, ?_⟩
    · intro v' hv'
      exact hw1.2 v' hv'
    · intro n
      have : Mem { r1 with extra := r.extra || r1.extra } n ↔ Mem r1 n := Iff.rfl
      rw [this]
      exact ⟨Or.inr, fun h => h.resolve_left (hne n)⟩
  · rw [if_neg he]
    have he' := (isEmpty_false r).1 (by simpa using he)
    by_cases he1 : r1.isEmpty = true
    · rw [if_pos he1]
      have hne : ∀ n, ¬ Mem r1 n := fun n => not_mem_empty ((isEmpty_iff r1).1 he1) n
      refine ⟨⟨hw.1, ?_⟩, by simp only [hr]; simp, rfl, ?_⟩
      · intro v' hv'
        exact hw.2 v' hv'
      · intro n
        have : Mem { r with extra := r.extra || r1.extra } n ↔ Mem r n := Iff.rfl
        rw [this]
        exact ⟨Or.inl, fun h => h.resolve_right (hne n)⟩
    · rw [if_neg he1]
      have he1' := (isEmpty_false r1).1 (by simpa using he1)
      rw [hr, hr1]
      simp only [Option.getD_some]
      generalize hmn : (if r.min ≤ r1.min then r.min else r1.min) = mn
      generalize hmx : (if r.max ≥ r1.max then r.max else r1.max) = mx
      have e1 : (r.min ≤ r1.min ∧ mn = r.min) ∨ (r1.min ≤ r.min ∧ mn = r1.min) := by
        subst hmn; split
        · exact Or.inl ⟨by assumption, rfl⟩
        · exact Or.inr ⟨by omega, rfl⟩
      have e2 : (r.max ≥ r1.max ∧ mx = r.max) ∨ (r1.max ≥ r.max ∧ mx = r1.max) := by
        subst hmx; split
        · exact Or.inl ⟨by assumption, rfl⟩
        · exact Or.inr ⟨by omega, rfl⟩
      have hmem : ∀ n, Mem ⟨r.extra || r1.extra, mn, mx, some (vecUnion v v1)⟩ n ↔ Mem r n ∨ Mem r1 n := by
        intro n
        rw [mem_some rfl, mem_some hr, mem_some hr1]
        simp only [union_bit v v1 (by omega), Bool.or_eq_true]
        constructor
        · rintro ⟨_, h0, h | h⟩
          · exact Or.inl ⟨he', h0, h⟩
          · exact Or.inr ⟨he1', h0, h⟩
        · rintro (⟨_, h0, h⟩ | ⟨_, h0, h⟩)
          · exact ⟨by omega, h0, Or.inl h⟩
          · exact ⟨by omega, h0, Or.inr h⟩
      obtain ⟨a1, a2, a3⟩ := (hw.2 v hr).2 he'
      obtain ⟨b1, b2, b3⟩ := (hw1.2 v1 hr1).2 he1'
      have l1 := hw.1
      have l2 := hw1.1
      refine ⟨⟨by simp only; omega, ?_⟩, by simp, trivial, hmem⟩
      intro v' hv'
      cases hv'
      refine ⟨by rw [union_len _ _ (by omega)]; exact hl, fun _ => ⟨?_, ?_, ?_⟩⟩
      · rw [hmem]
        rcases e1 with ⟨_, rfl⟩ | ⟨_, rfl⟩
        · exact Or.inl a1
        · exact Or.inr b1
      · rw [hmem]
        rcases e2 with ⟨_, rfl⟩ | ⟨_, rfl⟩
        · exact Or.inl a2
        · exact Or.inr b2
      · intro n hn
        rw [hmem] at hn
        simp only
        rcases hn with hn | hn
        · have := a3 n hn; omega
        · have := b3 n hn; omega

theorem union_eq (c : Cfg) (r r1 : Range) :
    (r.vec = none ∧ r1.vec = none ∧ r.min ≤ r.max ∧ r1.min ≤ r1.max ∧ r1.min ≤ r.max + 1 ∧ r.min ≤ r1.max + 1 ∧
      union c r r1 = { r with min := if r.min ≤ r1.min then r.min else r1.min, max := if r.max ≥ r1.max then r.max else r1.max }) ∨
    union c r r1 = unionSS (sparseArg c r) (sparseArg c r1) := by
  unfold union sparseArg
  cases hr : r.vec with
  | none =>
    cases hr1 : r1.vec with
    | none =>
      simp only
      split
      · rename_i h
        obtain ⟨h1, h2, h3, h4⟩ := h
        exact Or.inl ⟨by simp, by simp, (isEmpty_false r).1 h1, (isEmpty_false r1).1 h2, h3, h4, rfl⟩
      · exact Or.inr rfl
    | some v1 => exact Or.inr rfl
  | some v => exact Or.inr rfl

theorem union_wf (c : Cfg) (hc : c.Ok) (r r1 : Range) (hw : WF c r) (hw1 : WF c r1) : WF c (union c r r1) := by
  rcases union_eq c r r1 with ⟨h1, _, _, _, _, _, h⟩ | h
  · rw [h]; exact wf_none h1 (by have := hw.1; have := hw1.1; simp only; split <;> omega)
  · rw [h]
    obtain ⟨s1, ⟨v, s2, _⟩, _⟩ := sparseArg_spec c hc r hw
    obtain ⟨t1, ⟨v1, t2, _⟩, _⟩ := sparseArg_spec c hc r1 hw1
    exact (unionSS_spec c _ _ v v1 s2 t2 s1 t1).1

theorem union_mem (c : Cfg) (hc : c.Ok) (r r1 : Range) (hw : WF c r) (hw1 : WF c r1) (n : Int)
    (hn : (union c r r1).vec = none ∨ Win c n) : Mem (union c r r1) n ↔ Mem r n ∨ Mem r1 n := by
  rcases union_eq c r r1 with ⟨h1, h2, h3, h4, h5, h6, h⟩ | h
  · rw [h, mem_none h1, mem_none h2]
    refine Iff.trans (mem_iv h1 n) ?_
    split <;> split <;> omega
  · obtain ⟨s1, ⟨v, s2, _⟩, s3⟩ := sparseArg_spec c hc r hw
    obtain ⟨t1, ⟨v1, t2, _⟩, t3⟩ := sparseArg_spec c hc r1 hw1
    obtain ⟨u1, u2, _, u3⟩ := unionSS_spec c _ _ v v1 s2 t2 s1 t1
    rw [h] at hn ⊢
    have hwin := hn.resolve_left u2
    rw [u3, s3, t3]
    simp [hwin]

/-! Pl_Range_Inter -/

theorem interSS_spec (c : Cfg) (hc : c.Ok) (r r1 : Range) (v v1 : Vec) (hr : r.vec = some v) (hr1 : r1.vec = some v1)
    (hw : WF c r) (hw1 : WF c r1) :
    WF c (interSS c r r1) ∧ (interSS c r r1).vec ≠ none ∧ (interSS c r r1).extra = (r.extra && r1.extra) ∧
      ∀ n, Mem (interSS c r r1) n ↔ Mem r n ∧ Mem r1 n := by
  unfold interSS
  simp only
  have hl := (hw.2 v hr).1
  have hl1 := (hw1.2 v1 hr1).1
  by_cases he : r.isEmpty = true
  · rw [if_pos he]
    have hlt := (isEmpty_iff r).1 he
    have hne : ∀ n, ¬ Mem r n := fun n => not_mem_empty hlt n
    refine ⟨⟨hw.1, ?_⟩, by simp only [hr]; simp, rfl, ?_⟩
    · intro v' hv'
      exact hw.2 v' hv'
    · intro n
      have : Mem { r with extra := r.extra && r1.extra } n ↔ Mem r n := Iff.rfl
      rw [this]
      exact ⟨fun h => absurd h (hne n), fun h => h.1⟩
  · rw [if_neg he]
    have he' := (isEmpty_false r).1 (by simpa using he)
    by_cases he1 : r1.isEmpty = true
    · rw [if_pos he1]
      have hne : ∀ n, ¬ Mem r1 n := fun n => not_mem_empty ((isEmpty_iff r1).1 he1) n
      have hlt : ({ r with extra := r.extra && r1.extra } : Range).setEmpty.max
          < ({ r with extra := r.extra && r1.extra } : Range).setEmpty.min := by
        obtain ⟨a1, _, _⟩ := (hw.2 v hr).2 he'
        have := ((mem_some hr _).1 a1).2.1
        simp only [Range.setEmpty]
        omega
      refine ⟨⟨hw.1, ?_⟩, by simp [Range.setEmpty, hr], rfl, ?_⟩
      · intro v' hv'
        refine ⟨(hw.2 v' hv').1, fun h => by omega⟩
      · intro n
        exact ⟨fun h => absurd h (not_mem_empty hlt n), fun h => absurd h.2 (hne n)⟩
    · rw [if_neg he1]
      have he1' := (isEmpty_false r1).1 (by simpa using he1)
      rw [hr, hr1]
      simp only [Option.getD_some]
      have := fromVector_spec c hc { extra := r.extra && r1.extra, min := r.min, max := r.max, vec := some v } hw.1 (vecInter v v1)
        (by rw [inter_len _ _ (by omega)]; exact hl)
      obtain ⟨f1, f2, f3, f4⟩ := this
      refine ⟨f1, by rw [f2]; simp, f3, ?_⟩
      intro n
      rw [f4, mem_some hr, mem_some hr1, inter_bit v v1 (by omega), Bool.and_eq_true]
      constructor
      · rintro ⟨h0, h1, h2⟩; exact ⟨⟨he', h0, h1⟩, he1', h0, h2⟩
      · rintro ⟨⟨_, h0, h1⟩, _, _, h2⟩; exact ⟨h0, h1, h2⟩

theorem inter_eq (c : Cfg) (r r1 : Range) :
    (r.vec = none ∧ r1.vec = none ∧
      inter c r r1 = { r with min := if r.min ≥ r1.min then r.min else r1.min, max := if r.max ≤ r1.max then r.max else r1.max }) ∨
    ((r.vec ≠ none ∨ r1.vec ≠ none) ∧ inter c r r1 = interSS c (sparseArg c r) (sparseArg c r1)) := by
  unfold inter sparseArg
  cases hr : r.vec with
  | none =>
    cases hr1 : r1.vec with
    | none => exact Or.inl ⟨by simp, by simp, rfl⟩
    | some v1 => exact Or.inr ⟨by simp, rfl⟩
  | some v => exact Or.inr ⟨by simp, rfl⟩

theorem inter_wf (c : Cfg) (hc : c.Ok) (r r1 : Range) (hw : WF c r) (hw1 : WF c r1) : WF c (inter c r r1) := by
  rcases inter_eq c r r1 with ⟨h1, _, h⟩ | ⟨_, h⟩
  · rw [h]; exact wf_none h1 (by have := hw.1; have := hw1.1; simp only; split <;> omega)
  · rw [h]
    obtain ⟨s1, ⟨v, s2, _⟩, _⟩ := sparseArg_spec c hc r hw
    obtain ⟨t1, ⟨v1, t2, _⟩, _⟩ := sparseArg_spec c hc r1 hw1
    exact (interSS_spec c hc _ _ v v1 s2 t2 s1 t1).1

/-- The intersection is always exact. -/
theorem inter_mem (c : Cfg) (hc : c.Ok) (r r1 : Range) (hw : WF c r) (hw1 : WF c r1) (n : Int) :
    Mem (inter c r r1) n ↔ Mem r n ∧ Mem r1 n := by
  rcases inter_eq c r r1 with ⟨h1, h2, h⟩ | ⟨hor, h⟩
  · rw [h, mem_none h1, mem_none h2]
    refine Iff.trans (mem_iv h1 n) ?_
    split <;> split <;> omega
  · obtain ⟨s1, ⟨v, s2, _⟩, s3⟩ := sparseArg_spec c hc r hw
    obtain ⟨t1, ⟨v1, t2, _⟩, t3⟩ := sparseArg_spec c hc r1 hw1
    obtain ⟨u1, u2, _, u3⟩ := interSS_spec c hc _ _ v v1 s2 t2 s1 t1
    rw [h, u3, s3, t3]
    constructor
    · rintro ⟨⟨h1, _⟩, h2, _⟩; exact ⟨h1, h2⟩
    · rintro ⟨h1, h2⟩
      have hwin : Win c n := by
        rcases hor with ho | ho
        · cases hv : r.vec with
          | none => exact absurd hv ho
          | some v' => exact mem_win hw hv h1
        · cases hv : r1.vec with
          | none => exact absurd hv ho
          | some v' => exact mem_win hw1 hv h2
      exact ⟨⟨h1, hwin⟩, h2, hwin⟩

/-! Pl_Range_Compl -/

theorem complSparse_spec (c : Cfg) (hc : c.Ok) (r : Range) (v : Vec) (hr : r.vec = some v) (hw : WF c r) :
    WF c (complSparse c r) ∧ (complSparse c r).vec ≠ none ∧ (complSparse c r).extra = true ∧
      ∀ n, Mem (complSparse c r) n ↔ Win c n ∧ ¬ Mem r n := by
  unfold complSparse
  have hs := hc.size
  have hl := (hw.2 v hr).1
  by_cases he : r.isEmpty = true
  · rw [if_pos he]
    have hne : ∀ n, ¬ Mem r n := fun n => not_mem_empty ((isEmpty_iff r).1 he) n
    have hvm : c.vmax = (c.size : Int) * 64 - 1 := rfl
    have hmem : ∀ n, Mem ⟨true, 0, c.vmax, some (vecFull c.size)⟩ n ↔ Win c n := by
      intro n
      rw [mem_some rfl]
      simp only [full_bit, decide_eq_true_eq]
      unfold Win
      omega
    refine ⟨⟨by simp, ?_⟩, by simp, rfl, ?_⟩
    · intro v' hv'
      cases hv'
      refine ⟨by simp [vecFull], fun _ => ⟨?_, ?_, ?_⟩⟩
      · rw [hmem]; exact ⟨by simp, by simp only; omega⟩
      · rw [hmem]; exact ⟨by simp only; omega, by simp only; omega⟩
      · intro n hn
        rw [hmem] at hn
        obtain ⟨h1, h2⟩ := hn
        simp only
        omega
    · intro n
      rw [hmem]
      exact ⟨fun h => ⟨h, hne n⟩, fun h => h.1⟩
  · rw [if_neg he]
    have he' := (isEmpty_false r).1 (by simpa using he)
    rw [hr]
    simp only [Option.getD_some]
    obtain ⟨f1, f2, f3, f4⟩ := fromVector_spec c hc { extra := true, min := r.min, max := r.max, vec := some v } hw.1 (vecCompl v)
      (by rw [compl_len]; exact hl)
    refine ⟨f1, by rw [f2]; simp, f3, ?_⟩
    intro n
    rw [f4, mem_some hr]
    unfold Win
    constructor
    · rintro ⟨h0, h1⟩
      have := bit_lt h1
      rw [compl_len, hl] at this
      rw [compl_bit v _ (by omega)] at h1
      refine ⟨⟨h0, by omega⟩, ?_⟩
      rintro ⟨_, _, h2⟩
      rw [h2] at h1; cases h1
    · rintro ⟨⟨h0, h1⟩, h2⟩
      refine ⟨h0, ?_⟩
      rw [compl_bit v _ (by omega)]
      cases hb : bit v n.toNat with
      | false => rfl
      | true => exact absurd ⟨he', h0, hb⟩ h2

theorem compl_spec (c : Cfg) (hc : c.Ok) (himax : c.vmax ≤ imax) (r : Range) (hw : WF c r)
    (hmin : r.vec = none → r.min ≤ imax + 1) :
    WF c (compl c r) ∧ ((compl c r).vec ≠ none → (compl c r).extra = true) ∧
      ∀ n, 0 ≤ n → ((compl c r).vec = none ∨ Win c n) → (Mem (compl c r) n ↔ n ≤ imax ∧ ¬ Mem r n) := by
  have hvm : c.vmax = (c.size : Int) * 64 - 1 := rfl
  have hsp : ∀ r', WF c r' → (∃ v, r'.vec = some v) → (∀ n, 0 ≤ n → Win c n → (Mem r' n ↔ Mem r n)) → compl c r = complSparse c r' →
      WF c (compl c r) ∧ ((compl c r).vec ≠ none → (compl c r).extra = true) ∧
        ∀ n, 0 ≤ n → ((compl c r).vec = none ∨ Win c n) → (Mem (compl c r) n ↔ n ≤ imax ∧ ¬ Mem r n) := by
    intro r' hw' ⟨v, hv⟩ hm heq
    obtain ⟨s1, s2, s3, s4⟩ := complSparse_spec c hc r' v hv hw'
    rw [heq]
    refine ⟨s1, fun _ => s3, ?_⟩
    intro n hn hwin
    have hwin := hwin.resolve_left s2
    rw [s4, hm n hn hwin]
    have : n ≤ imax := by have := hwin.2; omega
    simp [hwin, this]
  cases hr : r.vec with
  | some v =>
    refine hsp r hw ⟨v, hr⟩ (fun n _ _ => Iff.rfl) ?_
    unfold compl; rw [hr]
  | none =>
    have hmin := hmin hr
    by_cases h1 : r.isEmpty = true
    · have heq : compl c r = { r with min := 0, max := imax } := by unfold compl; rw [hr]; simp only [if_pos h1]
      rw [heq]
      refine ⟨wf_none hr (by first | exact hw.1 | (have := hw.1; simp only; omega)), fun h => absurd hr h, ?_⟩
      intro n hn _
      rw [mem_none hr]
      refine Iff.trans (mem_iv hr n) ?_
      rw [isEmpty_iff] at h1
      omega
    · by_cases h2 : r.min ≤ 0
      · rw [Bool.not_eq_true] at h1
        have h1' := (isEmpty_false r).1 h1
        by_cases h3 : r.max ≥ imax
        · have heq : compl c r = r.setEmpty := by
            unfold compl; rw [hr]; simp only [h1, Bool.false_eq_true, if_false, if_pos h2, if_pos h3]
          rw [heq]
          refine ⟨wf_none hr (by first | exact hw.1 | (have := hw.1; simp only; omega)), fun h => absurd hr h, ?_⟩
          intro n hn _
          rw [mem_none (r := r.setEmpty) hr, mem_none hr]
          have hlo := hw.1
          simp only [Range.setEmpty]
          unfold imax at h3 ⊢
          omega
        · have heq : compl c r = { r with min := r.max + 1, max := imax } := by
            unfold compl; rw [hr]; simp only [h1, Bool.false_eq_true, if_false, if_pos h2, if_neg h3]
          rw [heq]
          refine ⟨wf_none hr (by first | exact hw.1 | (have := hw.1; simp only; omega)), fun h => absurd hr h, ?_⟩
          intro n hn _
          rw [mem_none hr]
          refine Iff.trans (mem_iv hr n) ?_
          omega
      · have h1'' := (isEmpty_false r).1 (by simpa using h1)
        rw [Bool.not_eq_true] at h1
        by_cases h3 : r.max ≥ imax
        · have heq : compl c r = { r with max := r.min - 1, min := 0 } := by
            unfold compl; rw [hr]; simp only [h1, Bool.false_eq_true, if_false, if_neg h2, if_pos h3]
          rw [heq]
          refine ⟨wf_none hr (by first | exact hw.1 | (have := hw.1; simp only; omega)), fun h => absurd hr h, ?_⟩
          intro n hn _
          rw [mem_none hr]
          refine Iff.trans (mem_iv hr n) ?_
          omega
        · obtain ⟨b1, b2, _, b4⟩ := becomesSparse_spec c hc r hr
          refine hsp (becomesSparse c r) b1 ⟨b2.choose, b2.choose_spec.1⟩ ?_ ?_
          · intro n _ hwin
            rw [b4]; simp [hwin]
          · unfold compl; rw [hr]; simp only [h1, Bool.false_eq_true, if_false, if_neg h2, if_neg h3]

/-! Pl_Range_Test_Value -/

theorem testValue_mem (c : Cfg) (r : Range) (hw : WF c r) (n : Int) : testValue r n = true ↔ Mem r n := by
  unfold testValue
  cases hr : r.vec with
  | none =>
    rw [mem_none hr]
    simp only
    split
    · constructor
      · intro h; cases h
      · intro h; omega
    · simp; omega
  | some v =>
    simp only
    by_cases hb : n < r.min ∨ n > r.max
    · rw [if_pos hb]
      constructor
      · intro h; cases h
      · intro h
        have := ((hw.2 v hr).2 h.1).2.2 n h
        omega
    · rw [if_neg hb]
      have hne : r.min ≤ r.max := by omega
      obtain ⟨h1, h2, _⟩ := (hw.2 v hr).2 hne
      by_cases he : n = r.min ∨ n = r.max
      · rw [if_pos he]
        rcases he with rfl | rfl
        · simp [h1]
        · simp [h2]
      · rw [if_neg he, tst_eq, mem_some hr]
        have := ((mem_some hr _).1 h1).2.1
        constructor
        · intro h; exact ⟨hne, by omega, h⟩
        · intro h; exact h.2.2

/-! Pl_Range_Test_Null_Inter -/

theorem nullInterLoop_iff (v : Vec) : ∀ (k : Nat) (i : Int), 0 ≤ i →
    (nullInterLoop v k i = true ↔ ∀ n, i ≤ n → n < i + k → bit v n.toNat = false)
  | 0, i, _ => by simp [nullInterLoop]; intro n h1 h2; omega
  | k + 1, i, hi => by
    unfold nullInterLoop
    rw [tst_eq]
    cases hb : bit v i.toNat with
    | true =>
      rw [if_pos rfl]
      constructor
      · intro h; cases h
      · intro h
        have := h i (by omega) (by omega)
        rw [hb] at this; cases this
    | false =>
      rw [if_neg (by simp), nullInterLoop_iff v k (i + 1) (by omega)]
      constructor
      · intro h n h1 h2
        by_cases e : n = i
        · subst e; exact hb
        · exact h n (by omega) (by omega)
      · intro h n h1 h2
        exact h n (by omega) (by omega)

theorem bounds_mem (c : Cfg) (r : Range) (hw : WF c r) (hne : r.min ≤ r.max) :
    Mem r r.min ∧ Mem r r.max ∧ ∀ n, Mem r n → r.min ≤ n ∧ n ≤ r.max := by
  cases hr : r.vec with
  | none => simp only [mem_none hr]; exact ⟨by omega, by omega, fun n h => h⟩
  | some v => exact (hw.2 v hr).2 hne

theorem nullInterIS_iff (c : Cfg) (r r1 : Range) (v1 : Vec) (hr : r.vec = none) (hr1 : r1.vec = some v1)
    (hw1 : WF c r1) (hne : r.min ≤ r.max) (hne1 : r1.min ≤ r1.max) (h1 : ¬ (r.min > r1.max ∨ r1.min > r.max))
    (h2 : nullInterOverlap r r1 = false) :
    nullInterIS r r1 v1 = true ↔ ∀ n, ¬ (Mem r n ∧ Mem r1 n) := by
  obtain ⟨b1, b2, b3⟩ := bounds_mem c r1 hw1 hne1
  have hov : ¬ ((r.min ≥ r1.min ∧ r.max ≥ r1.max) ∨ (r1.min ≥ r.min ∧ r1.max ≥ r.max)) := by
    simpa [nullInterOverlap] using h2
  have h0 := ((mem_some hr1 _).1 b1).2.1
  unfold nullInterIS
  by_cases h : r.min ≤ r1.min
  · rw [if_pos h]
    constructor
    · intro h; cases h
    · intro hh
      exact absurd ⟨(mem_none hr _).2 (by omega), b1⟩ (hh r1.min)
  · rw [if_neg h, nullInterLoop_iff _ _ _ (by omega)]
    constructor
    · intro hh n ⟨hn, hn1⟩
      rw [mem_none hr] at hn
      have := hh n hn.1 (by omega)
      have h3 := ((mem_some hr1 _).1 hn1).2.2
      rw [this] at h3; cases h3
    · intro hh n hn hn'
      cases hb : bit v1 n.toNat with
      | false => rfl
      | true =>
        exact absurd ⟨(mem_none hr _).2 (by omega), (mem_some hr1 _).2 ⟨hne1, by omega, hb⟩⟩ (hh n)

theorem overlap_mem (c : Cfg) (r r1 : Range) (hw : WF c r) (hw1 : WF c r1) (hiv : r.vec = none ∨ r1.vec = none)
    (hne : r.min ≤ r.max) (hne1 : r1.min ≤ r1.max)
    (h1 : ¬ (r.min > r1.max ∨ r1.min > r.max)) (h2 : nullInterOverlap r r1 = true) : ∃ n, Mem r n ∧ Mem r1 n := by
  obtain ⟨a1, a2, _⟩ := bounds_mem c r hw hne
  obtain ⟨b1, b2, _⟩ := bounds_mem c r1 hw1 hne1
  have hov : (r.min ≥ r1.min ∧ r.max ≥ r1.max) ∨ (r1.min ≥ r.min ∧ r1.max ≥ r.max) := by
    simpa [nullInterOverlap] using h2
  rcases hiv with hr | hr
  · rcases hov with h | h
    · exact ⟨r1.max, (mem_none hr _).2 (by omega), b2⟩
    · exact ⟨r1.min, (mem_none hr _).2 (by omega), b1⟩
  · rcases hov with h | h
    · exact ⟨r.min, a1, (mem_none hr _).2 (by omega)⟩
    · exact ⟨r.max, a2, (mem_none hr _).2 (by omega)⟩

theorem testNullInter_iff (c : Cfg) (r r1 : Range) (hw : WF c r) (hw1 : WF c r1)
    (hne : r.min ≤ r.max) (hne1 : r1.min ≤ r1.max) :
    testNullInter r r1 = true ↔ ∀ n, ¬ (Mem r n ∧ Mem r1 n) := by
  obtain ⟨a1, a2, a3⟩ := bounds_mem c r hw hne
  obtain ⟨b1, b2, b3⟩ := bounds_mem c r1 hw1 hne1
  have hfalse : ∀ n, Mem r n → Mem r1 n → (false = true ↔ ∀ n, ¬ (Mem r n ∧ Mem r1 n)) := by
    intro n h1 h2
    constructor
    · intro h; cases h
    · intro h; exact absurd ⟨h1, h2⟩ (h n)
  unfold testNullInter nullInterPre
  by_cases h1 : r.min > r1.max ∨ r1.min > r.max
  · rw [if_pos h1]
    simp only [true_iff]
    intro n ⟨hn, hn1⟩
    have := a3 n hn
    have := b3 n hn1
    omega
  · rw [if_neg h1]
    by_cases h2 : r.min = r1.min ∨ r.min = r1.max ∨ r.max = r1.min ∨ r.max = r1.max
    · rw [if_pos h2]
      rcases h2 with h | h | h | h
      · exact hfalse _ a1 (h ▸ b1)
      · exact hfalse _ a1 (h ▸ b2)
      · exact hfalse _ a2 (h ▸ b1)
      · exact hfalse _ a2 (h ▸ b2)
    · rw [if_neg h2]
      simp only
      cases hr : r.vec with
      | none =>
        cases hr1 : r1.vec with
        | none =>
          simp only
          by_cases h : r.min ≤ r1.min
          · exact hfalse r1.min ((mem_none hr _).2 (by omega)) b1
          · exact hfalse r.min a1 ((mem_none hr1 _).2 (by omega))
        | some v1 =>
          simp only
          by_cases hov : nullInterOverlap r r1 = true
          · rw [if_pos hov]
            obtain ⟨n, h3, h4⟩ := overlap_mem c r r1 hw hw1 (Or.inl hr) hne hne1 h1 hov
            exact hfalse n h3 h4
          · rw [if_neg hov]
            exact nullInterIS_iff c r r1 v1 hr hr1 hw1 hne hne1 h1 (by simpa using hov)
      | some v =>
        cases hr1 : r1.vec with
        | none =>
          simp only
          by_cases hov : nullInterOverlap r r1 = true
          · rw [if_pos hov]
            obtain ⟨n, h3, h4⟩ := overlap_mem c r r1 hw hw1 (Or.inr hr1) hne hne1 h1 hov
            exact hfalse n h3 h4
          · rw [if_neg hov, nullInterIS_iff c r1 r v hr1 hr hw hne1 hne (by omega)
              (by simp [nullInterOverlap] at hov ⊢; omega)]
            constructor
            · intro h n hn; exact h n ⟨hn.2, hn.1⟩
            · intro h n hn; exact h n ⟨hn.2, hn.1⟩
        | some v1 =>
          simp only
          have hl := (hw.2 v hr).1
          have hl1 := (hw1.2 v1 hr1).1
          rw [nullInter_iff _ _ (by omega)]
          constructor
          · intro h n ⟨hn, hn1⟩
            exact h n.toNat ⟨((mem_some hr1 _).1 hn1).2.2, ((mem_some hr _).1 hn).2.2⟩
          · intro h m ⟨hm1, hm⟩
            exact h m ⟨(mem_some hr _).2 ⟨hne, by omega, by simpa using hm⟩,
              (mem_some hr1 _).2 ⟨hne1, by omega, by simpa using hm1⟩⟩

end Gp.FdRange
