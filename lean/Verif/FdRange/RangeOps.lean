import Verif.FdRange.Ops
/- The arithmetic operations on ranges. -/
namespace Gp.FdRange

/-- The elements which are values of the vectors. -/
def Clip (c : Cfg) (r : Range) (n : Int) : Prop := Mem r n ∧ Win c n

/-- Nothing above the vectors has been lost in the conversion to a vector. -/
def NoLoss (c : Cfg) (r : Range) : Prop := ∀ n, Mem r n → n ≤ c.vmax

theorem sparseArg_bits (c : Cfg) (hc : c.Ok) (r : Range) (hw : WF c r) (hne : r.min ≤ r.max) (hf : Fits c r) :
    ∃ v, (sparseArg c r).vec = some v ∧ v.length = c.size ∧ (sparseArg c r).min ≤ (sparseArg c r).max ∧
      Clip c r (sparseArg c r).min ∧ Clip c r (sparseArg c r).max ∧
      (∀ n, Clip c r n → (sparseArg c r).min ≤ n ∧ n ≤ (sparseArg c r).max) ∧
      (∀ a : Nat, bit v a = true ↔ Clip c r a) := by
  obtain ⟨s1, ⟨v, s2, s3⟩, s4⟩ := sparseArg_spec c hc r hw
  have hne' : (sparseArg c r).min ≤ (sparseArg c r).max := by
    unfold sparseArg
    cases hr : r.vec with
    | none => exact becomesSparse_nonempty c hc r hr hne hf
    | some v => exact hne
  obtain ⟨b1, b2, b3⟩ := (s1.2 v s2).2 hne'
  refine ⟨v, s2, s3, hne', (s4 _).1 b1, (s4 _).1 b2, fun n h => b3 n ((s4 n).2 h), fun a => ?_⟩
  unfold Clip
  rw [← s4, mem_some s2]
  constructor
  · intro h; exact ⟨hne', by omega, by simpa using h⟩
  · intro h; simpa using h.2.2

theorem sparseArg_noloss (c : Cfg) (hc : c.Ok) (r : Range) (hw : WF c r) (he : (sparseArg c r).extra = false) : NoLoss c r := by
  intro n hn
  cases hr : r.vec with
  | none =>
    unfold sparseArg at he
    rw [hr] at he
    simp only at he
    rw [(becomesSparse_spec c hc r hr).2.2.1, decide_eq_false_iff_not] at he
    have := (mem_none hr n).1 hn
    omega
  | some v =>
    have := (mem_win hw hr hn).2
    unfold Cfg.vmax; omega

/-- Both representations are intervals. -/
def BothIv (r r1 : Range) : Prop := r.vec = none ∧ r1.vec = none

theorem addRange_eq (c : Cfg) (r r1 : Range) (hne : r.min ≤ r.max) (hne1 : r1.min ≤ r1.max) :
    (BothIv r r1 ∧ addRange c r r1 = some { r with min := r.min + r1.min, max := r.max + r1.max }) ∨
    (¬ BothIv r r1 ∧ addRange c r r1 = addSS c (sparseArg c r) (sparseArg c r1)) := by
  unfold addRange BothIv
  rw [if_neg (by rw [isEmpty_iff]; omega), if_neg (by rw [isEmpty_iff]; omega)]
  cases hr : r.vec with
  | none =>
    cases hr1 : r1.vec with
    | none => exact Or.inl ⟨by simp, rfl⟩
    | some v1 => exact Or.inr ⟨by simp, rfl⟩
  | some v => exact Or.inr ⟨by simp, rfl⟩

theorem subRange_eq (c : Cfg) (r r1 : Range) (hne : r.min ≤ r.max) (hne1 : r1.min ≤ r1.max) :
    (BothIv r r1 ∧ subRange c r r1 = some { r with min := r.min - r1.max, max := r.max - r1.min }) ∨
    (¬ BothIv r r1 ∧ subRange c r r1 = subSS c (sparseArg c r) (sparseArg c r1)) := by
  unfold subRange BothIv
  rw [if_neg (by rw [isEmpty_iff]; omega), if_neg (by rw [isEmpty_iff]; omega)]
  cases hr : r.vec with
  | none =>
    cases hr1 : r1.vec with
    | none => exact Or.inl ⟨by simp, rfl⟩
    | some v1 => exact Or.inr ⟨by simp, rfl⟩
  | some v => exact Or.inr ⟨by simp, rfl⟩

/-- A range whose vector and bounds are known. -/
theorem mk_wf (c : Cfg) (e : Bool) (a b : Int) (v : Vec) (hl : v.length = c.size) (hlo : -2147483648 < a) (ha : 0 ≤ a) (hb : a ≤ b)
    (h1 : bit v a.toNat = true) (h2 : bit v b.toNat = true) (h3 : ∀ n : Int, 0 ≤ n → bit v n.toNat = true → a ≤ n ∧ n ≤ b) :
    WF c ⟨e, a, b, some v⟩ ∧ ∀ n, Mem ⟨e, a, b, some v⟩ n ↔ 0 ≤ n ∧ bit v n.toNat = true := by
  have hm : ∀ n, Mem ⟨e, a, b, some v⟩ n ↔ 0 ≤ n ∧ bit v n.toNat = true := by
    intro n; rw [mem_some rfl]; simp only [hb, true_and]
  refine ⟨⟨hlo, ?_⟩, hm⟩
  intro v' hv'
  cases hv'
  refine ⟨hl, fun _ => ⟨(hm _).2 ⟨ha, h1⟩, (hm _).2 ⟨by simp only; omega, h2⟩, fun n h => ?_⟩⟩
  have := (hm n).1 h
  exact h3 n this.1 this.2

theorem addSS_spec (c : Cfg) (hc : c.Ok) (r r1 : Range) (hw : WF c r) (hw1 : WF c r1) (hne : r.min ≤ r.max) (hne1 : r1.min ≤ r1.max)
    (hf : Fits c r) (hf1 : Fits c r1) :
    ∃ r', addSS c (sparseArg c r) (sparseArg c r1) = some r' ∧ WF c r' ∧ r'.vec ≠ none ∧
      (∀ n, Mem r' n ↔ Win c n ∧ ∃ x y, Clip c r x ∧ Clip c r1 y ∧ n = x + y) ∧
      (r'.extra = false → (sparseArg c r).extra = false ∧ (sparseArg c r1).extra = false ∧
        ∀ x y, Clip c r x → Clip c r1 y → x + y ≤ c.vmax) := by
  obtain ⟨v, a1, a2, a3, a4, a5, a6, a7⟩ := sparseArg_bits c hc r hw hne hf
  obtain ⟨v1, b1, b2, b3, b4, b5, b6, b7⟩ := sparseArg_bits c hc r1 hw1 hne1 hf1
  obtain ⟨v', h1, h2, h3⟩ := vecAddVec_spec c v v1 a2
  have hbit : ∀ n : Int, 0 ≤ n ∧ bit v' n.toNat = true ↔ Win c n ∧ ∃ x y, Clip c r x ∧ Clip c r1 y ∧ n = x + y := by
    intro n
    rw [h3]
    constructor
    · rintro ⟨h0, h4, a, e, ha, he, h5⟩
      exact ⟨⟨h0, by omega⟩, a, e, (a7 a).1 ha, (b7 e).1 he, by omega⟩
    · rintro ⟨⟨h0, h4⟩, x, y, hx, hy, h5⟩
      have x0 := hx.2.1
      have y0 := hy.2.1
      refine ⟨h0, by omega, x.toNat, y.toNat, (a7 _).2 ?_, (b7 _).2 ?_, by omega⟩
      · rw [show ((x.toNat : Nat) : Int) = x by omega]; exact hx
      · rw [show ((y.toNat : Nat) : Int) = y by omega]; exact hy
  have l0 := a4.2.1
  have l1 := b4.2.1
  unfold addSS
  rw [a1, b1]
  simp only [Option.getD_some]
  rw [h1]
  simp only
  by_cases hx : ((sparseArg c r).extra || ((sparseArg c r1).extra || decide ((sparseArg c r).max + (sparseArg c r1).max > c.vmax))) = true
      ∨ (sparseArg c r).min + (sparseArg c r1).min < 0
  · rw [if_pos hx]
    obtain ⟨f1, f2, f3, f4⟩ := fromVector_spec c hc ⟨(sparseArg c r).extra || ((sparseArg c r1).extra ||
      decide ((sparseArg c r).max + (sparseArg c r1).max > c.vmax)), (sparseArg c r).min + (sparseArg c r1).min,
      (sparseArg c r).max + (sparseArg c r1).max, some v'⟩ (by simp only; omega) v' h2
    refine ⟨_, rfl, f1, by rw [f2]; simp, fun n => by rw [f4, hbit], ?_⟩
    intro he
    rw [f3] at he
    simp only at he
    rcases hx with hx | hx
    · rw [he] at hx; cases hx
    · omega
  · rw [if_neg hx]
    have hx1 : ((sparseArg c r).extra || ((sparseArg c r1).extra || decide ((sparseArg c r).max + (sparseArg c r1).max > c.vmax))) = false := by
      cases hb : ((sparseArg c r).extra || ((sparseArg c r1).extra || decide ((sparseArg c r).max + (sparseArg c r1).max > c.vmax))) with
      | false => rfl
      | true => exact absurd (Or.inl hb) hx
    simp only [Bool.or_eq_false_iff, decide_eq_false_iff_not] at hx1
    obtain ⟨e1, e2, e3⟩ := hx1
    unfold Cfg.vmax at e3
    obtain ⟨m1, m2⟩ := mk_wf c ((sparseArg c r).extra || ((sparseArg c r1).extra ||
      decide ((sparseArg c r).max + (sparseArg c r1).max > c.vmax))) ((sparseArg c r).min + (sparseArg c r1).min)
      ((sparseArg c r).max + (sparseArg c r1).max) v' h2 (by omega) (by omega) (by omega)
      ((hbit _).2 ⟨⟨by omega, by omega⟩, _, _, a4, b4, rfl⟩).2 ((hbit _).2 ⟨⟨by omega, by omega⟩, _, _, a5, b5, rfl⟩).2
      (fun n h0 hb => by
        obtain ⟨_, x, y, hx, hy, h5⟩ := (hbit n).1 ⟨h0, hb⟩
        have := a6 x hx
        have := b6 y hy
        omega)
    refine ⟨_, rfl, m1, by simp, fun n => by rw [m2, hbit], ?_⟩
    intro _
    refine ⟨e1, e2, fun x y hx hy => ?_⟩
    have := a6 x hx
    have := b6 y hy
    unfold Cfg.vmax; omega

theorem subSS_spec (c : Cfg) (hc : c.Ok) (hv : c.vmax ≤ imax) (r r1 : Range) (hw : WF c r) (hw1 : WF c r1) (hne : r.min ≤ r.max)
    (hne1 : r1.min ≤ r1.max) (hf : Fits c r) (hf1 : Fits c r1) :
    ∃ r', subSS c (sparseArg c r) (sparseArg c r1) = some r' ∧ WF c r' ∧ r'.vec ≠ none ∧
      (∀ n, Mem r' n ↔ Win c n ∧ ∃ x y, Clip c r x ∧ Clip c r1 y ∧ n = x - y) ∧
      (r'.extra = ((sparseArg c r).extra || (sparseArg c r1).extra)) := by
  obtain ⟨v, a1, a2, a3, a4, a5, a6, a7⟩ := sparseArg_bits c hc r hw hne hf
  obtain ⟨v1, b1, b2, b3, b4, b5, b6, b7⟩ := sparseArg_bits c hc r1 hw1 hne1 hf1
  obtain ⟨v', h1, h2, h3⟩ := vecSubVec_spec c v v1 a2
  have hbit : ∀ n : Int, 0 ≤ n ∧ bit v' n.toNat = true ↔ Win c n ∧ ∃ x y, Clip c r x ∧ Clip c r1 y ∧ n = x - y := by
    intro n
    constructor
    · rintro ⟨h0, hb⟩
      have hlt := bit_lt hb
      obtain ⟨a, e, ha, he, h5⟩ := (h3 _).1 hb
      exact ⟨⟨h0, by omega⟩, a, e, (a7 a).1 ha, (b7 e).1 he, by omega⟩
    · rintro ⟨⟨h0, h4⟩, x, y, hx, hy, h5⟩
      have x0 := hx.2.1
      have y0 := hy.2.1
      refine ⟨h0, (h3 _).2 ⟨x.toNat, y.toNat, (a7 _).2 ?_, (b7 _).2 ?_, by omega⟩⟩
      · rw [show ((x.toNat : Nat) : Int) = x by omega]; exact hx
      · rw [show ((y.toNat : Nat) : Int) = y by omega]; exact hy
  have l0 := a4.2.1
  have l1 := b5.2.2
  have l2 := a5.2.2
  have l3 := b4.2.1
  have hi : (imax : Int) = 268435455 := rfl
  have hvm : c.vmax = (c.size : Int) * 64 - 1 := rfl
  unfold subSS
  rw [a1, b1]
  simp only [Option.getD_some]
  rw [h1]
  simp only
  by_cases hx : ((sparseArg c r).extra || (sparseArg c r1).extra) = true ∨ (sparseArg c r).min - (sparseArg c r1).max < 0
  · rw [if_pos hx]
    obtain ⟨f1, f2, f3, f4⟩ := fromVector_spec c hc ⟨(sparseArg c r).extra || (sparseArg c r1).extra,
      (sparseArg c r).min - (sparseArg c r1).max, (sparseArg c r).max - (sparseArg c r1).min, some v'⟩ (by simp only; omega) v' h2
    exact ⟨_, rfl, f1, by rw [f2]; simp, fun n => by rw [f4, hbit], f3⟩
  · rw [if_neg hx]
    have hx2 : ¬ ((sparseArg c r).min - (sparseArg c r1).max < 0) := fun h => hx (Or.inr h)
    obtain ⟨m1, m2⟩ := mk_wf c ((sparseArg c r).extra || (sparseArg c r1).extra) ((sparseArg c r).min - (sparseArg c r1).max)
      ((sparseArg c r).max - (sparseArg c r1).min) v' h2 (by omega) (by omega) (by omega)
      ((hbit _).2 ⟨⟨by omega, by omega⟩, _, _, a4, b5, rfl⟩).2 ((hbit _).2 ⟨⟨by omega, by omega⟩, _, _, a5, b4, rfl⟩).2
      (fun n h0 hb => by
        obtain ⟨_, x, y, hx, hy, h5⟩ := (hbit n).1 ⟨h0, hb⟩
        have := a6 x hx
        have := b6 y hy
        omega)
    exact ⟨_, rfl, m1, by simp, fun n => by rw [m2, hbit], rfl⟩

/-- The operations which always compute the vector of the result. -/
theorem opRange_spec (c : Cfg) (hc : c.Ok) (op : Cfg → Vec → Vec → Option Vec) (P : (Nat → Prop) → (Nat → Prop) → Nat → Prop)
    (hop : ∀ v v1, v.length = c.size → v1.length = c.size → ∃ v', op c v v1 = some v' ∧ v'.length = c.size ∧
      ∀ m, bit v' m = true ↔ P (fun a => bit v a = true) (fun e => bit v1 e = true) m)
    (hP : ∀ A A' B B' m, (∀ a, A a ↔ A' a) → (∀ b, B b ↔ B' b) → (P A B m ↔ P A' B' m))
    (r r1 : Range) (hw : WF c r) (hw1 : WF c r1) (hne : r.min ≤ r.max) (hne1 : r1.min ≤ r1.max) (hf : Fits c r) (hf1 : Fits c r1) :
    ∃ r', opRange c op r r1 = some r' ∧ WF c r' ∧ r'.vec ≠ none ∧
      (∀ m : Nat, Mem r' m ↔ P (fun a => Clip c r a) (fun e => Clip c r1 e) m) ∧
      r'.extra = ((sparseArg c r).extra || (sparseArg c r1).extra) := by
  obtain ⟨v, a1, a2, a3, a4, a5, a6, a7⟩ := sparseArg_bits c hc r hw hne hf
  obtain ⟨v1, b1, b2, b3, b4, b5, b6, b7⟩ := sparseArg_bits c hc r1 hw1 hne1 hf1
  obtain ⟨v', h1, h2, h3⟩ := hop v v1 a2 b2
  unfold opRange
  rw [if_neg (by rw [isEmpty_iff]; omega), if_neg (by rw [isEmpty_iff]; omega), a1, b1]
  simp only [Option.getD_some]
  rw [h1]
  simp only
  have hlo := (sparseArg_spec c hc r hw).1.1
  obtain ⟨f1, f2, f3, f4⟩ := fromVector_spec c hc
    ⟨(sparseArg c r).extra || (sparseArg c r1).extra, (sparseArg c r).min, (sparseArg c r).max, some v⟩ hlo v' h2
  rw [← a1] at f1 f2 f3 f4
  refine ⟨_, rfl, ?_, ?_, ?_, ?_⟩
  · exact f1
  · rw [f2]; simp
  · intro m
    rw [f4]
    simp only [Int.toNat_natCast]
    rw [h3]
    constructor
    · rintro ⟨_, h⟩; exact (hP _ _ _ _ m a7 b7).1 h
    · intro h; exact ⟨by omega, (hP _ _ _ _ m a7 b7).2 h⟩
  · exact f3

/-! With a value -/

theorem addValue_spec (c : Cfg) (hc : c.Ok) (r : Range) (hw : WF c r) (n : Int) (hlo : -2147483648 < r.min + n) :
    WF c (addValue c r n) ∧ (∀ m, Mem (addValue c r n) m ↔ Mem r (m - n) ∧ (r.vec = none ∨ Win c m)) ∧
      (r.vec ≠ none → (addValue c r n).extra = false → r.extra = false ∧ ∀ m, Mem r m → m + n ≤ c.vmax) := by
  unfold addValue
  by_cases h0 : n = 0 ∨ r.isEmpty = true
  · rw [if_pos h0]
    refine ⟨hw, ?_, ?_⟩
    · intro m
      rcases h0 with rfl | h0
      · rw [Int.sub_zero]
        constructor
        · intro h
          refine ⟨h, ?_⟩
          cases hr : r.vec with
          | none => exact Or.inl rfl
          | some v => exact Or.inr (mem_win hw hr h)
        · intro h; exact h.1
      · have hne := fun m => not_mem_empty ((isEmpty_iff r).1 h0) m
        exact ⟨fun h => absurd h (hne m), fun h => absurd h.1 (hne _)⟩
    · intro hv he
      refine ⟨he, ?_⟩
      intro m hm
      rcases h0 with rfl | h0
      · cases hr : r.vec with
        | none => exact absurd hr hv
        | some v => have := (mem_win hw hr hm).2; unfold Cfg.vmax; omega
      · exact absurd hm (not_mem_empty ((isEmpty_iff r).1 h0) m)
  · rw [if_neg h0]
    have hne : r.min ≤ r.max := by
      apply Classical.byContradiction
      intro hc'; exact h0 (Or.inr ((isEmpty_iff r).2 (by omega)))
    cases hr : r.vec with
    | none =>
      simp only
      refine ⟨wf_none rfl hlo, ?_, fun h => absurd rfl h⟩
      intro m
      rw [mem_iv rfl, mem_none hr]
      simp; omega
    | some v =>
      simp only
      have hl := (hw.2 v hr).1
      have hl' := addValue_len c.size v n hl
      have hbit : ∀ m, (0 ≤ m ∧ bit (vecAddValue c.size v n) m.toNat = true) ↔ Mem r (m - n) ∧ Win c m := by
        intro m
        rw [mem_some hr]
        unfold Win
        constructor
        · rintro ⟨h1, h2⟩
          have h3 := bit_lt h2
          rw [hl'] at h3
          rw [addValue_bit c.size v n hl _ h3, Bool.and_eq_true, decide_eq_true_eq] at h2
          rw [show ((m.toNat : Int) - n) = m - n by omega] at h2
          exact ⟨⟨hne, h2.1, h2.2⟩, h1, by omega⟩
        · rintro ⟨⟨_, h2, h3⟩, h1, h4⟩
          refine ⟨h1, ?_⟩
          rw [addValue_bit c.size v n hl _ (by omega), Bool.and_eq_true, decide_eq_true_eq,
            show ((m.toNat : Int) - n) = m - n by omega]
          exact ⟨h2, h3⟩
      obtain ⟨a1, a2, a3⟩ := (hw.2 v hr).2 hne
      have hfin : ∀ r' : Range, WF c r' → r'.extra = (r.extra || decide (r.max + n > c.vmax)) →
          (∀ m, Mem r' m ↔ 0 ≤ m ∧ bit (vecAddValue c.size v n) m.toNat = true) →
          WF c r' ∧ (∀ m, Mem r' m ↔ Mem r (m - n) ∧ (some v = none ∨ Win c m)) ∧
            (some v ≠ none → r'.extra = false → r.extra = false ∧ ∀ m, Mem r m → m + n ≤ c.vmax) := by
        intro r' w e hm
        refine ⟨w, fun m => ?_, fun _ he => ?_⟩
        · rw [hm, hbit]; simp
        · rw [e, Bool.or_eq_false_iff, decide_eq_false_iff_not] at he
          refine ⟨he.1, fun m hm' => ?_⟩
          have := a3 m hm'
          omega
      by_cases hx : (r.extra || decide (r.max + n > c.vmax)) = true ∨ r.min + n < 0
      · rw [if_pos hx]
        obtain ⟨f1, f2, f3, f4⟩ := fromVector_spec c hc ⟨r.extra || decide (r.max + n > c.vmax), r.min + n, r.max + n,
          some (vecAddValue c.size v n)⟩ hlo (vecAddValue c.size v n) hl'
        exact hfin _ f1 f3 f4
      · rw [if_neg hx]
        have hx1 : (r.extra || decide (r.max + n > c.vmax)) = false := by
          cases hb : (r.extra || decide (r.max + n > c.vmax)) with
          | false => rfl
          | true => exact absurd (Or.inl hb) hx
        have hx2 : ¬ (r.min + n < 0) := fun h => hx (Or.inr h)
        rw [Bool.or_eq_false_iff, decide_eq_false_iff_not] at hx1
        have hvm : c.vmax = (c.size : Int) * 64 - 1 := rfl
        obtain ⟨m1, m2⟩ := mk_wf c (r.extra || decide (r.max + n > c.vmax)) (r.min + n) (r.max + n) (vecAddValue c.size v n)
          hl' hlo (by omega) (by omega)
          ((hbit _).2 ⟨by rw [show r.min + n - n = r.min by omega]; exact a1, by omega, by omega⟩).2
          ((hbit _).2 ⟨by rw [show r.max + n - n = r.max by omega]; exact a2, by omega, by omega⟩).2
          (fun m h1 h2 => by
            have := a3 _ ((hbit m).1 ⟨h1, h2⟩).1
            omega)
        exact hfin _ m1 rfl m2

theorem mulValue_spec (c : Cfg) (hc : c.Ok) (r : Range) (hw : WF c r) (hne : r.min ≤ r.max) (hf : Fits c r) (n : Int) (hn : 0 ≤ n)
    (hov : ∀ x, Clip c r x → x * n ≤ 2147483647) :
    ∃ r', mulValue c r n = some r' ∧ WF c r' ∧
      (∀ m, Win c m → (Mem r' m ↔ ∃ x, Clip c r x ∧ m = x * n)) ∧
      (n ≠ 1 → r'.vec ≠ none ∧ (r'.extra = false → NoLoss c r ∧ ∀ x, Clip c r x → x * n ≤ c.vmax)) := by
  unfold mulValue
  by_cases h1 : n = 1
  · rw [if_pos (Or.inl h1)]
    refine ⟨r, rfl, hw, ?_, fun h => absurd h1 h⟩
    intro m hm
    subst h1
    constructor
    · intro h; exact ⟨m, ⟨h, hm⟩, by omega⟩
    · rintro ⟨x, ⟨h, _⟩, rfl⟩; rw [Int.mul_one]; exact h
  · rw [if_neg (by rintro (h | h); exact h1 h; rw [isEmpty_iff] at h; omega)]
    obtain ⟨v, a1, a2, a3, a4, a5, a6, a7⟩ := sparseArg_bits c hc r hw hne hf
    obtain ⟨v', s1, s2, s3⟩ := vecMulValue_spec c v n a2 hn (fun e he => hov e ((a7 e).1 he))
    simp only
    rw [a1]
    simp only [Option.getD_some]
    have p1 : 0 ≤ (sparseArg c r).min * n := Int.mul_nonneg a4.2.1 hn
    have p2 : (sparseArg c r).min * n ≤ (sparseArg c r).max * n := Int.mul_le_mul_of_nonneg_right a3 hn
    have p3 := hov _ a5
    have e1 : mul32 (sparseArg c r).min n = some ((sparseArg c r).min * n) := by
      unfold mul32; rw [if_pos ⟨by omega, by omega⟩]
    have e2 : mul32 (sparseArg c r).max n = some ((sparseArg c r).max * n) := by
      unfold mul32; rw [if_pos ⟨by omega, by omega⟩]
    rw [s1, e1, e2]
    simp only
    have hbit : ∀ m, (0 ≤ m ∧ bit v' m.toNat = true) ↔ Win c m ∧ ∃ x, Clip c r x ∧ m = x * n := by
      intro m
      rw [s3]
      unfold Win
      constructor
      · rintro ⟨h0, h2, e, he, h3⟩
        exact ⟨⟨h0, by omega⟩, e, (a7 e).1 he, by omega⟩
      · rintro ⟨⟨h0, h2⟩, x, hx, h3⟩
        have x0 := hx.2.1
        have ex : ((x.toNat : Nat) : Int) = x := by omega
        refine ⟨h0, by omega, x.toNat, (a7 _).2 (by rw [ex]; exact hx), by rw [ex]; omega⟩
    have hmono : ∀ x, Clip c r x → x * n ≤ (sparseArg c r).max * n := fun x hx => Int.mul_le_mul_of_nonneg_right (a6 x hx).2 hn
    have hfin : ∀ r' : Range, WF c r' → r'.vec ≠ none → r'.extra = ((sparseArg c r).extra || decide ((sparseArg c r).max * n > c.vmax)) →
        (∀ m, Mem r' m ↔ 0 ≤ m ∧ bit v' m.toNat = true) →
        ∃ r'', some r' = some r'' ∧ WF c r'' ∧ (∀ m, Win c m → (Mem r'' m ↔ ∃ x, Clip c r x ∧ m = x * n)) ∧
          (n ≠ 1 → r''.vec ≠ none ∧ (r''.extra = false → NoLoss c r ∧ ∀ x, Clip c r x → x * n ≤ c.vmax)) := by
      intro r' w hv e hm
      refine ⟨r', rfl, w, fun m hwin => ?_, fun _ => ⟨hv, fun he => ?_⟩⟩
      · rw [hm, hbit]; simp [hwin]
      · rw [e, Bool.or_eq_false_iff, decide_eq_false_iff_not] at he
        refine ⟨sparseArg_noloss c hc r hw he.1, fun x hx => ?_⟩
        have := hmono x hx
        omega
    by_cases hx : ((sparseArg c r).extra || decide ((sparseArg c r).max * n > c.vmax)) = true
    · rw [if_pos hx]
      obtain ⟨f1, f2, f3, f4⟩ := fromVector_spec c hc ⟨(sparseArg c r).extra || decide ((sparseArg c r).max * n > c.vmax),
        (sparseArg c r).min * n, (sparseArg c r).max * n, some v'⟩ (by simp only; omega) v' s2
      exact hfin _ f1 (by rw [f2]; simp) f3 f4
    · rw [if_neg hx]
      have hx1 : ((sparseArg c r).extra || decide ((sparseArg c r).max * n > c.vmax)) = false := by simpa using hx
      rw [Bool.or_eq_false_iff, decide_eq_false_iff_not] at hx1
      have hvm : c.vmax = (c.size : Int) * 64 - 1 := rfl
      obtain ⟨m1, m2⟩ := mk_wf c ((sparseArg c r).extra || decide ((sparseArg c r).max * n > c.vmax)) ((sparseArg c r).min * n)
        ((sparseArg c r).max * n) v' s2 (by omega) p1 p2
        ((hbit _).2 ⟨⟨p1, by omega⟩, _, a4, rfl⟩).2 ((hbit _).2 ⟨⟨by omega, by omega⟩, _, a5, rfl⟩).2
        (fun m h0 hb => by
          obtain ⟨_, x, hx, h5⟩ := (hbit m).1 ⟨h0, hb⟩
          have := hmono x hx
          have : (sparseArg c r).min * n ≤ x * n := Int.mul_le_mul_of_nonneg_right (a6 x hx).1 hn
          omega)
      exact hfin _ m1 (by simp) rfl m2

/-- The least and the greatest of the elements which are values of the vectors are multiples of `n`, or the bounds are computed
again since there are other values. -/
def DivOk (c : Cfg) (r : Range) (n : Int) : Prop :=
  (sparseArg c r).extra = true ∨
    ∀ x, Clip c r x → ((∀ y, Clip c r y → x ≤ y) ∨ (∀ y, Clip c r y → y ≤ x)) → ∃ k, x = k * n

theorem divValue_spec (c : Cfg) (hc : c.Ok) (r : Range) (hw : WF c r) (hne : r.min ≤ r.max) (hf : Fits c r) (n : Int) (hn : 0 < n)
    (hd : DivOk c r n) :
    ∃ r', divValue c r n = some r' ∧ WF c r' ∧
      (∀ m, Win c m → (Mem r' m ↔ ∃ x, Clip c r x ∧ x = m * n)) ∧
      (n ≠ 1 → r'.vec ≠ none ∧ (r'.extra = false → NoLoss c r)) := by
  unfold divValue
  by_cases h1 : n = 1
  · rw [if_pos (Or.inl h1)]
    refine ⟨r, rfl, hw, ?_, fun h => absurd h1 h⟩
    intro m hm
    subst h1
    constructor
    · intro h; exact ⟨m, ⟨h, hm⟩, by omega⟩
    · rintro ⟨x, ⟨h, _⟩, rfl⟩; rw [Int.mul_one] at h; exact h
  · rw [if_neg (by rintro (h | h); exact h1 h; rw [isEmpty_iff] at h; omega)]
    obtain ⟨v, a1, a2, a3, a4, a5, a6, a7⟩ := sparseArg_bits c hc r hw hne hf
    obtain ⟨v', s1, s2, s3⟩ := vecDivValue_spec c v n a2 hn
    simp only
    rw [a1]
    simp only [Option.getD_some]
    rw [s1]
    simp only
    rw [if_neg (by omega)]
    have l0 := a4.2.1
    have l1 := a5.2.2
    have t1 : Int.tdiv ((sparseArg c r).min + n - 1) n = ((sparseArg c r).min + n - 1) / n := Int.tdiv_eq_ediv_of_nonneg (by omega)
    have t2 : Int.tdiv (sparseArg c r).max n = (sparseArg c r).max / n := Int.tdiv_eq_ediv_of_nonneg (by omega)
    rw [t1, t2]
    have q1 : 0 ≤ ((sparseArg c r).min + n - 1) / n := Int.ediv_nonneg (by omega) (by omega)
    have q2 : (sparseArg c r).max / n ≤ (sparseArg c r).max := Int.ediv_le_self _ (by omega)
    have hvm : c.vmax = (c.size : Int) * 64 - 1 := rfl
    have hbit : ∀ m, (0 ≤ m ∧ bit v' m.toNat = true) ↔ Win c m ∧ ∃ x, Clip c r x ∧ x = m * n := by
      intro m
      unfold Win
      constructor
      · rintro ⟨h0, h2⟩
        have hlt := bit_lt h2
        rw [s3] at h2
        obtain ⟨a, ha, h3⟩ := h2
        exact ⟨⟨h0, by omega⟩, a, (a7 a).1 ha, by rw [h3]; congr 1; omega⟩
      · rintro ⟨⟨h0, h2⟩, x, hx, h3⟩
        have x0 := hx.2.1
        have ex : ((x.toNat : Nat) : Int) = x := by omega
        refine ⟨h0, (s3 _).2 ⟨x.toNat, (a7 _).2 (by rw [ex]; exact hx), ?_⟩⟩
        rw [ex, h3]; congr 1; omega
    have hfin : ∀ r' : Range, WF c r' → r'.vec ≠ none → (r'.extra = false → (sparseArg c r).extra = false) →
        (∀ m, Mem r' m ↔ 0 ≤ m ∧ bit v' m.toNat = true) →
        ∃ r'', some r' = some r'' ∧ WF c r'' ∧ (∀ m, Win c m → (Mem r'' m ↔ ∃ x, Clip c r x ∧ x = m * n)) ∧
          (n ≠ 1 → r''.vec ≠ none ∧ (r''.extra = false → NoLoss c r)) := by
      intro r' w hv e hm
      refine ⟨r', rfl, w, fun m hwin => ?_, fun _ => ⟨hv, fun he => sparseArg_noloss c hc r hw (e he)⟩⟩
      rw [hm, hbit]; simp [hwin]
    have hde : decide ((sparseArg c r).max / n > c.vmax) = false := by
      rw [decide_eq_false_iff_not]; omega
    rw [hde, Bool.or_false]
    by_cases hx : (sparseArg c r).extra = true
    · rw [if_pos hx]
      obtain ⟨f1, f2, f3, f4⟩ := fromVector_spec c hc ⟨(sparseArg c r).extra, ((sparseArg c r).min + n - 1) / n,
        (sparseArg c r).max / n, some v'⟩ (by simp only; omega) v' s2
      exact hfin _ f1 (by rw [f2]; simp) (fun h => by rw [f3] at h; exact h) f4
    · rw [if_neg hx]
      have hd' := hd.resolve_left hx
      obtain ⟨k1, e1⟩ := hd' _ a4 (Or.inl (fun y hy => (a6 y hy).1))
      obtain ⟨k2, e2⟩ := hd' _ a5 (Or.inr (fun y hy => (a6 y hy).2))
      have d1 : ((sparseArg c r).min + n - 1) / n = k1 := by
        rw [e1, show k1 * n + n - 1 = (n - 1) + k1 * n by omega, Int.add_mul_ediv_right _ _ (by omega),
          Int.ediv_eq_zero_of_lt (by omega) (by omega)]; omega
      have d2 : (sparseArg c r).max / n = k2 := by rw [e2]; exact Int.mul_ediv_cancel _ (by omega)
      have hle : k1 ≤ k2 := by
        apply Classical.byContradiction
        intro hcon
        have : k2 * n < k1 * n := Int.mul_lt_mul_of_pos_right (by omega) hn
        omega
      rw [d1] at q1 ⊢
      rw [d2] at q2 ⊢
      obtain ⟨m1, m2⟩ := mk_wf c (sparseArg c r).extra k1 k2 v' s2 (by omega) q1 hle
        ((hbit _).2 ⟨⟨by omega, by omega⟩, _, a4, e1⟩).2 ((hbit _).2 ⟨⟨by omega, by omega⟩, _, a5, e2⟩).2
        (fun m h0 hb => by
          obtain ⟨_, x, hx, h5⟩ := (hbit m).1 ⟨h0, hb⟩
          obtain ⟨b1, b2⟩ := a6 x hx
          rw [h5, e1] at b1
          rw [h5, e2] at b2
          exact ⟨Int.le_of_mul_le_mul_right b1 hn, Int.le_of_mul_le_mul_right b2 hn⟩)
      exact hfin _ m1 (by simp) (fun h => h) m2

/-! Modulo -/

theorem emod_add (a t n : Int) (hn : 0 < n) (h0 : 0 ≤ t) (ht : t < n) :
    (a % n + t < n ∧ (a + t) % n = a % n + t) ∨ (a % n + t ≥ n ∧ (a + t) % n = a % n + t - n) := by
  have h1 := Int.emod_nonneg a (by omega : n ≠ 0)
  have h2 := Int.emod_lt_of_pos a hn
  have h3 : (a + t) % n = (a % n + t) % n := by rw [Int.emod_add_emod]
  by_cases h : a % n + t < n
  · exact Or.inl ⟨h, by rw [h3, Int.emod_eq_of_lt (by omega) h]⟩
  · refine Or.inr ⟨by omega, ?_⟩
    rw [h3, ← Int.sub_emod_right, Int.emod_eq_of_lt (by omega) (by omega)]

/-- The remainders of the values of an interval of naturals. -/
theorem mod_interval (a b n m : Int) (hn : 0 < n) (hab : a ≤ b) :
    (∃ x, a ≤ x ∧ x ≤ b ∧ m = x % n) ↔
      (b - a + 1 ≥ n ∧ 0 ≤ m ∧ m ≤ n - 1) ∨
      (b - a + 1 < n ∧ a % n ≤ b % n ∧ a % n ≤ m ∧ m ≤ b % n) ∨
      (b - a + 1 < n ∧ a % n > b % n ∧ ((a % n ≤ m ∧ m ≤ n - 1) ∨ (0 ≤ m ∧ m ≤ b % n))) := by
  have h1 := Int.emod_nonneg a (by omega : n ≠ 0)
  have h2 := Int.emod_lt_of_pos a hn
  by_cases hw : b - a + 1 ≥ n
  · constructor
    · rintro ⟨x, _, _, rfl⟩
      have h3 := Int.emod_nonneg x (by omega : n ≠ 0)
      have h4 := Int.emod_lt_of_pos x hn
      exact Or.inl ⟨hw, h3, by omega⟩
    · rintro (⟨_, h3, h4⟩ | h | h)
      · by_cases hm : a % n ≤ m
        · rcases emod_add a (m - a % n) n hn (by omega) (by omega) with ⟨_, h6⟩ | ⟨h6, _⟩
          · exact ⟨a + (m - a % n), by omega, by omega, by omega⟩
          · omega
        · rcases emod_add a (m - a % n + n) n hn (by omega) (by omega) with ⟨h6, _⟩ | ⟨_, h6⟩
          · omega
          · exact ⟨a + (m - a % n + n), by omega, by omega, by omega⟩
      · omega
      · omega
  · have hb := emod_add a (b - a) n hn (by omega) (by omega)
    rw [show a + (b - a) = b by omega] at hb
    constructor
    · rintro ⟨x, hx1, hx2, rfl⟩
      have hx := emod_add a (x - a) n hn (by omega) (by omega)
      rw [show a + (x - a) = x by omega] at hx
      omega
    · intro h
      by_cases hm : a % n ≤ m
      · rcases emod_add a (m - a % n) n hn (by omega) (by omega) with ⟨_, h6⟩ | ⟨h6, _⟩
        · exact ⟨a + (m - a % n), by omega, by omega, by omega⟩
        · omega
      · rcases emod_add a (m - a % n + n) n hn (by omega) (by omega) with ⟨h6, _⟩ | ⟨_, h6⟩
        · omega
        · exact ⟨a + (m - a % n + n), by omega, by omega, by omega⟩

theorem tmod_abs (x n : Int) : Int.tmod x (if n < 0 then -n else n) = Int.tmod x n := by
  split
  · rw [Int.tmod_neg]
  · rfl

/-- The C remainder of the values of an interval. -/
theorem tmod_pos (x n : Int) (hx : 0 ≤ x) : Int.tmod x n = x % n := Int.tmod_eq_emod_of_nonneg hx

theorem tmod_neg' (x n : Int) (hx : x ≤ 0) : Int.tmod x n = - ((-x) % n) := by
  rw [← tmod_pos (-x) n (by omega), Int.neg_tmod, Int.neg_neg]

theorem modValue_spec (c : Cfg) (hc : c.Ok) (r : Range) (hw : WF c r) (hne : r.min ≤ r.max) (n0 : Int)
    (hn0 : -2147483648 < n0) (hn1 : n0 ≤ 2147483647) :
    ∃ r', modValue c r n0 = some r' ∧ WF c r' ∧
      (∀ m, (r'.vec = none ∨ Win c m) → (Mem r' m ↔ n0 ≠ 0 ∧ ∃ x, Mem r x ∧ m = Int.tmod x n0)) := by
  unfold modValue
  rw [if_neg (by rw [isEmpty_iff]; omega)]
  simp only
  have habs : ∀ x, Int.tmod x n0 = Int.tmod x (if n0 < 0 then -n0 else n0) := fun x => (tmod_abs x n0).symm
  generalize hn : (if n0 < 0 then -n0 else n0) = n at habs ⊢
  have hnn : 0 ≤ n ∧ n ≤ 2147483647 ∧ (n0 = 0 ↔ n = 0) := by
    subst hn; split <;> omega
  have hz : (n0 ≠ 0) ↔ n ≠ 0 := by have := hnn.2.2; omega
  simp only [habs, hz]
  cases hr : r.vec with
  | some v =>
    simp only
    have hl := (hw.2 v hr).1
    obtain ⟨v', s1, s2, s3⟩ := vecModValue_spec c v n hl
    rw [s1]
    simp only
    obtain ⟨f1, f2, f3, f4⟩ := fromVector_spec c hc r hw.1 v' s2
    refine ⟨_, rfl, f1, fun m hm => ?_⟩
    have hwin := hm.resolve_left (by rw [f2]; simp)
    have h0 := hwin.1
    rw [f4, s3]
    simp only [mem_some hr]
    constructor
    · rintro ⟨_, h1, a, ha, h2⟩
      exact ⟨h1, a, ⟨hne, by omega, by simpa using ha⟩, by omega⟩
    · rintro ⟨h1, x, ⟨_, h2, h3⟩, h4⟩
      exact ⟨h0, h1, x.toNat, h3, by rw [show ((x.toNat : Nat) : Int) = x by omega]; omega⟩
  | none =>
    simp only
    have hlo := hw.1
    have hmem : ∀ x, Mem r x ↔ r.min ≤ x ∧ x ≤ r.max := mem_none hr
    simp only [hmem]
    -- a zero modulus gives the empty range
    by_cases hn00 : n = 0
    · subst hn00
      have hz0 : ¬ ((0 : Int) ≠ 0) := by omega
      simp only [hz0, false_and, iff_false]
      by_cases h1 : r.min ≥ 0
      · rw [if_pos h1, if_pos (by omega)]
        exact ⟨_, rfl, wf_none rfl (by simp), fun m _ => not_mem_empty (by simp only; omega) m⟩
      · rw [if_neg h1]
        by_cases h2 : r.max ≤ 0
        · rw [if_pos h2, if_pos (by omega)]
          exact ⟨_, rfl, wf_none rfl (by simp only; omega), fun m _ => not_mem_empty (by simp only; omega) m⟩
        · rw [if_neg h2]
          refine ⟨_, rfl, wf_none rfl ?_, fun m _ => not_mem_empty ?_ m⟩
          · simp only; split <;> omega
          · simp only; split <;> split <;> omega
    · have hpos : 0 < n := by omega
      simp only [ne_eq, hn00, not_false_eq_true, true_and]
      by_cases h1 : r.min ≥ 0
      · rw [if_pos h1]
        have hspec : ∀ m, (∃ x, (r.min ≤ x ∧ x ≤ r.max) ∧ m = Int.tmod x n) ↔ (∃ x, r.min ≤ x ∧ x ≤ r.max ∧ m = x % n) := by
          intro m
          constructor
          · rintro ⟨x, ⟨h3, h4⟩, h5⟩; exact ⟨x, h3, h4, by rw [h5, tmod_pos x n (by omega)]⟩
          · rintro ⟨x, h3, h4, h5⟩; exact ⟨x, ⟨h3, h4⟩, by rw [h5, tmod_pos x n (by omega)]⟩
        have hres : ∀ m, (∃ x, (r.min ≤ x ∧ x ≤ r.max) ∧ m = Int.tmod x n) ↔ _ :=
          fun m => (hspec m).trans (mod_interval r.min r.max n m hpos hne)
        simp only [hres]
        rw [tmod_pos r.min n h1, tmod_pos r.max n (by omega)]
        have p1 := Int.emod_nonneg r.min (by omega : n ≠ 0)
        have p2 := Int.emod_lt_of_pos r.min hpos
        have p3 := Int.emod_nonneg r.max (by omega : n ≠ 0)
        have p4 := Int.emod_lt_of_pos r.max hpos
        by_cases h2 : r.max - r.min + 1 ≥ n
        · rw [if_pos h2]
          refine ⟨_, rfl, wf_none rfl (by simp), fun m _ => ?_⟩
          rw [mem_iv rfl]; omega
        · rw [if_neg h2]
          by_cases h3 : r.min % n > r.max % n
          · rw [if_pos h3]
            refine ⟨_, rfl, union_wf c hc _ _ (wf_none rfl (by simp only; omega)) (wf_none rfl (by simp [initInterval])), fun m hm => ?_⟩
            rw [union_mem c hc _ _ (wf_none rfl (by simp only; omega)) (wf_none rfl (by simp [initInterval])) m hm, mem_iv rfl]
            unfold initInterval
            rw [mem_iv rfl]; omega
          · rw [if_neg h3]
            refine ⟨_, rfl, wf_none rfl (by simp only; omega), fun m _ => ?_⟩
            rw [mem_iv rfl]; omega
      · rw [if_neg h1]
        by_cases h2 : r.max ≤ 0
        · rw [if_pos h2]
          have hspec : ∀ m, (∃ x, (r.min ≤ x ∧ x ≤ r.max) ∧ m = Int.tmod x n) ↔
              (∃ x, -r.max ≤ x ∧ x ≤ -r.min ∧ -m = x % n) := by
            intro m
            constructor
            · rintro ⟨x, ⟨h3, h4⟩, h5⟩
              refine ⟨-x, by omega, by omega, ?_⟩
              rw [h5, tmod_neg' x n (by omega)]; omega
            · rintro ⟨x, h3, h4, h5⟩
              refine ⟨-x, ⟨by omega, by omega⟩, ?_⟩
              rw [tmod_neg' (-x) n (by omega), Int.neg_neg]; omega
          have hres : ∀ m, (∃ x, (r.min ≤ x ∧ x ≤ r.max) ∧ m = Int.tmod x n) ↔ _ :=
            fun m => (hspec m).trans (mod_interval (-r.max) (-r.min) n (-m) hpos (by omega))
          simp only [hres]
          rw [tmod_neg' r.min n (by omega), tmod_neg' r.max n h2]
          have p1 := Int.emod_nonneg (-r.min) (by omega : n ≠ 0)
          have p2 := Int.emod_lt_of_pos (-r.min) hpos
          have p3 := Int.emod_nonneg (-r.max) (by omega : n ≠ 0)
          have p4 := Int.emod_lt_of_pos (-r.max) hpos
          by_cases h4 : r.max - r.min + 1 ≥ n
          · rw [if_pos h4]
            refine ⟨_, rfl, wf_none rfl (by simp only; omega), fun m _ => ?_⟩
            rw [mem_iv rfl]; omega
          · rw [if_neg h4]
            by_cases h3 : - ((-r.min) % n) > - ((-r.max) % n)
            · rw [if_pos h3]
              refine ⟨_, rfl, union_wf c hc _ _ (wf_none rfl (by simp only; omega)) (wf_none rfl (by simp only [initInterval]; omega)), fun m hm => ?_⟩
              rw [union_mem c hc _ _ (wf_none rfl (by simp only; omega)) (wf_none rfl (by simp only [initInterval]; omega)) m hm, mem_iv rfl]
              unfold initInterval
              rw [mem_iv rfl]; omega
            · rw [if_neg h3]
              refine ⟨_, rfl, wf_none rfl (by simp only; omega), fun m _ => ?_⟩
              rw [mem_iv rfl]; omega
        · rw [if_neg h2]
          refine ⟨_, rfl, wf_none rfl (by simp only; split <;> omega), fun m _ => ?_⟩
          rw [mem_iv rfl]
          constructor
          · intro hm
            have hb : r.min ≤ m ∧ m ≤ r.max ∧ -n + 1 ≤ m ∧ m ≤ n - 1 := by
              obtain ⟨g1, g2⟩ := hm
              split at g1 <;> split at g2 <;> omega
            refine ⟨m, ⟨by omega, by omega⟩, ?_⟩
            by_cases hm0 : 0 ≤ m
            · rw [tmod_pos m n hm0, Int.emod_eq_of_lt hm0 (by omega)]
            · rw [tmod_neg' m n (by omega), Int.emod_eq_of_lt (by omega) (by omega)]; omega
          · rintro ⟨x, ⟨h3, h4⟩, h5⟩
            have hb : r.min ≤ m ∧ m ≤ r.max ∧ -n + 1 ≤ m ∧ m ≤ n - 1 := by
              by_cases hx : 0 ≤ x
              · rw [tmod_pos x n hx] at h5
                have q1 := Int.emod_nonneg x (by omega : n ≠ 0)
                have q2 := Int.emod_lt_of_pos x hpos
                have q3 : x % n ≤ x := by
                  have e1 := Int.mul_ediv_add_emod x n
                  have e2 : 0 ≤ n * (x / n) := Int.mul_nonneg (by omega) (Int.ediv_nonneg hx (by omega))
                  omega
                omega
              · rw [tmod_neg' x n (by omega)] at h5
                have q1 := Int.emod_nonneg (-x) (by omega : n ≠ 0)
                have q2 := Int.emod_lt_of_pos (-x) hpos
                have q3 : (-x) % n ≤ -x := by
                  have e1 := Int.mul_ediv_add_emod (-x) n
                  have e2 : 0 ≤ n * ((-x) / n) := Int.mul_nonneg (by omega) (Int.ediv_nonneg (by omega) (by omega))
                  omega
                omega
            split <;> split <;> omega

end Gp.FdRange
