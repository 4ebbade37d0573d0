import Verif.Fd.CstrLemmas
/- The primitive constraints: they keep the solutions; if all the variables are instantiated the constraint holds. -/
namespace Gp.Fd

open Gp.FdRange

/-! ### Specification -/

/-- The meaning of a primitive constraint. -/
def Prim.holds (σ : Nat → Int) : Prim → Prop
  | .xEqC x c => σ x = c
  | .unify x y => σ x = σ y
  | .xEqY x y => σ x = σ y
  | .xPlusCEqY x c y => σ x + c = σ y
  | .xNeqC x c => σ x ≠ c
  | .xNeqY x y => σ x ≠ σ y
  | .xPlusCNeqY x c y => σ x + c ≠ σ y
  | .xLtY x y => σ x < σ y
  | .xLteC x c => σ x ≤ c
  | .xLteY x y => σ x ≤ σ y
  | .xPlusCLteY x c y => σ x + c ≤ σ y
  | .xGteC x c => σ x ≥ c
  | .xPlusCGteY x c y => σ x + c ≥ σ y
  | .axEqY a x y => a * σ x = σ y
  | .xPlusYEqZ x y z => σ x + σ y = σ z
  | .axPlusYEqZ a x y z => a * σ x + σ y = σ z
  | .axPlusByEqZ a x b y z => a * σ x + b * σ y = σ z
  | .xPlusYPlusZEqT x y z t => σ x + σ y + σ z = σ t
  | .axPlusYPlusZEqT a x y z t => a * σ x + σ y + σ z = σ t
  | .axPlusByPlusZEqT a x b y z t => a * σ x + b * σ y + σ z = σ t
  | .xyEqZ x y z => σ x * σ y = σ z

/-- The integers of the constraint: at most INTERVAL_MAX_INTEGER in absolute value, the coefficients are positive. -/
def Prim.CstOk : Prim → Prop
  | .xEqC _ c | .xPlusCEqY _ c _ | .xNeqC _ c | .xPlusCNeqY _ c _ | .xLteC _ c | .xPlusCLteY _ c _ | .xGteC _ c | .xPlusCGteY _ c _ =>
    -268435455 ≤ c ∧ c ≤ 268435455
  | .axEqY a _ _ | .axPlusYEqZ a _ _ _ | .axPlusYPlusZEqT a _ _ _ _ => 1 ≤ a ∧ a ≤ 268435455
  | .axPlusByEqZ a _ b _ _ | .axPlusByPlusZEqT a _ b _ _ _ => (1 ≤ a ∧ a ≤ 268435455) ∧ 1 ≤ b ∧ b ≤ 268435455
  | _ => True

instance (k : Prim) : Decidable k.CstOk := by cases k <;> (unfold Prim.CstOk; exact inferInstance)

/-- A block has no overflow with the variables at most `B`, and only the ranges allowed by `W`. -/
def Rg.Fits (B : Nat → Nat) (W : Nat → Bool) (a : Nat → Nat) (b : Nat × Rg) : Prop :=
  match b.2 with
  | .itv lo hi => lo.Fits B ∧ hi.Fits B ∧ lo.bnd B < 2147483648
  | .compl t => t.Fits B ∧ W (a b.1) = false
  | .single t => t.Fits B
  | .dom p => W (a b.1) = false ∧ W (a p) = false

instance (B : Nat → Nat) (W : Nat → Bool) (a : Nat → Nat) (b : Nat × Rg) : Decidable (Rg.Fits B W a b) := by
  obtain ⟨x, g⟩ := b
  cases g <;> (unfold Rg.Fits; exact inferInstance)

/-- The constraint has no overflow when the variables are at most `M`; the constraints on the domain itself (`compl`, `dom`) are only on
variables out of `W`. -/
def Prim.Fits (W : Nat → Bool) (M : Nat → Int) (k : Prim) : Prop := ∀ b ∈ k.blks, Rg.Fits (fun p => (M (k.arg p)).toNat) W k.arg b

instance (W : Nat → Bool) (M : Nat → Int) (k : Prim) : Decidable (k.Fits W M) := by unfold Prim.Fits; exact inferInstance

/-! ### The blocks -/

/-- The told range for the readings `r`, exact. -/
def Rg.satR (r : Rd) (g : Rg) (n : Int) : Prop :=
  match g with
  | .itv lo hi => lo.ev id r ≤ n ∧ n ≤ hi.ev id r
  | .compl t => n ≠ t.ev id r
  | .single t => n = t.ev id r
  | .dom _ => True

variable {c : Cfg} {W : Nat → Bool} {M : Nat → Int}

theorem gb_rd {s : Store} (hs : GB c W M s) (v : Nat) : 0 ≤ (s v).r.min ∧ (s v).r.min ≤ (s v).r.max ∧ (s v).r.max ≤ M v :=
  ⟨(hs v).1.nonneg, (hs v).1.ne, (hs v).2.2.1⟩

theorem rd_fits {s : Store} (hs : GB c W M s) (a : Nat → Nat) (t : Tm) (h : t.Fits (fun p => (M (a p)).toNat)) :
    t.ev toInt32 (rd s a) = t.ev id (rd s a) ∧ (t.ev id (rd s a)).natAbs ≤ t.bnd (fun p => (M (a p)).toNat) := by
  apply fits_ev _ _ _ _ _ t h
  · intro p
    have := gb_rd hs (a p)
    show ((s (a p)).r.min).natAbs ≤ (M (a p)).toNat
    omega
  · intro p
    have := gb_rd hs (a p)
    show ((s (a p)).r.max).natAbs ≤ (M (a p)).toNat
    omega
  · intro p
    have := gb_rd hs (a p)
    show ((s (a p)).r.min).natAbs ≤ (M (a p)).toNat
    omega

theorem rgOk_of_fits {a : Nat → Nat} {b : Nat × Rg} (h : Rg.Fits (fun p => (M (a p)).toNat) W a b) : RgOk c W M a b := by
  obtain ⟨x, g⟩ := b
  cases g with
  | itv lo hi =>
    intro s hs
    obtain ⟨h1, h2⟩ := rd_fits hs a lo h.1
    have := h.2.2
    rw [h1]
    omega
  | compl t => exact h.2
  | single t => trivial
  | dom p => exact h

theorem op_sat {s : Store} (hs : GB c W M s) {a : Nat → Nat} {b : Nat × Rg} (h : Rg.Fits (fun p => (M (a p)).toNat) W a b) (n : Nat) :
    opMem (b.2.op s a) n ↔ b.2.satR (rd s a) n ∧ ∀ p, b.2 = .dom p → Mem (s (a p)).r n := by
  obtain ⟨x, g⟩ := b
  cases g with
  | itv lo hi =>
    obtain ⟨h1, h2⟩ := rd_fits hs a lo h.1
    obtain ⟨h3, h4⟩ := rd_fits hs a hi h.2.1
    simp only [Rg.op, opMem, Rg.satR, h1, h3]
    simp
  | compl t =>
    obtain ⟨h1, h2⟩ := rd_fits hs a t h.1
    simp only [Rg.op, opMem, Rg.satR, h1]
    simp
  | single t =>
    obtain ⟨h1, h2⟩ := rd_fits hs a t h
    simp only [Rg.op, opMem, Rg.satR, h1]
    simp
  | dom p =>
    simp only [Rg.op, opMem, Rg.satR]
    simp

/-- The values of a solution. -/
def DS (σ : Nat → Nat) : Nat → Nat → Prop := fun v n => n = σ v

/-- A block keeps the solution `σ` if its range contains the value for all the readings around `σ`. -/
theorem keep_of_sat {σ : Nat → Nat} {a : Nat → Nat} {b : Nat × Rg} (hf : Rg.Fits (fun p => (M (a p)).toNat) W a b)
    (h : ∀ r : Rd, (∀ p, 0 ≤ r.lo p ∧ r.lo p ≤ σ (a p) ∧ (σ (a p) : Int) ≤ r.hi p ∧ r.hi p ≤ M (a p)) →
      (∀ p, (p, Mk.val) ∈ b.2.marks → r.vl p = σ (a p)) → b.2.satR r (σ (a b.1)))
    (hd : ∀ p, b.2 = .dom p → σ (a b.1) = σ (a p)) : KeepBlk (GB c W M) (DS σ) (mkBlk a b).x (mkBlk a b).f := by
  intro s hs hD
  refine ⟨fun hfail => ?_, fun op hop n hn => ?_⟩
  · have hfail' : b.2.act a s = .fail := hfail
    unfold Rg.act at hfail'
    split at hfail' <;> cases hfail'
  · obtain ⟨ho, hv⟩ := act_tell (g := b.2) hop
    have hn' : n = σ (a b.1) := hn
    rw [ho, op_sat hs hf, hn']
    have hm : ∀ v, Mem (s v).r (σ v : Int) := fun v => hD v _ rfl
    have hb : ∀ v, (s v).r.min ≤ σ v ∧ (σ v : Int) ≤ (s v).r.max := fun v => (bounds_mem c _ (hs v).1.wf (hs v).1.ne).2.2 _ (hm v)
    refine ⟨h _ (fun p => ⟨(gb_rd hs (a p)).1, (hb (a p)).1, (hb (a p)).2, (gb_rd hs (a p)).2.2⟩) (fun p hp => ?_), fun p hp => ?_⟩
    · have := (ground_mem (hs (a p)).1 (hv p hp) _).1 (hm (a p))
      exact this.symm
    · rw [hd p hp]
      exact hm _

/-- The exact terms. -/
def Rg.mono : Rg → Bool
  | .itv lo hi => lo.pol true && hi.pol false
  | .compl t => t.pol true && t.pol false
  | .single t => t.pol true && t.pol false
  | .dom _ => true

theorem satR_mono {r : Rd} {τ : Nat → Int} (h : ∀ p, r.lo p ≤ τ p ∧ τ p ≤ r.hi p) {g : Rg} (hv : ∀ p, (p, Mk.val) ∈ g.marks → r.vl p = τ p)
    (hm : g.mono = true) {n : Int} (hs : g.satR ⟨τ, τ, τ⟩ n) : g.satR r n := by
  cases g with
  | itv lo hi =>
    simp only [Rg.mono, Bool.and_eq_true] at hm
    have h1 := (pol_le r τ (fun p => (h p).1) (fun p => (h p).2) lo (fun p hp => hv p (by simp [Rg.marks, hp]))).1 hm.1
    have h2 := (pol_le r τ (fun p => (h p).1) (fun p => (h p).2) hi (fun p hp => hv p (by simp [Rg.marks, hp]))).2 hm.2
    exact ⟨Int.le_trans h1 hs.1, Int.le_trans hs.2 h2⟩
  | compl t =>
    simp only [Rg.mono, Bool.and_eq_true] at hm
    have h1 := (pol_le r τ (fun p => (h p).1) (fun p => (h p).2) t hv).1 hm.1
    have h2 := (pol_le r τ (fun p => (h p).1) (fun p => (h p).2) t hv).2 hm.2
    have h3 : n ≠ t.ev id ⟨τ, τ, τ⟩ := hs
    show n ≠ t.ev id r
    omega
  | single t =>
    simp only [Rg.mono, Bool.and_eq_true] at hm
    have h1 := (pol_le r τ (fun p => (h p).1) (fun p => (h p).2) t hv).1 hm.1
    have h2 := (pol_le r τ (fun p => (h p).1) (fun p => (h p).2) t hv).2 hm.2
    have h3 : n = t.ev id ⟨τ, τ, τ⟩ := hs
    show n = t.ev id r
    omega
  | dom p => trivial

/-! ### Division -/

theorem divUp_le {N a x : Int} (ha : 0 < a) (hN : 0 ≤ N) : (N + a - 1).tdiv a ≤ x ↔ N ≤ a * x := by
  rw [Int.tdiv_eq_ediv_of_nonneg (by omega)]
  constructor
  · intro h
    have h1 := Int.emod_add_mul_ediv (N + a - 1) a
    have h2 := Int.emod_lt_of_pos (N + a - 1) ha
    have h3 := Int.mul_le_mul_of_nonneg_left h (Int.le_of_lt ha)
    omega
  · intro h
    have h4 : (N + a - 1) / a < x + 1 := by
      apply Int.ediv_lt_of_lt_mul ha
      rw [Int.add_mul, Int.mul_comm x a]
      omega
    omega

theorem le_divDn {N a x : Int} (ha : 0 < a) (hN : 0 ≤ N) : x ≤ N.tdiv a ↔ a * x ≤ N := by
  rw [Int.tdiv_eq_ediv_of_nonneg hN, Int.le_ediv_iff_mul_le ha, Int.mul_comm]

theorem divDn_neg {N a : Int} (ha : 0 < a) (hN : N < 0) : N.tdiv a ≤ 0 := by
  have h := tdiv_mono ha (Int.le_of_lt hN)
  rwa [Int.zero_tdiv] at h

theorem divDn_le {N a x : Int} (ha : 0 < a) (h : x ≤ N.tdiv a) (hx : 0 ≤ x) : a * x ≤ N ∨ (N < 0 ∧ x = 0) := by
  rcases Int.lt_or_le N 0 with hN | hN
  · have := divDn_neg ha hN
    exact Or.inr ⟨hN, by omega⟩
  · exact Or.inl ((le_divDn ha hN).1 h)

theorem divUp_keep {N a x : Int} (ha : 0 < a) (hx : 0 ≤ x) (h : N ≤ a * x) : (N + a - 1).tdiv a ≤ x := by
  rcases Int.lt_or_le N 0 with hN | hN
  · have := tdiv_mono ha (show N + a - 1 ≤ a - 1 by omega)
    have h2 : (a - 1).tdiv a = 0 := by rw [Int.tdiv_eq_ediv_of_nonneg (by omega)]; exact Int.ediv_eq_zero_of_lt (by omega) (by omega)
    omega
  · exact (divUp_le ha hN).2 h

theorem toValue_id {n : Int} (h : -268435455 ≤ n ∧ n ≤ 268435455) : toValue n = n := by
  unfold toValue imax
  rw [if_neg (by omega), if_neg (by omega)]

theorem toInt32_small {n : Int} (h : -268435455 ≤ n ∧ n ≤ 268435455) : toInt32 n = n := by
  unfold toInt32; omega

end Gp.Fd
