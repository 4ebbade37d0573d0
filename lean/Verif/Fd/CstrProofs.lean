import Verif.Fd.CstrOk
/- The proofs for each primitive constraint. -/
namespace Gp.Fd

open Gp.FdRange

variable {c : Cfg} {W : Nat → Bool} {M : Nat → Int}

/-! ### The solutions are kept -/

/-- Each block, but those of `xyEqZ`, contains the value of a solution. -/
theorem holds_sat (k : Prim) (σ : Nat → Nat) (hk : k.CstOk) (hi : ∀ v, (σ v : Int) ≤ 268435455) (h : k.holds (fun v => (σ v : Int)))
    (hn : ∀ x y z, k ≠ .xyEqZ x y z) : ∀ b ∈ k.blks,
      b.2.mono = true ∧ b.2.satR ⟨fun p => (σ (k.arg p) : Int), fun p => (σ (k.arg p) : Int), fun p => (σ (k.arg p) : Int)⟩ (σ (k.arg b.1)) ∧
      ∀ p, b.2 = .dom p → σ (k.arg b.1) = σ (k.arg p) := by
  have h0 : ∀ v, (0 : Int) ≤ (σ v : Int) := fun v => Int.natCast_nonneg _
  cases k with
  | xyEqZ x y z => exact absurd rfl (hn x y z)
  | xEqC x n =>
    simp only [Prim.blks, Prim.CstOk, Prim.holds] at *
    rw [toInt32_small hk]
    simp [Rg.mono, Tm.pol, Rg.satR, Tm.ev, Prim.arg, Prim.vars, h]
  | unify x y =>
    simp only [Prim.blks, Prim.CstOk, Prim.holds] at *
    have h' : σ x = σ y := by omega
    simp [Rg.mono, Rg.satR, Prim.arg, Prim.vars, h']
  | xEqY x y =>
    simp only [Prim.blks, Prim.CstOk, Prim.holds] at *
    simp [Rg.mono, Tm.pol, Rg.satR, Tm.ev, Prim.arg, Prim.vars, h]
  | xPlusCEqY x n y =>
    simp only [Prim.blks, Prim.CstOk, Prim.holds] at *
    rw [toValue_id hk]
    simp [Rg.mono, Tm.pol, Rg.satR, Tm.ev, Bop.ev, Tm.sub, Tm.add, Prim.arg, Prim.vars]
    omega
  | xNeqC x n =>
    simp only [Prim.blks, Prim.CstOk, Prim.holds] at *
    rw [toValue_id hk]
    simp [Rg.mono, Tm.pol, Rg.satR, Tm.ev, Prim.arg, Prim.vars, h]
  | xNeqY x y =>
    simp only [Prim.blks, Prim.CstOk, Prim.holds] at *
    simp [Rg.mono, Tm.pol, Rg.satR, Tm.ev, Prim.arg, Prim.vars]
    omega
  | xPlusCNeqY x n y =>
    simp only [Prim.blks, Prim.CstOk, Prim.holds] at *
    rw [toValue_id hk]
    simp [Rg.mono, Tm.pol, Rg.satR, Tm.ev, Bop.ev, Tm.sub, Tm.add, Prim.arg, Prim.vars]
    omega
  | xLtY x y =>
    simp only [Prim.blks, Prim.CstOk, Prim.holds] at *
    have := hi y
    simp [Rg.mono, Tm.pol, Rg.satR, Tm.ev, Bop.ev, Tm.sub, Tm.add, Prim.arg, Prim.vars, imax]
    omega
  | xLteC x n =>
    simp only [Prim.blks, Prim.CstOk, Prim.holds] at *
    rw [toValue_id hk]
    simp [Rg.mono, Tm.pol, Rg.satR, Tm.ev, Prim.arg, Prim.vars, h]
  | xLteY x y =>
    simp only [Prim.blks, Prim.CstOk, Prim.holds] at *
    have := hi y
    simp [Rg.mono, Tm.pol, Rg.satR, Tm.ev, Prim.arg, Prim.vars, imax]
    omega
  | xPlusCLteY x n y =>
    simp only [Prim.blks, Prim.CstOk, Prim.holds] at *
    rw [toValue_id hk]
    have := hi y
    simp [Rg.mono, Tm.pol, Rg.satR, Tm.ev, Bop.ev, Tm.sub, Tm.add, Prim.arg, Prim.vars, imax]
    omega
  | xGteC x n =>
    simp only [Prim.blks, Prim.CstOk, Prim.holds] at *
    rw [toValue_id hk]
    have := hi x
    simp [Rg.mono, Tm.pol, Rg.satR, Tm.ev, Prim.arg, Prim.vars, imax]
    omega
  | xPlusCGteY x n y =>
    simp only [Prim.blks, Prim.CstOk, Prim.holds] at *
    rw [toValue_id hk]
    have := hi x
    simp [Rg.mono, Tm.pol, Rg.satR, Tm.ev, Bop.ev, Tm.sub, Tm.add, Prim.arg, Prim.vars, imax]
    omega
  | axEqY a x y =>
    simp only [Prim.blks, Prim.CstOk, Prim.holds] at *
    rw [toValue_id (n := a) (by omega)]
    have := h0 x
    have ha : 0 < a := by omega
    have hN := h0 y
    have u1 := (divUp_le ha hN (x := σ x)).2 (by omega)
    have u2 := (le_divDn ha hN (x := σ x)).2 (by omega)
    have u5 : (σ x : Int) ≤ (σ y : Int) / a := by have := u2; rwa [Int.tdiv_eq_ediv_of_nonneg hN] at this
    have ha' : 0 ≤ a := by omega
    simp [Rg.mono, Tm.pol, Rg.satR, Tm.ev, Bop.ev, Tm.divUp, Tm.divDn, Tm.mul, Tm.sub, Tm.add, Prim.arg, Prim.vars, u1, u2, u5, ha, ha']
    omega
  | xPlusYEqZ x y z =>
    simp only [Prim.blks, Prim.CstOk, Prim.holds] at *
    simp [Rg.mono, Tm.pol, Rg.satR, Tm.ev, Bop.ev, Tm.sub, Tm.add, Prim.arg, Prim.vars]
    omega
  | axPlusYEqZ a x y z =>
    simp only [Prim.blks, Prim.CstOk, Prim.holds] at *
    rw [toValue_id (n := a) (by omega)]
    have hx := h0 x
    have ha : 0 < a := by omega
    have hax := Int.mul_nonneg (Int.le_of_lt ha) hx
    have hN : 0 ≤ (σ z : Int) - σ y := by omega
    have u1 := (divUp_le ha hN (x := σ x)).2 (by omega)
    have u2 := (le_divDn ha hN (x := σ x)).2 (by omega)
    have ha' : 0 ≤ a := by omega
    simp [Rg.mono, Tm.pol, Rg.satR, Tm.ev, Bop.ev, Tm.divUp, Tm.divDn, Tm.mul, Tm.sub, Tm.add, Prim.arg, Prim.vars, u1, u2, ha, ha']
    omega
  | axPlusByEqZ a x b y z =>
    simp only [Prim.blks, Prim.CstOk, Prim.holds] at *
    rw [toValue_id (n := a) (by omega), toValue_id (n := b) (by omega)]
    have hx := h0 x
    have hy := h0 y
    have ha : 0 < a := by omega
    have hb : 0 < b := by omega
    have hax := Int.mul_nonneg (Int.le_of_lt ha) hx
    have hby := Int.mul_nonneg (Int.le_of_lt hb) hy
    have hN : 0 ≤ (σ z : Int) - b * σ y := by omega
    have hN' : 0 ≤ (σ z : Int) - a * σ x := by omega
    have u1 := (divUp_le ha hN (x := σ x)).2 (by omega)
    have u2 := (le_divDn ha hN (x := σ x)).2 (by omega)
    have u3 := (divUp_le hb hN' (x := σ y)).2 (by omega)
    have u4 := (le_divDn hb hN' (x := σ y)).2 (by omega)
    have hb' : 0 ≤ b := by omega
    have ha' : 0 ≤ a := by omega
    simp [Rg.mono, Tm.pol, Rg.satR, Tm.ev, Bop.ev, Tm.divUp, Tm.divDn, Tm.mul, Tm.sub, Tm.add, Prim.arg, Prim.vars, u1, u2, u3, u4, ha, hb, ha', hb']
    omega
  | xPlusYPlusZEqT x y z t =>
    simp only [Prim.blks, Prim.CstOk, Prim.holds] at *
    simp [Rg.mono, Tm.pol, Rg.satR, Tm.ev, Bop.ev, Tm.sub, Tm.add, Prim.arg, Prim.vars]
    omega
  | axPlusYPlusZEqT a x y z t =>
    simp only [Prim.blks, Prim.CstOk, Prim.holds] at *
    rw [toValue_id (n := a) (by omega)]
    have hx := h0 x
    have ha : 0 < a := by omega
    have hax := Int.mul_nonneg (Int.le_of_lt ha) hx
    have hN : 0 ≤ (σ t : Int) - σ y - σ z := by omega
    have u1 := (divUp_le ha hN (x := σ x)).2 (by omega)
    have u2 := (le_divDn ha hN (x := σ x)).2 (by omega)
    have ha' : 0 ≤ a := by omega
    simp [Rg.mono, Tm.pol, Rg.satR, Tm.ev, Bop.ev, Tm.divUp, Tm.divDn, Tm.mul, Tm.sub, Tm.add, Prim.arg, Prim.vars, u1, u2, ha, ha']
    omega
  | axPlusByPlusZEqT a x b y z t =>
    simp only [Prim.blks, Prim.CstOk, Prim.holds] at *
    rw [toValue_id (n := a) (by omega), toValue_id (n := b) (by omega)]
    have hx := h0 x
    have hy := h0 y
    have ha : 0 < a := by omega
    have hb : 0 < b := by omega
    have hax := Int.mul_nonneg (Int.le_of_lt ha) hx
    have hby := Int.mul_nonneg (Int.le_of_lt hb) hy
    have hN : 0 ≤ (σ t : Int) - b * σ y - σ z := by omega
    have hN' : 0 ≤ (σ t : Int) - a * σ x - σ z := by omega
    have u1 := (divUp_le ha hN (x := σ x)).2 (by omega)
    have u2 := (le_divDn ha hN (x := σ x)).2 (by omega)
    have u3 := (divUp_le hb hN' (x := σ y)).2 (by omega)
    have u4 := (le_divDn hb hN' (x := σ y)).2 (by omega)
    have hb' : 0 ≤ b := by omega
    have ha' : 0 ≤ a := by omega
    simp [Rg.mono, Tm.pol, Rg.satR, Tm.ev, Bop.ev, Tm.divUp, Tm.divDn, Tm.mul, Tm.sub, Tm.add, Prim.arg, Prim.vars, u1, u2, u3, u4, ha, hb, ha', hb']
    omega

theorem prim_keep (k : Prim) (hk : k.CstOk) (hf : k.Fits W M) (hM : ∀ v, M v ≤ 268435455) (σ : Nat → Nat) (hσ : ∀ v, (σ v : Int) ≤ M v)
    (h : k.holds (fun v => (σ v : Int))) : KeepUser (GB c W M) (DS σ) k.cstr where
  blks := by
    intro b hb
    obtain ⟨b', hb', e⟩ := List.mem_map.1 hb
    rw [← e]
    have hi : ∀ v, (σ v : Int) ≤ 268435455 := fun v => Int.le_trans (hσ v) (hM v)
    by_cases hn : ∀ x y z, k ≠ .xyEqZ x y z
    · obtain ⟨h1, h2, h3⟩ := holds_sat k σ hk hi h hn b' hb'
      refine keep_of_sat (hf b' hb') (fun r hr hv => ?_) h3
      exact satR_mono (τ := fun p => (σ (k.arg p) : Int)) (fun p => ⟨(hr p).2.1, (hr p).2.2.1⟩) hv h1 h2
    · have : ∃ x y z, k = .xyEqZ x y z := by
        apply Classical.byContradiction
        intro hc
        exact hn (fun x y z he => hc ⟨x, y, z, he⟩)
      obtain ⟨x, y, z, rfl⟩ := this
      have h' : (σ x : Int) * σ y = σ z := h
      refine keep_of_sat (hf b' hb') (fun r hr hv => ?_) (fun p hp => ?_)
      · have r0 := hr 0
        have r1 := hr 1
        have r2 := hr 2
        simp only [Prim.arg, Prim.vars, List.getD_cons_zero, List.getD_cons_succ] at r0 r1 r2
        simp only [Prim.blks, List.mem_cons, List.not_mem_nil, or_false] at hb'
        have hx0 : (0 : Int) ≤ σ x := Int.natCast_nonneg _
        have hy0 : (0 : Int) ≤ σ y := Int.natCast_nonneg _
        rcases hb' with rfl | rfl | rfl
        · simp only [Rg.satR, Tm.ev, Bop.ev, Tm.divUp, Tm.divDn, Prim.arg, Prim.vars, List.getD_cons_zero, id]
          refine ⟨?_, ?_⟩
          · split
            · exact hx0
            · refine divUp_keep (by omega) hx0 ?_
              have := Int.mul_le_mul_of_nonneg_left r1.2.2.1 hx0
              rw [Int.mul_comm (r.hi 1)]
              omega
          · split
            · exact hi x
            · refine (le_divDn (by omega) (by omega)).2 ?_
              have := Int.mul_le_mul_of_nonneg_left r1.2.1 hx0
              rw [Int.mul_comm (r.lo 1)]
              omega
        · simp only [Rg.satR, Tm.ev, Bop.ev, Tm.divUp, Tm.divDn, Prim.arg, Prim.vars, List.getD_cons_zero, List.getD_cons_succ, id]
          refine ⟨?_, ?_⟩
          · split
            · exact hy0
            · refine divUp_keep (by omega) hy0 ?_
              have := Int.mul_le_mul_of_nonneg_right r0.2.2.1 hy0
              omega
          · split
            · exact hi y
            · refine (le_divDn (by omega) (by omega)).2 ?_
              have := Int.mul_le_mul_of_nonneg_right r0.2.1 hy0
              omega
        · simp only [Rg.satR, Tm.ev, Bop.ev, Tm.mul, Prim.arg, Prim.vars, List.getD_cons_zero, List.getD_cons_succ, id]
          have a1 := Int.mul_le_mul_of_nonneg_right r0.2.1 r1.1
          have a2 := Int.mul_le_mul_of_nonneg_left r1.2.1 hx0
          have a3 := Int.mul_le_mul_of_nonneg_right r0.2.2.1 (show 0 ≤ r.hi 1 by omega)
          have a4 := Int.mul_le_mul_of_nonneg_left r1.2.2.1 hx0
          omega
      · simp only [Prim.blks, List.mem_cons, List.not_mem_nil, or_false] at hb'
        rcases hb' with rfl | rfl | rfl <;> cases hp
  swt := fun f deps hs => by cases hs

theorem vars_ne (k : Prim) : k.vars ≠ [] := by cases k <;> simp [Prim.vars]

theorem blk_arg (k : Prim) : ∀ b ∈ k.blks, k.arg b.1 ∈ k.vars := by
  cases k <;> simp [Prim.blks, Prim.arg, Prim.vars]

theorem prim_ok (hc : c.Ok) (k : Prim) (hf : k.Fits W M) {vs : List Nat} (hv : ∀ v ∈ k.vars, v ∈ vs) : UserOk c (GB c W M) vs k.cstr :=
  mkCstr_ok hc (fun b hb => ⟨rgOk_of_fits (hf b hb), hv _ (blk_arg k b hb)⟩)

end Gp.Fd
