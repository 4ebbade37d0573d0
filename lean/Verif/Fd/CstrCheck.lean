import Verif.Fd.CstrProofs
/- If all the variables are instantiated the primitive constraints hold. -/
namespace Gp.Fd

open Gp.FdRange

variable {c : Cfg} {W : Nat → Bool} {M : Nat → Int}

theorem blk_marks (k : Prim) : ∀ b ∈ k.blks, ∀ p m, (p, m) ∈ b.2.marks → k.arg p ∈ k.vars := by
  cases k <;> simp [Prim.blks, Prim.arg, Prim.vars, Rg.marks, Tm.marks, Tm.add, Tm.sub, Tm.mul, Tm.divUp, Tm.divDn, or_imp, forall_and]

theorem satR_congr {r r' : Rd} {g : Rg} (h : ∀ p m, (p, m) ∈ g.marks → r.lo p = r'.lo p ∧ r.hi p = r'.hi p ∧ r.vl p = r'.vl p) (n : Int) :
    g.satR r n ↔ g.satR r' n := by
  cases g with
  | itv lo hi =>
    have e1 := ev_congr id r r' lo (fun p hp => (h p _ (by simp [Rg.marks, hp]; exact Or.inl hp)).1)
      (fun p hp => (h p _ (by simp [Rg.marks]; exact Or.inl hp)).2.1) (fun p hp => (h p _ (by simp [Rg.marks]; exact Or.inl hp)).2.2)
    have e2 := ev_congr id r r' hi (fun p hp => (h p _ (by simp [Rg.marks]; exact Or.inr hp)).1)
      (fun p hp => (h p _ (by simp [Rg.marks]; exact Or.inr hp)).2.1) (fun p hp => (h p _ (by simp [Rg.marks]; exact Or.inr hp)).2.2)
    simp only [Rg.satR, e1, e2]
  | compl t =>
    have e1 := ev_congr id r r' t (fun p hp => (h p _ hp).1) (fun p hp => (h p _ hp).2.1) (fun p hp => (h p _ hp).2.2)
    simp only [Rg.satR, e1]
  | single t =>
    have e1 := ev_congr id r r' t (fun p hp => (h p _ hp).1) (fun p hp => (h p _ hp).2.1) (fun p hp => (h p _ hp).2.2)
    simp only [Rg.satR, e1]
  | dom p => exact Iff.rfl

/-- What is known of the instantiated variables, of a set `S` of variables: the blocks of a variable out of `S` contain its value, for
readings of the variables of `S` around their values. -/
theorem checked_sat {st : QSt} (k : Prim) (hf : k.Fits W M) (hC : Checked (GB c W M) k.vars k.cstr st) (hG : GB c W M st.dom)
    (hg : ∀ v ∈ k.vars, (st.dom v).ground = true) (S : Nat → Prop) (hS : ∃ y ∈ k.vars, ¬ S y) :
    ∃ y ∈ k.vars, ¬ S y ∧ ∀ b ∈ k.blks, k.arg b.1 = y → (∀ p, (p, Mk.val) ∈ b.2.marks → ¬ S (k.arg p)) →
      ∃ r : Rd, (∀ p, 0 ≤ r.lo p ∧ r.lo p ≤ (st.dom (k.arg p)).r.min ∧ (st.dom (k.arg p)).r.min ≤ r.hi p) ∧
        (∀ p, k.arg p ∈ k.vars → ¬ S (k.arg p) → r.lo p = (st.dom (k.arg p)).r.min ∧ r.hi p = (st.dom (k.arg p)).r.min ∧
          r.vl p = (st.dom (k.arg p)).r.min) ∧
        b.2.satR r (st.dom y).r.min ∧ ∀ p, b.2 = .dom p → ¬ S (k.arg p) → (st.dom y).r.min = (st.dom (k.arg p)).r.min := by
  obtain ⟨y, hy, hSy, hb⟩ := hC S hS (fun v hv _ => hg v hv)
  refine ⟨y, hy, hSy, fun b hbm hby hval => ?_⟩
  obtain ⟨s, h1, h2, h3, h4⟩ := hb (mkBlk k.arg b) (List.mem_map.2 ⟨b, hbm, rfl⟩) hby
  have hact : (mkBlk k.arg b).f s = .tell (b.2.op s k.arg) := by
    show b.2.act k.arg s = _
    exact act_val (fun p hp => h3 _ (blk_marks k b hbm p _ hp) (hval p hp))
  have hst : ∀ n : Nat, Mem (s (k.arg b.1)).r n → opMem (b.2.op s k.arg) n := by
    have := h4
    simp only [Stable, hact] at this
    exact this
  have hmin : ∀ v, Mem (s v).r (st.dom v).r.min := fun v => h2 v _ (bounds_mem c _ (hG v).1.wf (hG v).1.ne).1
  have hbd : ∀ v, (s v).r.min ≤ (st.dom v).r.min ∧ (st.dom v).r.min ≤ (s v).r.max := fun v =>
    (bounds_mem c _ (h1 v).1.wf (h1 v).1.ne).2.2 _ (hmin v)
  have hsame : ∀ v ∈ k.vars, ¬ S v → (s v).r.min = (st.dom v).r.min ∧ (s v).r.max = (st.dom v).r.min := by
    intro v hv hSv
    have h5 := h3 v hv hSv
    have h6 := (ground_mem (h1 v).1 h5 _).1 (hmin v)
    have h7 := (ground_mem (h1 v).1 h5 _).1 (bounds_mem c _ (h1 v).1.wf (h1 v).1.ne).2.1
    omega
  have hnn := (gb_rd hG y).1
  have hcast : (((st.dom y).r.min.toNat : Nat) : Int) = (st.dom y).r.min := Int.toNat_of_nonneg hnn
  have hop := hst (st.dom y).r.min.toNat (by rw [hcast, hby]; exact hmin y)
  rw [op_sat h1 (hf b hbm), hcast] at hop
  refine ⟨rd s k.arg, fun p => ⟨(gb_rd h1 _).1, (hbd _).1, (hbd _).2⟩, fun p hp hSp => ?_, hop.1, fun p hp hSp => ?_⟩
  · have := hsame _ hp hSp
    exact ⟨this.1, this.2, this.1⟩
  · have hm := hop.2 p hp
    have hp' : k.arg p ∈ k.vars := blk_marks k b hbm p .dom (by rw [hp]; simp [Rg.marks])
    have := (ground_mem (h1 (k.arg p)).1 (h3 _ hp' hSp) _).1 hm
    have h8 := (hsame _ hp' hSp).1
    omega

/-- The same with no set: the blocks of one of the variables are satisfied. -/
theorem checked_all {st : QSt} (k : Prim) (hf : k.Fits W M) (hC : Checked (GB c W M) k.vars k.cstr st) (hG : GB c W M st.dom)
    (hg : ∀ v ∈ k.vars, (st.dom v).ground = true) (τ : Nat → Int) (hτ : ∀ p, τ p = (st.dom (k.arg p)).r.min) :
    ∃ y ∈ k.vars, ∀ b ∈ k.blks, k.arg b.1 = y → b.2.satR ⟨τ, τ, τ⟩ (st.dom y).r.min ∧ ∀ p, b.2 = .dom p → (st.dom y).r.min = τ p := by
  obtain ⟨y, hy, _, hb⟩ := checked_sat k hf hC hG hg (fun _ => False)
    (by cases hv : k.vars with
        | nil => exact absurd hv (vars_ne k)
        | cons a l => exact ⟨a, by simp, fun h => h⟩)
  refine ⟨y, hy, fun b hbm hby => ?_⟩
  obtain ⟨r, h1, h2, h3, h4⟩ := hb b hbm hby (fun _ _ h => h)
  refine ⟨(satR_congr (fun p m hp => ?_) _).1 h3, fun p hp => ?_⟩
  · have := h2 p (blk_marks k b hbm p m hp) (fun h => h)
    rw [← hτ p] at this
    exact this
  · rw [hτ p]; exact h4 p hp (fun h => h)

/-- If all the variables of a constraint are instantiated then it holds; for a product by 0 see the partial theorem. -/
theorem prim_check {st : QSt} (k : Prim) (hk : k.CstOk) (hf : k.Fits W M) (hC : Checked (GB c W M) k.vars k.cstr st) (hG : GB c W M st.dom)
    (hg : ∀ v ∈ k.vars, (st.dom v).ground = true)
    (hz : ∀ x y z, k = .xyEqZ x y z → (st.dom x).r.min ≠ 0 ∧ (st.dom y).r.min ≠ 0) : k.holds (fun v => (st.dom v).r.min) := by
  obtain ⟨y0, hy0, hall⟩ := checked_all k hf hC hG hg _ (fun _ => rfl)
  have h0 : ∀ v, 0 ≤ (st.dom v).r.min := fun v => (gb_rd hG v).1
  have hsat := fun S hS => checked_sat k hf hC hG hg S hS
  cases k with
  | xEqC x n =>
    simp only [Prim.CstOk] at hk
    simp only [Prim.vars, List.mem_cons, List.not_mem_nil, or_false] at hy0
    have h := hall _ (by simp [Prim.blks]; rfl) (by simp [Prim.arg, Prim.vars, hy0])
    simp only [Rg.satR, Tm.ev, toInt32_small hk, hy0] at h
    exact h.1
  | xNeqC x n =>
    simp only [Prim.CstOk] at hk
    simp only [Prim.vars, List.mem_cons, List.not_mem_nil, or_false] at hy0
    have h := hall _ (by simp [Prim.blks]; rfl) (by simp [Prim.arg, Prim.vars, hy0])
    simp only [Rg.satR, Tm.ev, toValue_id hk, hy0] at h
    exact h.1
  | xLteC x n =>
    simp only [Prim.CstOk] at hk
    simp only [Prim.vars, List.mem_cons, List.not_mem_nil, or_false] at hy0
    have h := hall _ (by simp [Prim.blks]; rfl) (by simp [Prim.arg, Prim.vars, hy0])
    simp only [Rg.satR, Tm.ev, toValue_id hk, hy0] at h
    exact h.1.2
  | xGteC x n =>
    simp only [Prim.CstOk] at hk
    simp only [Prim.vars, List.mem_cons, List.not_mem_nil, or_false] at hy0
    have h := hall _ (by simp [Prim.blks]; rfl) (by simp [Prim.arg, Prim.vars, hy0])
    simp only [Rg.satR, Tm.ev, toValue_id hk, hy0] at h
    exact h.1.1
  | unify x y =>
    simp only [Prim.blks, List.mem_cons, List.not_mem_nil, or_false, forall_eq_or_imp, forall_eq, Prim.arg, Prim.vars, List.getD_cons_zero,
      List.getD_cons_succ] at hall hy0
    simp only [Prim.holds]
    rcases hy0 with rfl | rfl
    · exact (hall.1 rfl).2 1 rfl
    · exact ((hall.2 rfl).2 0 rfl).symm
  | xEqY x y =>
    simp only [Prim.blks, List.mem_cons, List.not_mem_nil, or_false, forall_eq_or_imp, forall_eq, Prim.arg, Prim.vars, List.getD_cons_zero,
      List.getD_cons_succ, Rg.satR, Tm.ev, Bop.ev, Tm.add, Tm.sub, Tm.mul, Tm.divUp, Tm.divDn, id, imax] at hall hy0
    simp only [Prim.holds]
    rcases hy0 with rfl | rfl
    · have := (hall.1 rfl).1; omega
    · have := (hall.2 rfl).1; omega
  | xPlusCEqY x n y =>
    simp only [Prim.CstOk] at hk
    simp only [Prim.blks, List.mem_cons, List.not_mem_nil, or_false, forall_eq_or_imp, forall_eq, Prim.arg, Prim.vars, List.getD_cons_zero,
      List.getD_cons_succ, Rg.satR, Tm.ev, Bop.ev, Tm.add, Tm.sub, Tm.mul, Tm.divUp, Tm.divDn, id, imax, toValue_id hk] at hall hy0
    simp only [Prim.holds]
    rcases hy0 with rfl | rfl
    · have := (hall.1 rfl).1; omega
    · have := (hall.2 rfl).1; omega
  | xNeqY x y =>
    simp only [Prim.blks, List.mem_cons, List.not_mem_nil, or_false, forall_eq_or_imp, forall_eq, Prim.arg, Prim.vars, List.getD_cons_zero,
      List.getD_cons_succ, Rg.satR, Tm.ev, Bop.ev, Tm.add, Tm.sub, Tm.mul, Tm.divUp, Tm.divDn, id, imax] at hall hy0
    simp only [Prim.holds]
    rcases hy0 with rfl | rfl
    · have := (hall.1 rfl).1; omega
    · have := (hall.2 rfl).1; omega
  | xPlusCNeqY x n y =>
    simp only [Prim.CstOk] at hk
    simp only [Prim.blks, List.mem_cons, List.not_mem_nil, or_false, forall_eq_or_imp, forall_eq, Prim.arg, Prim.vars, List.getD_cons_zero,
      List.getD_cons_succ, Rg.satR, Tm.ev, Bop.ev, Tm.add, Tm.sub, Tm.mul, Tm.divUp, Tm.divDn, id, imax, toValue_id hk] at hall hy0
    simp only [Prim.holds]
    rcases hy0 with rfl | rfl
    · have := (hall.1 rfl).1; omega
    · have := (hall.2 rfl).1; omega
  | xLtY x y =>
    simp only [Prim.blks, List.mem_cons, List.not_mem_nil, or_false, forall_eq_or_imp, forall_eq, Prim.arg, Prim.vars, List.getD_cons_zero,
      List.getD_cons_succ, Rg.satR, Tm.ev, Bop.ev, Tm.add, Tm.sub, Tm.mul, Tm.divUp, Tm.divDn, id, imax] at hall hy0
    simp only [Prim.holds]
    rcases hy0 with rfl | rfl
    · have := (hall.1 rfl).1; omega
    · have := (hall.2 rfl).1; omega
  | xLteY x y =>
    simp only [Prim.blks, List.mem_cons, List.not_mem_nil, or_false, forall_eq_or_imp, forall_eq, Prim.arg, Prim.vars, List.getD_cons_zero,
      List.getD_cons_succ, Rg.satR, Tm.ev, Bop.ev, Tm.add, Tm.sub, Tm.mul, Tm.divUp, Tm.divDn, id, imax] at hall hy0
    simp only [Prim.holds]
    rcases hy0 with rfl | rfl
    · have := (hall.1 rfl).1; omega
    · have := (hall.2 rfl).1; omega
  | xPlusCLteY x n y =>
    simp only [Prim.CstOk] at hk
    simp only [Prim.blks, List.mem_cons, List.not_mem_nil, or_false, forall_eq_or_imp, forall_eq, Prim.arg, Prim.vars, List.getD_cons_zero,
      List.getD_cons_succ, Rg.satR, Tm.ev, Bop.ev, Tm.add, Tm.sub, Tm.mul, Tm.divUp, Tm.divDn, id, imax, toValue_id hk] at hall hy0
    simp only [Prim.holds]
    rcases hy0 with rfl | rfl
    · have := (hall.1 rfl).1; omega
    · have := (hall.2 rfl).1; omega
  | xPlusCGteY x n y =>
    simp only [Prim.CstOk] at hk
    simp only [Prim.blks, List.mem_cons, List.not_mem_nil, or_false, forall_eq_or_imp, forall_eq, Prim.arg, Prim.vars, List.getD_cons_zero,
      List.getD_cons_succ, Rg.satR, Tm.ev, Bop.ev, Tm.add, Tm.sub, Tm.mul, Tm.divUp, Tm.divDn, id, imax, toValue_id hk] at hall hy0
    simp only [Prim.holds]
    rcases hy0 with rfl | rfl
    · have := (hall.1 rfl).1; omega
    · have := (hall.2 rfl).1; omega
  | xPlusYEqZ x y z =>
    simp only [Prim.blks, List.mem_cons, List.not_mem_nil, or_false, forall_eq_or_imp, forall_eq, Prim.arg, Prim.vars, List.getD_cons_zero,
      List.getD_cons_succ, Rg.satR, Tm.ev, Bop.ev, Tm.add, Tm.sub, Tm.mul, Tm.divUp, Tm.divDn, id, imax] at hall hy0
    simp only [Prim.holds]
    rcases hy0 with rfl | rfl | rfl
    · have := (hall.1 rfl).1; omega
    · have := (hall.2.1 rfl).1; omega
    · have := (hall.2.2 rfl).1; omega
  | xPlusYPlusZEqT x y z t =>
    simp only [Prim.blks, List.mem_cons, List.not_mem_nil, or_false, forall_eq_or_imp, forall_eq, Prim.arg, Prim.vars, List.getD_cons_zero,
      List.getD_cons_succ, Rg.satR, Tm.ev, Bop.ev, Tm.add, Tm.sub, Tm.mul, Tm.divUp, Tm.divDn, id, imax] at hall hy0
    simp only [Prim.holds]
    rcases hy0 with rfl | rfl | rfl | rfl
    · have := (hall.1 rfl).1; omega
    · have := (hall.2.1 rfl).1; omega
    · have := (hall.2.2.1 rfl).1; omega
    · have := (hall.2.2.2 rfl).1; omega
  | axEqY a x y =>
    simp only [Prim.CstOk] at hk
    have ha : 0 < a := by omega
    rw [show Prim.blks (.axEqY a x y) = _ from rfl] at hall
    simp only [Prim.blks, List.mem_cons, List.not_mem_nil, or_false, forall_eq_or_imp, forall_eq, Prim.arg, Prim.vars, List.getD_cons_zero,
      List.getD_cons_succ, Rg.satR, Tm.ev, Bop.ev, Tm.add, Tm.sub, Tm.mul, Tm.divUp, Tm.divDn, id, imax, toValue_id (n := a) (by omega)] at hall hy0
    simp only [Prim.holds]
    rcases hy0 with rfl | rfl
    · have := (hall.1 rfl).1
      rw [divUp_le ha (h0 y), le_divDn ha (h0 y)] at this
      omega
    · have := (hall.2 rfl).1; omega
  | axPlusYEqZ a x y z =>
    simp only [Prim.CstOk] at hk
    have ha : 0 < a := by omega
    simp only [Prim.blks, List.mem_cons, List.not_mem_nil, or_false, forall_eq_or_imp, forall_eq, Prim.arg, Prim.vars, List.getD_cons_zero,
      List.getD_cons_succ, Rg.satR, Tm.ev, Bop.ev, Tm.add, Tm.sub, Tm.mul, Tm.divUp, Tm.divDn, id, imax, toValue_id (n := a) (by omega)] at hall hy0
    simp only [Prim.holds]
    have key : x ≠ y → x ≠ z → (st.dom y).r.min ≤ (st.dom z).r.min := by
      intro hxy hxz
      obtain ⟨y1, hy1, hS1, hb1⟩ := hsat (fun v => v = x) ⟨y, by simp [Prim.vars], fun h => hxy h.symm⟩
      simp only [Prim.vars, List.mem_cons, List.not_mem_nil, or_false] at hy1
      rcases hy1 with e | e | e <;> subst y1
      · exact absurd rfl hS1
      · obtain ⟨r, r1, r2, r3, _⟩ := hb1 _ (List.Mem.tail _ (List.Mem.head _)) rfl (by simp [Rg.marks, Tm.marks, Tm.add, Tm.sub, Tm.mul, Tm.divUp, Tm.divDn])
        simp only [Rg.satR, Tm.ev, Bop.ev, Tm.add, Tm.sub, Tm.mul, Tm.divUp, Tm.divDn, id, toValue_id (n := a) (by omega)] at r3
        have q0 : 0 ≤ r.lo 0 ∧ r.lo 0 ≤ (st.dom x).r.min ∧ _ := r1 0
        have q1 : r.lo 1 = (st.dom y).r.min ∧ r.hi 1 = (st.dom y).r.min ∧ _ := r2 1 (by simp [Prim.arg, Prim.vars]) (fun h => hxy h.symm)
        have q2 : r.lo 2 = (st.dom z).r.min ∧ r.hi 2 = (st.dom z).r.min ∧ _ := r2 2 (by simp [Prim.arg, Prim.vars]) (fun h => hxz h.symm)
        have := Int.mul_nonneg (Int.le_of_lt ha) q0.1
        omega
      · obtain ⟨r, r1, r2, r3, _⟩ := hb1 _ (List.Mem.tail _ (List.Mem.tail _ (List.Mem.head _))) rfl (by simp [Rg.marks, Tm.marks, Tm.add, Tm.sub, Tm.mul, Tm.divUp, Tm.divDn])
        simp only [Rg.satR, Tm.ev, Bop.ev, Tm.add, Tm.sub, Tm.mul, Tm.divUp, Tm.divDn, id, toValue_id (n := a) (by omega)] at r3
        have q0 : 0 ≤ r.lo 0 ∧ r.lo 0 ≤ (st.dom x).r.min ∧ _ := r1 0
        have q1 : r.lo 1 = (st.dom y).r.min ∧ r.hi 1 = (st.dom y).r.min ∧ _ := r2 1 (by simp [Prim.arg, Prim.vars]) (fun h => hxy h.symm)
        have q2 : r.lo 2 = (st.dom z).r.min ∧ r.hi 2 = (st.dom z).r.min ∧ _ := r2 2 (by simp [Prim.arg, Prim.vars]) (fun h => hxz h.symm)
        have := Int.mul_nonneg (Int.le_of_lt ha) q0.1
        omega
    rcases hy0 with rfl | rfl | rfl
    · by_cases hxy : y0 = y
      · subst hxy; have := (hall.2.1 rfl).1; omega
      · by_cases hxz : y0 = z
        · subst hxz; have := (hall.2.2 rfl).1; omega
        · have hN := key hxy hxz
          have := (hall.1 rfl).1
          rw [divUp_le ha (by omega), le_divDn ha (by omega)] at this
          omega
    · have := (hall.2.1 rfl).1; omega
    · have := (hall.2.2 rfl).1; omega
  | axPlusYPlusZEqT a x y z t =>
    simp only [Prim.CstOk] at hk
    have ha : 0 < a := by omega
    simp only [Prim.blks, List.mem_cons, List.not_mem_nil, or_false, forall_eq_or_imp, forall_eq, Prim.arg, Prim.vars, List.getD_cons_zero,
      List.getD_cons_succ, Rg.satR, Tm.ev, Bop.ev, Tm.add, Tm.sub, Tm.mul, Tm.divUp, Tm.divDn, id, imax, toValue_id (n := a) (by omega)] at hall hy0
    simp only [Prim.holds]
    have key : x ≠ y → x ≠ z → x ≠ t → (st.dom y).r.min + (st.dom z).r.min ≤ (st.dom t).r.min := by
      intro hxy hxz hxt
      obtain ⟨y1, hy1, hS1, hb1⟩ := hsat (fun v => v = x) ⟨y, by simp [Prim.vars], fun h => hxy h.symm⟩
      simp only [Prim.vars, List.mem_cons, List.not_mem_nil, or_false] at hy1
      rcases hy1 with e | e | e | e <;> subst y1
      · exact absurd rfl hS1
      · obtain ⟨r, r1, r2, r3, _⟩ := hb1 _ (List.Mem.tail _ (List.Mem.head _)) rfl (by simp [Rg.marks, Tm.marks, Tm.add, Tm.sub, Tm.mul, Tm.divUp, Tm.divDn])
        simp only [Rg.satR, Tm.ev, Bop.ev, Tm.add, Tm.sub, Tm.mul, Tm.divUp, Tm.divDn, id, toValue_id (n := a) (by omega)] at r3
        have q0 : 0 ≤ r.lo 0 ∧ r.lo 0 ≤ (st.dom x).r.min ∧ _ := r1 0
        have q1 : r.lo 1 = (st.dom y).r.min ∧ r.hi 1 = (st.dom y).r.min ∧ _ := r2 1 (by simp [Prim.arg, Prim.vars]) (fun h => hxy h.symm)
        have q2 : r.lo 2 = (st.dom z).r.min ∧ r.hi 2 = (st.dom z).r.min ∧ _ := r2 2 (by simp [Prim.arg, Prim.vars]) (fun h => hxz h.symm)
        have q3 : r.lo 3 = (st.dom t).r.min ∧ r.hi 3 = (st.dom t).r.min ∧ _ := r2 3 (by simp [Prim.arg, Prim.vars]) (fun h => hxt h.symm)
        have := Int.mul_nonneg (Int.le_of_lt ha) q0.1
        omega
      · obtain ⟨r, r1, r2, r3, _⟩ := hb1 _ (List.Mem.tail _ (List.Mem.tail _ (List.Mem.head _))) rfl (by simp [Rg.marks, Tm.marks, Tm.add, Tm.sub, Tm.mul, Tm.divUp, Tm.divDn])
        simp only [Rg.satR, Tm.ev, Bop.ev, Tm.add, Tm.sub, Tm.mul, Tm.divUp, Tm.divDn, id, toValue_id (n := a) (by omega)] at r3
        have q0 : 0 ≤ r.lo 0 ∧ r.lo 0 ≤ (st.dom x).r.min ∧ _ := r1 0
        have q1 : r.lo 1 = (st.dom y).r.min ∧ r.hi 1 = (st.dom y).r.min ∧ _ := r2 1 (by simp [Prim.arg, Prim.vars]) (fun h => hxy h.symm)
        have q2 : r.lo 2 = (st.dom z).r.min ∧ r.hi 2 = (st.dom z).r.min ∧ _ := r2 2 (by simp [Prim.arg, Prim.vars]) (fun h => hxz h.symm)
        have q3 : r.lo 3 = (st.dom t).r.min ∧ r.hi 3 = (st.dom t).r.min ∧ _ := r2 3 (by simp [Prim.arg, Prim.vars]) (fun h => hxt h.symm)
        have := Int.mul_nonneg (Int.le_of_lt ha) q0.1
        omega
      · obtain ⟨r, r1, r2, r3, _⟩ := hb1 _ (List.Mem.tail _ (List.Mem.tail _ (List.Mem.tail _ (List.Mem.head _)))) rfl (by simp [Rg.marks, Tm.marks, Tm.add, Tm.sub, Tm.mul, Tm.divUp, Tm.divDn])
        simp only [Rg.satR, Tm.ev, Bop.ev, Tm.add, Tm.sub, Tm.mul, Tm.divUp, Tm.divDn, id, toValue_id (n := a) (by omega)] at r3
        have q0 : 0 ≤ r.lo 0 ∧ r.lo 0 ≤ (st.dom x).r.min ∧ _ := r1 0
        have q1 : r.lo 1 = (st.dom y).r.min ∧ r.hi 1 = (st.dom y).r.min ∧ _ := r2 1 (by simp [Prim.arg, Prim.vars]) (fun h => hxy h.symm)
        have q2 : r.lo 2 = (st.dom z).r.min ∧ r.hi 2 = (st.dom z).r.min ∧ _ := r2 2 (by simp [Prim.arg, Prim.vars]) (fun h => hxz h.symm)
        have q3 : r.lo 3 = (st.dom t).r.min ∧ r.hi 3 = (st.dom t).r.min ∧ _ := r2 3 (by simp [Prim.arg, Prim.vars]) (fun h => hxt h.symm)
        have := Int.mul_nonneg (Int.le_of_lt ha) q0.1
        omega
    rcases hy0 with rfl | rfl | rfl | rfl
    · by_cases hxy : y0 = y
      · subst hxy; have := (hall.2.1 rfl).1; omega
      · by_cases hxz : y0 = z
        · subst hxz; have := (hall.2.2.1 rfl).1; omega
        · by_cases hxt : y0 = t
          · subst hxt; have := (hall.2.2.2 rfl).1; omega
          · have hN := key hxy hxz hxt
            have := (hall.1 rfl).1
            rw [divUp_le ha (by omega), le_divDn ha (by omega)] at this
            omega
    · have := (hall.2.1 rfl).1; omega
    · have := (hall.2.2.1 rfl).1; omega
    · have := (hall.2.2.2 rfl).1; omega
  | axPlusByEqZ a x b y z =>
    simp only [Prim.CstOk] at hk
    have ha : 0 < a := by omega
    have hb : 0 < b := by omega
    simp only [Prim.blks, List.mem_cons, List.not_mem_nil, or_false, forall_eq_or_imp, forall_eq, Prim.arg, Prim.vars, List.getD_cons_zero,
      List.getD_cons_succ, Rg.satR, Tm.ev, Bop.ev, Tm.add, Tm.sub, Tm.mul, Tm.divUp, Tm.divDn, id, imax, toValue_id (n := a) (by omega), toValue_id (n := b) (by omega)] at hall hy0
    simp only [Prim.holds]
    have keyx : x ≠ y → x ≠ z → b * (st.dom y).r.min ≤ (st.dom z).r.min := by
      intro hxy hxz
      obtain ⟨y1, hy1, hS1, hb1⟩ := hsat (fun v => v = x) ⟨y, by simp [Prim.vars], fun h => hxy h.symm⟩
      simp only [Prim.vars, List.mem_cons, List.not_mem_nil, or_false] at hy1
      have p0 := h0 y
      have pz := h0 z
      rcases hy1 with e | e | e <;> subst y1
      · exact absurd rfl hS1
      · obtain ⟨r, r1, r2, r3, _⟩ := hb1 _ (List.Mem.tail _ (List.Mem.head _)) rfl (by simp [Rg.marks, Tm.marks, Tm.add, Tm.sub, Tm.mul, Tm.divUp, Tm.divDn])
        simp only [Rg.satR, Tm.ev, Bop.ev, Tm.add, Tm.sub, Tm.mul, Tm.divUp, Tm.divDn, id, toValue_id (n := a) (by omega), toValue_id (n := b) (by omega)] at r3
        have q0 : 0 ≤ r.lo 0 ∧ r.lo 0 ≤ (st.dom x).r.min ∧ _ := r1 0
        have q1 : r.lo 1 = (st.dom y).r.min ∧ r.hi 1 = (st.dom y).r.min ∧ _ := r2 1 (by simp [Prim.arg, Prim.vars]) (fun h => hxy h.symm)
        have q2 : r.lo 2 = (st.dom z).r.min ∧ r.hi 2 = (st.dom z).r.min ∧ _ := r2 2 (by simp [Prim.arg, Prim.vars]) (fun h => hxz h.symm)
        have := Int.mul_nonneg (Int.le_of_lt ha) q0.1
        rcases divDn_le hb r3.2 p0 with h | h
        · omega
        · rw [h.2]; simp; omega
      · obtain ⟨r, r1, r2, r3, _⟩ := hb1 _ (List.Mem.tail _ (List.Mem.tail _ (List.Mem.head _))) rfl (by simp [Rg.marks, Tm.marks, Tm.add, Tm.sub, Tm.mul, Tm.divUp, Tm.divDn])
        simp only [Rg.satR, Tm.ev, Bop.ev, Tm.add, Tm.sub, Tm.mul, Tm.divUp, Tm.divDn, id, toValue_id (n := a) (by omega), toValue_id (n := b) (by omega)] at r3
        have q0 : 0 ≤ r.lo 0 ∧ r.lo 0 ≤ (st.dom x).r.min ∧ _ := r1 0
        have q1 : r.lo 1 = (st.dom y).r.min ∧ r.hi 1 = (st.dom y).r.min ∧ _ := r2 1 (by simp [Prim.arg, Prim.vars]) (fun h => hxy h.symm)
        have q2 : r.lo 2 = (st.dom z).r.min ∧ r.hi 2 = (st.dom z).r.min ∧ _ := r2 2 (by simp [Prim.arg, Prim.vars]) (fun h => hxz h.symm)
        have := Int.mul_nonneg (Int.le_of_lt ha) q0.1
        rw [q1.1, q1.2.1] at r3
        omega
    have keyy : y ≠ x → y ≠ z → a * (st.dom x).r.min ≤ (st.dom z).r.min := by
      intro hxy hxz
      obtain ⟨y1, hy1, hS1, hb1⟩ := hsat (fun v => v = y) ⟨x, by simp [Prim.vars], fun h => hxy h.symm⟩
      simp only [Prim.vars, List.mem_cons, List.not_mem_nil, or_false] at hy1
      have p0 := h0 x
      have pz := h0 z
      rcases hy1 with e | e | e <;> subst y1
      · obtain ⟨r, r1, r2, r3, _⟩ := hb1 _ (List.Mem.head _) rfl (by simp [Rg.marks, Tm.marks, Tm.add, Tm.sub, Tm.mul, Tm.divUp, Tm.divDn])
        simp only [Rg.satR, Tm.ev, Bop.ev, Tm.add, Tm.sub, Tm.mul, Tm.divUp, Tm.divDn, id, toValue_id (n := a) (by omega), toValue_id (n := b) (by omega)] at r3
        have q1 : 0 ≤ r.lo 1 ∧ r.lo 1 ≤ (st.dom y).r.min ∧ _ := r1 1
        have q0 : r.lo 0 = (st.dom x).r.min ∧ r.hi 0 = (st.dom x).r.min ∧ _ := r2 0 (by simp [Prim.arg, Prim.vars]) (fun h => hxy h.symm)
        have q2 : r.lo 2 = (st.dom z).r.min ∧ r.hi 2 = (st.dom z).r.min ∧ _ := r2 2 (by simp [Prim.arg, Prim.vars]) (fun h => hxz h.symm)
        have := Int.mul_nonneg (Int.le_of_lt hb) q1.1
        rcases divDn_le ha r3.2 p0 with h | h
        · omega
        · rw [h.2]; simp; omega
      · exact absurd rfl hS1
      · obtain ⟨r, r1, r2, r3, _⟩ := hb1 _ (List.Mem.tail _ (List.Mem.tail _ (List.Mem.head _))) rfl (by simp [Rg.marks, Tm.marks, Tm.add, Tm.sub, Tm.mul, Tm.divUp, Tm.divDn])
        simp only [Rg.satR, Tm.ev, Bop.ev, Tm.add, Tm.sub, Tm.mul, Tm.divUp, Tm.divDn, id, toValue_id (n := a) (by omega), toValue_id (n := b) (by omega)] at r3
        have q1 : 0 ≤ r.lo 1 ∧ r.lo 1 ≤ (st.dom y).r.min ∧ _ := r1 1
        have q0 : r.lo 0 = (st.dom x).r.min ∧ r.hi 0 = (st.dom x).r.min ∧ _ := r2 0 (by simp [Prim.arg, Prim.vars]) (fun h => hxy h.symm)
        have q2 : r.lo 2 = (st.dom z).r.min ∧ r.hi 2 = (st.dom z).r.min ∧ _ := r2 2 (by simp [Prim.arg, Prim.vars]) (fun h => hxz h.symm)
        have := Int.mul_nonneg (Int.le_of_lt hb) q1.1
        rw [q0.1, q0.2.1] at r3
        omega
    have px := h0 x
    have py := h0 y
    have pz := h0 z
    rcases hy0 with rfl | rfl | rfl
    · by_cases hxz : y0 = z
      · subst hxz; have := (hall.2.2 rfl).1; omega
      · have h := (hall.1 rfl).1
        have hN : 0 ≤ (st.dom z).r.min - b * (st.dom y).r.min := by
          by_cases hxy : y0 = y
          · rcases divDn_le ha h.2 px with h1 | h1
            · have := Int.mul_nonneg (Int.le_of_lt ha) px; omega
            · rw [← hxy, h1.2]; simp; omega
          · have := keyx hxy hxz; omega
        rw [divUp_le ha hN, le_divDn ha hN] at h
        omega
    · by_cases hyz : y0 = z
      · subst hyz; have := (hall.2.2 rfl).1; omega
      · have h := (hall.2.1 rfl).1
        have hN : 0 ≤ (st.dom z).r.min - a * (st.dom x).r.min := by
          by_cases hxy : y0 = x
          · rcases divDn_le hb h.2 py with h1 | h1
            · have := Int.mul_nonneg (Int.le_of_lt hb) py; omega
            · rw [← hxy, h1.2]; simp; omega
          · have := keyy hxy hyz; omega
        rw [divUp_le hb hN, le_divDn hb hN] at h
        omega
    · have := (hall.2.2 rfl).1; omega
  | axPlusByPlusZEqT a x b y z t =>
    simp only [Prim.CstOk] at hk
    have ha : 0 < a := by omega
    have hb : 0 < b := by omega
    simp only [Prim.blks, List.mem_cons, List.not_mem_nil, or_false, forall_eq_or_imp, forall_eq, Prim.arg, Prim.vars, List.getD_cons_zero,
      List.getD_cons_succ, Rg.satR, Tm.ev, Bop.ev, Tm.add, Tm.sub, Tm.mul, Tm.divUp, Tm.divDn, id, imax, toValue_id (n := a) (by omega), toValue_id (n := b) (by omega)] at hall hy0
    simp only [Prim.holds]
    have keyS : x ≠ z → x ≠ t → y ≠ z → y ≠ t → (st.dom z).r.min ≤ (st.dom t).r.min := by
      intro hxz hxt hyz hyt
      obtain ⟨y1, hy1, hS1, hb1⟩ := hsat (fun v => v = x ∨ v = y) ⟨z, by simp [Prim.vars], fun h => h.elim (fun h => hxz h.symm) (fun h => hyz h.symm)⟩
      simp only [Prim.vars, List.mem_cons, List.not_mem_nil, or_false] at hy1
      rcases hy1 with e | e | e | e <;> subst y1
      · exact absurd (Or.inl rfl) hS1
      · exact absurd (Or.inr rfl) hS1
      · obtain ⟨r, r1, r2, r3, _⟩ := hb1 _ (List.Mem.tail _ (List.Mem.tail _ (List.Mem.head _))) rfl (by simp [Rg.marks, Tm.marks, Tm.add, Tm.sub, Tm.mul, Tm.divUp, Tm.divDn])
        simp only [Rg.satR, Tm.ev, Bop.ev, Tm.add, Tm.sub, Tm.mul, Tm.divUp, Tm.divDn, id, toValue_id (n := a) (by omega), toValue_id (n := b) (by omega)] at r3
        have q0 : 0 ≤ r.lo 0 ∧ r.lo 0 ≤ (st.dom x).r.min ∧ _ := r1 0
        have q1 : 0 ≤ r.lo 1 ∧ r.lo 1 ≤ (st.dom y).r.min ∧ _ := r1 1
        have q2 : r.lo 2 = (st.dom z).r.min ∧ r.hi 2 = (st.dom z).r.min ∧ _ := r2 2 (by simp [Prim.arg, Prim.vars]) (fun h => h.elim (fun h => hxz h.symm) (fun h => hyz h.symm))
        have q3 : r.lo 3 = (st.dom t).r.min ∧ r.hi 3 = (st.dom t).r.min ∧ _ := r2 3 (by simp [Prim.arg, Prim.vars]) (fun h => h.elim (fun h => hxt h.symm) (fun h => hyt h.symm))
        have m0 := Int.mul_nonneg (Int.le_of_lt ha) q0.1
        have m1 := Int.mul_nonneg (Int.le_of_lt hb) q1.1
        omega
      · obtain ⟨r, r1, r2, r3, _⟩ := hb1 _ (List.Mem.tail _ (List.Mem.tail _ (List.Mem.tail _ (List.Mem.head _)))) rfl (by simp [Rg.marks, Tm.marks, Tm.add, Tm.sub, Tm.mul, Tm.divUp, Tm.divDn])
        simp only [Rg.satR, Tm.ev, Bop.ev, Tm.add, Tm.sub, Tm.mul, Tm.divUp, Tm.divDn, id, toValue_id (n := a) (by omega), toValue_id (n := b) (by omega)] at r3
        have q0 : 0 ≤ r.lo 0 ∧ r.lo 0 ≤ (st.dom x).r.min ∧ _ := r1 0
        have q1 : 0 ≤ r.lo 1 ∧ r.lo 1 ≤ (st.dom y).r.min ∧ _ := r1 1
        have q2 : r.lo 2 = (st.dom z).r.min ∧ r.hi 2 = (st.dom z).r.min ∧ _ := r2 2 (by simp [Prim.arg, Prim.vars]) (fun h => h.elim (fun h => hxz h.symm) (fun h => hyz h.symm))
        have q3 : r.lo 3 = (st.dom t).r.min ∧ r.hi 3 = (st.dom t).r.min ∧ _ := r2 3 (by simp [Prim.arg, Prim.vars]) (fun h => h.elim (fun h => hxt h.symm) (fun h => hyt h.symm))
        have m0 := Int.mul_nonneg (Int.le_of_lt ha) q0.1
        have m1 := Int.mul_nonneg (Int.le_of_lt hb) q1.1
        omega
    have keyx : x ≠ y → x ≠ z → x ≠ t → b * (st.dom y).r.min + (st.dom z).r.min ≤ (st.dom t).r.min := by
      intro hxy hxz hxt
      obtain ⟨y1, hy1, hS1, hb1⟩ := hsat (fun v => v = x) ⟨y, by simp [Prim.vars], fun h => hxy h.symm⟩
      simp only [Prim.vars, List.mem_cons, List.not_mem_nil, or_false] at hy1
      have p0 := h0 y
      have Z : z = y1 → b * (st.dom y).r.min + (st.dom z).r.min ≤ (st.dom t).r.min := by
        intro e
        subst e
        obtain ⟨r, r1, r2, r3, _⟩ := hb1 _ (List.Mem.tail _ (List.Mem.tail _ (List.Mem.head _))) rfl (by simp [Rg.marks, Tm.marks, Tm.add, Tm.sub, Tm.mul, Tm.divUp, Tm.divDn])
        simp only [Rg.satR, Tm.ev, Bop.ev, Tm.add, Tm.sub, Tm.mul, Tm.divUp, Tm.divDn, id, toValue_id (n := a) (by omega), toValue_id (n := b) (by omega)] at r3
        have q0 : 0 ≤ r.lo 0 ∧ r.lo 0 ≤ (st.dom x).r.min ∧ _ := r1 0
        have q1 : r.lo 1 = (st.dom y).r.min ∧ r.hi 1 = (st.dom y).r.min ∧ _ := r2 1 (by simp [Prim.arg, Prim.vars]) (fun h => hxy h.symm)
        have q2 : r.lo 2 = (st.dom z).r.min ∧ r.hi 2 = (st.dom z).r.min ∧ _ := r2 2 (by simp [Prim.arg, Prim.vars]) (fun h => hxz h.symm)
        have q3 : r.lo 3 = (st.dom t).r.min ∧ r.hi 3 = (st.dom t).r.min ∧ _ := r2 3 (by simp [Prim.arg, Prim.vars]) (fun h => hxt h.symm)
        rw [q1.1, q1.2.1] at r3
        have m0 := Int.mul_nonneg (Int.le_of_lt ha) q0.1
        omega
      have T : t = y1 → b * (st.dom y).r.min + (st.dom z).r.min ≤ (st.dom t).r.min := by
        intro e
        subst e
        obtain ⟨r, r1, r2, r3, _⟩ := hb1 _ (List.Mem.tail _ (List.Mem.tail _ (List.Mem.tail _ (List.Mem.head _)))) rfl (by simp [Rg.marks, Tm.marks, Tm.add, Tm.sub, Tm.mul, Tm.divUp, Tm.divDn])
        simp only [Rg.satR, Tm.ev, Bop.ev, Tm.add, Tm.sub, Tm.mul, Tm.divUp, Tm.divDn, id, toValue_id (n := a) (by omega), toValue_id (n := b) (by omega)] at r3
        have q0 : 0 ≤ r.lo 0 ∧ r.lo 0 ≤ (st.dom x).r.min ∧ _ := r1 0
        have q1 : r.lo 1 = (st.dom y).r.min ∧ r.hi 1 = (st.dom y).r.min ∧ _ := r2 1 (by simp [Prim.arg, Prim.vars]) (fun h => hxy h.symm)
        have q2 : r.lo 2 = (st.dom z).r.min ∧ r.hi 2 = (st.dom z).r.min ∧ _ := r2 2 (by simp [Prim.arg, Prim.vars]) (fun h => hxz h.symm)
        have q3 : r.lo 3 = (st.dom t).r.min ∧ r.hi 3 = (st.dom t).r.min ∧ _ := r2 3 (by simp [Prim.arg, Prim.vars]) (fun h => hxt h.symm)
        rw [q1.1, q1.2.1] at r3
        have m0 := Int.mul_nonneg (Int.le_of_lt ha) q0.1
        omega
      rcases hy1 with e | e | e | e
      · exact absurd e hS1
      · subst y1
        by_cases hyz : y = z
        · exact Z hyz.symm
        · by_cases hyt : y = t
          · exact T hyt.symm
          · obtain ⟨r, r1, r2, r3, _⟩ := hb1 _ (List.Mem.tail _ (List.Mem.head _)) rfl (by simp [Rg.marks, Tm.marks, Tm.add, Tm.sub, Tm.mul, Tm.divUp, Tm.divDn])
            simp only [Rg.satR, Tm.ev, Bop.ev, Tm.add, Tm.sub, Tm.mul, Tm.divUp, Tm.divDn, id, toValue_id (n := a) (by omega), toValue_id (n := b) (by omega)] at r3
            have q0 : 0 ≤ r.lo 0 ∧ r.lo 0 ≤ (st.dom x).r.min ∧ _ := r1 0
            have q1 : r.lo 1 = (st.dom y).r.min ∧ r.hi 1 = (st.dom y).r.min ∧ _ := r2 1 (by simp [Prim.arg, Prim.vars]) (fun h => hxy h.symm)
            have q2 : r.lo 2 = (st.dom z).r.min ∧ r.hi 2 = (st.dom z).r.min ∧ _ := r2 2 (by simp [Prim.arg, Prim.vars]) (fun h => hxz h.symm)
            have q3 : r.lo 3 = (st.dom t).r.min ∧ r.hi 3 = (st.dom t).r.min ∧ _ := r2 3 (by simp [Prim.arg, Prim.vars]) (fun h => hxt h.symm)
            have m0 := Int.mul_nonneg (Int.le_of_lt ha) q0.1
            rcases divDn_le hb r3.2 p0 with h | h
            · omega
            · have hk' := keyS hxz hxt hyz hyt
              rw [h.2]; simp; omega
      · exact Z e.symm
      · exact T e.symm
    have keyy : y ≠ x → y ≠ z → y ≠ t → a * (st.dom x).r.min + (st.dom z).r.min ≤ (st.dom t).r.min := by
      intro hxy hxz hxt
      obtain ⟨y1, hy1, hS1, hb1⟩ := hsat (fun v => v = y) ⟨x, by simp [Prim.vars], fun h => hxy h.symm⟩
      simp only [Prim.vars, List.mem_cons, List.not_mem_nil, or_false] at hy1
      have p0 := h0 x
      have Z : z = y1 → a * (st.dom x).r.min + (st.dom z).r.min ≤ (st.dom t).r.min := by
        intro e
        subst e
        obtain ⟨r, r1, r2, r3, _⟩ := hb1 _ (List.Mem.tail _ (List.Mem.tail _ (List.Mem.head _))) rfl (by simp [Rg.marks, Tm.marks, Tm.add, Tm.sub, Tm.mul, Tm.divUp, Tm.divDn])
        simp only [Rg.satR, Tm.ev, Bop.ev, Tm.add, Tm.sub, Tm.mul, Tm.divUp, Tm.divDn, id, toValue_id (n := a) (by omega), toValue_id (n := b) (by omega)] at r3
        have q1 : 0 ≤ r.lo 1 ∧ r.lo 1 ≤ (st.dom y).r.min ∧ _ := r1 1
        have q0 : r.lo 0 = (st.dom x).r.min ∧ r.hi 0 = (st.dom x).r.min ∧ _ := r2 0 (by simp [Prim.arg, Prim.vars]) (fun h => hxy h.symm)
        have q2 : r.lo 2 = (st.dom z).r.min ∧ r.hi 2 = (st.dom z).r.min ∧ _ := r2 2 (by simp [Prim.arg, Prim.vars]) (fun h => hxz h.symm)
        have q3 : r.lo 3 = (st.dom t).r.min ∧ r.hi 3 = (st.dom t).r.min ∧ _ := r2 3 (by simp [Prim.arg, Prim.vars]) (fun h => hxt h.symm)
        rw [q0.1, q0.2.1] at r3
        have m0 := Int.mul_nonneg (Int.le_of_lt hb) q1.1
        omega
      have T : t = y1 → a * (st.dom x).r.min + (st.dom z).r.min ≤ (st.dom t).r.min := by
        intro e
        subst e
        obtain ⟨r, r1, r2, r3, _⟩ := hb1 _ (List.Mem.tail _ (List.Mem.tail _ (List.Mem.tail _ (List.Mem.head _)))) rfl (by simp [Rg.marks, Tm.marks, Tm.add, Tm.sub, Tm.mul, Tm.divUp, Tm.divDn])
        simp only [Rg.satR, Tm.ev, Bop.ev, Tm.add, Tm.sub, Tm.mul, Tm.divUp, Tm.divDn, id, toValue_id (n := a) (by omega), toValue_id (n := b) (by omega)] at r3
        have q1 : 0 ≤ r.lo 1 ∧ r.lo 1 ≤ (st.dom y).r.min ∧ _ := r1 1
        have q0 : r.lo 0 = (st.dom x).r.min ∧ r.hi 0 = (st.dom x).r.min ∧ _ := r2 0 (by simp [Prim.arg, Prim.vars]) (fun h => hxy h.symm)
        have q2 : r.lo 2 = (st.dom z).r.min ∧ r.hi 2 = (st.dom z).r.min ∧ _ := r2 2 (by simp [Prim.arg, Prim.vars]) (fun h => hxz h.symm)
        have q3 : r.lo 3 = (st.dom t).r.min ∧ r.hi 3 = (st.dom t).r.min ∧ _ := r2 3 (by simp [Prim.arg, Prim.vars]) (fun h => hxt h.symm)
        rw [q0.1, q0.2.1] at r3
        have m0 := Int.mul_nonneg (Int.le_of_lt hb) q1.1
        omega
      rcases hy1 with e | e | e | e
      · subst y1
        by_cases hyz : x = z
        · exact Z hyz.symm
        · by_cases hyt : x = t
          · exact T hyt.symm
          · obtain ⟨r, r1, r2, r3, _⟩ := hb1 _ (List.Mem.head _) rfl (by simp [Rg.marks, Tm.marks, Tm.add, Tm.sub, Tm.mul, Tm.divUp, Tm.divDn])
            simp only [Rg.satR, Tm.ev, Bop.ev, Tm.add, Tm.sub, Tm.mul, Tm.divUp, Tm.divDn, id, toValue_id (n := a) (by omega), toValue_id (n := b) (by omega)] at r3
            have q1 : 0 ≤ r.lo 1 ∧ r.lo 1 ≤ (st.dom y).r.min ∧ _ := r1 1
            have q0 : r.lo 0 = (st.dom x).r.min ∧ r.hi 0 = (st.dom x).r.min ∧ _ := r2 0 (by simp [Prim.arg, Prim.vars]) (fun h => hxy h.symm)
            have q2 : r.lo 2 = (st.dom z).r.min ∧ r.hi 2 = (st.dom z).r.min ∧ _ := r2 2 (by simp [Prim.arg, Prim.vars]) (fun h => hxz h.symm)
            have q3 : r.lo 3 = (st.dom t).r.min ∧ r.hi 3 = (st.dom t).r.min ∧ _ := r2 3 (by simp [Prim.arg, Prim.vars]) (fun h => hxt h.symm)
            have m0 := Int.mul_nonneg (Int.le_of_lt hb) q1.1
            rcases divDn_le ha r3.2 p0 with h | h
            · omega
            · have hk' := keyS hyz hyt hxz hxt
              rw [h.2]; simp; omega
      · exact absurd e hS1
      · exact Z e.symm
      · exact T e.symm
    rcases hy0 with rfl | rfl | rfl | rfl
    · by_cases hxz : y0 = z
      · subst hxz; have := (hall.2.2.1 rfl).1; omega
      · by_cases hxt : y0 = t
        · subst hxt; have := (hall.2.2.2 rfl).1; omega
        · have h := (hall.1 rfl).1
          have hN : 0 ≤ (st.dom t).r.min - b * (st.dom y).r.min - (st.dom z).r.min := by
            by_cases hxy : y0 = y
            · subst hxy
              rcases divDn_le ha h.2 (h0 y0) with h1 | h1
              · have := Int.mul_nonneg (Int.le_of_lt ha) (h0 y0); omega
              · have := keyS hxz hxt hxz hxt
                rw [h1.2]; simp; omega
            · have := keyx hxy hxz hxt; omega
          rw [divUp_le ha hN, le_divDn ha hN] at h
          omega
    · by_cases hxz : y0 = z
      · subst hxz; have := (hall.2.2.1 rfl).1; omega
      · by_cases hxt : y0 = t
        · subst hxt; have := (hall.2.2.2 rfl).1; omega
        · have h := (hall.2.1 rfl).1
          have hN : 0 ≤ (st.dom t).r.min - a * (st.dom x).r.min - (st.dom z).r.min := by
            by_cases hxy : y0 = x
            · subst hxy
              rcases divDn_le hb h.2 (h0 y0) with h1 | h1
              · have := Int.mul_nonneg (Int.le_of_lt hb) (h0 y0); omega
              · have := keyS hxz hxt hxz hxt
                rw [h1.2]; simp; omega
            · have := keyy hxy hxz hxt; omega
          rw [divUp_le hb hN, le_divDn hb hN] at h
          omega
    · have := (hall.2.2.1 rfl).1; omega
    · have := (hall.2.2.2 rfl).1; omega
  | xyEqZ x y z =>
    obtain ⟨hx, hy⟩ := hz x y z rfl
    simp only [Prim.blks, List.mem_cons, List.not_mem_nil, or_false, forall_eq_or_imp, forall_eq, Prim.arg, Prim.vars, List.getD_cons_zero,
      List.getD_cons_succ, Rg.satR, Tm.ev, Bop.ev, Tm.add, Tm.sub, Tm.mul, Tm.divUp, Tm.divDn, id, imax] at hall hy0
    simp only [Prim.holds]
    have px := h0 x
    have py := h0 y
    rcases hy0 with rfl | rfl | rfl
    · have h := (hall.1 rfl).1
      rw [if_neg hy, if_neg hy, divUp_le (by omega) (h0 z), le_divDn (by omega) (h0 z)] at h
      rw [Int.mul_comm]
      omega
    · have h := (hall.2.1 rfl).1
      rw [if_neg hx, if_neg hx, divUp_le (by omega) (h0 z), le_divDn (by omega) (h0 z)] at h
      omega
    · have := (hall.2.2 rfl).1; omega

end Gp.Fd
