import Verif.Dcg.Lemmas2

namespace Gp.Dcg

variable {ν τ γ L : Type}

/-- Values for which the goals of a part hold give a derivation. -/
def Sound (I : Interp ν τ γ L) (b : Body ν τ γ) : Prop :=
  ∀ (opt : Bool) (i o : Nat) (st : St), i < st.next → o < st.next → ∀ ρ : Nat → L,
    Sat I ρ (onStack b opt i o st).eqs → HoldsAll I (onStack b opt i o st).goals ρ →
    Der I b (ρ i) (ρ o)

/-- A derivation gives values to the variables of the part. -/
def Complete (I : Interp ν τ γ L) (b : Body ν τ γ) : Prop :=
  ∀ (opt : Bool) (i o : Nat) (st : St), i < st.next → o < st.next → ∀ ρ : Nat → L,
    Der I b (ρ i) (ρ o) →
    ∃ ρ', Agree st.next (onStack b opt i o st).st.next ρ ρ' ∧
      Sat I ρ' (onStack b opt i o st).eqs ∧ HoldsAll I (onStack b opt i o st).goals ρ'

theorem inIsOut_iff (I : Interp ν τ γ L) (gs : List (Goal ν τ γ)) (opt : Bool) (i o : Nat) (st : St)
    (ρ : Nat → L) : (Sat I ρ (inIsOut gs opt i o st).eqs ∧ HoldsAll I (inIsOut gs opt i o st).goals ρ) ↔
      (HoldsAll I gs ρ ∧ ρ i = ρ o) := by
  cases opt with
  | false =>
    show (Sat I ρ [] ∧ HoldsAll I (gs ++ [.eqn (.vv i o)]) ρ) ↔ _
    rw [HoldsAll.append, HoldsAll.one]
    exact ⟨fun h => h.2, fun h => ⟨Sat.nil I, h⟩⟩
  | true =>
    show (Sat I ρ [.vv i o] ∧ HoldsAll I gs ρ) ↔ _
    rw [Sat.one]
    exact ⟨fun h => ⟨h.2, h.1⟩, fun h => ⟨h.2, h.1⟩⟩

theorem termList_iff (I : Interp ν τ γ L) (ts : List τ) (i o : Nat) (st : St)
    (ρ : Nat → L) : (Sat I ρ (termList (ν := ν) (γ := γ) ts i o st).eqs ∧
      HoldsAll I (termList (ν := ν) (γ := γ) ts i o st).goals ρ) ↔ ρ i = I.cons ts (ρ o) := by
  unfold termList
  split
  · simp only [Sat.one]
    exact ⟨fun h => h.1, fun h => ⟨h, by simp [HoldsAll]⟩⟩
  · simp only [HoldsAll.one]
    exact ⟨fun h => h.2, fun h => ⟨Sat.nil I, h⟩⟩

/-- One alternative. -/
theorem bodyAlt_iff (I : Interp ν τ γ L) (r : Res ν τ γ) (i w o : Nat) (flag : Bool) (ρ : Nat → L) :
    (Sat I ρ (bodyAlt r i w o flag).2.1 → Holds I (bodyAlt r i w o flag).1 ρ →
      Sat I ρ r.eqs ∧ HoldsAll I r.goals ρ ∧ ρ w = ρ o) ∧
    (Sat I ρ r.eqs → HoldsAll I r.goals ρ → ρ w = ρ o →
      Sat I ρ (bodyAlt r i w o flag).2.1 ∧ Holds I (bodyAlt r i w o flag).1 ρ) := by
  unfold bodyAlt
  split
  · simp only [holds_seq]
    refine ⟨fun h1 h2 => ⟨h1, fun g hg => h2 g (by simp [hg]), h2 _ List.mem_cons_self⟩,
      fun h1 h2 h3 => ⟨h1, fun g hg => ?_⟩⟩
    rcases List.mem_cons.1 hg with rfl | hg
    · exact h3
    · exact h2 g hg
  · simp only [holds_seq, Sat.append, Sat.one]
    exact ⟨fun h1 h2 => ⟨h1.1, h2, h1.2⟩, fun h1 h2 h3 => ⟨⟨h1, h3⟩, h2⟩⟩

theorem bodyAlt_complete {I : Interp ν τ γ L} {a : Body ν τ γ} (hc : Complete I a) (i w o : Nat)
    (rep : Nat → Nat) (hi : i < w) (ho : o < w) (ρ : Nat → L) (hd : Der I a (ρ i) (ρ o)) :
    ∃ ρ', Agree w (bodyAlt (onStack a false i w ⟨w + 1, rep, false⟩) i w o false).2.2.next ρ ρ' ∧
      Sat I ρ' (bodyAlt (onStack a false i w ⟨w + 1, rep, false⟩) i w o false).2.1 ∧
      Holds I (bodyAlt (onStack a false i w ⟨w + 1, rep, false⟩) i w o false).1 ρ' := by
  have hle := (onStack_bounds a false i w ⟨w + 1, rep, false⟩ (by simp; omega) (by simp)).le
  obtain ⟨ρ', h1, h2, h3⟩ := hc false i w ⟨w + 1, rep, false⟩ (by simp; omega) (by simp)
    (upd ρ w (ρ o)) (by rw [upd_same, upd_ne _ _ (by omega)]; exact hd)
  generalize onStack a false i w ⟨w + 1, rep, false⟩ = r at *
  simp only at hle h1
  have hn : (bodyAlt r i w o false).2.2.next = r.st.next := by
    unfold bodyAlt; split <;> rfl
  refine ⟨ρ', fun v hv => ?_, (bodyAlt_iff I r i w o false ρ').2 h2 h3 ?_⟩
  · rw [hn] at hv
    rw [h1 v (by omega), upd_ne _ _ (by omega)]
  · rw [h1 w (by omega), h1 o (by omega), upd_same, upd_ne _ _ (by omega)]

theorem meaning (I : Interp ν τ γ L) (b : Body ν τ γ) : Sound I b ∧ Complete I b := by
  induction b with
  | var x =>
    exact ⟨fun opt i o st _ _ ρ _ h => (HoldsAll.one I).1 h,
      fun opt i o st _ _ ρ h => ⟨ρ, Agree.refl _ _ _, Sat.nil I, (HoldsAll.one I).2 h⟩⟩
  | nt n =>
    exact ⟨fun opt i o st _ _ ρ _ h => (HoldsAll.one I).1 h,
      fun opt i o st _ _ ρ h => ⟨ρ, Agree.refl _ _ _, Sat.nil I, (HoldsAll.one I).2 h⟩⟩
  | nil =>
    exact ⟨fun opt i o st _ _ ρ h1 h2 => ((inIsOut_iff I [] _ i o st ρ).1 ⟨h1, h2⟩).2,
      fun opt i o st _ _ ρ h => ⟨ρ, Agree.refl _ _ _,
        (inIsOut_iff I [] _ i o st ρ).2 ⟨by simp [HoldsAll], h⟩⟩⟩
  | terms t ts =>
    exact ⟨fun opt i o st _ _ ρ h1 h2 => (termList_iff I (t :: ts) i o st ρ).1 ⟨h1, h2⟩,
      fun opt i o st _ _ ρ h => ⟨ρ, Agree.refl _ _ _, (termList_iff I (t :: ts) i o st ρ).2 h⟩⟩
  | cut =>
    exact ⟨fun opt i o st _ _ ρ h1 h2 =>
        ((inIsOut_iff I [.cut] opt i o { st with flag := Bool.false } ρ).1 ⟨h1, h2⟩).2,
      fun opt i o st _ _ ρ h => ⟨ρ, Agree.refl _ _ _,
        (inIsOut_iff I [.cut] opt i o { st with flag := Bool.false } ρ).2
          ⟨(HoldsAll.one I).2 trivial, h⟩⟩⟩
  | curly g =>
    refine ⟨fun opt i o st _ _ ρ h1 h2 => ?_,
      fun opt i o st _ _ ρ h => ⟨ρ, Agree.refl _ _ _,
        (inIsOut_iff I [.ext g] opt i o { st with flag := Bool.false } ρ).2
          ⟨(HoldsAll.one I).2 h.1, h.2⟩⟩⟩
    have := (inIsOut_iff I [.ext g] opt i o { st with flag := Bool.false } ρ).1 ⟨h1, h2⟩
    exact ⟨(HoldsAll.one I).1 this.1, this.2⟩
  | conj a b iha ihb =>
    constructor
    · intro opt i o st hi ho ρ h1 h2
      have hla := (onStack_bounds a Bool.true i st.next { st with next := st.next + 1 }
        (by simp only; omega) (by simp)).le
      simp only at hla
      unfold onStack at h1 h2
      simp only [Sat.append, HoldsAll.append] at h1 h2
      exact ⟨ρ st.next, iha.1 _ _ _ _ (by simp only; omega) (by simp) ρ h1.1 h2.1,
        ihb.1 _ _ _ _ (by omega) (by omega) ρ h1.2 h2.2⟩
    · rintro opt i o st hi ho ρ ⟨c, hd1, hd2⟩
      have hba := onStack_bounds a Bool.true i st.next { st with next := st.next + 1 }
        (by simp only; omega) (by simp)
      have hla := hba.le
      simp only at hla
      have hbb := onStack_bounds b opt st.next o
        (onStack a Bool.true i st.next { st with next := st.next + 1 }).st (by omega) (by omega)
      have hlb := hbb.le
      obtain ⟨ρ1, h11, h12, h13⟩ := iha.2 Bool.true i st.next { st with next := st.next + 1 }
        (by simp only; omega) (by simp) (upd ρ st.next c)
        (by rw [upd_same, upd_ne _ _ (by omega)]; exact hd1)
      simp only at h11
      obtain ⟨ρ2, h21, h22, h23⟩ := ihb.2 opt st.next o
        (onStack a Bool.true i st.next { st with next := st.next + 1 }).st (by omega) (by omega) ρ1
        (by rw [h11 _ (by omega), h11 _ (by omega), upd_same, upd_ne _ _ (by omega)]; exact hd2)
      unfold onStack
      simp only [Sat.append, HoldsAll.append]
      have hag : ∀ v, Zone (st.next + 1)
          (onStack a Bool.true i st.next { st with next := st.next + 1 }).st.next i st.next v →
          ρ1 v = ρ2 v := by
        intro v hv
        unfold Zone at hv
        exact (h21 v (by omega)).symm
      refine ⟨ρ2, fun v hv => ?_, ⟨(Sat.congr I hag hba.eqs).1 h12, h22⟩,
        (HoldsAll.congr I hag hba.goals).1 h13, h23⟩
      rw [h21 v (by omega), h11 v (by omega), upd_ne _ _ (by omega)]
  | ifThen s a b iha ihb =>
    constructor
    · intro opt i o st hi ho ρ h1 h2
      have hla := (onStack_bounds a Bool.false i st.next ⟨st.next + 1, st.rep, Bool.false⟩
        (by simp only; omega) (by simp)).le
      simp only at hla
      unfold onStack bodyPlain at h1 h2
      simp only [Sat.append, HoldsAll.one, Holds, holds_seq] at h1 h2
      exact ⟨ρ st.next, iha.1 _ _ _ _ (by simp only; omega) (by simp) ρ h1.1 h2.1,
        ihb.1 _ _ _ _ (by simp only; omega) (by simp only; omega) ρ h1.2 h2.2⟩
    · rintro opt i o st hi ho ρ ⟨c, hd1, hd2⟩
      have hba := onStack_bounds a Bool.false i st.next ⟨st.next + 1, st.rep, Bool.false⟩
        (by simp only; omega) (by simp)
      have hla := hba.le
      simp only at hla
      have hbb := onStack_bounds b Bool.false st.next o
        { (onStack a Bool.false i st.next ⟨st.next + 1, st.rep, Bool.false⟩).st with flag := Bool.false }
        (by simp only; omega) (by simp only; omega)
      have hlb := hbb.le
      simp only at hlb
      obtain ⟨ρ1, h11, h12, h13⟩ := iha.2 Bool.false i st.next ⟨st.next + 1, st.rep, Bool.false⟩
        (by simp only; omega) (by simp) (upd ρ st.next c)
        (by rw [upd_same, upd_ne _ _ (by omega)]; exact hd1)
      simp only at h11
      obtain ⟨ρ2, h21, h22, h23⟩ := ihb.2 Bool.false st.next o
        { (onStack a Bool.false i st.next ⟨st.next + 1, st.rep, Bool.false⟩).st with flag := Bool.false }
        (by simp only; omega) (by simp only; omega) ρ1
        (by rw [h11 _ (by omega), h11 _ (by omega), upd_same, upd_ne _ _ (by omega)]; exact hd2)
      simp only at h21
      unfold onStack bodyPlain
      simp only [Sat.append, HoldsAll.one, Holds, holds_seq]
      have hag : ∀ v, Zone (st.next + 1)
          (onStack a Bool.false i st.next ⟨st.next + 1, st.rep, Bool.false⟩).st.next i st.next v →
          ρ1 v = ρ2 v := by
        intro v hv
        unfold Zone at hv
        exact (h21 v (by omega)).symm
      refine ⟨ρ2, fun v hv => ?_, ⟨(Sat.congr I hag hba.eqs).1 h12, h22⟩,
        (HoldsAll.congr I hag hba.goals).1 h13, h23⟩
      rw [h21 v (by omega), h11 v (by omega), upd_ne _ _ (by omega)]
  | neg a ih =>
    have key : ∀ (i : Nat) (st : St) (ρ : Nat → L), i < st.next →
        (Holds I (.neg st.next (onStack a Bool.false i st.next ⟨st.next + 1, st.rep, Bool.false⟩).st.next
          (onStack a Bool.false i st.next ⟨st.next + 1, st.rep, Bool.false⟩).eqs
          (seqGoals (onStack a Bool.false i st.next ⟨st.next + 1, st.rep, Bool.false⟩).goals)) ρ ↔
          ¬∃ c, Der I a (ρ i) c) := by
      intro i st ρ hi
      simp only [Holds, holds_seq]
      apply not_congr
      constructor
      · rintro ⟨ρ', h1, h2, h3⟩
        refine ⟨ρ' st.next, ?_⟩
        rw [← h1 i (.inl hi)]
        exact ih.1 _ _ _ _ (by simp only; omega) (by simp) ρ' h2 h3
      · rintro ⟨c, hd⟩
        have hle := (onStack_bounds a Bool.false i st.next ⟨st.next + 1, st.rep, Bool.false⟩
          (by simp only; omega) (by simp)).le
        obtain ⟨ρ', h1, h2, h3⟩ := ih.2 Bool.false i st.next ⟨st.next + 1, st.rep, Bool.false⟩
          (by simp only; omega) (by simp) (upd ρ st.next c)
          (by rw [upd_same, upd_ne _ _ (by omega)]; exact hd)
        simp only at h1 hle
        refine ⟨ρ', fun v hv => ?_, h2, h3⟩
        rw [h1 v (by omega), upd_ne _ _ (by omega)]
    constructor
    · intro opt i o st hi ho ρ h1 h2
      unfold onStack bodyPlain at h1 h2
      simp only [Sat.append] at h1 h2
      have := (inIsOut_iff I _ opt i o _ ρ).1 ⟨h1.2, h2⟩
      rw [HoldsAll.one] at this
      exact ⟨(key i st ρ hi).1 this.1, this.2⟩
    · rintro opt i o st hi ho ρ ⟨hd1, hd2⟩
      have hba := onStack_bounds a Bool.false i st.next ⟨st.next + 1, st.rep, Bool.false⟩
        (by simp only; omega) (by simp)
      have hle := hba.le
      obtain ⟨ρ', h1, h2⟩ := (solv I a).1 Bool.false i st.next ⟨st.next + 1, st.rep, Bool.false⟩
        (by simp only; omega) (by simp) rfl (upd ρ st.next (ρ i))
        (fun _ => by rw [upd_same, upd_ne _ _ (by omega)])
      simp only at h1 hle
      have e1 : ρ' i = ρ i := by rw [h1 i (by omega), upd_ne _ _ (by omega)]
      have e2 : ρ' o = ρ o := by rw [h1 o (by omega), upd_ne _ _ (by omega)]
      unfold onStack bodyPlain
      simp only [Sat.append]
      refine ⟨ρ', fun v hv => ?_, ?_⟩
      · have hv' : v < st.next ∨
            (onStack a Bool.false i st.next ⟨st.next + 1, st.rep, Bool.false⟩).st.next ≤ v := by
          cases opt <;> exact hv
        rw [h1 v (by omega), upd_ne _ _ (by omega)]
      · rw [and_assoc]
        refine ⟨h2, (inIsOut_iff I _ opt i o _ ρ').2 ⟨(HoldsAll.one I).2 ((key i st ρ' hi).2 ?_), ?_⟩⟩
        · rw [e1]; exact hd1
        · rw [e1, e2]; exact hd2
  | alt a b iha ihb =>
    constructor
    · intro opt i o st hi ho ρ h1 h2
      have hba := bodyAlt_bounds (o := o) (flag := Bool.false) (w := st.next)
        (st := ⟨st.next + 1, st.rep, Bool.false⟩) rfl hi
        (onStack_bounds a Bool.false i st.next ⟨st.next + 1, st.rep, Bool.false⟩ (by simp; omega) (by simp))
      have hla := hba.le
      simp only at hla
      unfold onStack at h1 h2
      simp only [Sat.append, HoldsAll.one, Holds] at h1 h2
      rcases h2 with h2 | h2
      · obtain ⟨x1, x2, x3⟩ := (bodyAlt_iff I _ _ _ _ _ ρ).1 h1.1 h2
        refine Or.inl ?_
        have := iha.1 _ _ _ _ (by simp only; omega) (by simp) ρ x1 x2
        rwa [x3] at this
      · obtain ⟨x1, x2, x3⟩ := (bodyAlt_iff I _ _ _ _ _ ρ).1 h1.2 h2
        refine Or.inr ?_
        have := ihb.1 _ _ _ _ (Nat.lt_succ_of_lt (Nat.lt_of_lt_of_le hi hla)) (Nat.lt_succ_self _) ρ x1 x2
        rwa [x3] at this
    · intro opt i o st hi ho ρ hd
      have hba := bodyAlt_bounds (o := o) (flag := Bool.false) (w := st.next)
        (st := ⟨st.next + 1, st.rep, Bool.false⟩) rfl hi
        (onStack_bounds a Bool.false i st.next ⟨st.next + 1, st.rep, Bool.false⟩ (by simp; omega) (by simp))
      have hSa := bodyAlt_solv (solv I a).1 i st.next o st.rep hi ho
      have hCa := bodyAlt_complete iha.2 i st.next o st.rep hi ho
      have hfl : (bodyAlt (onStack a Bool.false i st.next ⟨st.next + 1, st.rep, Bool.false⟩)
        i st.next o Bool.false).2.2.flag = Bool.false := by
        unfold bodyAlt; split <;> rfl
      unfold onStack
      simp only [Sat.append, HoldsAll.one, Holds]
      generalize bodyAlt (onStack a Bool.false i st.next ⟨st.next + 1, st.rep, Bool.false⟩)
        i st.next o Bool.false = A at *
      obtain ⟨gA, eA, nA, rA, fA⟩ := A
      have hla := hba.le
      simp only at *
      subst hfl
      have hbb := bodyAlt_bounds (o := o) (flag := Bool.false) (w := nA)
        (st := ⟨nA + 1, rA, Bool.false⟩) rfl (by omega)
        (onStack_bounds b Bool.false i nA ⟨nA + 1, rA, Bool.false⟩ (by simp; omega) (by simp))
      have hSb := bodyAlt_solv (solv I b).1 i nA o rA (by omega) (by omega)
      have hCb := bodyAlt_complete ihb.2 i nA o rA (by omega) (by omega)
      generalize bodyAlt (onStack b Bool.false i nA ⟨nA + 1, rA, Bool.false⟩)
        i nA o Bool.false = B at *
      obtain ⟨gB, eB, nB, rB, fB⟩ := B
      have hlb := hbb.le
      simp only at *
      rcases hd with hd | hd
      · obtain ⟨ρ1, h11, h12, h13⟩ := hCa ρ hd
        obtain ⟨ρ2, h21, h22⟩ := hSb ρ1
        have hag : ∀ v, Zone st.next nA i o v → ρ1 v = ρ2 v := by
          intro v hv
          unfold Zone at hv
          exact (h21 v (by omega)).symm
        refine ⟨ρ2, fun v hv => ?_, ⟨(Sat.congr I hag hba.eqs).1 h12, h22⟩,
          .inl ((Holds.congr I hag (hba.goals _ List.mem_cons_self)).1 h13)⟩
        rw [h21 v (by omega), h11 v (by omega)]
      · obtain ⟨ρ1, h11, h12⟩ := hSa ρ
        obtain ⟨ρ2, h21, h22, h23⟩ := hCb ρ1
          (by rw [h11 i (by omega), h11 o (by omega)]; exact hd)
        have hag : ∀ v, Zone st.next nA i o v → ρ1 v = ρ2 v := by
          intro v hv
          unfold Zone at hv
          exact (h21 v (by omega)).symm
        refine ⟨ρ2, fun v hv => ?_, ⟨(Sat.congr I hag hba.eqs).1 h12, h22⟩, .inr h23⟩
        rw [h21 v (by omega), h11 v (by omega)]

end Gp.Dcg
