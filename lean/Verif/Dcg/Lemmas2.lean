import Verif.Dcg.Lemmas

namespace Gp.Dcg

variable {ν τ γ L : Type}

theorem Agree.refl (n n' : Nat) (ρ : Nat → L) : Agree n n' ρ ρ := fun _ _ => rfl

/-- Parts which only unify their two streams at translation. -/
def isId : Body ν τ γ → Bool → Bool
  | .nil, _ => true
  | .conj a b, opt => isId a true && isId b opt
  | .ifThen _ a b, _ => isId a false && isId b false
  | .neg _, opt | .cut, opt | .curly _, opt => opt
  | .var _, _ | .terms _ _, _ | .alt _ _, _ | .nt _, _ => false

theorem isId_rep (b : Body ν τ γ) : ∀ (opt : Bool) (i o : Nat) (st : St), i < st.next → o < st.next →
    isId b opt = true → (onStack b opt i o st).st.rep i = (onStack b opt i o st).st.rep o := by
  induction b with
  | var | terms | alt | nt => intro opt i o st _ _ h; cases h
  | nil => intro opt i o st _ _ _; exact merge_rep st i o
  | cut =>
    intro opt i o st _ _ h
    cases opt with
    | false => cases h
    | true => exact merge_rep _ i o
  | curly g =>
    intro opt i o st _ _ h
    cases opt with
    | false => cases h
    | true => exact merge_rep _ i o
  | neg a ih =>
    intro opt i o st _ _ h
    cases opt with
    | false => cases h
    | true => exact merge_rep _ i o
  | conj a b iha ihb =>
    intro opt i o st hi ho h
    simp only [isId, Bool.and_eq_true] at h
    have ha := onStack_bounds a Bool.true i st.next { st with next := st.next + 1 }
      (by simp; omega) (by simp)
    have hla := ha.le
    simp at hla
    have hb := onStack_bounds b opt st.next o
      (onStack a Bool.true i st.next { st with next := st.next + 1 }).st (by omega) (by omega)
    have h1 := iha Bool.true i st.next { st with next := st.next + 1 } (by simp; omega) (by simp) h.1
    have h2 := ihb opt st.next o (onStack a Bool.true i st.next { st with next := st.next + 1 }).st
      (by omega) (by omega) h.2
    unfold onStack
    exact (hb.rep _ _ h1).trans h2
  | ifThen s a b iha ihb =>
    intro opt i o st hi ho h
    simp only [isId, Bool.and_eq_true] at h
    have ha := onStack_bounds a Bool.false i st.next ⟨st.next + 1, st.rep, Bool.false⟩
      (by simp; omega) (by simp)
    have hla := ha.le
    simp at hla
    have hb := onStack_bounds b Bool.false st.next o
      { (onStack a Bool.false i st.next ⟨st.next + 1, st.rep, Bool.false⟩).st with flag := Bool.false }
      (by simp; omega) (by simp; omega)
    have h1 := iha Bool.false i st.next ⟨st.next + 1, st.rep, Bool.false⟩ (by simp; omega) (by simp) h.1
    have h2 := ihb Bool.false st.next o
      { (onStack a Bool.false i st.next ⟨st.next + 1, st.rep, Bool.false⟩).st with flag := Bool.false }
      (by simp; omega) (by simp; omega) h.2
    unfold onStack bodyPlain
    exact (hb.rep _ _ h1).trans h2

theorem isId_flag (b : Body ν τ γ) : ∀ (opt : Bool) (i o : Nat) (st : St), isId b opt = true →
    st.flag = false → (onStack b opt i o st).st.flag = false := by
  have hin : ∀ (gs : List (Goal ν τ γ)) (opt : Bool) (i o : Nat) (st : St), st.flag = false →
      (inIsOut gs opt i o st).st.flag = false := by
    intro gs opt i o st h; cases opt <;> exact h
  induction b with
  | var | terms | alt | nt => intro opt i o st h; cases h
  | nil => intro opt i o st _ hf; exact hin _ _ _ _ _ hf
  | cut => intro opt i o st _ _; exact hin _ _ _ _ _ rfl
  | curly g => intro opt i o st _ _; exact hin _ _ _ _ _ rfl
  | neg a ih => intro opt i o st _ _; exact hin _ _ _ _ _ rfl
  | conj a b iha ihb =>
    intro opt i o st h hf
    simp only [isId, Bool.and_eq_true] at h
    exact ihb _ _ _ _ h.2 (iha _ _ _ _ h.1 hf)
  | ifThen s a b iha ihb => intro opt i o st _ _; rfl

/-! ### The unifications of the translation can be satisfied -/

/-- With `opt_term_unif` false: for any values of the two streams, equal if the part
is an identity. -/
def SolvF (I : Interp ν τ γ L) (b : Body ν τ γ) : Prop :=
  ∀ (opt : Bool) (i o : Nat) (st : St), i < st.next → o < st.next → st.flag = false →
    ∀ ρ : Nat → L, (isId b opt = true → ρ i = ρ o) →
      ∃ ρ', Agree st.next (onStack b opt i o st).st.next ρ ρ' ∧
        Sat I ρ' (onStack b opt i o st).eqs

/-- In any case: for any value of the stream after. -/
def SolvW (I : Interp ν τ γ L) (b : Body ν τ γ) : Prop :=
  ∀ (opt : Bool) (i o : Nat) (st : St), i < st.next → o < st.next → i ≠ o →
    ∀ ρ : Nat → L, ∃ x ρ', Agree st.next (onStack b opt i o st).st.next (upd ρ i x) ρ' ∧
        Sat I ρ' (onStack b opt i o st).eqs

theorem solvW_of_F {I : Interp ν τ γ L} {b : Body ν τ γ} {opt : Bool} {i o : Nat} {st : St}
    (hi : i < st.next) (ho : o < st.next) (hne : i ≠ o) (hf : SolvF I b) (ρ : Nat → L)
    (hst : st.flag = false) :
    ∃ x ρ', Agree st.next (onStack b opt i o st).st.next (upd ρ i x) ρ' ∧
        Sat I ρ' (onStack b opt i o st).eqs :=
  ⟨ρ o, hf opt i o st hi ho hst (upd ρ i (ρ o))
    (fun _ => by rw [upd_same, upd_ne _ _ (Ne.symm hne)])⟩

theorem bodyAlt_solv {I : Interp ν τ γ L} {a : Body ν τ γ} (ha : SolvF I a) (i w o : Nat)
    (rep : Nat → Nat) (hi : i < w) (ho : o < w) (ρ : Nat → L) :
    ∃ ρ', Agree w (bodyAlt (onStack a false i w ⟨w + 1, rep, false⟩) i w o false).2.2.next ρ ρ' ∧
      Sat I ρ' (bodyAlt (onStack a false i w ⟨w + 1, rep, false⟩) i w o false).2.1 := by
  have hid := isId_rep a false i w ⟨w + 1, rep, false⟩ (by simp; omega) (by simp)
  have hle := (onStack_bounds a false i w ⟨w + 1, rep, false⟩ (by simp; omega) (by simp)).le
  have hF := ha false i w ⟨w + 1, rep, false⟩ (by simp; omega) (by simp) rfl
  generalize onStack a false i w ⟨w + 1, rep, false⟩ = r at *
  simp only at hle hF
  unfold bodyAlt
  split
  · obtain ⟨ρ', h1, h2⟩ := hF (upd ρ w (ρ i)) (fun _ => by rw [upd_same, upd_ne _ _ (by omega)])
    refine ⟨ρ', fun v hv => ?_, h2⟩
    simp only at hv
    rw [h1 v (by omega), upd_ne _ _ (by omega)]
  · next hr =>
    obtain ⟨ρ', h1, h2⟩ := hF (upd ρ w (ρ o)) (fun h => absurd (hid h) hr)
    refine ⟨ρ', fun v hv => ?_, (Sat.append I).2 ⟨h2, (Sat.one I).2 ?_⟩⟩
    · simp only [St.merge] at hv
      rw [h1 v (by omega), upd_ne _ _ (by omega)]
    · show ρ' w = ρ' o
      rw [h1 w (by omega), h1 o (by omega), upd_same, upd_ne _ _ (by omega)]

theorem solv (I : Interp ν τ γ L) (b : Body ν τ γ) : SolvF I b ∧ SolvW I b := by
  induction b with
  | var x =>
    exact ⟨fun opt i o st _ _ _ ρ _ => ⟨ρ, Agree.refl _ _ _, Sat.nil I⟩,
      fun opt i o st _ _ _ ρ => ⟨ρ i, _, Agree.refl _ _ _, Sat.nil I⟩⟩
  | nt n =>
    exact ⟨fun opt i o st _ _ _ ρ _ => ⟨ρ, Agree.refl _ _ _, Sat.nil I⟩,
      fun opt i o st _ _ _ ρ => ⟨ρ i, _, Agree.refl _ _ _, Sat.nil I⟩⟩
  | nil =>
    refine ⟨fun opt i o st _ _ _ ρ h => ⟨ρ, Agree.refl _ _ _, (Sat.one I).2 (h rfl)⟩,
      fun opt i o st _ _ hne ρ => ⟨ρ o, _, Agree.refl _ _ _, (Sat.one I).2 ?_⟩⟩
    show upd ρ i (ρ o) i = upd ρ i (ρ o) o
    rw [upd_same, upd_ne _ _ (Ne.symm hne)]
  | terms t ts =>
    refine ⟨fun opt i o st _ _ hf ρ h => ⟨ρ, Agree.refl _ _ _, ?_⟩,
      fun opt i o st _ _ hne ρ => ⟨I.cons (t :: ts) (ρ o), _, Agree.refl _ _ _, ?_⟩⟩
    · simp only [onStack, termList, hf]; exact Sat.nil I
    · simp only [onStack, termList]
      split
      · refine (Sat.one I).2 ?_
        show upd ρ i _ i = I.cons _ (upd ρ i _ o)
        rw [upd_same, upd_ne _ _ (Ne.symm hne)]
      · exact Sat.nil I
  | cut =>
    have hF : SolvF I (.cut : Body ν τ γ) := by
      intro opt i o st _ _ _ ρ h
      refine ⟨ρ, Agree.refl _ _ _, ?_⟩
      cases opt with
      | false => exact Sat.nil I
      | true => exact (Sat.one I).2 (h rfl)
    exact ⟨hF, fun opt i o st hi ho hne ρ =>
      solvW_of_F (opt := opt) (st := { st with flag := Bool.false }) hi ho hne hF ρ rfl⟩
  | curly g =>
    have hF : SolvF I (.curly g : Body ν τ γ) := by
      intro opt i o st _ _ _ ρ h
      refine ⟨ρ, Agree.refl _ _ _, ?_⟩
      cases opt with
      | false => exact Sat.nil I
      | true => exact (Sat.one I).2 (h rfl)
    exact ⟨hF, fun opt i o st hi ho hne ρ =>
      solvW_of_F (opt := opt) (st := { st with flag := Bool.false }) hi ho hne hF ρ rfl⟩
  | neg a ih =>
    have hF : SolvF I (.neg a : Body ν τ γ) := by
      intro opt i o st hi ho hf ρ h
      have hle := (onStack_bounds a Bool.false i st.next ⟨st.next + 1, st.rep, Bool.false⟩
        (by simp; omega) (by simp)).le
      simp only at hle
      obtain ⟨ρ', h1, h2⟩ := ih.1 Bool.false i st.next ⟨st.next + 1, st.rep, Bool.false⟩
        (by simp; omega) (by simp) rfl (upd ρ st.next (ρ i))
        (fun _ => by rw [upd_same, upd_ne _ _ (by omega)])
      unfold onStack bodyPlain
      simp only
      refine ⟨ρ', fun v hv => ?_, ?_⟩
      · simp only at h1 hv
        have hv' : v < st.next ∨
            (onStack a Bool.false i st.next ⟨st.next + 1, st.rep, Bool.false⟩).st.next ≤ v := by
          cases opt <;> exact hv
        rw [h1 v (by omega), upd_ne _ _ (by omega)]
      · refine (Sat.append I).2 ⟨h2, ?_⟩
        cases opt with
        | false => exact Sat.nil I
        | true =>
          refine (Sat.one I).2 ?_
          show ρ' i = ρ' o
          rw [h1 i (by simp only; omega), h1 o (by simp only; omega), upd_ne _ _ (by omega), upd_ne _ _ (by omega)]
          exact h rfl
    exact ⟨hF, fun opt i o st hi ho hne ρ =>
      solvW_of_F (opt := opt) (st := { st with flag := Bool.false }) hi ho hne hF ρ rfl⟩
  | ifThen s a b iha ihb =>
    have hF : SolvF I (.ifThen s a b : Body ν τ γ) := by
      intro opt i o st hi ho hf ρ h
      have hba := onStack_bounds a Bool.false i st.next ⟨st.next + 1, st.rep, Bool.false⟩
        (by simp; omega) (by simp)
      have hla := hba.le
      simp only at hla
      have hbb := onStack_bounds b Bool.false st.next o
        { (onStack a Bool.false i st.next ⟨st.next + 1, st.rep, Bool.false⟩).st with flag := Bool.false }
        (by simp only; omega) (by simp only; omega)
      have hlb := hbb.le
      simp only at hlb
      obtain ⟨x, hx1, hx2⟩ : ∃ x, (isId a Bool.false = Bool.true → ρ i = x) ∧
          (isId b Bool.false = Bool.true → x = ρ o) := by
        by_cases hia : isId a Bool.false = Bool.true
        · refine ⟨ρ i, fun _ => rfl, fun hib => h ?_⟩
          simp only [isId, hia, hib, Bool.and_self]
        · exact ⟨ρ o, fun h => absurd h hia, fun _ => rfl⟩
      obtain ⟨ρ1, h11, h12⟩ := iha.1 Bool.false i st.next ⟨st.next + 1, st.rep, Bool.false⟩
        (by simp only; omega) (by simp) rfl (upd ρ st.next x)
        (fun hh => by rw [upd_same, upd_ne _ _ (by omega)]; exact hx1 hh)
      simp only at h11
      obtain ⟨ρ2, h21, h22⟩ := ihb.1 Bool.false st.next o
        { (onStack a Bool.false i st.next ⟨st.next + 1, st.rep, Bool.false⟩).st with flag := Bool.false }
        (by simp only; omega) (by simp only; omega) rfl ρ1
        (fun hh => by
          rw [h11 _ (by omega), h11 o (by omega), upd_same, upd_ne _ _ (by omega)]; exact hx2 hh)
      simp only at h21
      unfold onStack bodyPlain
      simp only
      refine ⟨ρ2, fun v hv => ?_, (Sat.append I).2 ⟨?_, h22⟩⟩
      · rw [h21 v (by omega), h11 v (by omega), upd_ne _ _ (by omega)]
      · refine (Sat.congr I (fun v hv => ?_) hba.eqs).1 h12
        unfold Zone at hv
        simp only at hv
        exact (h21 v (by omega)).symm
    exact ⟨hF, fun opt i o st hi ho hne ρ =>
      solvW_of_F (opt := opt) (st := { st with flag := Bool.false }) hi ho hne hF ρ rfl⟩
  | alt a b iha ihb =>
    have hF : SolvF I (.alt a b : Body ν τ γ) := by
      intro opt i o st hi ho hf ρ h
      have hba := bodyAlt_bounds (o := o) (flag := Bool.false) (w := st.next)
        (st := ⟨st.next + 1, st.rep, Bool.false⟩) rfl hi
        (onStack_bounds a Bool.false i st.next ⟨st.next + 1, st.rep, Bool.false⟩ (by simp; omega) (by simp))
      obtain ⟨ρ1, h11, h12⟩ := bodyAlt_solv iha.1 i st.next o st.rep hi ho ρ
      have hfl : (bodyAlt (onStack a Bool.false i st.next ⟨st.next + 1, st.rep, Bool.false⟩)
        i st.next o Bool.false).2.2.flag = Bool.false := by
        unfold bodyAlt; split <;> rfl
      unfold onStack
      simp only
      generalize bodyAlt (onStack a Bool.false i st.next ⟨st.next + 1, st.rep, Bool.false⟩)
        i st.next o Bool.false = A at *
      obtain ⟨gA, eA, nA, rA, fA⟩ := A
      have hla := hba.le
      simp only at *
      subst hfl
      have hbb := bodyAlt_bounds (o := o) (flag := Bool.false) (w := nA)
        (st := ⟨nA + 1, rA, Bool.false⟩) rfl (by omega)
        (onStack_bounds b Bool.false i nA ⟨nA + 1, rA, Bool.false⟩ (by simp; omega) (by simp))
      obtain ⟨ρ2, h21, h22⟩ := bodyAlt_solv ihb.1 i nA o rA (by omega) (by omega) ρ1
      generalize bodyAlt (onStack b Bool.false i nA ⟨nA + 1, rA, Bool.false⟩)
        i nA o Bool.false = B at *
      obtain ⟨gB, eB, nB, rB, fB⟩ := B
      have hlb := hbb.le
      simp only at *
      refine ⟨ρ2, fun v hv => ?_, (Sat.append I).2 ⟨?_, h22⟩⟩
      · rw [h21 v (by omega), h11 v (by omega)]
      · refine (Sat.congr I (fun v hv => ?_) hba.eqs).1 h12
        unfold Zone at hv
        simp only at hv
        exact (h21 v (by omega)).symm
    exact ⟨hF, fun opt i o st hi ho hne ρ =>
      solvW_of_F (opt := opt) (st := { st with flag := Bool.false }) hi ho hne hF ρ rfl⟩
  | conj a b iha ihb =>
    constructor
    · intro opt i o st hi ho hf ρ h
      have hba := onStack_bounds a Bool.true i st.next { st with next := st.next + 1 }
        (by simp only; omega) (by simp)
      have hla := hba.le
      simp only at hla
      have hbb := onStack_bounds b opt st.next o
        (onStack a Bool.true i st.next { st with next := st.next + 1 }).st (by omega) (by omega)
      have hlb := hbb.le
      -- the part after gives a value to the middle stream
      obtain ⟨x, ρ1, h11, h12, h13⟩ : ∃ x ρ1, Agree
          (onStack a Bool.true i st.next { st with next := st.next + 1 }).st.next
          (onStack b opt st.next o (onStack a Bool.true i st.next { st with next := st.next + 1 }).st).st.next
          (upd ρ st.next x) ρ1 ∧
          Sat I ρ1 (onStack b opt st.next o
            (onStack a Bool.true i st.next { st with next := st.next + 1 }).st).eqs ∧
          (isId a Bool.true = Bool.true → ρ i = x) := by
        by_cases hia : isId a Bool.true = Bool.true
        · have hfa := isId_flag a Bool.true i st.next { st with next := st.next + 1 } hia hf
          obtain ⟨ρ1, h1, h2⟩ := ihb.1 opt st.next o
            (onStack a Bool.true i st.next { st with next := st.next + 1 }).st (by omega) (by omega)
            hfa (upd ρ st.next (ρ i)) (fun hib => by
              rw [upd_same, upd_ne _ _ (by omega)]
              exact h (by simp only [isId, hia, hib, Bool.and_self]))
          exact ⟨ρ i, ρ1, h1, h2, fun _ => rfl⟩
        · obtain ⟨x, ρ1, h1, h2⟩ := ihb.2 opt st.next o
            (onStack a Bool.true i st.next { st with next := st.next + 1 }).st (by omega) (by omega)
            (by omega) ρ
          exact ⟨x, ρ1, h1, h2, fun h => absurd h hia⟩
      obtain ⟨ρ2, h21, h22⟩ := iha.1 Bool.true i st.next { st with next := st.next + 1 }
        (by simp only; omega) (by simp) hf ρ1 (fun hh => by
          rw [h11 i (by omega), h11 _ (by omega), upd_same, upd_ne _ _ (by omega)]; exact h13 hh)
      simp only at h21
      unfold onStack
      simp only
      refine ⟨ρ2, fun v hv => ?_, (Sat.append I).2 ⟨h22, ?_⟩⟩
      · rw [h21 v (by omega), h11 v (by omega), upd_ne _ _ (by omega)]
      · refine (Sat.congr I (fun v hv => ?_) hbb.eqs).1 h12
        unfold Zone at hv
        exact (h21 v (by omega)).symm
    · intro opt i o st hi ho hne ρ
      have hba := onStack_bounds a Bool.true i st.next { st with next := st.next + 1 }
        (by simp only; omega) (by simp)
      have hla := hba.le
      simp only at hla
      have hbb := onStack_bounds b opt st.next o
        (onStack a Bool.true i st.next { st with next := st.next + 1 }).st (by omega) (by omega)
      have hlb := hbb.le
      obtain ⟨x, ρ1, h11, h12⟩ := ihb.2 opt st.next o
            (onStack a Bool.true i st.next { st with next := st.next + 1 }).st (by omega) (by omega)
            (by omega) ρ
      obtain ⟨y, ρ2, h21, h22⟩ := iha.2 Bool.true i st.next { st with next := st.next + 1 }
        (by simp only; omega) (by simp) (by omega) ρ1
      simp only at h21
      unfold onStack
      simp only
      refine ⟨y, ρ2, fun v hv => ?_, (Sat.append I).2 ⟨h22, ?_⟩⟩
      · rw [h21 v (by omega)]
        by_cases hvi : v = i
        · subst hvi; rw [upd_same, upd_same]
        · rw [upd_ne _ _ hvi, upd_ne _ _ hvi, h11 v (by omega), upd_ne _ _ (by omega)]
      · refine (Sat.congr I (fun v hv => ?_) hbb.eqs).1 h12
        unfold Zone at hv
        rw [h21 v (by omega), upd_ne _ _ (by omega)]

end Gp.Dcg
