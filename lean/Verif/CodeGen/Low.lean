import Verif.Unify.Sound
/-
The references made by the unification go from a variable to a lower address.
-/
namespace Gp.Unify
open Gp.Heap

/-- The new references go downwards. -/
def DownTo (m m' : Mem) : Prop := ∀ a b, m' a = .ref b → m' a ≠ m a → b < a

theorem DownTo.refl (m : Mem) : DownTo m m := fun _ _ _ h => absurd rfl h

theorem DownTo.trans {m m' m'' : Mem} (h : DownTo m m') (h' : DownTo m' m'') : DownTo m m'' := by
  intro a b hb hne
  by_cases h1 : m'' a = m' a
  · rw [h1] at hb hne; exact h a b hb hne
  · exact h' a b hb h1

theorem DownTo.set {m : Mem} {x : Adr} {w : Cell} (h : ∀ b, w = .ref b → b < x) : DownTo m (m.set x w) := by
  intro a b hb hne
  by_cases ha : a = x
  · subst ha; rw [set_same] at hb; exact h b hb
  · rw [set_other _ _ _ _ ha] at hne; exact absurd rfl hne

def RecLow (N lssa : Adr) (rec : St → Cell → Cell → Option (Bool × St)) : Prop :=
  ∀ s u v r s', s.lssa = lssa → WF N lssa s.mem → ValidWord N lssa s.mem u → ValidWord N lssa s.mem v →
    rec s u v = some (r, s') → DownTo s.mem s'.mem

variable {N lssa : Adr} {oc : Bool} {fd : FdHooks} {rec : St → Cell → Cell → Option (Bool × St)}

theorem unifyArgs_low (hrec : RecOk N lssa oc rec) (hlow : RecLow N lssa rec) (k : Nat) (s : St) (a b : Adr)
    (hl : s.lssa = lssa) (hwf : WF N lssa s.mem)
    (ha : ∀ i, i < k → a + i < N ∧ isTerm (s.mem (a + i)) = true)
    (hb : ∀ i, i < k → b + i < N ∧ isTerm (s.mem (b + i)) = true) (r : Bool) (s' : St)
    (h : unifyArgs rec k s a b = some (r, s')) : DownTo s.mem s'.mem := by
  fun_induction unifyArgs rec k s a b with
  | case1 => cases h
  | case2 s a b =>
    have h1 := ha 0 (by omega)
    have h2 := hb 0 (by omega)
    exact hlow s _ _ r s' hl hwf (hwf _ h1.1 h1.2).1 (hwf _ h2.1 h2.2).1 h
  | case3 k s a b s1 hr ih =>
    have h1 := ha 0 (by omega)
    have h2 := hb 0 (by omega)
    have r1 := cell_res hrec hl hwf h1.1 h2.1 h1.2 h2.2 hr
    have l1 := hlow s _ _ true s1 hl hwf (hwf _ h1.1 h1.2).1 (hwf _ h2.1 h2.2).1 hr
    refine l1.trans (ih (r1.regs.2.2.2.trans hl) (by have := r1.wf; rwa [hl] at this) ?_ ?_ h)
    · intro i hi
      have := ha (i + 1) (by omega)
      rw [show a + 1 + i = a + (i + 1) by omega, r1.same.isTerm]; exact this
    · intro i hi
      have := hb (i + 1) (by omega)
      rw [show b + 1 + i = b + (i + 1) by omega, r1.same.isTerm]; exact this
  | case4 k s a b hne =>
    have h1 := ha 0 (by omega)
    have h2 := hb 0 (by omega)
    exact hlow s _ _ r s' hl hwf (hwf _ h1.1 h1.2).1 (hwf _ h2.1 h2.2).1 h

theorem unifyNonVar_low (hrec : RecOk N lssa oc rec) (hlow : RecLow N lssa rec) (s : St) (u v : Cell)
    (hl : s.lssa = lssa) (hwf : WF N lssa s.mem)
    (hu : ValidWord N lssa s.mem u) (hv : ValidWord N lssa s.mem v)
    (r : Bool) (s' : St) (h : unifyNonVar fd rec s u v = some (r, s')) : DownTo s.mem s'.mem := by
  unfold unifyNonVar at h
  split at h
  · simp at h; obtain ⟨_, rfl⟩ := h; exact DownTo.refl _
  · split at h
    · rename_i _ _ b a hh
      obtain ⟨u1, u2, u3, u4⟩ := hu
      obtain ⟨v1, v2, v3, v4⟩ := hv
      have ha : a < N := by omega
      have hb : b < N := by omega
      split at h
      · rename_i s1 hr
        have r1 := cell_res hrec hl hwf ha hb u3 v3 hr
        have hw1 : WF N lssa s1.mem := by have := r1.wf; rwa [hl] at this
        have hl1 := r1.regs.2.2.2.trans hl
        have l1 := hlow s _ _ true s1 hl hwf (hwf _ ha u3).1 (hwf _ hb v3).1 hr
        have t1 : isTerm (s1.mem (a + 1)) = true := by rw [r1.same.isTerm]; exact u4
        have t2 : isTerm (s1.mem (b + 1)) = true := by rw [r1.same.isTerm]; exact v4
        exact l1.trans (hlow s1 _ _ r s' hl1 hw1 (hw1 _ u1 t1).1 (hw1 _ v1 t2).1 h)
      · exact hlow s _ _ r s' hl hwf (hwf _ ha u3).1 (hwf _ hb v3).1 h
    · simp at h; obtain ⟨_, rfl⟩ := h; exact DownTo.refl _
    · rename_i _ _ b a hh
      split at h
      · simp at h; obtain ⟨_, rfl⟩ := h; exact DownTo.refl _
      · rename_i hfn
        obtain ⟨f1, n1, u1, u2, u3, u4, u5⟩ := hu
        obtain ⟨f2, n2, v1, v2, v3, v4, v5⟩ := hv
        have he : s.mem a = s.mem b := Decidable.not_not.mp hfn
        rw [u1, v1] at he
        cases he
        split at h
        · rename_i f k hk
          rw [u1] at hk
          cases hk
          exact unifyArgs_low hrec hlow n1 s (a + 1) (b + 1) hl hwf (fun i hi => ⟨by omega, u5 i hi⟩)
            (fun i hi => ⟨by omega, v5 i hi⟩) r s' h
        · cases h
    · simp at h; obtain ⟨_, rfl⟩ := h; exact DownTo.refl _
    · exact hu.elim
    · exact hv.elim
    · exact hv.elim
    · exact hv.elim
    · split at h
      · simp at h; obtain ⟨_, rfl⟩ := h; exact DownTo.refl _
      · cases h
    · simp at h; obtain ⟨_, rfl⟩ := h; exact DownTo.refl _

theorem bindTo_low {n : Nat} {s s' : St} {x : Adr} {w : Cell} {r : Bool} (hw : ValidWord N lssa s.mem w)
    (hne : ∀ b, w ≠ .ref b) (h : bindTo oc n s x w = some (r, s')) : DownTo s.mem s'.mem := by
  unfold bindTo at h
  rw [copyWord_valid hw] at h
  split at h
  · cases h
  · simp at h; obtain ⟨_, rfl⟩ := h; exact DownTo.refl _
  · simp at h; obtain ⟨_, rfl⟩ := h
    exact DownTo.set (fun b hb => absurd hb (hne b))

theorem unify_low (n : Nat) : RecLow N lssa (unify oc fd n) := by
  induction n with
  | zero => intro s u v r s' _ _ _ _ h; simp [unify] at h
  | succ n ih =>
    intro s u v r s' hl hwf hu hv h
    obtain ⟨u', a1, a2, a3, a4⟩ := deref_spec hwf u hu
    obtain ⟨v', b1, b2, b3, b4⟩ := deref_spec hwf v hv
    rw [unify, a1, b1] at h
    by_cases hur : ∃ a, u' = .ref a
    · obtain ⟨a, rfl⟩ := hur
      by_cases hvr : ∃ b, v' = .ref b
      · obtain ⟨b, rfl⟩ := hvr
        simp only at h
        by_cases h1 : a > b
        · rw [if_pos h1] at h
          simp at h; obtain ⟨_, rfl⟩ := h
          exact DownTo.set (fun c hc => by cases hc; exact h1)
        · rw [if_neg h1] at h
          by_cases h2 : b > a
          · rw [if_pos h2] at h
            simp at h; obtain ⟨_, rfl⟩ := h
            exact DownTo.set (fun c hc => by cases hc; exact h2)
          · rw [if_neg h2] at h
            simp at h; obtain ⟨_, rfl⟩ := h
            exact DownTo.refl _
      · have h' : bindTo oc n s a v' = some (r, s') := by
          cases v' with
          | ref b => exact absurd ⟨b, rfl⟩ hvr
          | _ => exact h
        exact bindTo_low b2 (fun c hc => hvr ⟨c, hc⟩) h'
    · by_cases hvr : ∃ b, v' = .ref b
      · obtain ⟨b, rfl⟩ := hvr
        have h' : bindTo oc n s b u' = some (r, s') := by
          cases u' with
          | ref b => exact absurd ⟨b, rfl⟩ hur
          | _ => exact h
        exact bindTo_low a2 (fun c hc => hur ⟨c, hc⟩) h'
      · have h' : unifyNonVar fd (unify oc fd n) s u' v' = some (r, s') := by
          cases u' with
          | ref b => exact absurd ⟨b, rfl⟩ hur
          | _ =>
            cases v' with
            | ref b => exact absurd ⟨b, rfl⟩ hvr
            | _ => exact h
        exact unifyNonVar_low (oc := oc) (unify_res n) ih s u' v' hl hwf a2 b2 r s' h'

end Gp.Unify
