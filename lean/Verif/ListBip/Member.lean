import Verif.ListBip.Length
namespace Gp.ListBip
open Gp.Heap Gp.Unify

variable {ι : Type} {N : Adr} {s s' s'' s0 : St} {E : Env}

/-! A unification only binds variables reached from its arguments -/

/-- A set of addresses closed by the words of the memory. -/
def Closed (m : Heap.Mem) (R : Adr → Prop) : Prop := ∀ a b, R a → Child m b a → R b

/-- What is designated by `w` is in the set. -/
def KidsIn (m : Heap.Mem) (R : Adr → Prop) (w : Cell) : Prop := ∀ b, Kid m w b → R b

theorem closed_set {m : Heap.Mem} {R : Adr → Prop} {x : Adr} {w : Cell} (hs : Same m (m.set x w)) (hc : Closed m R)
    (hw : KidsIn m R w) : Closed (m.set x w) R := by
  intro a b ha hb
  obtain ⟨h1, h2⟩ := hb
  rw [kid_same hs] at h2
  by_cases hax : a = x
  · subst hax; rw [set_same] at h2; exact hw b h2
  · rw [set_other _ _ _ _ hax] at h1 h2; exact hc a b ha ⟨h1, h2⟩

theorem deref_kids {lssa : Adr} {m : Heap.Mem} {R : Adr → Prop} (hwf : WF N lssa m) (hc : Closed m R) {w w' : Cell}
    (hw : ValidWord N lssa m w) (hk : KidsIn m R w) (h : deref m w = some w') : KidsIn m R w' := by
  have key : ∀ a, Acc (RefTo m) a → ValidWord N lssa m (.ref a) → R a → deref m (.ref a) = some w' → KidsIn m R w' := by
    intro a ha
    induction ha with
    | intro a _ ih =>
      intro hw hR h
      rw [deref_ref] at h
      by_cases hs : m a = .ref a
      · rw [if_pos hs] at h
        simp only [Option.some.injEq] at h
        subst h
        intro b hb; simp only [Kid] at hb; subst hb; exact hR
      · rw [if_neg hs] at h
        obtain ⟨hv, -, -⟩ := hwf a hw.1 hw.2
        by_cases hr : ∃ b, m a = .ref b
        · obtain ⟨b, hb⟩ := hr
          have hba : b ≠ a := by rintro rfl; exact hs hb
          have hRb : R b := hc a b hR ⟨hs, by rw [hb]; rfl⟩
          rw [hb] at hv h
          exact ih b ⟨hb, hba⟩ hv hRb h
        · rw [deref_nonref (fun b hb => hr ⟨b, hb⟩)] at h
          simp only [Option.some.injEq] at h
          subst h
          intro b hb
          exact hc a b hR ⟨hs, hb⟩
  by_cases hr : ∃ a, w = .ref a
  · obtain ⟨a, rfl⟩ := hr
    exact key a (hwf a hw.1 hw.2).2.2 hw (hk a rfl) h
  · rw [deref_nonref (fun b hb => hr ⟨b, hb⟩)] at h
    simp only [Option.some.injEq] at h
    subst h; exact hk

/-- What is known of a unification which stays in `R`. -/
def StaysIn (R : Adr → Prop) (s s' : St) : Prop := (∀ a, ¬ R a → s'.mem a = s.mem a) ∧ Closed s'.mem R

def RecIn (N lssa : Adr) (R : Adr → Prop) (rec : St → Cell → Cell → Option (Bool × St)) : Prop :=
  ∀ s u v r s', s.lssa = lssa → WF N lssa s.mem → ValidWord N lssa s.mem u → ValidWord N lssa s.mem v →
    Closed s.mem R → KidsIn s.mem R u → KidsIn s.mem R v → rec s u v = some (r, s') → StaysIn R s s'

theorem StaysIn.trans {R : Adr → Prop} (h : StaysIn R s s') (h' : StaysIn R s' s'') : StaysIn R s s'' :=
  ⟨fun a ha => (h'.1 a ha).trans (h.1 a ha), h'.2⟩

theorem cell_in {lssa : Adr} {R : Adr → Prop} {rec : St → Cell → Cell → Option (Bool × St)} (hin : RecIn N lssa R rec)
    {a b : Adr} {r : Bool} (hl : s.lssa = lssa)
    (hwf : WF N lssa s.mem) (ha : a < N) (hb : b < N) (hta : isTerm (s.mem a) = true) (htb : isTerm (s.mem b) = true)
    (hc : Closed s.mem R) (hRa : R a) (hRb : R b)
    (h : rec s (s.mem a) (s.mem b) = some (r, s')) : StaysIn R s s' := by
  have kids : ∀ c, R c → KidsIn s.mem R (s.mem c) := by
    intro c hRc d hd
    by_cases hs : s.mem c = .ref c
    · rw [hs] at hd; simp only [Kid] at hd; subst hd; exact hRc
    · exact hc c d hRc ⟨hs, hd⟩
  exact hin s _ _ r s' hl hwf (hwf a ha hta).1 (hwf b hb htb).1 hc (kids a hRa) (kids b hRb) h

theorem unifyArgs_in {lssa : Adr} {R : Adr → Prop} {rec : St → Cell → Cell → Option (Bool × St)}
    (hrec : RecOk N lssa false rec) (hin : RecIn N lssa R rec) (k : Nat) (s : St) (a b : Adr) (hl : s.lssa = lssa)
    (hwf : WF N lssa s.mem) (hc : Closed s.mem R)
    (ha : ∀ i, i < k → a + i < N ∧ isTerm (s.mem (a + i)) = true)
    (hb : ∀ i, i < k → b + i < N ∧ isTerm (s.mem (b + i)) = true)
    (hRa : ∀ i, i < k → R (a + i)) (hRb : ∀ i, i < k → R (b + i)) (r : Bool) (s' : St)
    (h : unifyArgs rec k s a b = some (r, s')) : StaysIn R s s' := by
  fun_induction unifyArgs rec k s a b with
  | case1 => simp at h
  | case2 s a b =>
    have ha0 := ha 0 (by omega)
    have hb0 := hb 0 (by omega)
    exact cell_in hin hl hwf ha0.1 hb0.1 ha0.2 hb0.2 hc (hRa 0 (by omega)) (hRb 0 (by omega)) h
  | case3 k s a b s1 hr ih =>
    have ha0 := ha 0 (by omega)
    have hb0 := hb 0 (by omega)
    have h1 := cell_res hrec hl hwf ha0.1 hb0.1 ha0.2 hb0.2 hr
    have hs1 := cell_in hin hl hwf ha0.1 hb0.1 ha0.2 hb0.2 hc (hRa 0 (by omega)) (hRb 0 (by omega)) hr
    have hl1 : s1.lssa = lssa := h1.regs.2.2.2.trans hl
    refine hs1.trans (ih hl1 (by have := h1.wf; rwa [hl] at this) hs1.2 ?_ ?_ ?_ ?_ h)
    · intro i hi
      have := ha (i + 1) (by omega)
      rw [show a + 1 + i = a + (i + 1) by omega, h1.same.isTerm]
      exact this
    · intro i hi
      have := hb (i + 1) (by omega)
      rw [show b + 1 + i = b + (i + 1) by omega, h1.same.isTerm]
      exact this
    · intro i hi
      rw [show a + 1 + i = a + (i + 1) by omega]; exact hRa _ (by omega)
    · intro i hi
      rw [show b + 1 + i = b + (i + 1) by omega]; exact hRb _ (by omega)
  | case4 k s a b hne =>
    have ha0 := ha 0 (by omega)
    have hb0 := hb 0 (by omega)
    exact cell_in hin hl hwf ha0.1 hb0.1 ha0.2 hb0.2 hc (hRa 0 (by omega)) (hRb 0 (by omega)) h

theorem bindUV_in {R : Adr → Prop} {x : Adr} {w : Cell} (hx : s.mem x = .ref x) (hv : isTerm w = true)
    (hc : Closed s.mem R) (hR : R x) (hw : KidsIn s.mem R w) : StaysIn R s (s.bindUV x w) := by
  refine ⟨?_, closed_set (Same.set (by rw [hx]; rfl) hv) hc hw⟩
  intro a ha
  have : a ≠ x := by rintro rfl; exact ha hR
  exact set_other _ _ _ _ this

theorem unify_in {lssa : Adr} {R : Adr → Prop} {fd : FdHooks} (n : Nat) : RecIn N lssa R (unify false fd n) := by
  induction n with
  | zero => intro s u v r s' _ _ _ _ _ _ _ h; simp [unify] at h
  | succ n ih =>
    intro s u v r s' hl hwf hu hv hc ku kv h
    obtain ⟨u', a1, a2, a3, a4⟩ := deref_spec hwf u hu
    obtain ⟨v', b1, b2, b3, b4⟩ := deref_spec hwf v hv
    have ku' := deref_kids hwf hc hu ku a1
    have kv' := deref_kids hwf hc hv kv b1
    rw [unify, a1, b1] at h
    have id : StaysIn R s s := ⟨fun _ _ => rfl, hc⟩
    have bt : ∀ x w, s.mem x = .ref x → R x → ValidWord N lssa s.mem w → KidsIn s.mem R w →
        bindTo false n s x w = some (r, s') → StaysIn R s s' := by
      intro x w hx hR hw kw h
      simp only [bindTo, Bool.false_eq_true, false_and, if_false, Option.some.injEq, Prod.mk.injEq] at h
      obtain ⟨_, rfl⟩ := h
      have hcw : copyWord w = w := by
        cases w with
        | fdv a => exact hw.elim
        | _ => rfl
      rw [hcw]
      exact bindUV_in hx (valid_isTerm hw) hc hR kw
    by_cases hur : ∃ a, u' = .ref a
    · obtain ⟨a, rfl⟩ := hur
      have hua := a3 a rfl
      by_cases hvr : ∃ b, v' = .ref b
      · obtain ⟨b, rfl⟩ := hvr
        have hvb := b3 b rfl
        simp only at h
        split at h
        · simp only [Option.some.injEq, Prod.mk.injEq] at h; obtain ⟨_, rfl⟩ := h
          exact bindUV_in hua rfl hc (ku' a rfl) kv'
        · split at h
          · simp only [Option.some.injEq, Prod.mk.injEq] at h; obtain ⟨_, rfl⟩ := h
            exact bindUV_in hvb rfl hc (kv' b rfl) ku'
          · simp only [Option.some.injEq, Prod.mk.injEq] at h; obtain ⟨_, rfl⟩ := h
            exact id
      · have h' : bindTo false n s a v' = some (r, s') := by
          cases v' with
          | ref b => exact absurd ⟨b, rfl⟩ hvr
          | _ => exact h
        exact bt a v' hua (ku' a rfl) b2 kv' h'
    · by_cases hvr : ∃ b, v' = .ref b
      · obtain ⟨b, rfl⟩ := hvr
        have h' : bindTo false n s b u' = some (r, s') := by
          cases u' with
          | ref b => exact absurd ⟨b, rfl⟩ hur
          | _ => exact h
        exact bt b u' (b3 b rfl) (kv' b rfl) a2 ku' h'
      · have h' : unifyNonVar fd (unify false fd n) s u' v' = some (r, s') := by
          cases u' with
          | ref b => exact absurd ⟨b, rfl⟩ hur
          | _ =>
            cases v' with
            | ref b => exact absurd ⟨b, rfl⟩ hvr
            | _ => exact h
        have fin : some (false, s) = some (r, s') → StaysIn R s s' := by
          intro h
          simp only [Option.some.injEq, Prod.mk.injEq] at h; obtain ⟨_, rfl⟩ := h; exact id
        unfold unifyNonVar at h'
        split at h'
        · simp only [Option.some.injEq, Prod.mk.injEq] at h'; obtain ⟨_, rfl⟩ := h'; exact id
        · split at h'
          · next b a _ =>
            obtain ⟨p1, p2, p3, p4⟩ := a2
            obtain ⟨q1, q2, q3, q4⟩ := b2
            have cell0 : ∀ {r1 s1}, unify false fd n s (s.mem a) (s.mem b) = some (r1, s1) → StaysIn R s s1 := fun h =>
              cell_in ih hl hwf (by omega) (by omega) p3 q3 hc (ku' a (.inl rfl)) (kv' b (.inl rfl)) h
            split at h'
            next s1 h1 =>
              have hs1 := cell0 h1
              have hr1 := cell_res (unify_res n) hl hwf (by omega) (by omega) p3 q3 h1
              refine hs1.trans (cell_in ih (hr1.regs.2.2.2.trans hl) (by have := hr1.wf; rwa [hl] at this) p1 q1 ?_ ?_ hs1.2
                (ku' (a + 1) (.inr rfl)) (kv' (b + 1) (.inr rfl)) h')
              · rw [hr1.same.isTerm]; exact p4
              · rw [hr1.same.isTerm]; exact q4
            next => exact cell0 h'
          · exact fin h'
          · next b a _ =>
            obtain ⟨f, k, p1, p2, p3, p4, p5⟩ := a2
            obtain ⟨g, k', q1, q2, q3, q4, q5⟩ := b2
            split at h'
            · exact fin h'
            next he =>
            simp only [Decidable.not_not] at he
            rw [p1] at h' he
            rw [q1] at he
            simp only [Cell.fn.injEq] at he
            obtain ⟨rfl, rfl⟩ := he
            simp only at h'
            exact unifyArgs_in (unify_res n) ih _ s _ _ hl hwf hc (fun i hi => ⟨by omega, p5 i hi⟩)
              (fun i hi => ⟨by omega, q5 i hi⟩) (fun i hi => ku' _ ⟨_, _, p1, by omega, by omega⟩)
              (fun i hi => kv' _ ⟨_, _, q1, by omega, by omega⟩) r s' h'
          · exact fin h'
          · exact a2.elim
          · exact b2.elim
          · exact b2.elim
          · exact b2.elim
          · split at h'
            · simp only [Option.some.injEq, Prod.mk.injEq] at h'; obtain ⟨_, rfl⟩ := h'; exact id
            · simp at h'
          · exact fin h'

/-- A variable from which nothing in `u` and `v` comes is not bound by their unification. -/
theorem unify_not_bound (hok : Ok N s) {u v : Cell} {r : Bool} {b : Adr} (hu : ValidWord N s.lssa s.mem u)
    (hv : ValidWord N s.lssa s.mem v) (fu : ∀ c, Kid s.mem u c → ¬ From s.mem b c)
    (fv : ∀ c, Kid s.mem v c → ¬ From s.mem b c)
    (h : unify false E.fd E.fuel s u v = some (r, s')) : s'.mem b = s.mem b := by
  have hin := unify_in (N := N) (lssa := s.lssa) (R := fun a => ¬ From s.mem b a) E.fuel s u v r s' rfl hok.wf hu hv
    (fun a c ha hc hf => ha (.step hc hf)) fu fv h
  exact hin.1 b (fun h => h .self)

end Gp.ListBip
