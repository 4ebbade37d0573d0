import Verif.Unify.Spec

namespace Gp.Unify
open Gp.Heap
open Gp.Term (isNaN fkey deq)

@[simp] theorem set_same (m : Mem) (a : Adr) (w : Cell) : m.set a w a = w := by simp [Mem.set]
theorem set_other (m : Mem) (a b : Adr) (w : Cell) (h : b ≠ a) : m.set a w b = m b := by simp [Mem.set, h]

/-- The functor words and floats are the same. -/
def Same (m m' : Mem) : Prop := ∀ a, m a = m' a ∨ (isTerm (m a) = true ∧ isTerm (m' a) = true)

theorem Same.refl (m : Mem) : Same m m := fun _ => Or.inl rfl

theorem Same.trans {m1 m2 m3 : Mem} (h : Same m1 m2) (h' : Same m2 m3) : Same m1 m3 := by
  intro a
  rcases h a with h1 | ⟨h1, h2⟩ <;> rcases h' a with h3 | ⟨h3, h4⟩
  · left; rw [h1, h3]
  · right; rw [h1]; exact ⟨h3, h4⟩
  · right; rw [← h3]; exact ⟨h1, h2⟩
  · right; exact ⟨h1, h4⟩

theorem Same.isTerm {m m' : Mem} (h : Same m m') (a : Adr) : isTerm (m' a) = isTerm (m a) := by
  rcases h a with h1 | ⟨h1, h2⟩
  · rw [h1]
  · rw [h1, h2]

theorem Same.fn {m m' : Mem} (h : Same m m') {a : Adr} {f n : Nat} (hf : m a = .fn f n) : m' a = .fn f n := by
  rcases h a with h1 | ⟨h1, h2⟩
  · rw [← h1, hf]
  · rw [hf] at h1; simp [Unify.isTerm] at h1

theorem Same.fn' {m m' : Mem} (h : Same m m') {a : Adr} {f n : Nat} (hf : m' a = .fn f n) : m a = .fn f n := by
  rcases h a with h1 | ⟨h1, h2⟩
  · rw [h1, hf]
  · rw [hf] at h2; simp [Unify.isTerm] at h2

theorem Same.raw {m m' : Mem} (h : Same m m') {a : Adr} {x : BitVec 64} (hf : m a = .raw x) : m' a = .raw x := by
  rcases h a with h1 | ⟨h1, h2⟩
  · rw [← h1, hf]
  · rw [hf] at h1; simp [Unify.isTerm] at h1

theorem Same.valid {N lssa : Adr} {m m' : Mem} (h : Same m m') {w : Cell} (hw : ValidWord N lssa m w) :
    ValidWord N lssa m' w := by
  cases w with
  | ref b => exact ⟨hw.1, by rw [h.isTerm]; exact hw.2⟩
  | lst b => exact ⟨hw.1, hw.2.1, by rw [h.isTerm]; exact hw.2.2.1, by rw [h.isTerm]; exact hw.2.2.2⟩
  | stc b =>
    obtain ⟨f, n, h1, h2, h3, h4, h5⟩ := hw
    exact ⟨f, n, h.fn h1, h2, h3, h4, fun i hi => by rw [h.isTerm]; exact h5 i hi⟩
  | flt b => obtain ⟨x, hx⟩ := hw; exact ⟨x, h.raw hx⟩
  | _ => exact hw

theorem Same.eval {N lssa : Adr} {m m' : Mem} (h : Same m m') {w : Cell} (hw : ValidWord N lssa m w) (ρ : Adr → T) :
    eval m' ρ w = eval m ρ w := by
  cases w with
  | stc b =>
    obtain ⟨f, n, h1, _⟩ := hw
    simp only [Unify.eval]; rw [h1, h.fn h1]
  | flt b => obtain ⟨x, hx⟩ := hw; simp only [Unify.eval]; rw [hx, h.raw hx]
  | _ => rfl

theorem valid_isTerm {N lssa : Adr} {m : Mem} {w : Cell} (hw : ValidWord N lssa m w) : isTerm w = true := by
  cases w <;> first | rfl | exact hw.elim

theorem Same.set {m : Mem} {x : Adr} {w : Cell} (hx : Unify.isTerm (m x) = true) (hw : Unify.isTerm w = true) :
    Same m (m.set x w) := by
  intro a
  by_cases ha : a = x
  · subst ha; right; exact ⟨hx, by rw [set_same]; exact hw⟩
  · left; rw [set_other _ _ _ _ ha]

/-! Dereferencing -/

theorem deref_ref (m : Mem) (a : Adr) :
    deref m (.ref a) = if m a = .ref a then some (.ref a) else deref m (m a) := by
  rw [deref.eq_def]

theorem deref_nonref {m : Mem} {w : Cell} (h : ∀ a, w ≠ .ref a) : deref m w = some w := by
  rw [deref.eq_def]
  cases w <;> first | rfl | exact absurd rfl (h _)

theorem deref_spec {N lssa : Adr} {m : Mem} (hwf : WF N lssa m) (w : Cell) (hw : ValidWord N lssa m w) :
    ∃ w', deref m w = some w' ∧ ValidWord N lssa m w' ∧ (∀ a, w' = .ref a → m a = .ref a) ∧
      ∀ ρ, Model N m ρ → eval m ρ w = eval m ρ w' := by
  have key : ∀ a, Acc (RefTo m) a → ValidWord N lssa m (.ref a) →
      ∃ w', deref m (.ref a) = some w' ∧ ValidWord N lssa m w' ∧ (∀ a, w' = .ref a → m a = .ref a) ∧
        ∀ ρ, Model N m ρ → eval m ρ (.ref a) = eval m ρ w' := by
    intro a ha
    induction ha with
    | intro a _ ih =>
      intro hw
      rw [deref_ref]
      by_cases hs : m a = .ref a
      · rw [if_pos hs]
        exact ⟨_, rfl, hw, fun b hb => by simp only [Cell.ref.injEq] at hb; subst hb; exact hs, fun _ _ => rfl⟩
      · rw [if_neg hs]
        obtain ⟨hv, -, -⟩ := hwf a hw.1 hw.2
        have hev : ∀ ρ, Model N m ρ → eval m ρ (.ref a) = eval m ρ (m a) := fun ρ hρ => hρ a hw.1 hw.2
        by_cases hr : ∃ b, m a = .ref b
        · obtain ⟨b, hb⟩ := hr
          have hba : b ≠ a := by rintro rfl; exact hs hb
          rw [hb] at hv
          obtain ⟨w', h1, h2, h3, h4⟩ := ih b ⟨hb, hba⟩ hv
          rw [hb]
          exact ⟨w', h1, h2, h3, fun ρ hρ => by rw [hev ρ hρ, hb]; exact h4 ρ hρ⟩
        · rw [deref_nonref (fun b hb => hr ⟨b, hb⟩)]
          exact ⟨_, rfl, hv, fun b hb => absurd ⟨b, hb⟩ hr, hev⟩
  by_cases hr : ∃ a, w = .ref a
  · obtain ⟨a, rfl⟩ := hr
    exact key a (hwf a hw.1 hw.2).2.2 hw
  · exact ⟨_, deref_nonref (fun b hb => hr ⟨b, hb⟩), hw, fun a ha => absurd ⟨a, ha⟩ hr, fun _ _ => rfl⟩

/-! Binding -/

theorem bind_models {N lssa : Adr} {m : Mem} {x : Adr} {w : Cell} (hwf : WF N lssa m) (hx : x < N)
    (hu : m x = .ref x) (hw : ValidWord N lssa m w) (ρ : Adr → T) :
    Model N (m.set x w) ρ ↔ (Model N m ρ ∧ ρ x = eval m ρ w) := by
  have hs : Same m (m.set x w) := Same.set (by rw [hu]; rfl) (valid_isTerm hw)
  constructor
  · intro h
    constructor
    · intro a ha hta
      by_cases hax : a = x
      · subst hax; rw [hu]; rfl
      · have := h a ha (by rw [hs.isTerm]; exact hta)
        rw [set_other _ _ _ _ hax, hs.eval (hwf a ha hta).1] at this
        exact this
    · have := h x hx (by rw [set_same]; exact valid_isTerm hw)
      rw [set_same, hs.eval hw] at this
      exact this
  · rintro ⟨h1, h2⟩ a ha hta
    by_cases hax : a = x
    · subst hax; rw [set_same, hs.eval hw]; exact h2
    · rw [hs.isTerm] at hta
      rw [set_other _ _ _ _ hax, hs.eval (hwf a ha hta).1]
      exact h1 a ha hta

theorem bind_wf {N lssa : Adr} {m : Mem} {x : Adr} {w : Cell} (hwf : WF N lssa m)
    (hu : m x = .ref x) (hw : ValidWord N lssa m w) (hle : ∀ b, w = .ref b → m b = .ref b ∧ (x < lssa → b < lssa)) :
    WF N lssa (m.set x w) := by
  have hs : Same m (m.set x w) := Same.set (by rw [hu]; rfl) (valid_isTerm hw)
  have hacc : ∀ a, Acc (RefTo m) a → Acc (RefTo (m.set x w)) a := by
    intro a ha
    induction ha with
    | intro a _ ih =>
      refine Acc.intro a ?_
      rintro b ⟨hb, hba⟩
      by_cases hax : a = x
      · subst hax
        rw [set_same] at hb
        have hbb := (hle b hb).1
        refine Acc.intro b ?_
        rintro c ⟨hc, hcb⟩
        rw [set_other _ _ _ _ hba, hbb] at hc
        simp only [Cell.ref.injEq] at hc
        exact absurd hc.symm hcb
      · rw [set_other _ _ _ _ hax] at hb
        exact ih b ⟨hb, hba⟩
  intro a ha hta
  by_cases hax : a = x
  · subst hax; rw [set_same]
    exact ⟨hs.valid hw, fun b hb => (hle b hb).2, hacc _ (hwf a ha (by rw [hu]; rfl)).2.2⟩
  · rw [hs.isTerm] at hta
    rw [set_other _ _ _ _ hax]
    obtain ⟨h1, h2, h3⟩ := hwf a ha hta
    exact ⟨hs.valid h1, h2, hacc _ h3⟩

/-! Occurs check -/

theorem eval_stc {m : Mem} {a : Adr} {f n : Nat} (h : m a = .fn f n) (ρ : Adr → T) :
    eval m ρ (.stc a) = .app f ((List.range n).map fun i => ρ (a + 1 + i)) := by
  simp only [eval]; rw [h]

theorem size_arg {m : Mem} {a : Adr} {f n : Nat} (h : m a = .fn f n) (ρ : Adr → T) (i : Nat) (hi : i < n) :
    sizeOf (ρ (a + 1 + i)) < sizeOf (eval m ρ (.stc a)) := by
  rw [eval_stc h]
  have : ρ (a + 1 + i) ∈ (List.range n).map fun i => ρ (a + 1 + i) := List.mem_map.mpr ⟨i, List.mem_range.mpr hi, rfl⟩
  have := List.sizeOf_lt_of_mem this
  simp only [T.app.sizeOf_spec]
  omega

theorem occursArgs_true {m : Mem} (rec : Cell → Option Bool) (k : Nat) (a : Adr) (h : occursArgs rec m k a = some true) :
    ∃ i, i < k ∧ rec (m (a + i)) = some true := by
  fun_induction occursArgs rec m k a with
  | case1 => simp at h
  | case2 a => exact ⟨0, by omega, h⟩
  | case3 a k hr ih =>
    obtain ⟨i, h1, h2⟩ := ih h
    exact ⟨i + 1, by omega, by rw [show k + (i + 1) = k + 1 + i by omega]; exact h2⟩
  | case4 a k hr => exact ⟨0, by omega, h⟩

theorem occursArgs_false {m : Mem} (rec : Cell → Option Bool) (k : Nat) (a : Adr) (h : occursArgs rec m k a = some false) :
    ∀ i, i < k → rec (m (a + i)) = some false := by
  fun_induction occursArgs rec m k a with
  | case1 => simp at h
  | case2 a => intro i hi; have : i = 0 := by omega
               subst this; exact h
  | case3 a k hr ih =>
    intro i hi
    cases i with
    | zero => exact hr
    | succ i => rw [show k + (i + 1) = k + 1 + i by omega]; exact ih h i (by omega)
  | case4 a k hr => exact absurd h (by intro h; exact hr h)

/-- If the check finds the variable, its value is at most as large as the term, and smaller if the term is
a list or a structure. -/
theorem occurs_true {N lssa : Adr} {m : Mem} (hwf : WF N lssa m) (x : Adr) (n : Nat) (w : Cell)
    (hw : ValidWord N lssa m w) (h : occurs m x n w = some true) (ρ : Adr → T) (hρ : Model N m ρ) :
    sizeOf (ρ x) ≤ sizeOf (eval m ρ w) ∧ ((∀ a, w ≠ .ref a) → sizeOf (ρ x) < sizeOf (eval m ρ w)) := by
  induction n generalizing w with
  | zero => simp [occurs] at h
  | succ n ih =>
    obtain ⟨w', h1, h2, h3, h4⟩ := deref_spec hwf w hw
    rw [occurs, h1] at h
    rw [h4 ρ hρ]
    have hnr : (∀ a, w ≠ .ref a) → w' = w := by
      intro hne
      cases w with
      | ref a => exact absurd rfl (hne a)
      | _ => simpa [deref] using h1.symm
    cases w' with
    | ref a =>
      simp at h
      subst h
      refine ⟨Nat.le_refl _, fun hne => ?_⟩
      exact absurd (hnr hne) (fun h => hne a h.symm)
    | lst a =>
      simp only at h
      have key : sizeOf (ρ x) < sizeOf (eval m ρ (.lst a)) := by
        simp only [Unify.eval, T.lst.sizeOf_spec]
        have ha := h2.2.2
        split at h
        · rename_i hf
          have := (ih (m (a + 1)) (hwf _ h2.1 ha.2).1 h).1
          rw [← hρ _ h2.1 ha.2] at this
          omega
        · have := (ih (m a) (hwf _ (by have := h2.1; omega) ha.1).1 h).1
          rw [← hρ _ (by have := h2.1; omega) ha.1] at this
          omega
      exact ⟨Nat.le_of_lt key, fun _ => key⟩
    | stc a =>
      simp only at h
      obtain ⟨f, k, hf, hk0, hkN, hkl, hkt⟩ := h2
      rw [hf] at h
      simp only at h
      obtain ⟨i, hi, hi2⟩ := occursArgs_true _ _ _ h
      have := (ih (m (a + 1 + i)) (hwf _ (by omega) (hkt i hi)).1 hi2).1
      rw [← hρ _ (by omega) (hkt i hi)] at this
      have := size_arg hf ρ i hi
      exact ⟨by omega, fun _ => by omega⟩
    | _ => simp at h

/-! Reachability -/

/-- Addresses reachable from an address. -/
inductive Reach (m : Mem) (x : Adr) : Adr → Prop
  | self : Reach m x x
  | step {a b : Adr} : Child m b a → Reach m x b → Reach m x a

/-- Addresses reachable from a word. -/
def ReachW (m : Mem) (x : Adr) (w : Cell) : Prop := ∃ b, Kid m w b ∧ Reach m x b

theorem reachW_ref {m : Mem} {x a : Adr} : ReachW m x (.ref a) ↔ Reach m x a := by
  constructor
  · rintro ⟨b, rfl, h⟩; exact h
  · intro h; exact ⟨a, rfl, h⟩

theorem reach_cases {m : Mem} {x a : Adr} (h : Reach m x a) : a = x ∨ (m a ≠ .ref a ∧ ReachW m x (m a)) := by
  cases h with
  | self => exact Or.inl rfl
  | step h1 h2 => exact Or.inr ⟨h1.1, _, h1.2, h2⟩

/-- Dereferencing does not lose reachable variables. -/
theorem deref_reach {m : Mem} {x : Adr} (hx : m x = .ref x) (w w' : Cell) (h : deref m w = some w')
    (hr : ReachW m x w) : ReachW m x w' := by
  refine deref.partial_correctness m (fun w w' => ReachW m x w → ReachW m x w') ?_ w w' h hr
  intro f hf w w' h hr
  cases w with
  | ref a =>
    simp only at h
    by_cases hs : m a = .ref a
    · rw [if_pos hs] at h; simp at h; subst h; exact hr
    · rw [if_neg hs] at h
      rcases reach_cases (reachW_ref.mp hr) with rfl | ⟨_, h2⟩
      · exact absurd hx hs
      · exact hf (m a) w' h h2
  | _ => simp at h; subst h; exact hr

/-- If the check does not find the variable, it is not reachable. -/
theorem occurs_false {N lssa : Adr} {m : Mem} (hwf : WF N lssa m) (x : Adr) (hx : m x = .ref x) (n : Nat) (w : Cell)
    (hw : ValidWord N lssa m w) (h : occurs m x n w = some false) : ¬ ReachW m x w := by
  induction n generalizing w with
  | zero => simp [occurs] at h
  | succ n ih =>
    obtain ⟨w', h1, h2, h3, h4⟩ := deref_spec hwf w hw
    rw [occurs, h1] at h
    intro hr
    have hr' := deref_reach hx _ _ h1 hr
    have sub : ∀ b, isTerm (m b) = true → b < N → occurs m x n (m b) = some false → ¬ Reach m x b := by
      intro b hb hbN ho hrb
      have hno := ih (m b) (hwf b hbN hb).1 ho
      rcases reach_cases hrb with rfl | ⟨_, h⟩
      · apply hno; rw [hx]; exact reachW_ref.mpr .self
      · exact hno h
    cases w' with
    | ref a =>
      simp only [Option.some.injEq, decide_eq_false_iff_not] at h
      rcases reach_cases (reachW_ref.mp hr') with rfl | ⟨h5, _⟩
      · exact h rfl
      · exact h5 (h3 a rfl)
    | lst a =>
      simp only at h
      split at h
      · rename_i hf
        obtain ⟨b, hb, hrb⟩ := hr'
        rcases hb with rfl | rfl
        · exact sub _ h2.2.2.1 (by have := h2.1; omega) hf hrb
        · exact sub _ h2.2.2.2 h2.1 h hrb
      · rename_i hne; exact hne h
    | stc a =>
      simp only at h
      obtain ⟨f, k, hf, hk0, hkN, hkl, hkt⟩ := h2
      rw [hf] at h
      simp only at h
      have := occursArgs_false _ _ _ h
      obtain ⟨b, ⟨f', k', hb1, hb2, hb3⟩, hrb⟩ := hr'
      rw [hf] at hb1
      simp only [Cell.fn.injEq] at hb1
      obtain ⟨rfl, rfl⟩ := hb1
      have hbe : b = a + 1 + (b - (a + 1)) := by omega
      rw [hbe] at hrb
      exact sub _ (hkt _ (by omega)) (by omega) (this _ (by omega)) hrb
    | _ => obtain ⟨b, hb, _⟩ := hr'; exact hb

theorem kid_same {m m' : Mem} (h : Same m m') (w : Cell) (b : Adr) : Kid m' w b ↔ Kid m w b := by
  cases w with
  | stc a =>
    constructor
    · rintro ⟨f, n, h1, h2⟩; exact ⟨f, n, h.fn' h1, h2⟩
    · rintro ⟨f, n, h1, h2⟩; exact ⟨f, n, h.fn h1, h2⟩
  | _ => exact Iff.rfl

theorem kid_valid {N lssa : Adr} {m : Mem} {w : Cell} (hw : ValidWord N lssa m w) {b : Adr} (hb : Kid m w b) :
    b < N ∧ isTerm (m b) = true ∧ ((∀ a, w ≠ .ref a) → b < lssa) := by
  cases w with
  | ref a => simp only [Kid] at hb; subst hb; exact ⟨hw.1, hw.2, fun h => absurd rfl (h _)⟩
  | lst a =>
    obtain ⟨h1, h2, h3, h4⟩ := hw
    rcases hb with rfl | rfl
    · exact ⟨by omega, h3, fun _ => by omega⟩
    · exact ⟨h1, h4, fun _ => h2⟩
  | stc a =>
    obtain ⟨f, n, h1, h2, h3, h4, h5⟩ := hw
    obtain ⟨f', n', k1, k2, k3⟩ := hb
    rw [h1] at k1
    simp only [Cell.fn.injEq] at k1
    obtain ⟨rfl, rfl⟩ := k1
    refine ⟨by omega, ?_, fun _ => by omega⟩
    rw [show b = a + 1 + (b - (a + 1)) by omega]
    exact h5 _ (by omega)
  | _ => exact absurd hb (by simp [Kid])

/-- Binding `x` to a word from which it is not reachable does not create a cycle. -/
theorem bind_acyclic {N lssa : Adr} {m : Mem} {x : Adr} {w : Cell} (hac : Acyclic N m)
    (hxN : x < N) (hx : m x = .ref x) (hw : ValidWord N lssa m w) (hno : ¬ ReachW m x w) :
    Acyclic N (m.set x w) := by
  have hs : Same m (m.set x w) := Same.set (by rw [hx]; rfl) (valid_isTerm hw)
  have hchild : ∀ a b, a ≠ x → Child (m.set x w) b a → Child m b a := by
    intro a b hne hc
    obtain ⟨h1, h2⟩ := hc
    rw [set_other _ _ _ _ hne] at h1 h2
    exact ⟨h1, (kid_same hs _ _).mp h2⟩
  -- addresses which do not reach x
  have step1 : ∀ a, Acc (Child m) a → ¬ Reach m x a → Acc (Child (m.set x w)) a := by
    intro a ha
    induction ha with
    | intro a _ ih =>
      intro hr
      refine Acc.intro a ?_
      intro b hb
      have hne : a ≠ x := by rintro rfl; exact hr .self
      have hb' := hchild a b hne hb
      exact ih b hb' (fun h => hr (.step hb' h))
  have accN : ∀ b, b < N → isTerm (m b) = true → Acc (Child m) b := hac
  have step2 : Acc (Child (m.set x w)) x := by
    refine Acc.intro x ?_
    rintro b ⟨h1, h2⟩
    rw [set_same] at h2
    rw [kid_same hs] at h2
    have hv := kid_valid hw h2
    exact step1 b (accN b hv.1 hv.2.1) (fun h => hno ⟨b, h2, h⟩)
  have step3 : ∀ a, Acc (Child m) a → Acc (Child (m.set x w)) a := by
    intro a ha
    induction ha with
    | intro a _ ih =>
      by_cases hne : a = x
      · subst hne; exact step2
      · refine Acc.intro a ?_
        intro b hb
        exact ih b (hchild a b hne hb)
  intro a ha hta
  exact step3 a (hac a ha (by rw [hs.isTerm] at hta; exact hta))

/-- A variable of the local stack is not reachable from a list or a structure. -/
theorem local_not_reach {N lssa : Adr} {m : Mem} (hwf : WF N lssa m) {x : Adr} (hx : lssa ≤ x) {w : Cell}
    (hw : ValidWord N lssa m w) (hne : ∀ a, w ≠ .ref a) : ¬ ReachW m x w := by
  have key : ∀ a, Reach m x a → a < N → isTerm (m a) = true → a < lssa → False := by
    intro a ha
    induction ha with
    | self => intro _ _ h; omega
    | step hc hr ih =>
      rename_i a b
      intro h1 h2 h3
      obtain ⟨hv, hle, -⟩ := hwf a h1 h2
      obtain ⟨k1, k2, k3⟩ := kid_valid hv hc.2
      apply ih k1 k2
      by_cases hrf : ∃ c, m a = .ref c
      · obtain ⟨c, hc'⟩ := hrf
        have h5 := hc.2
        rw [hc'] at h5
        simp only [Kid] at h5
        subst h5
        exact hle _ hc' h3
      · exact k3 (fun c hc' => hrf ⟨c, hc'⟩)
  rintro ⟨b, hb, hr⟩
  obtain ⟨k1, k2, k3⟩ := kid_valid hw hb
  exact key b hr k1 k2 (k3 hne)

end Gp.Unify
