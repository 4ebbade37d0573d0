import Verif.ListBip.Spec
import Verif.Unify.Sound
namespace Gp.ListBip
open Gp.Heap Gp.Unify

/-- The terms remain terms, the functor words and floats are kept. -/
structure Grow (m m' : Heap.Mem) : Prop where
  term : ∀ a, isTerm (m a) = true → isTerm (m' a) = true
  keep : ∀ a, isTerm (m a) = false → m a ≠ .fn 0 0 → m' a = m a

theorem Grow.refl (m : Heap.Mem) : Grow m m := ⟨fun _ h => h, fun _ _ _ => rfl⟩

theorem Grow.trans {m1 m2 m3 : Heap.Mem} (h : Grow m1 m2) (h' : Grow m2 m3) : Grow m1 m3 where
  term a ha := h'.term a (h.term a ha)
  keep a ha hne := by
    have := h.keep a ha hne
    rw [h'.keep a (by rw [this]; exact ha) (by rw [this]; exact hne), this]

theorem Same.grow {m m' : Heap.Mem} (h : Same m m') : Grow m m' where
  term a ha := by rw [h.isTerm]; exact ha
  keep a ha hne := by
    rcases h a with h | ⟨h, _⟩
    · exact h.symm
    · rw [h] at ha; simp at ha

theorem Grow.valid {N lssa : Adr} {m m' : Heap.Mem} (h : Grow m m') {w : Cell} (hw : ValidWord N lssa m w) :
    ValidWord N lssa m' w := by
  cases w with
  | ref b => exact ⟨hw.1, h.term _ hw.2⟩
  | lst b => exact ⟨hw.1, hw.2.1, h.term _ hw.2.2.1, h.term _ hw.2.2.2⟩
  | stc b =>
    obtain ⟨f, n, h1, h2, h3, h4, h5⟩ := hw
    refine ⟨f, n, ?_, h2, h3, h4, fun i hi => h.term _ (h5 i hi)⟩
    rw [h.keep b (by rw [h1]; rfl) (by rw [h1]; simp; omega), h1]
  | flt b =>
    obtain ⟨x, hx⟩ := hw
    exact ⟨x, by rw [h.keep b (by rw [hx]; rfl) (by rw [hx]; simp), hx]⟩
  | _ => exact hw

theorem Grow.eval {N lssa : Adr} {m m' : Heap.Mem} (h : Grow m m') {w : Cell} (hw : ValidWord N lssa m w) (ρ : Adr → T) :
    eval m' ρ w = eval m ρ w := by
  cases w with
  | stc b =>
    obtain ⟨f, n, h1, h2, _⟩ := hw
    simp only [Unify.eval]; rw [h.keep b (by rw [h1]; rfl) (by rw [h1]; simp; omega)]
  | flt b =>
    obtain ⟨x, hx⟩ := hw
    simp only [Unify.eval]; rw [h.keep b (by rw [hx]; rfl) (by rw [hx]; simp)]
  | _ => rfl

theorem Agree.refl (m : Heap.Mem) (ρ : Adr → T) : Agree m ρ ρ := fun _ _ => rfl

theorem Agree.eval {N lssa : Adr} {m : Heap.Mem} {ρ ρ' : Adr → T} (h : Agree m ρ ρ') {w : Cell}
    (hw : ValidWord N lssa m w) : eval m ρ' w = eval m ρ w := by
  cases w with
  | ref b => exact h _ hw.2
  | lst b => simp only [Unify.eval]; rw [h _ hw.2.2.1, h _ hw.2.2.2]
  | stc b =>
    obtain ⟨f, n, h1, h2, h3, h4, h5⟩ := hw
    simp only [Unify.eval, h1]
    congr 1
    refine List.map_congr_left ?_
    intro i hi
    exact h _ (h5 i (List.mem_range.mp hi))
  | _ => rfl

theorem Agree.trans {m1 m2 : Heap.Mem} {ρ1 ρ2 ρ3 : Adr → T} (h : Agree m1 ρ1 ρ2) (h' : Agree m2 ρ2 ρ3)
    (hg : Grow m1 m2) : Agree m1 ρ1 ρ3 := fun a ha => by rw [h' a (hg.term a ha), h a ha]

/-- A transition of the memory, in which the derivations `A i` become `B i`. -/
structure Sim {ι : Type} (N : Adr) (s s' : St) (A B : ι → (Adr → T) → Prop) : Prop where
  ok : Ok N s'
  lssa : s'.lssa = s.lssa
  grow : Grow s.mem s'.mem
  down : ∀ ρ, Model N s'.mem ρ → Model N s.mem ρ ∧ ∀ i, B i ρ → A i ρ
  up : ∀ ρ i, Model N s.mem ρ → A i ρ → ∃ ρ', Model N s'.mem ρ' ∧ Agree s.mem ρ ρ' ∧ B i ρ'

/-- A transition of the memory which adds the constraint `P`. -/
structure Step (N : Adr) (s : St) (P : (Adr → T) → Prop) (s' : St) : Prop where
  ok : Ok N s'
  lssa : s'.lssa = s.lssa
  grow : Grow s.mem s'.mem
  down : ∀ ρ, Model N s'.mem ρ → Model N s.mem ρ ∧ P ρ
  up : ∀ ρ, Model N s.mem ρ → P ρ → ∃ ρ', Model N s'.mem ρ' ∧ Agree s.mem ρ ρ'

variable {ι : Type} {N : Adr} {s s' s'' s0 : St}

theorem Sim.trans {A B C : ι → (Adr → T) → Prop} (h : Sim N s s' A B) (h' : Sim N s' s'' B C) : Sim N s s'' A C where
  ok := h'.ok
  lssa := by rw [h'.lssa, h.lssa]
  grow := h.grow.trans h'.grow
  down ρ hρ :=
    have h1 := h'.down ρ hρ
    have h2 := h.down ρ h1.1
    ⟨h2.1, fun i hi => h2.2 i (h1.2 i hi)⟩
  up ρ i hρ ha := by
    obtain ⟨ρ1, m1, g1, b1⟩ := h.up ρ i hρ ha
    obtain ⟨ρ2, m2, g2, b2⟩ := h'.up ρ1 i m1 b1
    exact ⟨ρ2, m2, g1.trans g2 h.grow, b2⟩

theorem Step.sim {P : (Adr → T) → Prop} {A B : ι → (Adr → T) → Prop} (h : Step N s P s')
    (hB : ∀ i ρ, Model N s.mem ρ → Model N s'.mem ρ → P ρ → B i ρ → A i ρ)
    (hP : ∀ i ρ, Model N s.mem ρ → A i ρ → P ρ)
    (hA : ∀ i ρ ρ', Model N s'.mem ρ' → Agree s.mem ρ ρ' → A i ρ → B i ρ') : Sim N s s' A B where
  ok := h.ok
  lssa := h.lssa
  grow := h.grow
  down ρ hρ := ⟨(h.down ρ hρ).1, fun i hi => hB i ρ (h.down ρ hρ).1 hρ (h.down ρ hρ).2 hi⟩
  up ρ i hρ ha := by
    obtain ⟨ρ1, m1, g1⟩ := h.up ρ hρ (hP i ρ hρ ha)
    exact ⟨ρ1, m1, g1, hA i ρ ρ1 m1 g1 ha⟩

theorem Sim.refl {A B : ι → (Adr → T) → Prop} (hok : Ok N s) (h : ∀ i ρ, Model N s.mem ρ → (A i ρ ↔ B i ρ)) :
    Sim N s s A B where
  ok := hok
  lssa := rfl
  grow := Grow.refl _
  down ρ hρ := ⟨hρ, fun i hi => (h i ρ hρ).mpr hi⟩
  up ρ i hρ ha := ⟨ρ, hρ, Agree.refl _ _, (h i ρ hρ).mp ha⟩

/-- If after a transition the derivation `B i` is true, the state is an answer of `A i`. -/
theorem Sim.answer {A B : ι → (Adr → T) → Prop} (h : Sim N s s' A B) {i : ι}
    (hb : ∀ ρ, Model N s'.mem ρ → B i ρ) : Answer N s (A i) s' where
  ok := h.ok
  sound ρ hρ := ⟨(h.down ρ hρ).1, (h.down ρ hρ).2 i (hb ρ hρ)⟩
  complete ρ hρ ha := by
    obtain ⟨ρ1, m1, g1, _⟩ := h.up ρ i hρ ha
    exact ⟨ρ1, m1, g1⟩

theorem Sim.step {A B : ι → (Adr → T) → Prop} (h : Sim N s s' A B) {i : ι} {P : (Adr → T) → Prop}
    (h' : Step N s' P s'') (hb : ∀ ρ, Model N s'.mem ρ → (B i ρ ↔ P ρ)) : Answer N s (A i) s'' where
  ok := h'.ok
  sound ρ hρ :=
    have h1 := h'.down ρ hρ
    have h2 := h.down ρ h1.1
    ⟨h2.1, h2.2 i ((hb ρ h1.1).mpr h1.2)⟩
  complete ρ hρ ha := by
    obtain ⟨ρ1, m1, g1, b1⟩ := h.up ρ i hρ ha
    obtain ⟨ρ2, m2, g2⟩ := h'.up ρ1 m1 ((hb ρ1 m1).mp b1)
    exact ⟨ρ2, m2, g1.trans g2 h.grow⟩

theorem Sim.none {A B : ι → (Adr → T) → Prop} (h : Sim N s s' A B) {i : ι} (hn : NoAnswer N s' (B i)) :
    NoAnswer N s (A i) := by
  intro ρ hρ ha
  obtain ⟨ρ1, m1, _, b1⟩ := h.up ρ i hρ ha
  exact hn ρ1 m1 b1

/-! The primitives -/

theorem deref_ok (hok : Ok N s) {w : Cell} (hw : ValidWord N s.lssa s.mem w) :
    ∃ w', deref s.mem w = some w' ∧ ValidWord N s.lssa s.mem w' ∧ (∀ a, w' = .ref a → s.mem a = .ref a) ∧
      ∀ ρ, Model N s.mem ρ → eval s.mem ρ w = eval s.mem ρ w' := deref_spec hok.wf w hw

theorem unify_step (hok : Ok N s) {E : Env} {u v : Cell} (hu : ValidWord N s.lssa s.mem u)
    (hv : ValidWord N s.lssa s.mem v) (h : unify false E.fd E.fuel s u v = some (true, s')) :
    Step N s (fun ρ => eval s.mem ρ u = eval s.mem ρ v) s' := by
  have hr := unify_res E.fuel s u v true s' rfl hok.wf hu hv h
  refine ⟨⟨by rw [hr.regs.2.2.2]; exact hr.wf, ?_, by rw [hr.regs.2.2.2]; exact hok.top⟩, hr.regs.2.2.2, Same.grow hr.same, ?_, ?_⟩
  · intro a h1 h2
    rw [hr.regs.1] at h1
    rw [hr.regs.2.2.2] at h2
    exact hr.same.fn (hok.free a h1 h2)
  · intro ρ hρ; exact (hr.sol rfl ρ).mp hρ
  · intro ρ hρ hp; exact ⟨ρ, (hr.sol rfl ρ).mpr ⟨hρ, hp⟩, Agree.refl _ _⟩

theorem unify_none (hok : Ok N s) {E : Env} {u v : Cell} (hu : ValidWord N s.lssa s.mem u)
    (hv : ValidWord N s.lssa s.mem v) (h : unify false E.fd E.fuel s u v = some (false, s')) :
    NoAnswer N s (fun ρ => eval s.mem ρ u = eval s.mem ρ v) :=
  (unify_res E.fuel s u v false s' rfl hok.wf hu hv h).fail rfl

/-- Binding of a variable to a word which is not a reference. -/
theorem bind_step (hok : Ok N s) {x : Adr} {w : Cell} (hx : x < N) (hu : s.mem x = .ref x)
    (hw : ValidWord N s.lssa s.mem w) (hne : ∀ b, w ≠ .ref b) :
    Step N s (fun ρ => ρ x = eval s.mem ρ w) (s.bindUV x w) := by
  have hs : Same s.mem (s.mem.set x w) := Same.set (by rw [hu]; rfl) (valid_isTerm hw)
  refine ⟨⟨bind_wf hok.wf hu hw (fun b hb => absurd hb (hne b)), ?_, hok.top⟩, rfl, Same.grow hs, ?_, ?_⟩
  · intro a h1 h2; exact hs.fn (hok.free a h1 h2)
  · intro ρ hρ; exact (bind_models hok.wf hx hu hw ρ).mp hρ
  · intro ρ hρ hp; exact ⟨ρ, (bind_models hok.wf hx hu hw ρ).mpr ⟨hρ, hp⟩, Agree.refl _ _⟩

/-- A word which may be stored in the global stack. -/
def Global (lssa : Adr) (w : Cell) : Prop := ∀ b, w = .ref b → b < lssa

theorem set_grow {m : Heap.Mem} {p : Adr} {w : Cell} (hp : m p = .fn 0 0) (hw : isTerm w = true) : Grow m (m.set p w) where
  term a ha := by
    by_cases h : a = p
    · subst h; rw [set_same]; exact hw
    · rw [set_other _ _ _ _ h]; exact ha
  keep a ha hne := by
    by_cases h : a = p
    · subst h; exact absurd hp hne
    · rw [set_other _ _ _ _ h]

theorem alloc_acc {N lssa : Adr} {m : Heap.Mem} (hwf : WF N lssa m) {p : Adr} {w : Cell} (hp : m p = .fn 0 0)
    (a : Adr) (ha : a < N) (ht : isTerm (m a) = true) (hacc : Acc (RefTo m) a) : Acc (RefTo (m.set p w)) a := by
  induction hacc with
  | intro a _ ih =>
    refine Acc.intro a ?_
    rintro b ⟨hb, hne⟩
    have hap : a ≠ p := by intro h; subst h; rw [hp] at ht; simp [isTerm] at ht
    rw [set_other _ _ _ _ hap] at hb
    have hv := (hwf a ha ht).1
    rw [hb] at hv
    exact ih b ⟨hb, hne⟩ hv.1 hv.2

/-- Allocation of a word in the global stack. -/
theorem alloc_wf {lssa : Adr} {m : Heap.Mem} (hwf : WF N lssa m) {p : Adr} {w : Cell} (hp : m p = .fn 0 0)
    (hpl : p < lssa) (hl : lssa ≤ N) (hw : ValidWord N lssa (m.set p w) w) (hg : Global lssa w)
    (hr : ∀ b, w = .ref b → b ≠ p → isTerm (m b) = true) : WF N lssa (m.set p w) := by
  have hgr := set_grow hp (valid_isTerm hw)
  intro a ha hta
  by_cases h : a = p
  · subst h
    rw [set_same]
    refine ⟨hw, fun b hb _ => hg b hb, Acc.intro a ?_⟩
    rintro b ⟨hb, hne⟩
    rw [set_same] at hb
    have ht := hr b hb hne
    rw [hb] at hw
    exact alloc_acc hwf hp b hw.1 ht (hwf b hw.1 ht).2.2
  · rw [set_other _ _ _ _ h] at hta ⊢
    obtain ⟨h1, h2, h3⟩ := hwf a ha hta
    exact ⟨hgr.valid h1, h2, alloc_acc hwf hp a ha hta h3⟩

theorem alloc_down {lssa : Adr} {m : Heap.Mem} (hwf : WF N lssa m) {p : Adr} {w : Cell} (hp : m p = .fn 0 0)
    (hw : isTerm w = true) (ρ : Adr → T) (h : Model N (m.set p w) ρ) : Model N m ρ := by
  intro a ha hta
  have hap : a ≠ p := by intro h; subst h; rw [hp] at hta; simp [isTerm] at hta
  have := h a ha (by rw [set_other _ _ _ _ hap]; exact hta)
  rw [set_other _ _ _ _ hap, (set_grow hp hw).eval (hwf a ha hta).1] at this
  exact this

theorem alloc_up {lssa : Adr} {m : Heap.Mem} (hwf : WF N lssa m) {p : Adr} {w : Cell} (hp : m p = .fn 0 0)
    (hw : ValidWord N lssa m w) (ρ : Adr → T) (h : Model N m ρ) :
    ∃ ρ', Model N (m.set p w) ρ' ∧ Agree m ρ ρ' := by
  have hgr := set_grow hp (valid_isTerm hw)
  have hag : Agree m ρ (fun a => if a = p then eval m ρ w else ρ a) := by
    intro a ha
    have hap : a ≠ p := by intro h; subst h; rw [hp] at ha; simp [isTerm] at ha
    simp [hap]
  refine ⟨fun a => if a = p then eval m ρ w else ρ a, ?_, hag⟩
  intro a ha hta
  by_cases h' : a = p
  · subst h'
    rw [set_same, hgr.eval hw, hag.eval hw]; simp
  · rw [set_other _ _ _ _ h'] at hta ⊢
    have hv := (hwf a ha hta).1
    rw [hgr.eval hv, hag.eval hv]
    simp only [h', if_false]
    exact h a ha hta

theorem alloc_up_var {lssa : Adr} {m : Heap.Mem} (hwf : WF N lssa m) {p : Adr} (hp : m p = .fn 0 0)
    (ρ : Adr → T) (h : Model N m ρ) : Model N (m.set p (.ref p)) ρ := by
  intro a ha hta
  by_cases h' : a = p
  · subst h'; rw [set_same]; rfl
  · rw [set_other _ _ _ _ h'] at hta ⊢
    have hv := (hwf a ha hta).1
    rw [(set_grow (w := .ref p) hp rfl).eval hv]
    exact h a ha hta

/-- `Global_Push` of a valid word. -/
theorem push_step (hok : Ok N s) {w : Cell} (hw : ValidWord N s.lssa s.mem w) (hg : Global s.lssa w)
    (h : push s w = some s') :
    Step N s (fun _ => True) s' ∧ s'.mem = s.mem.set s.h w ∧ s'.h = s.h + 1 ∧ s.h < s.lssa := by
  unfold push at h
  split at h
  next hlt =>
    simp only [Option.some.injEq] at h
    subst h
    have hp := hok.free s.h (Nat.le_refl _) hlt
    have hgr := set_grow hp (valid_isTerm hw)
    refine ⟨⟨⟨alloc_wf hok.wf hp hlt hok.top (hgr.valid hw) hg ?_, ?_, hok.top⟩, rfl, hgr, ?_, ?_⟩, rfl, rfl, hlt⟩
    · intro b hb _; subst hb; exact hw.2
    · intro a h1 h2
      simp only at h1 h2 ⊢
      rw [set_other _ _ _ _ (by omega)]
      exact hok.free a (by omega) h2
    · intro ρ hρ; exact ⟨alloc_down hok.wf hp (valid_isTerm hw) ρ hρ, trivial⟩
    · intro ρ hρ _; exact alloc_up hok.wf hp hw ρ hρ
  next => simp at h

theorem pushVar_step (hok : Ok N s) (h : push s (.ref s.h) = some s') :
    Step N s (fun _ => True) s' ∧ s'.mem = s.mem.set s.h (.ref s.h) ∧ s'.h = s.h + 1 ∧ s.h < s.lssa := by
  unfold push at h
  split at h
  next hlt =>
    simp only [Option.some.injEq] at h
    subst h
    have hp := hok.free s.h (Nat.le_refl _) hlt
    have hgr := set_grow (w := .ref s.h) hp rfl
    have htop := hok.top
    refine ⟨⟨⟨alloc_wf hok.wf hp hlt hok.top ⟨by omega, by rw [set_same]; rfl⟩ ?_ ?_, ?_, hok.top⟩, rfl, hgr, ?_, ?_⟩, rfl, rfl, hlt⟩
    · intro b hb; cases hb; exact hlt
    · intro b hb hne; cases hb; exact absurd rfl hne
    · intro a h1 h2
      simp only at h1 h2 ⊢
      rw [set_other _ _ _ _ (by omega)]
      exact hok.free a (by omega) h2
    · intro ρ hρ; exact ⟨alloc_down hok.wf hp rfl ρ hρ, trivial⟩
    · intro ρ hρ _; exact ⟨ρ, alloc_up_var hok.wf hp ρ hρ, Agree.refl _ _⟩
  next => simp at h

end Gp.ListBip
