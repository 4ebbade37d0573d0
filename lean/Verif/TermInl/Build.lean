import Verif.TermInl.Lemmas
namespace Gp.TermInl
open Gp.Heap Gp.Unify Gp.ListBip

variable {N : Adr} {s s1 s2 s' s'' : St} {E : Env}

theorem fn_grow {m : Heap.Mem} {p f n : Nat} (hp : m p = .fn 0 0) : Grow m (m.set p (.fn f n)) where
  term a ha := by
    by_cases h : a = p
    · subst h; rw [hp] at ha; simp [isTerm] at ha
    · rw [set_other _ _ _ _ h]; exact ha
  keep a ha hne := by
    by_cases h : a = p
    · subst h; exact absurd hp hne
    · rw [set_other _ _ _ _ h]

theorem fn_term {m : Heap.Mem} {p f n a : Nat} (ha : isTerm ((m.set p (.fn f n)) a) = true) :
    a ≠ p ∧ (m.set p (.fn f n)) a = m a := by
  by_cases h : a = p
  · subst h; rw [set_same] at ha; simp [isTerm] at ha
  · exact ⟨h, set_other _ _ _ _ h⟩

theorem fn_wf {lssa : Adr} {m : Heap.Mem} (hwf : WF N lssa m) {p f n : Nat} (hp : m p = .fn 0 0) :
    WF N lssa (m.set p (.fn f n)) := by
  intro a ha hta
  obtain ⟨h1, h2⟩ := fn_term hta
  rw [h2] at hta ⊢
  obtain ⟨h3, h4, h5⟩ := hwf a ha hta
  exact ⟨(fn_grow hp).valid h3, h4, alloc_acc hwf hp a ha hta h5⟩

theorem fn_model {lssa : Adr} {m : Heap.Mem} (hwf : WF N lssa m) {p f n : Nat} (hp : m p = .fn 0 0) (ρ : Adr → T) :
    Model N (m.set p (.fn f n)) ρ ↔ Model N m ρ := by
  constructor
  · intro h a ha hta
    have hap : a ≠ p := by rintro rfl; rw [hp] at hta; simp [isTerm] at hta
    have := h a ha (by rw [set_other _ _ _ _ hap]; exact hta)
    rw [set_other _ _ _ _ hap, (fn_grow hp).eval (hwf a ha hta).1] at this
    exact this
  · intro h a ha hta
    obtain ⟨h1, h2⟩ := fn_term hta
    rw [h2] at hta ⊢
    rw [(fn_grow hp).eval (hwf a ha hta).1]
    exact h a ha hta

/-- The word of a functor is written in a free word. -/
theorem setFn_step (hok : Ok N s) {p f n : Nat} (hp : s.mem p = .fn 0 0) (hlt : p < s.h) :
    Step N s (fun _ => True) (setFn s p f n) := by
  refine ⟨⟨fn_wf hok.wf hp, ?_, hok.top⟩, rfl, fn_grow hp, fun ρ h => ⟨(fn_model hok.wf hp ρ).mp h, trivial⟩,
    fun ρ h _ => ⟨ρ, (fn_model hok.wf hp ρ).mpr h, Agree.refl _ _⟩⟩
  intro a h1 h2
  simp only [setFn] at h1 h2 ⊢
  rw [set_other _ _ _ _ (by omega)]
  exact hok.free a h1 h2

theorem pushFn_step (hok : Ok N s) {f n : Nat} (h : push s (.fn f n) = some s') :
    Step N s (fun _ => True) s' ∧ s'.mem = s.mem.set s.h (.fn f n) ∧ s'.h = s.h + 1 ∧ s.h < s.lssa ∧
      ∀ ρ, Model N s.mem ρ → Model N s'.mem ρ := by
  unfold push at h
  split at h
  next hlt =>
    simp only [Option.some.injEq] at h
    subst h
    have hp := hok.free s.h (Nat.le_refl _) hlt
    refine ⟨⟨⟨fn_wf hok.wf hp, ?_, hok.top⟩, rfl, fn_grow hp, fun ρ h => ⟨(fn_model hok.wf hp ρ).mp h, trivial⟩,
      fun ρ h _ => ⟨ρ, (fn_model hok.wf hp ρ).mpr h, Agree.refl _ _⟩⟩, rfl, rfl, hlt, fun ρ h => (fn_model hok.wf hp ρ).mpr h⟩
    intro a h1 h2
    simp only at h1 h2 ⊢
    rw [set_other _ _ _ _ (by omega)]
    exact hok.free a (by omega) h2
  next => simp at h

/-- The variables pushed. -/
structure Pushed (N : Adr) (n : Nat) (s s' : St) : Prop where
  step : Step N s (fun _ => True) s'
  h : s'.h = s.h + n
  top : n = 0 ∨ s.h + n ≤ s.lssa
  new : ∀ i, i < n → s'.mem (s.h + i) = .ref (s.h + i)
  old : ∀ a, (a < s.h ∨ s.h + n ≤ a) → s'.mem a = s.mem a
  up : ∀ ρ, Model N s.mem ρ → Model N s'.mem ρ

theorem pushVars_spec {n : Nat} : ∀ {s s' : St}, Ok N s → pushVars n s = some s' → Pushed N n s s' := by
  induction n with
  | zero =>
    intro s s' hok h
    simp only [pushVars, Option.some.injEq] at h
    subst h
    exact ⟨Step.refl hok fun _ _ => trivial, rfl, .inl rfl, fun i hi => absurd hi (by omega), fun _ _ => rfl, fun _ h => h⟩
  | succ n ih =>
    intro s s' hok h
    simp only [pushVars] at h
    split at h
    · simp at h
    · next s1 h1 =>
      obtain ⟨st, e1, e2, e3⟩ := pushVar_step hok h1
      have hp := hok.free s.h (Nat.le_refl _) e3
      have ih := ih st.ok h
      have hh := ih.h
      have hl := st.lssa
      refine ⟨st.trans ih.step (fun _ _ _ _ _ => trivial) (fun _ _ _ => trivial) (fun _ _ _ _ _ => trivial), by omega, ?_, ?_, ?_, ?_⟩
      · rcases ih.top with h | h <;> omega
      · intro i hi
        cases i with
        | zero => rw [ih.old _ (by omega), e1, Nat.add_zero, set_same]
        | succ i =>
          have := ih.new i (by omega)
          rw [e2] at this
          rw [show s.h + (i + 1) = s.h + 1 + i by omega]; exact this
      · intro a ha
        rw [ih.old a (by omega), e1, set_other _ _ _ _ (by omega)]
      · intro ρ hρ
        refine ih.up ρ ?_
        rw [e1]
        exact alloc_up_var hok.wf hp ρ hρ

theorem push_bind {a : Adr} {w c : Cell} (h : a ≠ s.h) : push (s.bindUV a w) c = (push s c).map fun s => s.bindUV a w := by
  unfold push
  by_cases hlt : s.h < s.lssa
  · rw [if_pos hlt, if_pos (show (s.bindUV a w).h < (s.bindUV a w).lssa from hlt)]
    simp only [Option.map_some, St.bindUV]
    congr 2
    funext x
    simp only [Heap.Mem.set]
    by_cases h1 : x = s.h
    · subst h1
      simp [Ne.symm h]
    · simp [h1]
  · rw [if_neg hlt, if_neg (show ¬ (s.bindUV a w).h < (s.bindUV a w).lssa from hlt)]
    rfl

theorem pushVars_bind {n : Nat} {a : Adr} {w : Cell} : ∀ {s : St}, (a < s.h ∨ s.lssa ≤ a) →
    pushVars n (s.bindUV a w) = (pushVars n s).map fun s => s.bindUV a w := by
  induction n with
  | zero => intro s _; rfl
  | succ n ih =>
    intro s h
    simp only [pushVars]
    by_cases hlt : s.h < s.lssa
    · have he : push s (.ref s.h) = some { s with mem := s.mem.set s.h (.ref s.h), h := s.h + 1 } := by
        unfold push; rw [if_pos hlt]
      rw [show (s.bindUV a w).h = s.h from rfl, push_bind (by omega), he]
      simp only [Option.map_some]
      exact ih (by simp only; omega)
    · have he : ∀ c, push s c = none := fun c => by unfold push; rw [if_neg hlt]
      rw [show (s.bindUV a w).h = s.h from rfl]
      have : push (s.bindUV a w) (.ref s.h) = none := by
        unfold push; rw [if_neg (show ¬ (s.bindUV a w).h < (s.bindUV a w).lssa from hlt)]
      rw [this, he]; rfl

/-- A variable is not above the global stack. -/
theorem var_place (hok : Ok N s) {a : Adr} (ha : s.mem a = .ref a) : a < s.h ∨ s.lssa ≤ a := by
  by_cases h : a < s.h
  · exact .inl h
  · by_cases h' : a < s.lssa
    · rw [hok.free a (by omega) h'] at ha; simp at ha
    · exact .inr (by omega)

/-- The variable `a` is bound to a term whose arguments are new variables. -/
theorem block {n : Nat} {F : List T → T} {a : Adr} {w : Cell} (hok : Ok N s) (st1 : Step N s (fun _ => True) s1)
    (hm : ∀ ρ, Model N s.mem ρ → Model N s1.mem ρ) (hp : pushVars n s1 = some s2) (haN : a < N) (ha : s1.mem a = .ref a)
    (has : s.mem a = .ref a)
    (hfr : ∀ i, i < n → isTerm (s.mem (s1.h + i)) = false) (hv : ValidWord N s1.lssa s2.mem w) (hne : ∀ b, w ≠ .ref b)
    (hF : ∀ ρ, eval s2.mem ρ w = F ((List.range n).map fun i => ρ (s1.h + i))) :
    Step N s (fun ρ => ∃ l : List T, l.length = n ∧ ρ a = F l) (s2.bindUV a w) := by
  have hpu := pushVars_spec st1.ok hp
  have hl2 : s2.lssa = s1.lssa := hpu.step.lssa
  have ha2 : s2.mem a = .ref a := by
    rw [hpu.old a ?_, ha]
    rcases var_place st1.ok ha with h | h
    · exact .inl h
    · rcases hpu.top with h' | h'
      · subst h'; by_cases hx : a < s1.h
        · exact .inl hx
        · exact .inr (by omega)
      · exact .inr (by omega)
  have bs := bind_step hpu.step.ok haN ha2 (by rw [hl2]; exact hv) hne
  have hta : isTerm (s.mem a) = true := by rw [has]; rfl
  refine ⟨bs.ok, by rw [bs.lssa, hl2, st1.lssa], (st1.grow.trans hpu.step.grow).trans bs.grow, ?_, ?_⟩
  · intro ρ hρ
    obtain ⟨h1, h2⟩ := bs.down ρ hρ
    refine ⟨(st1.down ρ (hpu.step.down ρ h1).1).1, _, ?_, h2.trans (hF ρ)⟩
    simp
  · rintro ρ hρ ⟨l, hl, he⟩
    have hag : Agree s.mem ρ (fun b => if s1.h ≤ b ∧ b < s1.h + n then l.getD (b - s1.h) (.var 0) else ρ b) := by
      intro b hb
      by_cases hb2 : s1.h ≤ b ∧ b < s1.h + n
      · have := hfr (b - s1.h) (by omega)
        rw [show s1.h + (b - s1.h) = b by omega, hb] at this
        simp at this
      · simp only [if_neg hb2]
    have hm1 := hpu.up _ (hm _ (Model.agree hok.wf hρ hag))
    obtain ⟨ρ', h1, h2⟩ := bs.up _ hm1 (by
      rw [hag a hta, hF, he]
      congr 1
      apply List.ext_getElem
      · simp [hl]
      · intro i h1 h2
        simp at h2
        simp [h2]
        rw [List.getElem?_eq_getElem h1]; rfl)
    exact ⟨ρ', h1, Agree.trans hag (fun b hb => h2 b ((st1.grow.trans hpu.step.grow).term b hb)) (Grow.refl _)⟩

/-- No list is a structure in the memory after the construction. -/
theorem NoDot.set {m : Heap.Mem} (h : NoDot m) {a : Adr} {w : Cell} (hw : w ≠ .fn 46 2) : NoDot (m.set a w) := by
  intro b
  by_cases hb : b = a
  · subst hb; rw [set_same]; exact hw
  · rw [set_other _ _ _ _ hb]; exact h b

theorem NoDot.pushVars {n : Nat} : ∀ {s s' : St}, NoDot s.mem → TermInl.pushVars n s = some s' → NoDot s'.mem := by
  induction n with
  | zero => intro s s' h h1; simp only [TermInl.pushVars, Option.some.injEq] at h1; subst h1; exact h
  | succ n ih =>
    intro s s' h h1
    simp only [TermInl.pushVars] at h1
    split at h1
    · simp at h1
    · next s1 h2 =>
      refine ih ?_ h1
      obtain ⟨_, e⟩ := push_eq h2
      have : s1.mem = s.mem.set s.h (.ref s.h) := by rw [e]
      rw [this]; exact NoDot.set h (by simp)

theorem newList_res (hok : Ok N s) (hnd : NoDot s.mem) {a : Adr} {o : Out} (haN : a < N) (ha : s.mem a = .ref a)
    (h : newList s a = some o) :
    ∃ s', o = .ret true s' ∧ NoDot s'.mem ∧ Step N s (fun ρ => ∃ x y, ρ a = .lst x y) s' := by
  unfold newList at h
  rw [pushVars_bind (var_place hok ha)] at h
  cases hp : pushVars 2 s with
  | none => rw [hp] at h; simp [succeed] at h
  | some s2 =>
    rw [hp] at h
    simp only [Option.map_some, succeed, Option.some.injEq] at h
    have hpu := pushVars_spec hok hp
    have htop := hok.top
    have hto := hpu.top
    have n0 := hpu.new 0 (by omega)
    have n1 := hpu.new 1 (by omega)
    refine ⟨_, h.symm, NoDot.set (NoDot.pushVars hnd hp) (by simp), ?_⟩
    have := block (n := 2) (F := fun l => .lst (l.getD 0 (.var 0)) (l.getD 1 (.var 0))) (w := .lst s.h) hok
      (Step.refl hok fun _ _ => trivial) (fun _ h => h) hp haN ha ha
      (fun i hi => by rw [hok.free (s.h + i) (by omega) (by omega)]; rfl)
      ⟨by omega, by omega, by rw [Nat.add_zero] at n0; rw [n0]; rfl, by rw [n1]; rfl⟩ (by simp)
      (fun ρ => by simp [Unify.eval, List.range, List.range.loop])
    refine this.congr fun ρ _ => ?_
    constructor
    · rintro ⟨l, _, h⟩; exact ⟨_, _, h⟩
    · rintro ⟨x, y, h⟩; exact ⟨[x, y], rfl, h⟩

theorem newStruct_res (hok : Ok N s) (hnd : NoDot s.mem) {a : Adr} {f n : Nat} {o : Out} (haN : a < N) (ha : s.mem a = .ref a)
    (hn : 0 < n) (hd : ¬ (f = 46 ∧ n = 2)) (h : newStruct s a f n = some o) :
    ∃ s', o = .ret true s' ∧ NoDot s'.mem ∧ Step N s (fun ρ => ∃ l : List T, l.length = n ∧ ρ a = .app f l) s' := by
  unfold newStruct at h
  cases h1 : push s (.fn f n) with
  | none => rw [h1] at h; simp at h
  | some s1 =>
    rw [h1] at h
    simp only at h
    obtain ⟨st, e1, e2, e3, e4⟩ := pushFn_step hok h1
    have hpl := var_place hok ha
    have ha1 : s1.mem a = .ref a := by rw [e1, set_other _ _ _ _ (by omega), ha]
    rw [pushVars_bind (var_place st.ok ha1)] at h
    cases hp : pushVars n s1 with
    | none => rw [hp] at h; simp [succeed] at h
    | some s2 =>
      rw [hp] at h
      simp only [Option.map_some, succeed, Option.some.injEq] at h
      have hpu := pushVars_spec st.ok hp
      have htop := hok.top
      have hto := hpu.top
      have hl := st.lssa
      have hnd1 : NoDot s1.mem := by
        rw [e1]; refine NoDot.set hnd ?_
        intro h; cases h; exact hd ⟨rfl, rfl⟩
      have hf2 : s2.mem s.h = .fn f n := by rw [hpu.old _ (by omega), e1, set_same]
      refine ⟨_, h.symm, NoDot.set (NoDot.pushVars hnd1 hp) (by simp), ?_⟩
      refine block (F := fun l => .app f l) (w := .stc s.h) hok st e4 hp haN ha1 ha
        (fun i hi => by rw [hok.free (s1.h + i) (by omega) (by omega)]; rfl)
        ⟨f, n, hf2, hn, by omega, by omega, fun i hi => ?_⟩ (by simp) (fun ρ => ?_)
      · have := hpu.new i hi
        rw [e2] at this; rw [this]; rfl
      · rw [eval_stc hf2, e2]

end Gp.TermInl
