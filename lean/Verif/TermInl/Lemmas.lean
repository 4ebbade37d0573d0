import Verif.TermInl.Spec
import Verif.ListBip.Length
namespace Gp.TermInl
open Gp.Heap Gp.Unify Gp.ListBip

variable {N : Adr} {s s' s'' : St} {E : Env}

theorem Step.answer {P : (Adr → T) → Prop} (h : Step N s P s') : Answer N s P s' := ⟨h.ok, h.down, h.up⟩

theorem NoAnswer.congr {P Q : (Adr → T) → Prop} (h : NoAnswer N s P) (hpq : ∀ ρ, Model N s.mem ρ → (P ρ ↔ Q ρ)) :
    NoAnswer N s Q := fun ρ hρ hq => h ρ hρ ((hpq ρ hρ).mpr hq)

/-- The result of a built-in without errors: an answer or none. -/
def Fine (N : Adr) (s : St) (P : (Adr → T) → Prop) (r : Bool) (s' : St) : Prop :=
  (r = true → Step N s P s') ∧ (r = false → NoAnswer N s P)

theorem Fine.congr {P Q : (Adr → T) → Prop} {r : Bool} (h : Fine N s P r s') (hpq : ∀ ρ, Model N s.mem ρ → (P ρ ↔ Q ρ)) :
    Fine N s Q r s' := ⟨fun hr => (h.1 hr).congr hpq, fun hr => NoAnswer.congr (h.2 hr) hpq⟩

theorem unAtom_res (hok : Ok N s) {w : Cell} {i : Nat} {o : Out} (hw : ValidWord N s.lssa s.mem w)
    (h : unAtom s i w = some o) :
    (∃ r s', o = .ret r s' ∧ Fine N s (fun ρ => eval s.mem ρ w = .atm i) r s') ∨
      (o = .err .typeAtom ∧ NoAnswer N s (fun ρ => eval s.mem ρ w = .atm i)) := by
  obtain ⟨v, d1, d2, d3, d4⟩ := deref_ok hok hw
  unfold unAtom at h
  rw [d1] at h
  cases v with
  | ref a =>
    simp only [Option.some.injEq] at h; subst h
    refine .inl ⟨true, _, rfl, fun _ => (bind_step (w := .atm i) hok d2.1 (d3 a rfl) trivial (by simp)).congr ?_, by simp⟩
    intro ρ hρ; rw [d4 ρ hρ]; exact Iff.rfl
  | atm j =>
    simp only [Option.some.injEq] at h; subst h
    refine .inl ⟨_, _, rfl, ?_, ?_⟩
    · intro hr
      have : j = i := of_decide_eq_true hr
      subst this
      exact Step.refl hok fun ρ hρ => d4 ρ hρ
    · intro hr ρ hρ (he : eval s.mem ρ w = _)
      rw [d4 ρ hρ] at he
      simp only [Unify.eval, T.atm.injEq] at he
      exact of_decide_eq_false hr he
  | lst a =>
    simp only [Option.some.injEq] at h; subst h
    exact .inr ⟨rfl, fun ρ hρ (he : eval s.mem ρ w = _) => by rw [d4 ρ hρ] at he; simp [Unify.eval] at he⟩
  | stc a =>
    simp only [Option.some.injEq] at h; subst h
    obtain ⟨f, n, h1, _⟩ := d2
    exact .inr ⟨rfl, fun ρ hρ (he : eval s.mem ρ w = _) => by rw [d4 ρ hρ, eval_stc h1] at he; simp at he⟩
  | int a =>
    simp only [Option.some.injEq] at h; subst h
    exact .inr ⟨rfl, fun ρ hρ (he : eval s.mem ρ w = _) => by rw [d4 ρ hρ] at he; simp [Unify.eval] at he⟩
  | flt a =>
    simp only [Option.some.injEq] at h; subst h
    obtain ⟨b, hb⟩ := d2
    refine .inr ⟨rfl, fun ρ hρ (he : eval s.mem ρ w = _) => ?_⟩
    rw [d4 ρ hρ] at he
    simp only [Unify.eval, hb] at he
    split at he <;> simp at he
  | fdv i => exact d2.elim
  | fn i j => exact d2.elim
  | raw i => exact d2.elim

theorem unInteger_res (hok : Ok N s) {w : Cell} {i : Int} {o : Out} (hw : ValidWord N s.lssa s.mem w)
    (h : unInteger s i w = some o) :
    (∃ r s', o = .ret r s' ∧ Fine N s (fun ρ => eval s.mem ρ w = .int i) r s') ∨
      (o = .err .typeInteger ∧ NoAnswer N s (fun ρ => eval s.mem ρ w = .int i)) := by
  obtain ⟨v, d1, d2, d3, d4⟩ := deref_ok hok hw
  unfold unInteger at h
  rw [d1] at h
  cases v with
  | ref a =>
    simp only [Option.some.injEq] at h; subst h
    refine .inl ⟨true, _, rfl, fun _ => (bind_step (w := .int i) hok d2.1 (d3 a rfl) trivial (by simp)).congr ?_, by simp⟩
    intro ρ hρ; rw [d4 ρ hρ]; exact Iff.rfl
  | int j =>
    simp only [Option.some.injEq] at h; subst h
    refine .inl ⟨_, _, rfl, ?_, ?_⟩
    · intro hr
      have : j = i := of_decide_eq_true hr
      subst this
      exact Step.refl hok fun ρ hρ => d4 ρ hρ
    · intro hr ρ hρ (he : eval s.mem ρ w = _)
      rw [d4 ρ hρ] at he
      simp only [Unify.eval, T.int.injEq] at he
      exact of_decide_eq_false hr he
  | lst a =>
    simp only [Option.some.injEq] at h; subst h
    exact .inr ⟨rfl, fun ρ hρ (he : eval s.mem ρ w = _) => by rw [d4 ρ hρ] at he; simp [Unify.eval] at he⟩
  | stc a =>
    simp only [Option.some.injEq] at h; subst h
    obtain ⟨f, n, h1, _⟩ := d2
    exact .inr ⟨rfl, fun ρ hρ (he : eval s.mem ρ w = _) => by rw [d4 ρ hρ, eval_stc h1] at he; simp at he⟩
  | atm a =>
    simp only [Option.some.injEq] at h; subst h
    exact .inr ⟨rfl, fun ρ hρ (he : eval s.mem ρ w = _) => by rw [d4 ρ hρ] at he; simp [Unify.eval] at he⟩
  | flt a =>
    simp only [Option.some.injEq] at h; subst h
    obtain ⟨b, hb⟩ := d2
    refine .inr ⟨rfl, fun ρ hρ (he : eval s.mem ρ w = _) => ?_⟩
    rw [d4 ρ hρ] at he
    simp only [Unify.eval, hb] at he
    split at he <;> simp at he
  | fdv i => exact d2.elim
  | fn i j => exact d2.elim
  | raw i => exact d2.elim

theorem unifyOut_res (hok : Ok N s) {u v : Cell} {o : Out} (hu : ValidWord N s.lssa s.mem u)
    (hv : ValidWord N s.lssa s.mem v) (h : unifyOut E s u v = some o) :
    ∃ r s', o = .ret r s' ∧ Fine N s (fun ρ => eval s.mem ρ u = eval s.mem ρ v) r s' := by
  unfold unifyOut at h
  split at h
  · simp at h
  · next r s1 hun =>
    simp only [Option.some.injEq] at h
    subst h
    exact ⟨r, s1, rfl, fun hr => by subst hr; exact unify_step hok hu hv hun,
      fun hr => by subst hr; exact unify_none hok hu hv hun⟩

/-- Two constraints, one after the other. -/
theorem Fine.andThen {P Q Q' : (Adr → T) → Prop} {r : Bool} (h1 : Step N s P s') (h2 : Fine N s' Q' r s'')
    (hq : ∀ ρ, Model N s'.mem ρ → (Q' ρ ↔ Q ρ)) (hag : ∀ ρ ρ', Agree s.mem ρ ρ' → (Q ρ' ↔ Q ρ)) :
    Fine N s (fun ρ => P ρ ∧ Q ρ) r s'' := by
  refine ⟨fun hr => h1.trans (h2.1 hr) (fun ρ _ h a b => ⟨a, (hq ρ h).mp b⟩) (fun ρ _ h => h.1) ?_, fun hr ρ hρ hpq => ?_⟩
  · intro ρ ρ' hρ' hg h
    exact (hq ρ' hρ').mpr ((hag ρ ρ' hg).mpr h.2)
  · obtain ⟨ρ1, m1, g1⟩ := h1.up ρ hρ hpq.1
    exact h2.2 hr ρ1 m1 ((hq ρ1 m1).mpr ((hag ρ ρ1 g1).mpr hpq.2))

/-- `res1 && Pl_Un_Integer_Check(z, w)`. -/
theorem andThen_int (hok : Ok N s) {P : (Adr → T) → Prop} {o1 : Option Out} {o : Out} {z : Int} {w : Cell}
    (hw : ValidWord N s.lssa s.mem w)
    (h1 : ∀ o, o1 = some o → (∃ r s', o = .ret r s' ∧ Fine N s P r s') ∨ (o = .err .typeAtom ∧ NoAnswer N s P))
    (h : andThen o1 (fun s' => unInteger s' z w) = some o) :
    (∃ r s', o = .ret r s' ∧ Fine N s (fun ρ => P ρ ∧ eval s.mem ρ w = .int z) r s') ∨
      ((o = .err .typeAtom ∨ o = .err .typeInteger) ∧ NoAnswer N s (fun ρ => P ρ ∧ eval s.mem ρ w = .int z)) := by
  cases o1 with
  | none => simp [TermInl.andThen] at h
  | some o1 =>
    rcases h1 o1 rfl with ⟨r, s1, rfl, hf⟩ | ⟨rfl, hn⟩
    · cases r with
      | false =>
        simp only [TermInl.andThen, Option.some.injEq] at h
        subst h
        exact .inl ⟨false, s1, rfl, by simp, fun _ ρ hρ hp => hf.2 rfl ρ hρ hp.1⟩
      | true =>
        simp only [TermInl.andThen] at h
        have st := hf.1 rfl
        have hag : ∀ ρ ρ', Agree s.mem ρ ρ' → (eval s.mem ρ' w = .int z ↔ eval s.mem ρ w = .int z) := by
          intro ρ ρ' hg; rw [hg.eval hw]
        have hq : ∀ ρ, Model N s1.mem ρ → (eval s1.mem ρ w = .int z ↔ eval s.mem ρ w = .int z) := by
          intro ρ _; rw [st.grow.eval hw]
        rcases unInteger_res st.ok (by rw [st.lssa]; exact st.grow.valid hw) h with ⟨r, s2, rfl, hf2⟩ | ⟨rfl, hn⟩
        · exact .inl ⟨r, s2, rfl, Fine.andThen st hf2 hq hag⟩
        · refine .inr ⟨.inr rfl, fun ρ hρ hp => ?_⟩
          obtain ⟨ρ1, m1, g1⟩ := st.up ρ hρ hp.1
          exact hn ρ1 m1 ((hq ρ1 m1).mpr ((hag ρ ρ1 g1).mpr hp.2))
    · simp only [TermInl.andThen, Option.some.injEq] at h
      subst h
      exact .inr ⟨.inl rfl, fun ρ hρ hp => hn ρ hρ hp.1⟩

/-! ## Views -/

theorem view_lst {h t : T} {g : Nat} {l : List T} : View (.lst h t) g l ↔ g = 46 ∧ l = [h, t] := by
  constructor
  · intro h; cases h; exact ⟨rfl, rfl⟩
  · rintro ⟨rfl, rfl⟩; exact .lst

theorem view_app {f g : Nat} {l l' : List T} (h1 : l ≠ []) (h2 : ¬ (f = 46 ∧ l.length = 2)) :
    View (.app f l) g l' ↔ g = f ∧ l' = l := by
  constructor
  · intro h; cases h; exact ⟨rfl, rfl⟩
  · rintro ⟨rfl, rfl⟩; exact .app h1 h2

theorem view_atomic {t : T} (ht : Atomic t) {g : Nat} {l : List T} : ¬ View t g l := by
  intro h; cases h <;> exact ht

theorem functorRel_lst {h t f n : T} : FunctorRel (.lst h t) f n ↔ f = .atm 46 ∧ n = .int 2 := by
  unfold FunctorRel
  constructor
  · rintro (⟨g, l, hv, h1, h2⟩ | ⟨h, _⟩)
    · obtain ⟨rfl, rfl⟩ := view_lst.mp hv; exact ⟨h1, h2⟩
    · exact h.elim
  · rintro ⟨h1, h2⟩; exact .inl ⟨46, _, .lst, h1, h2⟩

theorem functorRel_app {g : Nat} {l : List T} {f n : T} (h1 : l ≠ []) (h2 : ¬ (g = 46 ∧ l.length = 2)) :
    FunctorRel (.app g l) f n ↔ f = .atm g ∧ n = .int l.length := by
  unfold FunctorRel
  constructor
  · rintro (⟨g, l, hv, h3, h4⟩ | ⟨h, _⟩)
    · obtain ⟨rfl, rfl⟩ := (view_app h1 h2).mp hv; exact ⟨h3, h4⟩
    · exact h.elim
  · rintro ⟨h3, h4⟩; exact .inl ⟨g, _, .app h1 h2, h3, h4⟩

theorem functorRel_atomic {t f n : T} (ht : Atomic t) : FunctorRel t f n ↔ f = t ∧ n = .int 0 := by
  unfold FunctorRel
  constructor
  · rintro (⟨g, l, hv, _⟩ | ⟨_, h⟩)
    · exact absurd hv (view_atomic ht)
    · exact h
  · rintro h; exact .inr ⟨ht, h⟩

/-- The term of an atomic word. -/
theorem eval_atomic {w : Cell} (hw : ValidWord N s.lssa s.mem w) (ha : isAtomic w = true) (ρ ρ' : Adr → T) :
    Atomic (eval s.mem ρ w) ∧ eval s.mem ρ' w = eval s.mem ρ w := by
  cases w with
  | atm i => exact ⟨trivial, rfl⟩
  | int i => exact ⟨trivial, rfl⟩
  | flt a =>
    obtain ⟨x, hx⟩ := hw
    simp only [Unify.eval, hx]
    split <;> exact ⟨trivial, trivial⟩
  | _ => simp [isAtomic] at ha

/-- The arguments of a structure. -/
theorem eval_struct {a : Adr} (hnd : NoDot s.mem) (hw : ValidWord N s.lssa s.mem (.stc a)) :
    ∃ f n, s.mem a = .fn f n ∧ 0 < n ∧ a + n < N ∧ a + n < s.lssa ∧ (∀ i, i < n → isTerm (s.mem (a + 1 + i)) = true) ∧
      ∀ ρ : Adr → T, eval s.mem ρ (.stc a) = .app f ((List.range n).map fun i => ρ (a + 1 + i)) ∧
        ((List.range n).map fun i => ρ (a + 1 + i)) ≠ [] ∧
        ¬ (f = 46 ∧ ((List.range n).map fun i => ρ (a + 1 + i)).length = 2) := by
  obtain ⟨f, n, h1, h2, h3, h4, h5⟩ := hw
  refine ⟨f, n, h1, h2, h3, h4, h5, fun ρ => ⟨eval_stc h1 ρ, ?_, ?_⟩⟩
  · intro h
    have := congrArg List.length h
    simp at this; omega
  · rintro ⟨rfl, h⟩
    simp at h
    subst h
    exact hnd a h1

end Gp.TermInl
