import Verif.TermInl.Functor
import Verif.ListBip.Append
namespace Gp.TermInl
open Gp.Heap Gp.Unify Gp.ListBip

variable {N : Adr} {s s1 s2 s3 s' s'' : St} {E : Env}

/-- An element which may be put in the global stack. -/
def GoodItem (N : Adr) (s : St) : Item → Prop
  | .word w => ValidWord N s.lssa s.mem w ∧ Global s.lssa w
  | .at a => a < s.lssa ∧ isTerm (s.mem a) = true

/-- The value of an element. -/
def Item.val (m : Heap.Mem) (ρ : Adr → T) : Item → T
  | .word w => eval m ρ w
  | .at a => ρ a

theorem GoodItem.step {P : (Adr → T) → Prop} {i : Item} (h : GoodItem N s i) (st : Step N s P s') : GoodItem N s' i := by
  cases i with
  | word w => exact ⟨by rw [st.lssa]; exact st.grow.valid h.1, by rw [st.lssa]; exact h.2⟩
  | «at» a => exact ⟨by rw [st.lssa]; exact h.1, st.grow.term _ h.2⟩

theorem GoodItem.get (hok : Ok N s) {i : Item} (h : GoodItem N s i) :
    ValidWord N s.lssa s.mem (i.get s.mem) ∧ Global s.lssa (i.get s.mem) ∧
      ∀ ρ, Model N s.mem ρ → eval s.mem ρ (i.get s.mem) = i.val s.mem ρ := by
  cases i with
  | word w => exact ⟨h.1, h.2, fun _ _ => rfl⟩
  | «at» a =>
    have htop := hok.top
    have hl := h.1
    obtain ⟨h1, h2, _⟩ := hok.wf a (by omega) h.2
    exact ⟨h1, fun b hb => h2 b hb h.1, fun ρ hρ => (hρ a (by omega) h.2).symm⟩

theorem Item.val_agree {ρ ρ' : Adr → T} {i : Item} (h : GoodItem N s i) (hg : Agree s.mem ρ ρ') :
    i.val s.mem ρ' = i.val s.mem ρ := by
  cases i with
  | word w => exact hg.eval h.1
  | «at» a => exact hg a h.2

theorem Item.val_grow {ρ : Adr → T} {i : Item} {m : Heap.Mem} (h : GoodItem N s i) (hg : Grow s.mem m) :
    i.val m ρ = i.val s.mem ρ := by
  cases i with
  | word w => exact hg.eval h.1 ρ
  | «at» a => rfl

/-- The values of the elements. -/
def vals (m : Heap.Mem) (ρ : Adr → T) (is : List Item) : List T := is.map fun i => i.val m ρ

theorem vals_agree {ρ ρ' : Adr → T} {is : List Item} (h : ∀ i ∈ is, GoodItem N s i) (hg : Agree s.mem ρ ρ') :
    vals s.mem ρ' is = vals s.mem ρ is := List.map_congr_left fun i hi => Item.val_agree (h i hi) hg

theorem vals_grow {ρ : Adr → T} {is : List Item} {m : Heap.Mem} (h : ∀ i ∈ is, GoodItem N s i) (hg : Grow s.mem m) :
    vals m ρ is = vals s.mem ρ is := List.map_congr_left fun i hi => Item.val_grow (h i hi) hg

theorem open_nodot (hok : Ok N s) (hnd : NoDot s.mem) {w x t : Cell} {S S1 S2 : Sreg} {r : Bool}
    (hw : ValidWord N s.lssa s.mem w) (hx : ValidWord N s.lssa s.mem x)
    (h1 : getList s w = some (some (s1, S))) (h2 : unifyValue E s1 S x = some (r, s2, S1)) : NoDot s2.mem ∧
      ∀ s3, unifyVariable s2 S1 = some (s3, S2, t) → NoDot s3.mem := by
  have key : NoDot s2.mem := by
    obtain ⟨v, d1, d2, d3, d4⟩ := deref_ok hok hw
    unfold getList at h1
    rw [d1] at h1
    cases v with
    | ref a =>
      simp only [Option.some.injEq, Prod.mk.injEq] at h1
      obtain ⟨e1, e2⟩ := h1
      subst e2
      unfold unifyValue at h2
      simp only at h2
      split at h2
      · simp at h2
      · next s4 h4 =>
        obtain ⟨_, e⟩ := push_eq h4
        simp only [Option.some.injEq, Prod.mk.injEq] at h2
        rw [← h2.2.1, e]
        refine NoDot.set ?_ ?_
        · rw [← e1]; exact NoDot.set hnd (by simp)
        · intro h; rw [h] at hx; exact hx
    | lst b =>
      simp only [Option.some.injEq, Prod.mk.injEq] at h1
      obtain ⟨e1, e2⟩ := h1
      subst e2; subst e1
      unfold unifyValue at h2
      simp only at h2
      split at h2
      · simp at h2
      · next r p hp =>
        simp only [Option.some.injEq, Prod.mk.injEq] at h2
        rw [← h2.2.1]
        have hb := d2.1
        exact Same.nodot (unify_res E.fuel s x (s.mem b) _ p rfl hok.wf hx (hok.wf b (by omega) d2.2.2.1).1 hp).same hnd
    | _ => simp at h1
  refine ⟨key, fun s3 h3 => ?_⟩
  unfold unifyVariable at h3
  split at h3
  · simp only [Option.some.injEq, Prod.mk.injEq] at h3; rw [← h3.1]; exact key
  · split at h3
    · simp at h3
    · next s4 h4 =>
      obtain ⟨_, e⟩ := push_eq h4
      simp only [Option.some.injEq, Prod.mk.injEq] at h3
      rw [← h3.1, e]
      exact NoDot.set key (by simp)

/-- The result of the loop. -/
def FillOut (N : Adr) (s : St) (l : Cell) (is : List Item) : Option Cell × St → Prop
  | (some l', s') =>
    Step N s (fun ρ => ∃ y, eval s.mem ρ l = listT (vals s.mem ρ is) y) s' ∧ ValidWord N s.lssa s'.mem l' ∧
      (∀ ρ, Model N s'.mem ρ → eval s.mem ρ l = listT (vals s.mem ρ is) (eval s'.mem ρ l')) ∧ NoDot s'.mem
  | (none, _) => NoAnswer N s (fun ρ => ∃ y, eval s.mem ρ l = listT (vals s.mem ρ is) y)

theorem fill_res {is : List Item} : ∀ {s : St} {l : Cell} {r : Option Cell × St}, Ok N s → NoDot s.mem →
    (∀ i ∈ is, GoodItem N s i) → ValidWord N s.lssa s.mem l → fill E is s l = some r → FillOut N s l is r := by
  induction is with
  | nil =>
    intro s l r hok hnd _ hl h
    simp only [fill, Option.some.injEq] at h
    subst h
    exact ⟨Step.refl hok fun ρ _ => ⟨_, rfl⟩, hl, fun ρ _ => rfl, hnd⟩
  | cons i is ih =>
    intro s l r hok hnd hi hl h
    have hi0 := hi i (by simp)
    have his : ∀ j ∈ is, GoodItem N s j := fun j hj => hi j (by simp [hj])
    obtain ⟨g1, g2, g3⟩ := hi0.get hok
    have cons : ∀ ρ, vals s.mem ρ (i :: is) = i.val s.mem ρ :: vals s.mem ρ is := fun ρ => rfl
    simp only [fill] at h
    cases h1 : getList s l with
    | none => rw [h1] at h; simp at h
    | some r1 =>
      rw [h1] at h
      cases r1 with
      | none =>
        simp only [Option.some.injEq] at h
        subst h
        rintro ρ hρ ⟨y, hy⟩
        exact getList_none hok hl h1 ρ hρ ⟨_, _, hy⟩
      | some p =>
        obtain ⟨s1, S⟩ := p
        simp only at h
        cases h2 : unifyValue E s1 S (i.get s.mem) with
        | none => rw [h2] at h; simp at h
        | some q =>
          obtain ⟨b, s2, S2⟩ := q
          rw [h2] at h
          cases b with
          | false =>
            simp only [Option.some.injEq] at h
            subst h
            rintro ρ hρ ⟨y, hy⟩
            refine (openValV_none hok hl g1 h1 h2).1 ρ hρ ⟨listT (vals s.mem ρ is) y, ?_⟩
            rw [g3 ρ hρ]; exact hy
          | true =>
            simp only at h
            cases h3 : unifyVariable s2 S2 with
            | none => rw [h3] at h; simp at h
            | some q =>
              obtain ⟨s3, S3, l1⟩ := q
              rw [h3] at h
              simp only at h
              have op := openValV hok hl g1 g2 h1 h2 h3
              have hnd3 := (open_nodot hok hnd hl g1 h1 h2).2 s3 h3
              have ihr := ih op.step.ok hnd3 (fun j hj => (his j hj).step op.step) (by rw [op.step.lssa]; exact op.vt) h
              have eq3 : ∀ ρ, Model N s3.mem ρ → eval s.mem ρ l = .lst (i.val s.mem ρ) (eval s3.mem ρ l1) := by
                intro ρ hρ
                rw [← g3 ρ (op.step.down ρ hρ).1]; exact op.eq ρ hρ
              obtain ⟨ol, s4⟩ := r
              cases ol with
              | none =>
                rintro ρ hρ ⟨y, hy⟩
                rw [cons] at hy
                obtain ⟨ρ1, m1, a1⟩ := op.step.up ρ hρ ⟨listT (vals s.mem ρ is) y, by rw [g3 ρ hρ]; exact hy⟩
                refine ihr ρ1 m1 ⟨y, ?_⟩
                have := eq3 ρ1 m1
                rw [a1.eval hl, hy, Item.val_agree hi0 a1] at this
                simp only [listT, T.lst.injEq, true_and] at this
                rw [vals_grow his op.step.grow, vals_agree his a1]; exact this.symm
              | some l' =>
                obtain ⟨st, v4, eq4, nd4⟩ := ihr
                refine ⟨op.step.trans st ?_ ?_ ?_, by rw [← op.step.lssa]; exact v4, ?_, nd4⟩
                · rintro ρ hρ hρ3 _ ⟨y, hy⟩
                  refine ⟨y, ?_⟩
                  rw [eq3 ρ hρ3, cons, hy, vals_grow his op.step.grow]; rfl
                · rintro ρ hρ ⟨y, hy⟩
                  exact ⟨listT (vals s.mem ρ is) y, by rw [g3 ρ hρ]; exact hy⟩
                · rintro ρ ρ1 m1 a1 ⟨y, hy⟩
                  refine ⟨y, ?_⟩
                  have := eq3 ρ1 m1
                  rw [a1.eval hl, hy, cons, Item.val_agree hi0 a1] at this
                  simp only [listT, T.lst.injEq, true_and] at this
                  rw [vals_grow his op.step.grow, vals_agree his a1]; exact this.symm
                · intro ρ hρ
                  have m3 := (st.down ρ hρ).1
                  rw [eq3 ρ m3, cons, eq4 ρ hρ, vals_grow his op.step.grow]; rfl

theorem getNil_res (hok : Ok N s) {w : Cell} {r : Bool} (hw : ValidWord N s.lssa s.mem w) (h : getNil s w = some (r, s')) :
    Fine N s (fun ρ => eval s.mem ρ w = nil) r s' ∧ (NoDot s.mem → NoDot s'.mem) := by
  obtain ⟨v, d1, d2, d3, d4⟩ := deref_ok hok hw
  by_cases hr : ∃ a, v = .ref a
  · obtain ⟨a, rfl⟩ := hr
    obtain ⟨rfl, st⟩ := getNil_step hok hw ⟨a, d1⟩ h
    refine ⟨⟨fun _ => st, by simp⟩, fun hnd => ?_⟩
    unfold getNil at h
    rw [d1] at h
    simp only [Option.some.injEq, Prod.mk.injEq] at h
    rw [← h.2]; exact NoDot.set hnd (by simp)
  · have hn : ∀ a, v ≠ .ref a := fun a ha => hr ⟨a, ha⟩
    have h' : (decide (v = NIL_WORD), s) = (r, s') := by
      unfold getNil at h
      rw [d1] at h
      cases v <;> first | exact absurd rfl (hn _) | exact Option.some.inj h
    cases h'
    refine ⟨⟨fun hv => Step.refl hok fun ρ hρ => ?_, fun hv ρ hρ => not_nil d2 d4 hn (of_decide_eq_false hv) ρ hρ⟩, id⟩
    rw [d4 ρ hρ, of_decide_eq_true hv]; rfl

/-- The result of the unification of a list with given elements. -/
def ListOut (N : Adr) (s : St) (P : (Adr → T) → Prop) : Out → Prop
  | .ret true s' => Step N s P s' ∧ NoDot s'.mem
  | .ret false _ => NoAnswer N s P
  | .err e => e = .typeList ∧ NoAnswer N s P

theorem ListOut.congr {P Q : (Adr → T) → Prop} {o : Out} (h : ListOut N s P o) (hpq : ∀ ρ, Model N s.mem ρ → (P ρ ↔ Q ρ)) :
    ListOut N s Q o := by
  cases o with
  | ret b s' =>
    cases b with
    | true => exact ⟨h.1.congr hpq, h.2⟩
    | false => exact NoAnswer.congr h hpq
  | err e => exact ⟨h.1, NoAnswer.congr h.2 hpq⟩

theorem listT_tail {l : List T} {x y : T} (h : listT l x = listT l y) : x = y := by
  induction l with
  | nil => exact h
  | cons a l ih => simp only [listT, T.lst.injEq, true_and] at h; exact ih h

/-- The loop, then a constraint on the rest of the list. -/
theorem fill_then (hok : Ok N s) (hnd : NoDot s.mem) {is : List Item} {l l' : Cell} (hi : ∀ i ∈ is, GoodItem N s i)
    (hl : ValidWord N s.lssa s.mem l) (h : fill E is s l = some (some l', s1)) {R : (Adr → T) → T → Prop} {r : Bool}
    (h2 : Fine N s1 (fun ρ => R ρ (eval s1.mem ρ l')) r s2)
    (hR : ∀ ρ ρ' y, Agree s.mem ρ ρ' → (R ρ' y ↔ R ρ y)) :
    Fine N s (fun ρ => ∃ y, eval s.mem ρ l = listT (vals s.mem ρ is) y ∧ R ρ y) r s2 := by
  obtain ⟨st, v1, eq1, _⟩ := fill_res hok hnd hi hl h
  have key : ∀ ρ ρ1, Model N s1.mem ρ1 → Agree s.mem ρ ρ1 → (∃ y, eval s.mem ρ l = listT (vals s.mem ρ is) y ∧ R ρ y) →
      R ρ1 (eval s1.mem ρ1 l') := by
    rintro ρ ρ1 m1 a1 ⟨y, hy, hr⟩
    have := eq1 ρ1 m1
    rw [a1.eval hl, hy, vals_agree hi a1] at this
    rw [← listT_tail this]
    exact (hR ρ ρ1 y a1).mpr hr
  refine ⟨fun hr => st.trans (h2.1 hr) ?_ ?_ ?_, fun hr ρ hρ hp => ?_⟩
  · intro ρ hρ hρ1 _ h3; exact ⟨_, eq1 ρ hρ1, h3⟩
  · rintro ρ hρ ⟨y, hy, _⟩; exact ⟨y, hy⟩
  · intro ρ ρ1 m1 a1 hp; exact key ρ ρ1 m1 a1 hp
  · have hp' := hp
    obtain ⟨y, hy, _⟩ := hp
    obtain ⟨ρ1, m1, a1⟩ := st.up ρ hρ ⟨y, hy⟩
    exact h2.2 hr ρ1 m1 (key ρ ρ1 m1 a1 hp')

theorem fillNil_res (hok : Ok N s) (hnd : NoDot s.mem) {is : List Item} {l : Cell} {o : Out} (hi : ∀ i ∈ is, GoodItem N s i)
    (hl : ValidWord N s.lssa s.mem l) (h : fillNil E is s l = some o) :
    ∃ r s', o = .ret r s' ∧ ListOut N s (fun ρ => eval s.mem ρ l = listT (vals s.mem ρ is) nil) o := by
  unfold fillNil at h
  cases hf : fill E is s l with
  | none => rw [hf] at h; simp at h
  | some p =>
    obtain ⟨ol, s1⟩ := p
    have hfr := fill_res hok hnd hi hl hf
    rw [hf] at h
    cases ol with
    | none =>
      simp only [Option.some.injEq] at h; subst h
      exact ⟨_, _, rfl, fun ρ hρ hy => hfr ρ hρ ⟨nil, hy⟩⟩
    | some l' =>
      simp only at h
      cases hn : getNil s1 l' with
      | none => rw [hn] at h; simp at h
      | some p =>
        obtain ⟨r, s2⟩ := p
        rw [hn] at h
        simp only [Option.some.injEq] at h; subst h
        have h1 := getNil_res hfr.1.ok (by rw [hfr.1.lssa]; exact hfr.2.1) hn
        have h2 := fill_then (R := fun _ y => y = nil) hok hnd hi hl hf h1.1 (fun _ _ _ _ => Iff.rfl)
        have h3 := h2.congr (Q := fun ρ => eval s.mem ρ l = listT (vals s.mem ρ is) nil) (fun ρ _ =>
          ⟨fun ⟨y, h, h'⟩ => by rw [h, h'], fun h => ⟨nil, h, rfl⟩⟩)
        refine ⟨r, s2, rfl, ?_⟩
        cases r with
        | true => exact ⟨h3.1 rfl, h1.2 hfr.2.2.2⟩
        | false => exact h3.2 rfl

theorem listOrPartial_false {f : Nat} : ∀ {w : Cell}, Ok N s → ValidWord N s.lssa s.mem w →
    listOrPartial s.mem f w = some false → ∀ ρ, Model N s.mem ρ → ∀ l, eval s.mem ρ w ≠ listT l nil := by
  induction f with
  | zero => intro w _ _ h; simp [listOrPartial] at h
  | succ f ih =>
    intro w hok hw h ρ hρ l he
    obtain ⟨v, d1, d2, d3, d4⟩ := deref_ok hok hw
    unfold listOrPartial at h
    rw [d1] at h
    have other : varOrList v = false → v ≠ NIL_WORD → False := by
      intro h1 h2
      cases l with
      | nil =>
        refine not_nil d2 d4 ?_ h2 ρ hρ he
        intro a ha; subst ha; simp [varOrList] at h1
      | cons x l => exact not_list hok d2 d4 h1 ρ hρ _ _ he
    cases v with
    | ref a => simp at h
    | lst a =>
      simp only at h
      obtain ⟨c1, c2, c3, c4, c5, c6, c7, c8⟩ := lst_cells hok d2
      rw [d4 ρ hρ] at he
      cases l with
      | nil => simp [Unify.eval, listT] at he
      | cons x l =>
        simp only [Unify.eval, listT, T.lst.injEq] at he
        exact ih hok c5 h ρ hρ l (by rw [c6 ρ hρ]; exact he.2)
    | atm i => exact other rfl (by simpa using h)
    | int i => exact other rfl (by simp)
    | flt i => exact other rfl (by simp)
    | stc i => exact other rfl (by simp)
    | fdv i => exact d2.elim
    | fn i j => exact d2.elim
    | raw i => exact d2.elim

theorem unList_res (hok : Ok N s) (hnd : NoDot s.mem) {is : List Item} {l : Cell} {o : Out} (hi : ∀ i ∈ is, GoodItem N s i)
    (hl : ValidWord N s.lssa s.mem l) (h : unList E is s l = some o) :
    ListOut N s (fun ρ => eval s.mem ρ l = listT (vals s.mem ρ is) nil) o := by
  unfold unList at h
  cases hp : listOrPartial s.mem E.fuel l with
  | none => rw [hp] at h; simp at h
  | some b =>
    rw [hp] at h
    cases b with
    | false =>
      simp only [Option.some.injEq] at h; subst h
      exact ⟨rfl, fun ρ hρ he => listOrPartial_false hok hl hp ρ hρ _ he⟩
    | true =>
      obtain ⟨_, _, _, h⟩ := fillNil_res hok hnd hi hl h
      exact h

end Gp.TermInl
