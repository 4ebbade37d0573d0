import Verif.CallN.Model
import Verif.NumVars.Props
/-
C66. call/N and call_with_args/N: the goal called is the closure with the extra arguments added after its own arguments.
-/
namespace Gp.CallN
open Gp.Heap Gp.Unify Gp.ListBip Gp.TermInl

variable {N : Adr} {s s' : St} {C : Ctx} {A : Regs}

/-! ## Specification, on terms -/

/-- The functor and the arguments of a closure. -/
def closure (dot : Nat) : T → Option (Nat × List T)
  | .atm f => some (f, [])
  | .lst x y => some (dot, [x, y])
  | .app f l => some (f, l)
  | _ => none

/-- `t` is the closure, `ys` the extra arguments. -/
def CallSpec (C : Ctx) (atoms : Bool) (s : St) (A : Regs) (t : T) (ys : List T) : Res → Prop
  | .jump f n A' => ∃ l, closure C.dot t = some (f, l) ∧ (atoms = true → l = []) ∧ n = (l ++ ys).length ∧ n ≤ 255 ∧
      C.lookup f n = some false ∧ ∀ i x, (l ++ ys)[i]? = some x → Reads s.mem (A' i) x
  | .internal s' A' => ∃ f l, closure C.dot t = some (f, l) ∧ (atoms = true → l = []) ∧ (l ++ ys).length ≤ 255 ∧
      C.lookup f (l ++ ys).length ≠ some false ∧ A' 1 = C.info ∧ Reads s'.mem (A' 0) (if l ++ ys = [] then .atm f else .app f (l ++ ys)) ∧
      ∀ a, s.mem a ≠ .fn 0 0 → s'.mem a = s.mem a
  | .err .instantiation => ∃ v, t = .var v
  | .err .typeAtom => atoms = true ∧ (∀ v, t ≠ .var v) ∧ ∀ f, t ≠ .atm f
  | .err .typeCallable => atoms = false ∧ (∀ v, t ≠ .var v) ∧ closure C.dot t = none
  | .err .maxArity => ∃ f l, closure C.dot t = some (f, l) ∧ 255 < (l ++ ys).length

/-! ## Lemmas -/

/-- The terms are the same after cells are allocated. -/
theorem reads_grow (hok : Ok N s) {m' : Heap.Mem} (hm : ∀ a, s.mem a ≠ .fn 0 0 → m' a = s.mem a) {w : Cell} {t : T}
    (hr : Reads s.mem w t) : ValidWord N s.lssa s.mem w → Reads m' w t := by
  have term : ∀ a, isTerm (s.mem a) = true → m' a = s.mem a := fun a h => hm a (by intro e; rw [e] at h; simp [isTerm] at h)
  induction hr with
  | @var a h => intro _; exact .var (by rw [hm a (by rw [h]; simp), h])
  | @bound a t h _ ih =>
    intro hw
    have e := term a hw.2
    refine .bound (by rw [e]; exact h) ?_
    rw [e]; exact ih (hok.wf _ hw.1 hw.2).1
  | atm => intro _; exact .atm
  | int => intro _; exact .int
  | @flt a x h1 h2 => intro _; exact .flt (by rw [hm a (by rw [h1]; simp), h1]) h2
  | @nan a x h1 h2 => intro _; exact .nan (by rw [hm a (by rw [h1]; simp), h1]) h2
  | @lst a t1 t2 h1 h2 ih1 ih2 =>
    intro hw
    obtain ⟨c1, c2, c3, c4, c5, c6, c7, c8⟩ := lst_cells hok hw
    refine .lst ?_ ?_
    · rw [term _ c3]; exact ih1 c7
    · rw [term _ c4]; exact ih2 c5
  | @stc a f n g h1 h2 ih =>
    rintro ⟨f', n', h3, h4, h5, h6, h7⟩
    rw [h1] at h3
    cases h3
    refine .stc (by rw [hm a (by rw [h1]; simp; omega), h1]) fun i hi => ?_
    rw [term _ (h7 i hi)]
    exact ih i hi (hok.wf _ (by omega) (h7 i hi)).1

theorem rdAtom_res {w : Cell} {t : T} {r : Except CErr (Nat × Nat × Adr)} (hr : Reads s.mem w t)
    (h : rdAtom s.mem w = some r) :
    (r = .error .instantiation ∧ ∃ v, t = .var v) ∨ (r = .error .typeAtom ∧ (∀ v, t ≠ .var v) ∧ ∀ f, t ≠ .atm f) ∨
      ∃ f, r = .ok (f, 0, 0) ∧ t = .atm f := by
  obtain ⟨v, d1, d2, d3⟩ := reads_deref hr
  unfold rdAtom at h
  rw [d1] at h
  cases d2 with
  | bound q _ => exact absurd (d3 _ rfl) q
  | var _ => simp only [Option.some.injEq] at h; exact .inl ⟨h.symm, _, rfl⟩
  | atm => simp only [Option.some.injEq] at h; exact .inr (.inr ⟨_, h.symm, rfl⟩)
  | _ => simp only [Option.some.injEq] at h; exact .inr (.inl ⟨h.symm, by simp, by simp⟩)

theorem rdCallable_res (hok : Ok N s) {w : Cell} {t : T} {r : Except CErr (Nat × Nat × Adr)}
    (hr : Reads s.mem w t) (hw : ValidWord N s.lssa s.mem w) (h : rdCallable C s.mem w = some r) :
    (r = .error .instantiation ∧ ∃ v, t = .var v) ∨ (r = .error .typeCallable ∧ (∀ v, t ≠ .var v) ∧ closure C.dot t = none) ∨
      ∃ f l a, r = .ok (f, l.length, a) ∧ closure C.dot t = some (f, l) ∧
        ∀ i x, l[i]? = some x → ValidWord N s.lssa s.mem (s.mem (a + i)) ∧ Reads s.mem (s.mem (a + i)) x := by
  obtain ⟨v, d1, d2, d3⟩ := reads_deref hr
  obtain ⟨v', e1, e2, -, -⟩ := deref_ok hok hw
  rw [d1] at e1; cases e1
  unfold rdCallable at h
  rw [d1] at h
  cases d2 with
  | bound q _ => exact absurd (d3 _ rfl) q
  | var _ => simp only [Option.some.injEq] at h; exact .inl ⟨h.symm, _, rfl⟩
  | @atm i => simp only [Option.some.injEq] at h; exact .inr (.inr ⟨i, [], 0, h.symm, rfl, by simp⟩)
  | @lst a t1 t2 h1 h2 =>
    simp only [Option.some.injEq] at h
    obtain ⟨c1, c2, c3, c4, c5, c6, c7, c8⟩ := lst_cells hok e2
    refine .inr (.inr ⟨C.dot, [t1, t2], a, h.symm, rfl, fun i x hi => ?_⟩)
    match i with
    | 0 => simp only [List.getElem?_cons_zero, Option.some.injEq] at hi; subst hi; exact ⟨c7, h1⟩
    | 1 => simp only [List.getElem?_cons_succ, List.getElem?_cons_zero, Option.some.injEq] at hi; subst hi; exact ⟨c5, h2⟩
    | i + 2 => simp at hi
  | @stc a f n g h1 h2 =>
    obtain ⟨f', n', h3, h4, h5, h6, h7⟩ := e2
    rw [h1] at h3
    cases h3
    simp only [h1, Option.some.injEq] at h
    refine .inr (.inr ⟨f, (List.range n).map g, a + 1, by rw [← h]; simp, rfl, fun i x hi => ?_⟩)
    have hin : i < n := by
      obtain ⟨q, _⟩ := List.getElem?_eq_some_iff.mp hi
      simpa using q
    rw [List.getElem?_map, List.getElem?_range hin] at hi
    simp only [Option.map_some, Option.some.injEq] at hi
    subst hi
    exact ⟨(hok.wf _ (by omega) (h7 i hin)).1, h2 i hin⟩
  | _ => simp only [Option.some.injEq] at h; exact .inr (.inl ⟨h.symm, by simp, rfl⟩)

theorem copyArgs_eq {m : Heap.Mem} {k : Nat} : ∀ {a i : Nat} {A : Regs}, i + k ≤ 256 →
    copyArgs m k a i A = some fun j => if i ≤ j ∧ j < i + k then m (a + (j - i)) else A j := by
  induction k with
  | zero =>
    intro a i A _
    simp only [copyArgs, Option.some.injEq]
    funext j
    rw [if_neg (by omega)]
  | succ k ih =>
    intro a i A h
    simp only [copyArgs, wr, NB_REGS]
    rw [if_pos (by omega)]
    simp only
    rw [ih (by omega)]
    simp only [Option.some.injEq]
    funext j
    by_cases q1 : j = i
    · subst q1
      rw [if_neg (by omega), if_pos rfl, if_pos (by omega)]; simp
    · by_cases q2 : i ≤ j ∧ j < i + (k + 1)
      · rw [if_pos (by omega), if_pos q2]; congr 1; omega
      · rw [if_neg (by omega), if_neg q1, if_neg q2]

/-- Words pushed one after the other. -/
def pushAll : List Cell → St → Option St
  | [], s => some s
  | w :: l, s =>
    match push s w with
    | none => none
    | some s' => pushAll l s'

theorem pushAll_append (l l' : List Cell) (s : St) : pushAll (l ++ l') s = (pushAll l s).bind (pushAll l') := by
  induction l generalizing s with
  | nil => rfl
  | cons w l ih =>
    simp only [List.cons_append, pushAll]
    cases push s w with
    | none => rfl
    | some s' => exact ih s'

theorem pushRegs_eq {A : Regs} {k : Nat} : ∀ {i : Nat} {s : St}, pushRegs A k i s = pushAll ((List.range k).map fun j => A (i + j)) s := by
  induction k with
  | zero => intro i s; rfl
  | succ k ih =>
    intro i s
    rw [List.range_succ_eq_map, List.map_cons, List.map_map]
    simp only [pushRegs, pushAll, Nat.add_zero]
    cases push s (A i) with
    | none => rfl
    | some s' =>
      simp only
      rw [ih]
      congr 1
      refine List.map_congr_left fun j _ => ?_
      simp only [Function.comp]; congr 1; omega

theorem pushArgs_eq {k : Nat} : ∀ {a : Nat} {s : St}, (∀ j, j < k → a + j < s.h ∨ s.lssa ≤ a + j) →
    pushArgs k a s = pushAll ((List.range k).map fun j => s.mem (a + j)) s := by
  induction k with
  | zero => intro a s _; rfl
  | succ k ih =>
    intro a s h
    rw [List.range_succ_eq_map, List.map_cons, List.map_map]
    simp only [pushArgs, pushAll, Nat.add_zero]
    cases hp : push s (s.mem a) with
    | none => rfl
    | some s' =>
      simp only
      obtain ⟨hlt, rfl⟩ := push_eq hp
      rw [ih fun j hj => by have := h (j + 1) (by omega); simp only; omega]
      congr 1
      refine List.map_congr_left fun j hj => ?_
      have hj := List.mem_range.mp hj
      have := h (j + 1) (by omega)
      simp only [Function.comp]
      rw [set_other _ _ _ _ (by omega)]
      congr 1; omega

theorem pushAll_res {l : List Cell} : ∀ {s s' : St}, pushAll l s = some s' →
    s.h + l.length = s'.h ∧ s'.lssa = s.lssa ∧ s'.h ≤ max s.h s.lssa ∧
      (∀ i x, l[i]? = some x → s'.mem (s.h + i) = x) ∧ ∀ a, (a < s.h ∨ s.h + l.length ≤ a) → s'.mem a = s.mem a := by
  induction l with
  | nil =>
    intro s s' h
    simp only [pushAll, Option.some.injEq] at h
    subst h
    exact ⟨rfl, rfl, by omega, by simp, fun _ _ => rfl⟩
  | cons w l ih =>
    intro s s' h
    simp only [pushAll] at h
    cases hp : push s w with
    | none => rw [hp] at h; simp at h
    | some s1 =>
      rw [hp] at h
      obtain ⟨hlt, rfl⟩ := push_eq hp
      obtain ⟨i1, i2, i3, i4, i5⟩ := ih h
      simp only at i1 i2 i3 i4 i5
      refine ⟨by simp only [List.length_cons]; omega, i2, by omega, ?_, ?_⟩
      · intro i x hi
        match i with
        | 0 =>
          simp only [List.getElem?_cons_zero, Option.some.injEq] at hi
          subst hi
          rw [Nat.add_zero, i5 s.h (.inl (by omega)), set_same]
        | i + 1 =>
          simp only [List.getElem?_cons_succ] at hi
          rw [show s.h + (i + 1) = s.h + 1 + i by omega]
          exact i4 i x hi
      · intro a ha
        simp only [List.length_cons] at ha
        rw [i5 a (by omega), set_other _ _ _ _ (by omega)]

theorem pushAll_room {l : List Cell} : ∀ {s : St}, s.h + l.length ≤ s.lssa → ∃ s', pushAll l s = some s' := by
  induction l with
  | nil => intro s _; exact ⟨s, rfl⟩
  | cons w l ih =>
    intro s h
    simp only [List.length_cons] at h
    simp only [pushAll, push]
    rw [if_pos (by omega)]
    exact ih (by simp only; omega)

/-! ## The calls -/

theorem callWith_res (hok : Ok N s) {atoms : Bool} {t : T} {ys : List T} {f : Nat} {l : List T} {a : Adr} {r : Res}
    (ht : closure C.dot t = some (f, l)) (hat : atoms = true → l = [])
    (h0 : l ++ ys = [] → Reads s.mem (A 0) (.atm f))
    (hl : ∀ i x, l[i]? = some x → ValidWord N s.lssa s.mem (s.mem (a + i)) ∧ Reads s.mem (s.mem (a + i)) x)
    (hys : ∀ i x, ys[i]? = some x → ValidWord N s.lssa s.mem (A (i + 1)) ∧ Reads s.mem (A (i + 1)) x)
    (hfree : ∀ j, j < l.length → a + j < s.h ∨ s.lssa ≤ a + j)
    (h : callWith C ys.length s A f l.length a = some r) : CallSpec C atoms s A t ys r := by
  unfold callWith at h
  by_cases q : l.length + ys.length > MAX_ARITY
  · rw [if_pos q] at h
    simp only [Option.some.injEq] at h
    subst h
    exact ⟨f, l, ht, by rw [List.length_append]; exact q⟩
  · rw [if_neg q] at h
    simp only [MAX_ARITY, NB_REGS] at q
    by_cases hc : C.lookup f (l.length + ys.length) = some false
    · rw [hc] at h
      simp only at h
      have hm : (if l.length ≠ 1 then move A l.length ys.length else some A) =
          some fun j => if l.length ≤ j ∧ j < l.length + ys.length then A (j - l.length + 1) else A j := by
        by_cases q1 : l.length = 1
        · rw [if_neg (by omega), q1]
          congr 1
          funext j
          split
          · congr 1; omega
          · rfl
        · rw [if_pos q1, move, if_pos (by simp only [NB_REGS]; omega)]
      rw [hm] at h
      simp only at h
      rw [copyArgs_eq (by omega)] at h
      simp only [Option.some.injEq] at h
      subst h
      refine ⟨l, ht, hat, by rw [List.length_append], by omega, hc, fun i x hi => ?_⟩
      have hlen := (List.getElem?_eq_some_iff.mp hi).1
      rw [List.length_append] at hlen
      show Reads s.mem (if 0 ≤ i ∧ i < 0 + l.length then s.mem (a + (i - 0))
        else if l.length ≤ i ∧ i < l.length + ys.length then A (i - l.length + 1) else A i) x
      by_cases q2 : i < l.length
      · rw [if_pos ⟨Nat.zero_le _, by omega⟩]
        rw [List.getElem?_append_left q2] at hi
        rw [Nat.sub_zero]
        exact (hl i x hi).2
      · rw [if_neg (by omega), if_pos (by omega)]
        rw [List.getElem?_append_right (by omega)] at hi
        exact (hys _ x hi).2
    · have h' : (match buildGoal s A f l.length ys.length a with
          | none => none
          | some (s1, A1) => (wr A1 1 C.info).map fun A2 => Res.internal s1 A2) = some r := by
        cases hcc : C.lookup f (l.length + ys.length) with
        | none => rw [hcc] at h; exact h
        | some b =>
          cases b with
          | false => exact absurd hcc hc
          | true => rw [hcc] at h; exact h
      unfold buildGoal at h'
      by_cases q1 : l.length + ys.length > 0
      · rw [if_pos q1] at h'
        cases hp : push s (.fn f (l.length + ys.length)) with
        | none => rw [hp] at h'; simp at h'
        | some s1 =>
          rw [hp] at h'
          simp only at h'
          obtain ⟨hlt, e1⟩ := push_eq hp
          have hpl : pushArgs l.length a s1 = pushAll ((List.range l.length).map fun j => s.mem (a + j)) s1 := by
            rw [pushArgs_eq (fun j hj => by have := hfree j hj; subst e1; simp only; omega)]
            congr 1
            refine List.map_congr_left fun j hj => ?_
            have := hfree j (List.mem_range.mp hj)
            subst e1
            simp only
            rw [set_other _ _ _ _ (by omega)]
          rw [hpl] at h'
          cases hp2 : pushAll ((List.range l.length).map fun j => s.mem (a + j)) s1 with
          | none => rw [hp2] at h'; simp at h'
          | some s2 =>
            rw [hp2] at h'
            simp only at h'
            rw [pushRegs_eq] at h'
            cases hp3 : pushAll ((List.range ys.length).map fun j => A (1 + j)) s2 with
            | none => rw [hp3] at h'; simp at h'
            | some s3 =>
              rw [hp3] at h'
              simp only [wr, NB_REGS, Nat.zero_lt_succ, if_true, Option.map_some] at h'
              rw [if_pos (by omega)] at h'
              simp only [Option.map_some, Option.some.injEq] at h'
              subst h'
              have hall : pushAll (((List.range l.length).map fun j => s.mem (a + j)) ++ (List.range ys.length).map fun j => A (1 + j)) s1
                  = some s3 := by rw [pushAll_append, hp2]; exact hp3
              obtain ⟨p1, p2, p3, p4, p5⟩ := pushAll_res hall
              simp only [List.length_append, List.length_map, List.length_range] at p1 p5
              have e1h : s1.h = s.h + 1 := by rw [e1]
              have e1l : s1.lssa = s.lssa := by rw [e1]
              have e1m : s1.mem = s.mem.set s.h (.fn f (l.length + ys.length)) := by rw [e1]
              have keep : ∀ b, s.mem b ≠ .fn 0 0 → s3.mem b = s.mem b := by
                intro b hb
                have : b < s.h ∨ s.lssa ≤ b := by
                  by_cases x1 : b < s.h
                  · exact .inl x1
                  · by_cases x2 : b < s.lssa
                    · exact absurd (hok.free b (by omega) x2) hb
                    · exact .inr (by omega)
                rw [p5 b (by omega), e1m, set_other _ _ _ _ (by omega)]
              refine ⟨f, l, ht, hat, by rw [List.length_append]; omega, by rw [List.length_append]; exact hc, by simp, ?_, keep⟩
              have hne : l ++ ys ≠ [] := by
                intro e
                have := congrArg List.length e
                simp only [List.length_append, List.length_nil] at this
                omega
              rw [if_neg hne]
              show Reads s3.mem (.stc s.h) _
              have hf3 : s3.mem s.h = .fn f (l.length + ys.length) := by rw [p5 s.h (.inl (by omega)), e1m, set_same]
              have hst := Reads.stc (m := s3.mem) (a := s.h) (g := fun i => (l ++ ys)[i]?.getD (.atm 0)) hf3 (fun i hi => ?_)
              · refine cast ?_ hst
                congr 2
                refine List.ext_getElem (by simp) fun i h1 h2 => ?_
                simp [List.getElem?_eq_getElem h2]
              · have hil : i < (l ++ ys).length := by rw [List.length_append]; exact hi
                rw [List.getElem?_eq_getElem hil, Option.getD_some]
                have hx : (l ++ ys)[i]? = some (l ++ ys)[i] := List.getElem?_eq_getElem hil
                generalize (l ++ ys)[i] = x at hx
                by_cases q2 : i < l.length
                · rw [List.getElem?_append_left q2] at hx
                  have := p4 i (s.mem (a + i)) (by
                    rw [List.getElem?_append_left (by simpa using q2), List.getElem?_map, List.getElem?_range q2]; rfl)
                  rw [e1h] at this
                  rw [this]
                  exact reads_grow hok keep (hl i x hx).2 (hl i x hx).1
                · rw [List.getElem?_append_right (by omega)] at hx
                  have := p4 i (A (1 + (i - l.length))) (by
                    rw [List.getElem?_append_right (by simp; omega), List.getElem?_map, List.length_map, List.length_range,
                      List.getElem?_range (by omega)]; rfl)
                  rw [e1h] at this
                  rw [this, Nat.add_comm 1]
                  exact reads_grow hok keep (hys _ x hx).2 (hys _ x hx).1
      · rw [if_neg q1] at h'
        simp only [wr, NB_REGS] at h'
        rw [if_pos (by omega)] at h'
        simp only [Option.map_some, Option.some.injEq] at h'
        subst h'
        have hnil : l ++ ys = [] := List.length_eq_zero_iff.mp (by rw [List.length_append]; omega)
        refine ⟨f, l, ht, hat, by rw [List.length_append]; omega, by rw [List.length_append]; exact hc, by simp, ?_, fun _ _ => rfl⟩
        rw [if_pos hnil]
        simp only
        rw [if_neg (by omega)]
        exact h0 hnil

/-- call(Closure, Y1, ..., Yn) and call_with_args(Atom, Y1, ..., Yn): the predicate called is the one of the functor of the closure, with
the arguments of the closure then Y1, ..., Yn; if it does not exist or is a control construct the goal given to the interpreter
is this term, built without changing the memory; the errors. -/
theorem C66_call {atoms : Bool} {t : T} {ys : List T} {r : Res} (hok : Ok N s) (hw : ValidWord N s.lssa s.mem (A 0))
    (ht : Reads s.mem (A 0) t)
    (hys : ∀ i x, ys[i]? = some x → ValidWord N s.lssa s.mem (A (i + 1)) ∧ Reads s.mem (A (i + 1)) x)
    (h : callClosure C atoms ys.length s A = some r) : CallSpec C atoms s A t ys r := by
  unfold callClosure at h
  cases atoms with
  | true =>
    rw [if_pos rfl] at h
    cases h1 : rdAtom s.mem (A 0) with
    | none => rw [h1] at h; simp at h
    | some r1 =>
      rw [h1] at h
      rcases rdAtom_res ht h1 with ⟨rfl, e⟩ | ⟨rfl, e⟩ | ⟨f, rfl, rfl⟩
      · simp only [Option.some.injEq] at h; subst h; exact e
      · simp only [Option.some.injEq] at h; subst h; exact ⟨rfl, e⟩
      · exact callWith_res (l := []) (a := 0) hok rfl (fun _ => rfl) (fun _ => ht) (by simp) hys (by simp) h
  | false =>
    rw [if_neg (by simp)] at h
    cases h1 : rdCallable C s.mem (A 0) with
    | none => rw [h1] at h; simp at h
    | some r1 =>
      rw [h1] at h
      rcases rdCallable_res hok ht hw h1 with ⟨rfl, e⟩ | ⟨rfl, e⟩ | ⟨f, l, a, rfl, e1, e2⟩
      · simp only [Option.some.injEq] at h; subst h; exact e
      · simp only [Option.some.injEq] at h; subst h; exact ⟨rfl, e⟩
      · refine callWith_res hok e1 (by simp) ?_ e2 hys ?_ h
        · intro hn
          have : l = [] := (List.append_eq_nil_iff.mp hn).1
          subst this
          cases t with
          | atm g => simp only [closure, Option.some.injEq, Prod.mk.injEq] at e1; rw [← e1.1]; exact ht
          | lst x y => simp [closure] at e1
          | app g l =>
            simp only [closure, Option.some.injEq, Prod.mk.injEq] at e1
            obtain ⟨-, rfl⟩ := e1
            exfalso
            obtain ⟨v, d1, d2, d3⟩ := reads_deref ht
            obtain ⟨v', g1, g2, -, -⟩ := deref_ok hok hw
            rw [d1] at g1; cases g1
            generalize hT : T.app g [] = tt at d2
            cases d2 with
            | bound q _ => exact absurd (d3 _ rfl) q
            | @stc b f' n g' k1 k2 =>
              obtain ⟨f2, n2, k3, k4, -⟩ := g2
              rw [k1] at k3; cases k3
              injection hT with _ hT
              have := congrArg List.length hT
              simp at this; omega
            | _ => simp at hT
          | _ => simp [closure] at e1
        · intro j hj
          have := (e2 j _ (List.getElem?_eq_getElem hj)).1
          by_cases x1 : a + j < s.h
          · exact .inl x1
          · by_cases x2 : a + j < s.lssa
            · rw [hok.free _ (by omega) x2] at this; exact this.elim
            · exact .inr (by omega)

/-- The call never leaves the bank of the registers: it gives a result when there is room for the goal in the global stack. -/
theorem C66_total {atoms : Bool} {rest : Nat} (hok : Ok N s) (hw : ValidWord N s.lssa s.mem (A 0)) (hroom : s.h + 256 ≤ s.lssa)
    (hr : rest ≤ 10) : ∃ r, callClosure C atoms rest s A = some r := by
  obtain ⟨v, d1, d2, d3, -⟩ := deref_ok hok hw
  have key : ∀ f k a, (∀ j, j < k → a + j < s.h ∨ s.lssa ≤ a + j) → ∃ r, callWith C rest s A f k a = some r := by
    intro f k a hf
    unfold callWith
    by_cases q : k + rest > MAX_ARITY
    · rw [if_pos q]; exact ⟨_, rfl⟩
    · rw [if_neg q]
      simp only [MAX_ARITY, NB_REGS] at q
      have hb : ∃ p, buildGoal s A f k rest a = some p := by
        unfold buildGoal
        by_cases q1 : k + rest > 0
        · rw [if_pos q1]
          simp only [push]
          rw [if_pos (by omega)]
          simp only
          rw [pushArgs_eq (fun j hj => by have := hf j hj; simp only; omega)]
          obtain ⟨s2, h2⟩ := pushAll_room (l := (List.range k).map fun j =>
            (Heap.Mem.set s.mem s.h (.fn f (k + rest))) (a + j)) (s := { s with mem := s.mem.set s.h (.fn f (k + rest)), h := s.h + 1 })
            (by simp; omega)
          obtain ⟨g1, g2, -, -, -⟩ := pushAll_res h2
          rw [h2]
          simp only
          rw [pushRegs_eq]
          obtain ⟨s3, h3⟩ := pushAll_room (l := (List.range rest).map fun j => A (1 + j)) (s := s2) (by
            simp only [List.length_map, List.length_range] at g1 ⊢
            simp only at g2
            omega)
          rw [h3]
          simp only [wr, NB_REGS]
          rw [if_pos (by omega)]
          exact ⟨_, rfl⟩
        · rw [if_neg q1]; exact ⟨_, rfl⟩
      obtain ⟨⟨s1, A1⟩, hb⟩ := hb
      rw [hb]
      have hm : ∃ A1, (if k ≠ 1 then move A k rest else some A) = some A1 := by
        split
        · rw [move, if_pos (by simp only [NB_REGS]; omega)]; exact ⟨_, rfl⟩
        · exact ⟨_, rfl⟩
      obtain ⟨A2, hm⟩ := hm
      rw [hm]
      simp only [copyArgs_eq (show 0 + k ≤ 256 by omega), wr, NB_REGS]
      rw [if_pos (by omega)]
      simp only [Option.map_some]
      split <;> exact ⟨_, rfl⟩
  unfold callClosure
  cases atoms with
  | true =>
    rw [if_pos rfl]
    unfold rdAtom
    rw [d1]
    cases v with
    | atm i => exact key _ _ _ (by omega)
    | _ => exact ⟨_, rfl⟩
  | false =>
    rw [if_neg (by simp)]
    unfold rdCallable
    rw [d1]
    have hfree : ∀ b, isTerm (s.mem b) = true → b < s.h ∨ s.lssa ≤ b := by
      intro b hb
      by_cases x1 : b < s.h
      · exact .inl x1
      · by_cases x2 : b < s.lssa
        · rw [hok.free _ (by omega) x2] at hb; simp [isTerm] at hb
        · exact .inr (by omega)
    cases v with
    | atm i => exact key _ _ _ (by omega)
    | lst b =>
      refine key _ _ _ fun j hj => ?_
      match j with
      | 0 => exact hfree _ d2.2.2.1
      | 1 => exact hfree _ d2.2.2.2
      | j + 2 => omega
    | stc b =>
      obtain ⟨f, n, k1, k2, k3, k4, k5⟩ := d2
      simp only [k1]
      exact key _ _ _ fun j hj => hfree _ (k5 j hj)
    | _ => exact ⟨_, rfl⟩

/-! ## The hypotheses are met -/

def exC (b : Option Bool) : Ctx := ⟨46, fun f n => if f = 7 ∧ n = 4 then b else none, .int 0⟩

/-- The registers: the closure f(X, Y) then two arguments. -/
def exA : Regs := fun i => if i = 0 then .stc 2 else if i = 1 then .atm 300 else if i = 2 then .int 5 else .int 0

/-- What is seen of a result: the functor and the first words of the registers, or the words of the goal. -/
def seen : Option Res → Option (Nat × Nat × List Cell)
  | some (.jump f n A) => some (f, n, (List.range n).map A)
  | some (.internal s A) =>
    match A 0 with
    | .stc a => some (0, a, (List.range 5).map fun i => s.mem (a + i))
    | _ => none
  | _ => none

/-- call(f(X, Y), a, 5) calls f(X, Y, a, 5). -/
example : seen (callClosure (exC (some false)) false 2 (NumVars.exS 3) exA) = some (7, 4, [.ref 0, .ref 1, .atm 300, .int 5]) ∧
    seen (callClosure (exC none) false 2 (NumVars.exS 3) exA) = some (0, 10, [.fn 7 4, .ref 0, .ref 1, .atm 300, .int 5]) := by
  constructor
  · simp [callClosure, rdCallable, callWith, exC, exA, move, copyArgs, wr, NumVars.exS, NumVars.exM, memL, deref_nonref, seen, List.range,
      List.range.loop, NB_REGS]
  · simp [callClosure, rdCallable, callWith, exC, exA, buildGoal, push, pushArgs, pushRegs, wr, NumVars.exS, NumVars.exM, memL,
      deref_nonref, Mem.set, seen, List.range, List.range.loop, NB_REGS]

example : Ok 20 (NumVars.exS 3) ∧ ValidWord 20 (NumVars.exS 3).lssa (NumVars.exS 3).mem (exA 0) ∧
    Reads (NumVars.exS 3).mem (exA 0) (.app 7 [.var 0, .var 1]) ∧
    ∀ i x, [T.atm 300, T.int 5][i]? = some x → ValidWord 20 (NumVars.exS 3).lssa (NumVars.exS 3).mem (exA (i + 1)) ∧
      Reads (NumVars.exS 3).mem (exA (i + 1)) x := by
  refine ⟨NumVars.exS_ok 3, NumVars.exS_stc 3, NumVars.exS_reads 3, fun i x h => ?_⟩
  match i with
  | 0 => simp at h; subst h; exact ⟨trivial, .atm⟩
  | 1 => simp at h; subst h; exact ⟨trivial, .int⟩
  | i + 2 => simp at h

end Gp.CallN
