import Verif.NumVars.Spec
import Verif.TermInl.Vars
namespace Gp.NumVars
open Gp.Heap Gp.Unify Gp.ListBip Gp.TermInl

/-- The array marks exactly the numbers of the list. -/
def Marks (t : Tab) (L : List Int) : Prop := ∀ i, (i < t.nb ∧ t.dico i ≠ 0) ↔ (i < MAX_VAR ∧ (i : Int) ∈ L)

theorem marks_nil (d : Nat → Nat) : Marks ⟨d, 0⟩ [] := by intro i; simp

theorem Marks.exclude {t : Tab} {L : List Int} (h : Marks t L) (n : Int) : Marks (exclude t n) (L ++ [n]) := by
  intro i
  have hi := h i
  unfold NumVars.exclude
  by_cases hn : n < 0 ∨ n ≥ MAX_VAR
  · rw [if_pos hn, hi]
    simp only [List.mem_append, List.mem_singleton]
    constructor
    · rintro ⟨a, b⟩; exact ⟨a, .inl b⟩
    · rintro ⟨a, b | b⟩
      · exact ⟨a, b⟩
      · exfalso
        simp only [MAX_VAR] at *
        omega
  · rw [if_neg hn]
    simp only [List.mem_append, List.mem_singleton]
    by_cases h1 : i = n.toNat
    · subst h1
      simp only [if_true]
      constructor
      · intro _; simp only [MAX_VAR] at *; exact ⟨by omega, .inr (by omega)⟩
      · intro _; refine ⟨?_, by decide⟩; split <;> omega
    · have hne : (i : Int) ≠ n := by omega
      simp only [h1, if_false, hne, or_false]
      by_cases h2 : t.nb ≤ i ∧ i < n.toNat
      · rw [if_pos h2, ← hi]
        constructor
        · rintro ⟨_, h⟩; exact absurd rfl h
        · rintro ⟨h, _⟩; omega
      · rw [if_neg h2, ← hi]
        constructor
        · rintro ⟨a, b⟩; refine ⟨?_, b⟩; split at a <;> omega
        · rintro ⟨a, b⟩; refine ⟨?_, b⟩; split <;> omega

theorem Marks.excludeName {C : Ctx} {t t' : Tab} {L : List Int} (h : Marks t L) {a : Nat}
    (he : NumVars.excludeName C t a = some t') : Marks t' (L ++ nameNum C a) := by
  unfold NumVars.excludeName at he
  unfold nameNum
  cases hv : varNumber (C.name a) with
  | none => rw [hv] at he; simp at he
  | some n => rw [hv] at he; simp only [Option.some.injEq] at he; subst he; exact h.exclude n

theorem exclNums_other {C : Ctx} {f : Nat} {l : List T} (h : (∃ z, l = [.int z]) → f ≠ C.dvar) (h' : (∃ a, l = [.atm a]) → f ≠ C.dname) :
    exclNums C (.app f l) = l.flatMap fun t => exclNums C t := by
  by_cases h1 : ∃ z, l = [.int z]
  · obtain ⟨z, rfl⟩ := h1
    rw [exclNums, if_neg (h ⟨z, rfl⟩)]; simp [exclNums]
  · by_cases h2 : ∃ z, l = [.atm z]
    · obtain ⟨z, rfl⟩ := h2
      rw [exclNums, if_neg (h' ⟨z, rfl⟩)]; simp [exclNums]
    · rw [exclNums]
      · exact fun z e => h1 ⟨z, e⟩
      · exact fun z e => h2 ⟨z, e⟩

theorem exclArgs_res {C : Ctx} {m : Heap.Mem} {n : Nat}
    (ih : ∀ {a t t' L r}, Reads m (m a) t → Marks t' L → collectExcl C m n t' (m a) = some r → Marks r (L ++ exclNums C t)) :
    ∀ {k : Nat} {a : Adr} {t r : Tab} {L : List Int} {g : Nat → T}, (∀ i, i < k → Reads m (m (a + i)) (g i)) → Marks t L →
      exclArgs (collectExcl C m n) m k t a = some r → Marks r (L ++ ((List.range k).map g).flatMap fun t => exclNums C t) := by
  intro k
  induction k with
  | zero => intro a t r L g _ _ h; simp [exclArgs] at h
  | succ k ihk =>
    intro a t r L g hg hm h
    cases k with
    | zero =>
      simp only [exclArgs] at h
      have := ih (hg 0 (by omega)) hm h
      simpa [List.range_succ] using this
    | succ k =>
      simp only [exclArgs] at h
      cases h1 : collectExcl C m n t (m a) with
      | none => rw [h1] at h; simp at h
      | some t1 =>
        rw [h1] at h
        have hm1 := ih (hg 0 (by omega)) hm h1
        have := ihk (g := fun i => g (i + 1)) (fun i hi => by
          have := hg (i + 1) (by omega)
          rwa [show a + (i + 1) = a + 1 + i by omega] at this) hm1 h
        rw [List.range_succ_eq_map, List.map_cons, List.flatMap_cons, List.map_map, ← List.append_assoc]
        exact this

theorem deref_val {m : Heap.Mem} {w v : Cell} {t : T} (h : Reads m w t) (hd : deref m w = some v) :
    Reads m v t := by
  obtain ⟨v', h1, h2, _⟩ := reads_deref h
  rw [hd] at h1; injection h1 with h1; subst h1; exact h2

theorem collect_res {C : Ctx} (hC : C.dvar ≠ C.dname) {m : Heap.Mem} : ∀ {n : Nat} {w : Cell} {t : T} {tab r : Tab} {L : List Int},
    Reads m w t → Marks tab L → collectExcl C m n tab w = some r → Marks r (L ++ exclNums C t) := by
  intro n
  induction n with
  | zero => intro w t tab r L _ _ h; simp [collectExcl] at h
  | succ n ih =>
    intro w t tab r L hr hm h
    obtain ⟨v, hd, hv, hu⟩ := reads_deref hr
    simp only [collectExcl, hd] at h
    have leaf : ∀ {r}, some tab = some r → exclNums C t = [] → Marks r (L ++ exclNums C t) := by
      intro r h1 h2; rw [h2, List.append_nil]; injection h1 with h1; subst h1; exact hm
    cases hv with
    | var h1 => exact leaf h (by simp [exclNums])
    | bound h1 _ => exact absurd (hu _ rfl) h1
    | atm => exact leaf h (by simp [exclNums])
    | int => exact leaf h (by simp [exclNums])
    | flt _ _ => exact leaf h (by simp [exclNums])
    | nan _ _ => exact leaf h (by simp [exclNums])
    | @lst a t1 t2 r1 r2 =>
      simp only at h
      cases h1 : collectExcl C m n tab (m a) with
      | none => rw [h1] at h; simp at h
      | some t1 =>
        rw [h1] at h
        have := ih r2 (ih r1 hm h1) h
        rw [exclNums, ← List.append_assoc]; exact this
    | @stc a f k g hf hg =>
      simp only [hf] at h
      have args : ∀ {r}, exclArgs (collectExcl C m n) m k tab (a + 1) = some r →
          Marks r (L ++ ((List.range k).map g).flatMap fun t => exclNums C t) := fun h =>
        exclArgs_res (g := g) ih hg hm h
      have one : k = 1 → (List.range k).map g = [g 0] := by rintro rfl; rfl
      have r0 : k = 1 → Reads m (m (a + 1)) (g 0) := fun e => hg 0 (by omega)
      have onei : ∀ x, (List.range k).map g = [x] → k = 1 ∧ g 0 = x := by
        intro x e
        have := congrArg List.length e
        simp at this
        subst this
        simp [List.range_succ] at e
        exact ⟨rfl, e⟩
      unfold exclStc at h
      by_cases c1 : f = C.dvar ∧ k = 1
      · rw [if_pos c1] at h
        have rd := r0 c1.2
        obtain ⟨v, hd, hv, hu'⟩ := reads_deref rd
        rw [hd] at h
        have other : (∀ z, v ≠ .int z) → exclArgs (collectExcl C m n) m k tab (a + 1) = some r →
            Marks r (L ++ exclNums C (.app f ((List.range k).map g))) := by
          intro hne h
          rw [exclNums_other ?_ ?_]
          · exact args h
          · rintro ⟨z, e⟩
            exfalso
            rw [(onei _ e).2] at hv
            cases hv with
            | bound h1 _ => exact absurd (hu' _ rfl) h1
            | int => exact hne _ rfl
          · rintro ⟨z, e⟩ hf
            exact hC (by rw [← c1.1, ← hf])
        cases v with
        | int z =>
          simp only [Option.some.injEq] at h
          subst h
          have : g 0 = .int z := by generalize g 0 = t at hv; cases hv; rfl
          rw [one c1.2, this, exclNums, if_pos c1.1]
          exact hm.exclude z
        | _ => exact other (by simp) h
      · rw [if_neg c1] at h
        by_cases c2 : f = C.dname ∧ k = 1
        · rw [if_pos c2] at h
          have rd := r0 c2.2
          obtain ⟨v, hd, hv, hu'⟩ := reads_deref rd
          rw [hd] at h
          have other : (∀ z, v ≠ .atm z) → exclArgs (collectExcl C m n) m k tab (a + 1) = some r →
              Marks r (L ++ exclNums C (.app f ((List.range k).map g))) := by
            intro hne h
            rw [exclNums_other ?_ ?_]
            · exact args h
            · rintro ⟨z, e⟩ hf
              exact hC (by rw [← c2.1, ← hf])
            · rintro ⟨z, e⟩
              exfalso
              rw [(onei _ e).2] at hv
              cases hv with
              | bound h1 _ => exact absurd (hu' _ rfl) h1
              | atm => exact hne _ rfl
          cases v with
          | atm z =>
            simp only at h
            have : g 0 = .atm z := by generalize g 0 = t at hv; cases hv; rfl
            rw [one c2.2, this, exclNums, if_pos c2.1]
            exact hm.excludeName h
          | _ => exact other (by simp) h
        · rw [if_neg c2] at h
          rw [exclNums_other ?_ ?_]
          · exact args h
          · rintro ⟨z, e⟩ hf; exact c1 ⟨hf, (onei _ e).1⟩
          · rintro ⟨z, e⟩ hf; exact c2 ⟨hf, (onei _ e).1⟩

theorem exclEq_res {C : Ctx} {m : Heap.Mem} {w : Cell} {t : T} {tab r : Tab} {L : List Int} (hr : Reads m w t)
    (hm : Marks tab L) (h : exclEq C m tab w = some r) :
    Marks r (L ++ pairNums C t) := by
  obtain ⟨v, hd, hv, hu⟩ := reads_deref hr
  unfold exclEq at h
  rw [hd] at h
  cases hv with
  | bound h1 _ => exact absurd (hu _ rfl) h1
  | @stc a f k g hf hg =>
    simp only [hf] at h
    have no : ¬ (f = C.eq ∧ k = 2 ∧ ∃ a, g 0 = .atm a) → pairNums C (.app f ((List.range k).map g)) = [] := by
      intro hno
      unfold pairNums
      split
      · next f' a' x e =>
        injection e with e1 e2
        subst e1
        rw [if_neg]
        intro hfe
        apply hno
        have hk := congrArg List.length e2
        simp at hk
        subst hk
        simp [List.range_succ] at e2
        exact ⟨hfe, rfl, _, e2.1⟩
      · rfl
    by_cases c : f = C.eq ∧ k = 2
    · rw [if_pos c] at h
      obtain ⟨c1, c2⟩ := c
      subst c2
      have rd := hg 0 (by omega)
      obtain ⟨v, hd, hv, hu⟩ := reads_deref rd
      rw [show a + 1 + 0 = a + 1 by omega] at hd
      rw [hd] at h
      have other : (∀ z, v ≠ .atm z) → some tab = some r → Marks r (L ++ pairNums C (.app f ((List.range 2).map g))) := by
        intro hne h
        rw [no, List.append_nil]
        · injection h with h; subst h; exact hm
        · rintro ⟨_, _, a, e⟩
          rw [e] at hv
          cases hv with
          | bound h1 _ => exact absurd (hu _ rfl) h1
          | atm => exact hne _ rfl
      cases v with
      | atm z =>
        simp only at h
        have : g 0 = .atm z := by generalize g 0 = t at hv; cases hv; rfl
        have e : (List.range 2).map g = [.atm z, g 1] := by simp [List.range_succ, this]
        rw [e]
        simp only [pairNums, c1, if_true]
        exact hm.excludeName h
      | _ => exact other (by simp) h
    · rw [if_neg c] at h
      rw [no (fun x => c ⟨x.1, x.2.1⟩), List.append_nil]
      injection h with h; subst h; exact hm
  | _ => simp only [Option.some.injEq] at h; subst h; simpa [pairNums] using hm

/-- The list of exclusions. -/
theorem exclList_res {C : Ctx} (hC : C.dvar ≠ C.dname) {m : Heap.Mem} {fuel : Nat} : ∀ {n : Nat} {w : Cell} {t : T} {tab : Tab}
    {r : Except TermInl.Err Tab} {L : List Int}, Reads m w t → Marks tab L → exclList C m fuel n tab w = some r →
    (∃ ts tab', t = listT ts nil ∧ r = .ok tab' ∧ Marks tab' (L ++ ts.flatMap fun t => exclElem C t)) ∨
    (∃ ts v, t = listT ts (.var v) ∧ r = .error .instantiation) ∨
    (∃ ts t', t = listT ts t' ∧ t' ≠ nil ∧ (∀ v, t' ≠ .var v) ∧ (∀ x y, t' ≠ .lst x y) ∧ r = .error .typeList) := by
  intro n
  induction n with
  | zero => intro w t tab r L _ _ h; simp [exclList] at h
  | succ n ih =>
    intro w t tab r L hr hm h
    obtain ⟨v, hd, hv, hu⟩ := reads_deref hr
    simp only [exclList, hd] at h
    have bad : (if v = NIL_WORD then some (Except.ok tab) else some (.error .typeList)) = some r → v ≠ NIL_WORD → t ≠ nil →
        (∀ v, t ≠ .var v) → (∀ x y, t ≠ .lst x y) →
        (∃ ts t', t = listT ts t' ∧ t' ≠ nil ∧ (∀ v, t' ≠ .var v) ∧ (∀ x y, t' ≠ .lst x y) ∧
          r = .error TermInl.Err.typeList) := by
      intro h h1 h2 h3 h4
      rw [if_neg h1] at h
      simp only [Option.some.injEq] at h
      exact ⟨[], t, rfl, h2, h3, h4, h.symm⟩
    cases hv with
    | var h1 =>
      simp only [Option.some.injEq] at h
      exact .inr (.inl ⟨[], _, rfl, h.symm⟩)
    | bound h1 _ => exact absurd (hu _ rfl) h1
    | @lst a t1 t2 r1 r2 =>
      simp only at h
      cases h1 : collectExcl C m fuel tab (m a) with
      | none => rw [h1] at h; simp at h
      | some tab1 =>
        rw [h1] at h
        simp only at h
        cases h2 : exclEq C m tab1 (m a) with
        | none => rw [h2] at h; simp at h
        | some tab2 =>
          rw [h2] at h
          have m1 := collect_res hC r1 hm h1
          have m2 := exclEq_res r1 m1 h2
          rcases ih r2 m2 h with ⟨ts, tab', e1, e2, e3⟩ | ⟨ts, v, e1, e2⟩ | ⟨ts, t', e1, e2, e3, e4, e5⟩
          · refine .inl ⟨t1 :: ts, tab', by rw [e1]; rfl, e2, ?_⟩
            rw [List.flatMap_cons, exclElem]
            simpa [List.append_assoc] using e3
          · exact .inr (.inl ⟨t1 :: ts, v, by rw [e1]; rfl, e2⟩)
          · exact .inr (.inr ⟨t1 :: ts, t', by rw [e1]; rfl, e2, e3, e4, e5⟩)
    | @atm i =>
      simp only at h
      by_cases hi : i = 256
      · subst hi
        rw [if_pos rfl] at h
        simp only [Option.some.injEq] at h
        refine .inl ⟨[], tab, rfl, h.symm, ?_⟩
        simpa using hm
      · exact .inr (.inr (bad h (by simpa [NIL_WORD] using hi) (by simpa using hi) (by simp) (by simp)))
    | int => exact .inr (.inr (bad h (by simp [NIL_WORD]) (by simp) (by simp) (by simp)))
    | flt _ _ => exact .inr (.inr (bad h (by simp [NIL_WORD]) (by simp) (by simp) (by simp)))
    | nan _ _ => exact .inr (.inr (bad h (by simp [NIL_WORD]) (by simp) (by simp) (by simp)))
    | stc _ _ => exact .inr (.inr (bad h (by simp [NIL_WORD]) (by simp) (by simp) (by simp)))

/-- The loop of Bind_Variable gives the next number which is not excluded. -/
theorem skip_res {t : Tab} {k : Nat} : k ≤ skip t k ∧ ¬ (skip t k < t.nb ∧ t.dico (skip t k) ≠ 0) ∧
    ∀ j, k ≤ j → j < skip t k → j < t.nb ∧ t.dico j ≠ 0 := by
  fun_induction skip t k with
  | case1 k h ih =>
    refine ⟨by omega, ih.2.1, fun j h1 h2 => ?_⟩
    by_cases e : j = k
    · subst e; exact h
    · exact ih.2.2 j (by omega) h2
  | case2 k h => exact ⟨Nat.le_refl _, h, fun j h1 h2 => by omega⟩

end Gp.NumVars
