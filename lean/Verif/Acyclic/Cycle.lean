import Verif.Acyclic.Run
import Mathlib.Data.Fintype.EquivFin
import Mathlib.Data.Fintype.Card
import Mathlib.Logic.Relation
namespace Gp.Acyclic
open Gp.Heap
open Gp.Unify (set_same set_other deref_ref deref_nonref RefTo)

/-- The cell `b` is an argument of the compound term designated by the word `w`. -/
def Arg (m : Mem) (w : Cell) (b : Adr) : Prop :=
  ∃ v, deref m w = some v ∧
    ((v = .lst b ∨ ∃ c, v = .lst c ∧ b = c + 1) ∨
     ∃ c f n i, v = .stc c ∧ m c = .fn f n ∧ i < n ∧ b = c + 1 + i)

/-- The cell `b` is an argument of the compound term in the cell `a`. -/
def Child (m : Mem) (a b : Adr) : Prop := Arg m (m a) b

/-- The term designated by `w` has a sub-term which is a proper sub-term of itself. -/
def Cyclic (m : Mem) (w : Cell) : Prop :=
  ∃ b c, Arg m w b ∧ Relation.ReflTransGen (Child m) b c ∧ Relation.TransGen (Child m) c c

section
variable {S : Adr → Prop} {N sw : Adr} {m : Mem}

theorem deref_not_mark (hm : HeapOk S N sw m) {w : Cell} (hw : Good S sw m w) (h : deref m w = some mark) : False := by
  refine deref.partial_correctness (motive := fun w v => Good S sw m w → v ≠ mark) m ?_ w _ h hw rfl
  intro d ih w v hd hw
  cases w with
  | ref a =>
    simp only at hd
    by_cases haa : m a = .ref a
    · rw [if_pos haa] at hd
      simp only [Option.some.injEq] at hd
      subst hd; simp
    · rw [if_neg haa] at hd
      exact ih _ _ hd (hm.good a hw)
  | lst c =>
    simp only [Option.some.injEq] at hd; subst hd
    intro h
    simp only [Cell.lst.injEq] at h
    exact hw.1 h
  | _ => simp only [Option.some.injEq] at hd; subst hd; simp

theorem arg_ok (hm : HeapOk S N sw m) {w : Cell} (hw : Good S sw m w) {b : Adr} (h : Arg m w b) : S b := by
  obtain ⟨v, hd, h⟩ := h
  obtain ⟨v', hd', hv, _⟩ := deref_ok hm.mok (.inr hw)
  rw [hd] at hd'
  simp only [Option.some.injEq] at hd'
  subst hd'
  rcases h with (rfl | ⟨c, rfl, rfl⟩) | ⟨c, f, n, i, rfl, hf, hi, rfl⟩
  · rcases hv with h | h
    · exfalso
      rw [h] at hd
      exact deref_not_mark hm hw hd
    · exact h.2.1
  · rcases hv with h | h
    · exfalso
      rw [h] at hd
      exact deref_not_mark hm hw hd
    · exact h.2.2
  · rcases hv with h | h
    · simp at h
    · obtain ⟨f', n', h1, h2, h3, h4, h5⟩ := h
      rw [hf] at h1
      simp only [Cell.fn.injEq] at h1
      obtain ⟨rfl, rfl⟩ := h1
      exact h5 i hi

/-- A word is a finite term iff its arguments are. -/
theorem fin_args (hm : HeapOk S N sw m) {w : Cell} (hw : Good S sw m w) :
    Fin m w ↔ ∀ b, Arg m w b → Fin m (m b) := by
  constructor
  · intro h b ⟨v, hd, hb⟩
    have hv := (fin_deref hd).1 h
    rcases hb with (rfl | ⟨c, rfl, rfl⟩) | ⟨c, f, n, i, rfl, hf, hi, rfl⟩
    · cases hv with
      | lst _ h1 h2 => exact h1
    · cases hv with
      | lst _ h1 h2 => exact h2
    · cases hv with
      | stc h1 h2 =>
        rw [hf] at h1
        simp only [Cell.fn.injEq] at h1
        obtain ⟨rfl, rfl⟩ := h1
        exact h2 i hi
  · intro h
    obtain ⟨v, hd, hv, hn⟩ := deref_ok hm.mok (.inr hw)
    refine (fin_deref hd).2 ?_
    by_cases hvm : v = mark
    · exfalso
      subst hvm
      exact deref_not_mark hm hw hd
    · rcases comp_ok hv hvm hn with ⟨_, hf⟩ | ⟨b, n, hc, _, _⟩
      · exact hf
      · refine (comp_fin hc hvm).2 (fun i hi => h _ ⟨v, hd, ?_⟩)
        cases v with
        | lst c =>
          simp only [comp, Option.some.injEq, Prod.mk.injEq] at hc
          obtain ⟨rfl, rfl⟩ := hc
          have : i = 0 ∨ i = 1 := by omega
          rcases this with rfl | rfl
          · exact .inl (.inl rfl)
          · exact .inl (.inr ⟨c, rfl, rfl⟩)
        | stc c =>
          simp only [comp] at hc
          cases hmc : m c with
          | fn f k =>
            rw [hmc] at hc
            simp only [Option.some.injEq, Prod.mk.injEq] at hc
            obtain ⟨rfl, rfl⟩ := hc
            exact .inr ⟨c, f, k, i, rfl, hmc, hi, rfl⟩
          | _ => rw [hmc] at hc; simp at hc
        | _ => simp [comp] at hc

theorem fin_not_cyclic (hm : HeapOk S N sw m) {c : Adr} (hc : S c) (h : Fin m (m c)) : ¬ Relation.TransGen (Child m) c c := by
  -- the bound decreases along the path
  have step : ∀ a b, S a → Child m a b → ∀ n, FinN m n (m a) → ∃ j, j < n ∧ FinN m j (m b) := by
    intro a b ha ⟨v, hd, hb⟩ n hn
    have hv := deref_finN hd n hn
    rcases hb with (rfl | ⟨c, rfl, rfl⟩) | ⟨c, f, n, i, rfl, hf, hi, rfl⟩
    · cases hv with
      | lst _ h1 h2 => exact ⟨_, Nat.lt_succ_self _, h1⟩
    · cases hv with
      | lst _ h1 h2 => exact ⟨_, Nat.lt_succ_self _, h2⟩
    · cases hv with
      | stc h1 h2 =>
        rw [hf] at h1
        simp only [Cell.fn.injEq] at h1
        obtain ⟨rfl, rfl⟩ := h1
        exact ⟨_, Nat.lt_succ_self _, h2 i hi⟩
  have path : ∀ a b, Relation.TransGen (Child m) a b → S a → S b ∧ ∀ n, FinN m n (m a) → ∃ j, j < n ∧ FinN m j (m b) := by
    intro a b hab ha
    induction hab with
    | single h => exact ⟨arg_ok hm (hm.good a ha) h, step _ _ ha h⟩
    | tail _ h ih =>
      refine ⟨arg_ok hm (hm.good _ ih.1) h, fun n hn => ?_⟩
      obtain ⟨j, h1, h2⟩ := ih.2 n hn
      obtain ⟨j', h3, h4⟩ := step _ _ ih.1 h j h2
      exact ⟨j', by omega, h4⟩
  intro hcyc
  obtain ⟨n, hn⟩ := h.bounded
  induction n using Nat.strongRecOn with
  | _ n ih =>
    obtain ⟨j, h1, h2⟩ := (path c c hcyc hc).2 n hn
    exact ih j h1 h2

/-- In a well formed heap a word designates an infinite term iff the term is cyclic. -/
theorem not_fin_iff_cyclic (hm : HeapOk S N sw m) {w : Cell} (hw : Good S sw m w) : ¬ Fin m w ↔ Cyclic m w := by
  constructor
  · intro hnf
    refine Classical.byContradiction fun hnc => hnf ?_
    rw [fin_args hm hw]
    intro b hb
    -- the cells reachable from `b` are finitely many
    let R : Type := {c : _root_.Fin N // S c.1 ∧ Relation.ReflTransGen (Child m) b c.1}
    let r : R → R → Prop := fun x y => Relation.TransGen (Child m) y.1.1 x.1.1
    have hfinite : Finite R := Finite.of_injective (fun x : R => x.1) (fun _ _ h => Subtype.ext h)
    have htr : IsTrans R r := ⟨fun x y z h1 h2 => h2.trans h1⟩
    have hir : Std.Irrefl r := ⟨fun x h => hnc ⟨b, x.1.1, hb, x.2.2, h⟩⟩
    have hwf : WellFounded r := Finite.wellFounded_of_trans_of_irrefl r
    have all : ∀ x : R, Fin m (m x.1.1) := by
      intro x
      induction x using hwf.induction with
      | _ x ih =>
        rw [fin_args hm (hm.good _ x.2.1)]
        intro b' hb'
        have hS := arg_ok hm (hm.good _ x.2.1) hb'
        exact ih ⟨⟨b', hm.lt _ hS⟩, hS, x.2.2.tail hb'⟩ (.single hb')
    have hSb := arg_ok hm hw hb
    exact all ⟨⟨b, hm.lt _ hSb⟩, hSb, .refl⟩
  · rintro ⟨b, c, h1, h2, h3⟩ hf
    have hb := arg_ok hm hw h1
    have hfb := (fin_args hm hw).1 hf b h1
    have : S c ∧ Fin m (m c) := by
      clear h3
      induction h2 with
      | refl => exact ⟨hb, hfb⟩
      | tail _ h ih => exact ⟨arg_ok hm (hm.good _ ih.1) h, (fin_args hm (hm.good _ ih.1)).1 ih.2 _ h⟩
    exact fin_not_cyclic hm this.1 this.2 h3
end

end Gp.Acyclic
