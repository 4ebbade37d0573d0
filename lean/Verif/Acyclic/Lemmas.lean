import Verif.Acyclic.Spec
import Verif.Unify.Lemmas
namespace Gp.Acyclic
open Gp.Heap
open Gp.Unify (set_same set_other deref_ref deref_nonref RefTo)

/-! Finite terms with a bound on the height -/

/-- `Fin` with a bound. -/
inductive FinN (m : Mem) : Nat → Cell → Prop
  | var {n a : Nat} : m a = .ref a → FinN m (n + 1) (.ref a)
  | bound {n a : Nat} : m a ≠ .ref a → FinN m n (m a) → FinN m (n + 1) (.ref a)
  | atm {n i : Nat} : FinN m (n + 1) (.atm i)
  | int {n : Nat} {z : Int} : FinN m (n + 1) (.int z)
  | flt {n a : Nat} : FinN m (n + 1) (.flt a)
  | fdv {n a : Nat} : FinN m (n + 1) (.fdv a)
  | lst {n a : Nat} : a ≠ 0 → FinN m n (m a) → FinN m n (m (a + 1)) → FinN m (n + 1) (.lst a)
  | stc {n a f k : Nat} : m a = .fn f k → (∀ i, i < k → FinN m n (m (a + 1 + i))) → FinN m (n + 1) (.stc a)

theorem FinN.mono {m : Mem} {n n' : Nat} {w : Cell} (h : FinN m n w) (hn : n ≤ n') : FinN m n' w := by
  induction h generalizing n' with
  | var h => obtain ⟨k, rfl⟩ : ∃ k, n' = k + 1 := ⟨n' - 1, by omega⟩; exact .var h
  | bound h _ ih => obtain ⟨k, rfl⟩ : ∃ k, n' = k + 1 := ⟨n' - 1, by omega⟩; exact .bound h (ih (by omega))
  | atm => obtain ⟨k, rfl⟩ : ∃ k, n' = k + 1 := ⟨n' - 1, by omega⟩; exact .atm
  | int => obtain ⟨k, rfl⟩ : ∃ k, n' = k + 1 := ⟨n' - 1, by omega⟩; exact .int
  | flt => obtain ⟨k, rfl⟩ : ∃ k, n' = k + 1 := ⟨n' - 1, by omega⟩; exact .flt
  | fdv => obtain ⟨k, rfl⟩ : ∃ k, n' = k + 1 := ⟨n' - 1, by omega⟩; exact .fdv
  | lst h _ _ ih1 ih2 =>
    obtain ⟨k, rfl⟩ : ∃ k, n' = k + 1 := ⟨n' - 1, by omega⟩; exact .lst h (ih1 (by omega)) (ih2 (by omega))
  | stc h _ ih => obtain ⟨k, rfl⟩ : ∃ k, n' = k + 1 := ⟨n' - 1, by omega⟩; exact .stc h (fun i hi => ih i hi (by omega))

theorem FinN.fin {m : Mem} {n : Nat} {w : Cell} (h : FinN m n w) : Fin m w := by
  induction h with
  | var h => exact .var h
  | bound h _ ih => exact .bound h ih
  | atm => exact .atm
  | int => exact .int
  | flt => exact .flt
  | fdv => exact .fdv
  | lst h _ _ ih1 ih2 => exact .lst h ih1 ih2
  | stc h _ ih => exact .stc h ih

theorem bound_all {p : Nat → Nat → Prop} (hm : ∀ i n n', p i n → n ≤ n' → p i n') (k : Nat)
    (h : ∀ i, i < k → ∃ n, p i n) : ∃ n, ∀ i, i < k → p i n := by
  induction k with
  | zero => exact ⟨0, fun i hi => by omega⟩
  | succ k ih =>
    obtain ⟨n, hn⟩ := ih (fun i hi => h i (by omega))
    obtain ⟨n', hn'⟩ := h k (by omega)
    refine ⟨max n n', fun i hi => ?_⟩
    by_cases hik : i = k
    · subst hik; exact hm _ _ _ hn' (Nat.le_max_right _ _)
    · exact hm _ _ _ (hn i (by omega)) (Nat.le_max_left _ _)

theorem Fin.bounded {m : Mem} {w : Cell} (h : Fin m w) : ∃ n, FinN m n w := by
  induction h with
  | var h => exact ⟨1, .var h⟩
  | bound h _ ih => obtain ⟨n, ih⟩ := ih; exact ⟨n + 1, .bound h ih⟩
  | atm => exact ⟨1, .atm⟩
  | int => exact ⟨1, .int⟩
  | flt => exact ⟨1, .flt⟩
  | fdv => exact ⟨1, .fdv⟩
  | lst h _ _ ih1 ih2 =>
    obtain ⟨n1, ih1⟩ := ih1
    obtain ⟨n2, ih2⟩ := ih2
    exact ⟨max n1 n2 + 1, .lst h (ih1.mono (Nat.le_max_left _ _)) (ih2.mono (Nat.le_max_right _ _))⟩
  | @stc a f k h _ ih =>
    obtain ⟨n, hn⟩ := bound_all (p := fun i n => FinN m n (m (a + 1 + i))) (fun i n n' h hn => h.mono hn) k ih
    exact ⟨n + 1, .stc h hn⟩

/-- Marking a cell can only remove finite terms. -/
theorem Fin.unmark {m : Mem} {x : Adr} {w : Cell} (h : Fin (m.set x mark) w) : Fin m w := by
  have key : ∀ a, Fin (m.set x mark) (m.set x mark a) → a ≠ x := by
    rintro a h rfl
    rw [set_same] at h
    cases h with
    | lst h => exact h rfl
  induction h with
  | @var a h =>
    have : a ≠ x := by rintro rfl; rw [set_same] at h; simp at h
    rw [set_other _ _ _ _ this] at h
    exact .var h
  | @bound a h h' ih =>
    have := key a h'
    rw [set_other _ _ _ _ this] at h ih
    exact .bound h ih
  | atm => exact .atm
  | int => exact .int
  | flt => exact .flt
  | fdv => exact .fdv
  | @lst a h h1 h2 ih1 ih2 =>
    rw [set_other _ _ _ _ (key a h1)] at ih1
    rw [set_other _ _ _ _ (key (a + 1) h2)] at ih2
    exact .lst h ih1 ih2
  | @stc a f k h h' ih =>
    have : a ≠ x := by rintro rfl; rw [set_same] at h; simp at h
    rw [set_other _ _ _ _ this] at h
    refine .stc h (fun i hi => ?_)
    have := ih i hi
    rw [set_other _ _ _ _ (key _ (h' i hi))] at this
    exact this

/-- A finite term lower than the one at `x` does not use `x`. -/
theorem FinN.mark' {m : Mem} {x : Adr} {n : Nat} {w : Cell} (h : FinN m n w) (hx : ∀ j, j < n → ¬ FinN m j (m x))
    (hs : m x ≠ .ref x) (hf : ∀ f k, m x ≠ .fn f k) : Fin (m.set x mark) w := by
  have key : ∀ a j n, j < n → (∀ j, j < n → ¬ FinN m j (m x)) → FinN m j (m a) → a ≠ x := by
    rintro a j n hj hx h rfl; exact hx j hj h
  induction h with
  | @var n a h => exact .var (by rw [set_other _ _ _ _ (by rintro rfl; exact hs h)]; exact h)
  | @bound n a h h' ih =>
    have := key a n (n + 1) (by omega) hx h'
    refine .bound (by rw [set_other _ _ _ _ this]; exact h) ?_
    rw [set_other _ _ _ _ this]
    exact ih (fun j hj => hx j (by omega))
  | atm => exact .atm
  | int => exact .int
  | flt => exact .flt
  | fdv => exact .fdv
  | @lst n a h h1 h2 ih1 ih2 =>
    refine .lst h ?_ ?_
    · rw [set_other _ _ _ _ (key a n (n + 1) (by omega) hx h1)]
      exact ih1 (fun j hj => hx j (by omega))
    · rw [set_other _ _ _ _ (key (a + 1) n (n + 1) (by omega) hx h2)]
      exact ih2 (fun j hj => hx j (by omega))
  | @stc n a f k h h' ih =>
    refine .stc (f := f) (n := k) ?_ ?_
    · rw [set_other _ _ _ _ (by rintro rfl; exact hf f k h)]; exact h
    · intro i hi
      rw [set_other _ _ _ _ (key _ n (n + 1) (by omega) hx (h' i hi))]
      exact ih i hi (fun j hj => hx j (by omega))

/-! Dereferencing -/

theorem deref_fin {m : Mem} {w v : Cell} (h : deref m w = some v) : Fin m v → Fin m w := by
  refine deref.partial_correctness (motive := fun w v => Fin m v → Fin m w) m ?_ w v h
  intro d ih w v hd hv
  cases w with
  | ref a =>
    simp only at hd
    by_cases ha : m a = .ref a
    · rw [if_pos ha] at hd
      simp only [Option.some.injEq] at hd; subst hd; exact hv
    · rw [if_neg ha] at hd
      exact .bound ha (ih _ _ hd hv)
  | _ => simp only [Option.some.injEq] at hd; subst hd; exact hv

theorem deref_finN {m : Mem} {w v : Cell} (h : deref m w = some v) : ∀ n, FinN m n w → FinN m n v := by
  refine deref.partial_correctness (motive := fun w v => ∀ n, FinN m n w → FinN m n v) m ?_ w v h
  intro d ih w v hd n hv
  cases w with
  | ref a =>
    simp only at hd
    by_cases ha : m a = .ref a
    · rw [if_pos ha] at hd
      simp only [Option.some.injEq] at hd; subst hd; exact hv
    · rw [if_neg ha] at hd
      cases hv with
      | var h => exact absurd h ha
      | bound _ h => exact (ih _ _ hd _ h).mono (by omega)
  | _ => simp only [Option.some.injEq] at hd; subst hd; exact hv

/-- The cells from `b` to `b + n` are the arguments of the compound term `v`. -/
theorem comp_fin {m : Mem} {v : Cell} {b n : Nat} (hc : comp m v = some (some (b, n))) (hv : v ≠ mark) :
    (∀ k, FinN m k v → ∃ j, j < k ∧ ∀ i, i < n → FinN m j (m (b + i))) ∧
    ((∀ i, i < n → Fin m (m (b + i))) → Fin m v) := by
  cases v with
  | lst a =>
    simp only [comp, Option.some.injEq, Prod.mk.injEq] at hc
    obtain ⟨rfl, rfl⟩ := hc
    constructor
    · intro k hk
      cases hk with
      | @lst k _ h h1 h2 =>
        refine ⟨k, by omega, fun i hi => ?_⟩
        have : i = 0 ∨ i = 1 := by omega
        rcases this with rfl | rfl
        · exact h1
        · exact h2
    · intro h
      refine .lst ?_ (h 0 (by omega)) (h 1 (by omega))
      rintro rfl; exact hv rfl
  | stc a =>
    simp only [comp] at hc
    cases hm : m a with
    | fn f k =>
      rw [hm] at hc
      simp only [Option.some.injEq, Prod.mk.injEq] at hc
      obtain ⟨rfl, rfl⟩ := hc
      constructor
      · intro j hj
        cases hj with
        | @stc j _ f' k' h h' =>
          rw [hm] at h
          simp only [Cell.fn.injEq] at h
          obtain ⟨_, rfl⟩ := h
          exact ⟨j, by omega, h'⟩
      · intro h
        exact .stc hm h
    | _ => rw [hm] at hc; simp at hc
  | _ => simp [comp] at hc

/-- The test of the arguments with the cell `x` marked. -/
theorem mark_iff {m : Mem} {x b n : Adr} {v : Cell} (hd : deref m (m x) = some v) (hv : v ≠ mark)
    (hc : comp m v = some (some (b, n))) :
    Fin m (m x) ↔ ∀ i, i < n → Fin (m.set x mark) (m.set x mark (b + i)) := by
  have hs : m x ≠ .ref x := by
    intro h
    rw [h, deref_ref, if_pos h] at hd
    simp only [Option.some.injEq] at hd
    subst hd
    simp [comp] at hc
  have hf : ∀ f k, m x ≠ .fn f k := by
    intro f k h
    rw [h, deref_nonref (by simp)] at hd
    simp only [Option.some.injEq] at hd
    subst hd
    simp [comp] at hc
  obtain ⟨c1, c2⟩ := comp_fin hc hv
  constructor
  · intro h
    have hex := h.bounded
    -- the least bound
    have hmin : ∃ n0, FinN m n0 (m x) ∧ ∀ j, j < n0 → ¬ FinN m j (m x) := by
      obtain ⟨k, hk⟩ := hex
      induction k using Nat.strongRecOn with
      | _ k ih =>
        by_cases hj : ∃ j, j < k ∧ FinN m j (m x)
        · obtain ⟨j, h1, h2⟩ := hj
          exact ih j h1 h2
        · exact ⟨k, hk, fun j h1 h2 => hj ⟨j, h1, h2⟩⟩
    obtain ⟨n0, h1, h2⟩ := hmin
    obtain ⟨j, hj, hall⟩ := c1 n0 (deref_finN hd n0 h1)
    intro i hi
    have hne : b + i ≠ x := by
      intro he
      have := hall i hi
      rw [he] at this
      exact h2 j hj this
    rw [set_other _ _ _ _ hne]
    exact (hall i hi).mark' (fun j' hj' => h2 j' (by omega)) hs hf
  · intro h
    refine deref_fin hd (c2 (fun i hi => ?_))
    have hi' := h i hi
    have hne : b + i ≠ x := by
      intro he
      rw [he, set_same] at hi'
      cases hi' with
      | lst h => exact h rfl
    rw [set_other _ _ _ _ hne] at hi'
    exact hi'.unmark

end Gp.Acyclic
