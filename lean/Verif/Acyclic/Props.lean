import Verif.Acyclic.Cycle
/-
C40: acyclic_term/1 is exact and leaves the term unchanged.

Specification: `Fin` (finite terms), `HeapOk` in Spec.lean; `Cyclic` in Cycle.lean.
-/
namespace Gp.Acyclic
open Gp.Heap
open Gp.Unify (RefTo)

/-- C40: on every well formed heap, with cyclic terms or not, acyclic_term/1 terminates, all the cells have their initial value
at the end, and it succeeds iff the term is finite. -/
theorem C40_acyclic_term {S : Adr → Prop} {N sw : Adr} {m : Mem} (hm : HeapOk S N sw m) {w : Cell} (hw : Good S sw m w) :
    ∃ m' ok, acyclic sw m w = some (m', ok) ∧ (∀ x, x ≠ sw → m' x = m x) ∧ (ok = true ↔ Fin m w) :=
  acyclic_spec hm.mok (.inr hw)

/-- C40: acyclic_term/1 fails iff the term has a sub-term which is a proper sub-term of itself. -/
theorem C40_fails_iff_cyclic {S : Adr → Prop} {N sw : Adr} {m : Mem} (hm : HeapOk S N sw m) {w : Cell}
    (hw : Good S sw m w) : (∃ m', acyclic sw m w = some (m', false)) ↔ Cyclic m w := by
  obtain ⟨m', ok, h1, _, h2⟩ := acyclic_spec hm.mok (.inr hw)
  rw [← not_fin_iff_cyclic hm hw, ← h2, h1]
  cases ok <;> simp

/-! Examples: X = f(X, [a|Y]), and the finite term [a|Y]. -/

/-- 1: f/2, 2: X, 3: the list, 4: a, 5: Y; X = f(X, [a|Y]). -/
def exMem : Mem := fun x =>
  if x = 1 then .fn 7 2 else if x = 2 then .stc 1 else if x = 3 then .lst 4 else if x = 4 then .atm 3
  else if x = 5 then .ref 5 else .atm 0

theorem exMem_ok : HeapOk (fun x => 2 ≤ x ∧ x ≤ 5) 6 9 exMem := by
  refine ⟨fun a h => by omega, ?_, ?_, by omega⟩
  · intro a ha
    have : a = 2 ∨ a = 3 ∨ a = 4 ∨ a = 5 := by omega
    rcases this with rfl | rfl | rfl | rfl
    · exact ⟨7, 2, rfl, by omega, by omega, by omega, fun i hi => by omega⟩
    · exact ⟨by omega, by omega, by omega⟩
    · exact True.intro
    · show 2 ≤ 5 ∧ 5 ≤ 5; omega
  · intro a ha
    refine .intro a (fun b hb => ?_)
    have : a = 2 ∨ a = 3 ∨ a = 4 ∨ a = 5 := by omega
    rcases this with rfl | rfl | rfl | rfl <;> (have h1 := hb.1; have h2 := hb.2; simp [exMem] at h1)
    exact absurd h1.symm h2

/-- X = f(X, [a|Y]) is refused, with the heap restored. -/
example : ∃ m', acyclic 9 exMem (.stc 1) = some (m', false) := by
  refine (C40_fails_iff_cyclic exMem_ok (w := .stc 1) ?_).2 ?_
  · exact ⟨7, 2, rfl, by omega, by omega, by omega, fun i hi => by omega⟩
  · have h : Child exMem 2 2 :=
      ⟨.stc 1, Gp.Unify.deref_nonref (by simp [exMem]), .inr ⟨1, 7, 2, 0, rfl, rfl, by omega, rfl⟩⟩
    exact ⟨2, 2, ⟨.stc 1, Gp.Unify.deref_nonref (by simp), .inr ⟨1, 7, 2, 0, rfl, rfl, by omega, rfl⟩⟩, .refl, .single h⟩

/-- [a|Y] is accepted. -/
example : ∃ m', acyclic 9 exMem (.lst 4) = some (m', true) := by
  obtain ⟨m', ok, h1, _, h2⟩ := C40_acyclic_term exMem_ok (w := .lst 4) ⟨by omega, by omega, by omega⟩
  have : ok = true := h2.2 (.lst (by omega) (.atm (i := 3)) (.var (a := 5) rfl))
  exact ⟨m', this ▸ h1⟩

end Gp.Acyclic
