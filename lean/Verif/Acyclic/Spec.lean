import Verif.Acyclic.Model
import Verif.Unify.Spec
/-
Specification of acyclic_term/1: a word designates a finite term.
-/
namespace Gp.Acyclic
open Gp.Heap

/-- The word designates a finite term (no list is at the address 0). -/
inductive Fin (m : Mem) : Cell → Prop
  | var {a : Adr} : m a = .ref a → Fin m (.ref a)
  | bound {a : Adr} : m a ≠ .ref a → Fin m (m a) → Fin m (.ref a)
  | atm {i : Nat} : Fin m (.atm i)
  | int {z : Int} : Fin m (.int z)
  | flt {a : Adr} : Fin m (.flt a)
  | fdv {a : Adr} : Fin m (.fdv a)
  | lst {a : Adr} : a ≠ 0 → Fin m (m a) → Fin m (m (a + 1)) → Fin m (.lst a)
  | stc {a : Adr} {f n : Nat} : m a = .fn f n → (∀ i, i < n → Fin m (m (a + 1 + i))) → Fin m (.stc a)

/-- A word designates only cells of `S`; the functors are not cells of `S`. -/
def Good (S : Adr → Prop) (sw : Adr) (m : Mem) : Cell → Prop
  | .ref b => S b
  | .lst b => b ≠ 0 ∧ S b ∧ S (b + 1)
  | .stc b => ∃ f n, m b = .fn f n ∧ 0 < n ∧ ¬ S b ∧ b ≠ sw ∧ ∀ i, i < n → S (b + 1 + i)
  | .fn _ _ => False
  | .raw _ => False
  | _ => True

/-- The cells `S` (below `N`) contain terms made of cells of `S`; the chains of references end. The local variable of the C
function is not one of them. -/
structure HeapOk (S : Adr → Prop) (N sw : Adr) (m : Mem) : Prop where
  lt : ∀ a, S a → a < N
  good : ∀ a, S a → Good S sw m (m a)
  acc : ∀ a, S a → Acc (Gp.Unify.RefTo m) a
  notSw : ¬ S sw

end Gp.Acyclic
