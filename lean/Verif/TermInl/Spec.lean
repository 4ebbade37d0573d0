import Verif.TermInl.Model
import Verif.ListBip.Spec
/-
Specification of the inspection and the construction of terms: relations on finite terms.
-/
namespace Gp.TermInl
open Gp.Heap Gp.Unify Gp.ListBip

/-- A list of terms, with its tail. -/
def listT : List T → T → T
  | [], t => t
  | x :: l, t => .lst x (listT l t)

/-- The functor and the arguments of a compound term; the list `[H|T]` is the term `'.'(H, T)`. -/
inductive View : T → Nat → List T → Prop
  | app {f : Nat} {l : List T} : l ≠ [] → ¬ (f = 46 ∧ l.length = 2) → View (.app f l) f l
  | lst {h t : T} : View (.lst h t) 46 [h, t]

/-- Atoms and numbers. -/
def Atomic : T → Prop
  | .atm _ | .int _ | .flt _ | .nan _ => True
  | _ => False

/-- arg(N, Term, Arg). -/
def ArgRel (n t a : T) : Prop := ∃ f l i, View t f l ∧ n = .int (i + 1 : Nat) ∧ l[i]? = some a

/-- functor(Term, Name, Arity). -/
def FunctorRel (t f n : T) : Prop :=
  (∃ g l, View t g l ∧ f = .atm g ∧ n = .int l.length) ∨ (Atomic t ∧ f = t ∧ n = .int 0)

/-- Term =.. List. -/
def UnivRel (t l : T) : Prop :=
  (∃ g as, View t g as ∧ l = listT (.atm g :: as) nil) ∨ (Atomic t ∧ l = listT [t] nil)

/-- The variables of a term, from left to right, with repetitions. -/
def T.vars : T → List Nat
  | .var n => [n]
  | .lst h t => T.vars h ++ T.vars t
  | .app _ l => l.flatMap fun t => T.vars t
  | _ => []

/-- The elements of a list at their first occurrence. -/
def firsts : List Nat → List Nat
  | [] => []
  | a :: l => a :: (firsts l).filter (fun b => b ≠ a)

/-- `g` subsumes `t`: some substitution which does not change `t` makes `g` identical to `t`. -/
def Subsumes (g t : T) : Prop := ∃ θ : Nat → T, g.subst θ = t ∧ t.subst θ = t

/-- No structure of memory is a list ('.'/2): lists are built with list cells. -/
def NoDot (m : Heap.Mem) : Prop := ∀ a, m a ≠ .fn 46 2

/-- The word dereferences to an unbound variable. -/
def Unbound (m : Heap.Mem) (w : Cell) : Prop := ∃ a, deref m w = some (.ref a)

end Gp.TermInl
