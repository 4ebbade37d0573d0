import Verif.NumVars.Model
import Verif.TermInl.Spec
/-
Specification of bind_variables/2 and numbervars/1-3.
-/
namespace Gp.NumVars
open Gp.Heap Gp.Unify Gp.ListBip Gp.TermInl

/-- The number of a name of variable: a letter and a decimal number. -/
def nameNum (C : Ctx) (a : Nat) : List Int :=
  match varNumber (C.name a) with
  | some n => [n]
  | none => []

/-- The numbers excluded by a term: those of its sub-terms '$VAR'(N) and '$VARNAME'(Name). -/
def exclNums (C : Ctx) : T → List Int
  | .lst h t => exclNums C h ++ exclNums C t
  | .app f l =>
    match l with
    | [.int z] => if f = C.dvar then [z] else []
    | [.atm a] => if f = C.dname then nameNum C a else []
    | l => l.flatMap fun t => exclNums C t
  | _ => []

/-- The number of Name=Value. -/
def pairNums (C : Ctx) : T → List Int
  | .app f [.atm a, _] => if f = C.eq then nameNum C a else []
  | _ => []

/-- The numbers excluded by an element of the list: also those of Name=Value. -/
def exclElem (C : Ctx) (t : T) : List Int := exclNums C t ++ pairNums C t

/-- The number `n` is excluded by the list; the numbers above 1048576 are not recorded. -/
def Excluded (C : Ctx) (ts : List T) (n : Nat) : Prop := n < MAX_VAR ∧ (n : Int) ∈ ts.flatMap fun t => exclElem C t

/-- `ns` are the first numbers from `k` which are not excluded, and `next` follows the last one. -/
structure Numbering (X : Nat → Prop) (k : Nat) (ns : List Nat) (next : Nat) : Prop where
  sorted : ns.Pairwise (· < ·)
  mem : ∀ n, n ∈ ns ↔ k ≤ n ∧ n < next ∧ ¬ X n
  last : (ns = [] ∧ next = k) ∨ ∃ n, n ∈ ns ∧ next = n + 1

/-- The value given to the variable of number `n`. -/
def value (C : Ctx) (n : Nat) : T :=
  if C.number then .app C.dvar [.int n] else .app C.dname [.atm (C.atom (varName n))]

/-- The sub-terms of a term. -/
inductive Sub : T → T → Prop
  | refl {t : T} : Sub t t
  | head {x h t : T} : Sub x h → Sub x (.lst h t)
  | tail {x h t : T} : Sub x t → Sub x (.lst h t)
  | arg {x u : T} {f : Nat} {l : List T} : u ∈ l → Sub x u → Sub x (.app f l)

end Gp.NumVars
