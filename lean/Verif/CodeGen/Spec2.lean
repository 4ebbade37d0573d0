import Verif.CodeGen.Classify
import Verif.CodeGen.Spec
/-
Specification: the instances of the terms of the source.
-/
namespace Gp.CodeGen
open Gp.Heap Gp.Unify Gp.ListBip
open Gp.Term (isNaN fkey)

/-- The instance of a term of the source for the values `σ` of its variables. -/
def Tm.inst (σ : Nat → T) : Tm → T
  | .var v => σ v
  | .nil => .atm 256
  | .atm i => .atm i
  | .int z => .int z
  | .flt b => .flt (fkey b)
  | .stc f as => mk f (instList as)
where
  instList : List Tm → List T
    | [] => []
    | a :: l => a.inst σ :: instList l

abbrev instList (σ : Nat → T) := Tm.inst.instList σ

/-- A term which can be written: the structures have at least one argument, no float is a NaN. -/
def Tm.Good : Tm → Prop
  | .flt b => isNaN b = false
  | .stc _ as => as ≠ [] ∧ GoodList as
  | _ => True
where
  GoodList : List Tm → Prop
    | [] => True
    | a :: l => a.Good ∧ GoodList l

abbrev GoodList := Tm.Good.GoodList

end Gp.CodeGen
