import Verif.Arith.Model
/-
Specification vocabulary of the arithmetic properties: mathematical integers only.
-/
namespace Gp.Arith
open Gp.Tag

/-- A Prolog integer (61 bits). -/
def InRange (z : Int) : Prop := -2 ^ 60 ≤ z ∧ z < 2 ^ 60

instance (z : Int) : Decidable (InRange z) := inferInstanceAs (Decidable (_ ∧ _))

/-- Bit `i` of the infinite two's complement representation of `z`. -/
def ibit (z : Int) (i : Nat) : Bool := decide (z / 2 ^ i % 2 = 1)

/-- The exact integer when it is a Prolog integer, the overflow error otherwise. -/
def exactOrOverflow (z : Int) : Out Word :=
  if InRange z then .ok (tagInt z) else .err .intOverflow

/-- Number of set bits of `z` among bits `0 .. n-1`. -/
def bitCount (z : Int) : Nat → Nat
  | 0 => 0
  | n + 1 => bitCount z n + (if ibit z n then 1 else 0)

end Gp.Arith
