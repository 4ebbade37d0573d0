import Verif.FdRange.Vec
/- What a range represents. -/
namespace Gp.FdRange

/-- The memory which is not initialised has any content, see `Cfg`. -/
structure Cfg.Ok (c : Cfg) : Prop where
  size : 0 < c.size
  junk : c.junk.length = c.size
  below : c.below < 0

/-- The elements of a range: all the values between the bounds, or the bits which are set. -/
def Mem (r : Range) (n : Int) : Prop :=
  r.min ≤ r.max ∧ match r.vec with
    | none => r.min ≤ n ∧ n ≤ r.max
    | some v => 0 ≤ n ∧ bit v n.toNat = true

/-- The least `int` is not used as a minimum (it is the maximum of the empty range, `Set_To_Empty`);
a vector has `pl_vec_size` words; if the range is not empty its bounds are the least and the greatest element. -/
def WF (c : Cfg) (r : Range) : Prop :=
  -2147483648 < r.min ∧ ∀ v, r.vec = some v → v.length = c.size ∧ (r.min ≤ r.max → Mem r r.min ∧ Mem r r.max ∧ ∀ n, Mem r n → r.min ≤ n ∧ n ≤ r.max)

/-- `n` is a value of the vectors. -/
def Win (c : Cfg) (n : Int) : Prop := 0 ≤ n ∧ n < c.size * 64

/-- The range represents a set of naturals: exactly if it is an interval, on the values of the vectors if it is sparse; a sparse
range whose `extra_cstr` is false has lost nothing. -/
def Repr (c : Cfg) (r : Range) (T : Nat → Prop) : Prop :=
  WF c r ∧ (∀ n : Nat, (r.vec = none ∨ Win c n) → (T n ↔ Mem r n)) ∧
    (r.vec ≠ none → r.extra = false → ∀ n : Nat, T n → Win c n)

end Gp.FdRange
