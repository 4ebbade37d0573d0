/-
Prolog terms as trees, the meaning of (dereferenced) tagged words used by the parts which do not
depend on the memory representation. A list cell is the compound '.'/2, as given by Pl_Rd_Compound
(/repo/src/BipsPl/c_supp.c:1389-1414).
-/
namespace Gp.Term

/-- Name of an atom: the bytes of the C string `pl_atom_tbl[i].name` (/repo/src/EnginePl/atom.h). -/
abbrev Name := List UInt8

/-- A term. `var`/`fdv` carry the address (in words) of the unbound variable / FD variable. A float
is its IEEE 754 bit pattern. -/
inductive Tree where
  | var (adr : Nat)
  | fdv (adr : Nat)
  | flt (bits : BitVec 64)
  | int (z : Int)
  | atm (name : Name)
  | app (f : Name) (args : List Tree)
deriving Repr

/-- The list constructor '.'/2. -/
def dot : Name := [46]

/-- The atom []. -/
def nilName : Name := [91, 93]

def Tree.nil : Tree := .atm nilName
def Tree.cons (h t : Tree) : Tree := .app dot [h, t]

/-- Proper list of terms. -/
def Tree.ofList : List Tree → Tree
  | [] => .nil
  | x :: l => .cons x (ofList l)

/-- Magnitude bits of a double. -/
def fmag (b : BitVec 64) : Nat := b.toNat % 2 ^ 63

/-- Sign bit of a double. -/
def fneg (b : BitVec 64) : Bool := decide (2 ^ 63 ≤ b.toNat)

/-- Not-a-number: exponent all ones, mantissa not 0. -/
def isNaN (b : BitVec 64) : Bool := decide (0x7FF0000000000000 < fmag b)

/-- Order key of a double which is not a NaN: IEEE 754 compares two such doubles as their
sign-magnitude integers (both zeros are equal). -/
def fkey (b : BitVec 64) : Int := if fneg b then -(fmag b : Int) else fmag b

/-- C comparison `d1 < d2` of doubles. -/
def dlt (a b : BitVec 64) : Bool := !isNaN a && !isNaN b && decide (fkey a < fkey b)

/-- C comparison `d1 == d2` of doubles. -/
def deq (a b : BitVec 64) : Bool := !isNaN a && !isNaN b && decide (fkey a = fkey b)

end Gp.Term
