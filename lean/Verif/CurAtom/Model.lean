/-
Model of current_atom/1: `Pl_Current_Atom_2` and `Pl_Current_Atom_Alt_0` (/repo/src/BipsPl/atom_c.c:905-935, 944-978), with `Pl_Find_Next_Atom`
(/repo/src/EnginePl/atom.c:583-593).

Simplifications: the table of atoms is a function from the indices to the texts, and the texts are lists of bytes; the table at the time of each answer is given, as
atoms may be created between the answers. The type check of a bound argument which is not an atom is not modelled.
-/
namespace Gp.CurAtom

abbrev Str := List Nat

/-- `pl_atom_tbl`: the name of each entry, `none` if it is free. -/
abbrev Tbl := Nat → Option Str

/-- `Pl_Find_Next_Atom` (atom.c:583-593) from the index `i` (`last_atom + 1`); `n` bounds the number of steps. -/
def findNext (max : Nat) (t : Tbl) : Nat → Nat → Option Nat
  | 0, _ => none
  | n + 1, i => if i < max then (if (t i).isSome then some i else findNext max t n (i + 1)) else none

/-- The first byte of a name (0 at the end of the string). -/
def first (s : Str) : Nat := s.headD 0

/-- The loop on the atoms (atom_c.c:919-927, 957-968) from the index `i`, which skips the hidden ones. -/
def search (max : Nat) (t : Tbl) (hide : Bool) : Nat → Nat → Option Nat
  | 0, _ => none
  | n + 1, i =>
    match findNext max t max i with
    | none => none
    | some a => if hide = false ∨ first ((t a).getD []) ≠ 36 then some a else search max t hide n (a + 1)

/-- The successive calls of `Pl_Current_Atom_Alt_0` (atom_c.c:944-978), `a` being the atom saved in the choice point and `tbls k` the table at the time of the call `k`. -/
def alts (max : Nat) (tbls : Nat → Tbl) (hide : Bool) : Nat → Nat → Nat → List Nat
  | 0, _, _ => []
  | n + 1, k, a =>
    match search max (tbls k) hide max (a + 1) with
    | none => []
    | some b => b :: alts max tbls hide n (k + 1) b

/-- `Pl_Current_Atom_2` with a variable and its alternatives (atom_c.c:918-934): the atoms given. -/
def currentAll (max : Nat) (tbls : Nat → Tbl) (hide : Bool) : List Nat :=
  match search max (tbls 0) hide max 0 with
  | none => []
  | some a => a :: alts max tbls hide max 1 a

/-- `Pl_Current_Atom_2` with an atom (atom_c.c:914-916). -/
def currentKnown (hide : Bool) (s : Str) : Bool := first s ≠ 36 ∨ hide = false

end Gp.CurAtom
