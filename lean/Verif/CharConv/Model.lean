/-
Model of char_conversion/2 and current_char_conversion/2: `Pl_Char_Conversion_2`, `Find_Next_Char_Conversion`, `Pl_Current_Char_Conversion_2`,
`Pl_Current_Char_Conversion_Alt_0` (/repo/src/BipsPl/read_c.c:382-391, 396-402, 408-445, 454-486), the macro `Char_Conversion`
(/repo/src/BipsPl/flag_supp.h:166-167).

Simplifications: characters are their codes from 0 to 255 (the code is compiled with -funsigned-char, configure.in:613); the table is a function; the checks of the
types of the arguments are not modelled and the unification with the arguments is a test given as a parameter.
-/
namespace Gp.CharConv

/-- `pl_char_conv` (/repo/src/EnginePl/atom.h:145). -/
abbrev Conv := Nat → Nat

/-- The identity (/repo/src/EnginePl/atom.c:166-167). -/
def initial : Conv := fun c => c

/-- `Pl_Char_Conversion_2` (read_c.c:382-391). -/
def charConversion (conv : Conv) (cin cout : Nat) : Conv := fun c => if c = cin then cout else conv c

/-- The loop of `Find_Next_Char_Conversion` (read_c.c:396-402) from the character `c`; `n` bounds the number of steps. -/
def find (conv : Conv) : Nat → Nat → Option (Nat × Nat)
  | 0, _ => none
  | n + 1, c => if c < 256 then (if c ≠ conv c then some (c, conv c) else find conv n (c + 1)) else none

/-- `Pl_Current_Char_Conversion_2` with a known character (read_c.c:418-423). -/
def currentKnown (conv : Conv) (cin : Nat) : Option Nat := if cin ≠ conv cin then some (conv cin) else none

/-- `Pl_Current_Char_Conversion_Alt_0` (read_c.c:454-486) on the saved conversion: the following one is searched before the answer. `convs k` is the table at the
time of the answer `k`. The first call (read_c.c:430-444) does the same. -/
def alts (unif : Nat → Nat → Bool) (convs : Nat → Conv) : Nat → Nat → Nat × Nat → List (Nat × Nat)
  | 0, _, _ => []
  | n + 1, k, p =>
    let next := find (convs k) 256 (p.1 + 1)
    (if unif p.1 p.2 then [p] else []) ++
      match next with
      | none => []
      | some q => alts unif convs n (k + 1) q

/-- The answers of `Pl_Current_Char_Conversion_2` with an unbound character (read_c.c:425-444). -/
def currentAll (unif : Nat → Nat → Bool) (convs : Nat → Conv) : List (Nat × Nat) :=
  match find (convs 0) 256 0 with
  | none => []
  | some p => alts unif convs 256 0 p

/-- `Char_Conversion` (flag_supp.h:166-167), applied to what is read (-1 at the end of the file); `flag` is the flag char_conversion. -/
def convert (flag : Bool) (conv : Conv) (c : Int) : Int := if flag ∧ 1 ≤ c ∧ c < 256 then (conv c.toNat : Int) else c

end Gp.CharConv
