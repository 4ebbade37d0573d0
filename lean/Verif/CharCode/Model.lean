/-
Model of char_code/2 and lower_upper/2: `Pl_Char_Code_2`, `Pl_Lower_Upper_2` (/repo/src/BipsPl/atom_c.c:786-796, 847-857) and the functions they call,
`Pl_Rd_Integer_Check`, `Pl_Rd_Char_Check`, `Pl_Rd_Code_Check`, `Pl_Un_Char_Check`, `Pl_Un_Code_Check` (/repo/src/BipsPl/c_supp.c:218-230, 530-544, 616-625, 2032-2037,
2090-2095).

Simplifications: the arguments are dereferenced terms; an atom is the list of its bytes (the code is compiled with -funsigned-char, configure.in:613), hence the atom
of a character is the list of this byte; the terms which are neither variables, atoms nor integers are one case; toupper and tolower of the C library are the ones of
the "C" locale.
-/
namespace Gp.CharCode

/-- A dereferenced argument. -/
inductive Arg where
  | var (v : Nat)
  | atom (bytes : List Nat)
  | int (n : Int)
  | other (k : Nat)
deriving DecidableEq, Repr

/-- The errors raised. -/
inductive Err where
  | instantiation
  | typeCharacter (a : Arg)
  | typeInteger (a : Arg)
  | reprCharacterCode
deriving DecidableEq, Repr

/-- The outcome of a call: an error, a failure, a success without binding or the binding of a variable. -/
inductive Out where
  | error (e : Err)
  | fail
  | yes
  | bind (v : Nat) (a : Arg)
deriving DecidableEq, Repr

/-- `Is_Valid_Code` (/repo/src/EnginePl/atom.h:85): the subtraction is on unsigned words of 64 bits. -/
def isValidCode (c : Int) : Bool := (c - 1) % 2 ^ 64 < 255

/-- `Pl_Rd_Integer_Check` (c_supp.c:218-230). -/
def rdIntegerCheck : Arg → Except Err Int
  | .var _ => .error .instantiation
  | .int n => .ok n
  | a => .error (.typeInteger a)

/-- `Pl_Rd_Code_Check` (c_supp.c:616-625). -/
def rdCodeCheck (a : Arg) : Except Err Nat :=
  match rdIntegerCheck a with
  | .error e => .error e
  | .ok c => if isValidCode c then .ok c.toNat else .error .reprCharacterCode

/-- `Pl_Rd_Char_Check` (c_supp.c:530-544). -/
def rdCharCheck : Arg → Except Err Nat
  | .var _ => .error .instantiation
  | .atom [c] => .ok c
  | a => .error (.typeCharacter a)

/-- `Pl_Un_Char_Check` (c_supp.c:2032-2037) with `CHECK_FOR_UN_CHAR` (c_supp.c:125-133); `ATOM_CHAR` keeps a byte (/repo/src/EnginePl/atom.h:203-207). -/
def unCharCheck (value : Nat) : Arg → Out
  | .var v => .bind v (.atom [value % 256])
  | .atom [c] => if c = value % 256 then .yes else .fail
  | a => .error (.typeCharacter a)

/-- `Pl_Un_Code_Check` (c_supp.c:2090-2095) with `CHECK_FOR_UN_CODE` (c_supp.c:147-156). -/
def unCodeCheck (value : Nat) : Arg → Out
  | .var v => .bind v (.int value)
  | .int n => if isValidCode n then (if n = value then .yes else .fail) else .error .reprCharacterCode
  | a => .error (.typeInteger a)

/-- `Pl_Char_Code_2` (atom_c.c:786-796). -/
def charCode (char code : Arg) : Out :=
  match char with
  | .var v =>
    match rdCodeCheck code with
    | .error e => .error e
    | .ok c => unCharCheck c (.var v)
  | a =>
    match rdCharCheck a with
    | .error e => .error e
    | .ok c => unCodeCheck c code

/-- toupper in the "C" locale. -/
def toUpper (c : Nat) : Nat := if 97 ≤ c ∧ c ≤ 122 then c - 32 else c

/-- tolower in the "C" locale. -/
def toLower (c : Nat) : Nat := if 65 ≤ c ∧ c ≤ 90 then c + 32 else c

/-- `Pl_Lower_Upper_2` (atom_c.c:847-857). -/
def lowerUpper (lower upper : Arg) : Out :=
  match lower with
  | .var v =>
    match rdCharCheck upper with
    | .error e => .error e
    | .ok c => unCharCheck (toLower c) (.var v)
  | a =>
    match rdCharCheck a with
    | .error e => .error e
    | .ok c => unCharCheck (toUpper c) upper

end Gp.CharCode
