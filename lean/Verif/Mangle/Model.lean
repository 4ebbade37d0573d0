/-
Model of the symbol mangling of the compiler: /repo/src/TopComp/mangling.c.

A C string is the list of its bytes (without the final 0). Simplifications: `isdigit` is the ASCII
test (C locale); buffers are large enough; `quote` is FALSE and `decode_aux` is 0 in `Demangle`;
`strtoul` is modelled on a string starting with a digit (otherwise: no digit found).
-/
namespace Gp.Mangle

/-- A C string. -/
abbrev Str := List Nat

def isDigit (c : Nat) : Bool := decide (48 ≤ c) && decide (c ≤ 57)

/-- `Letter(c)` (mangling.c:106). -/
def isLetter (c : Nat) : Bool :=
  (decide (97 ≤ c) && decide (c ≤ 122)) || (decide (65 ≤ c) && decide (c ≤ 90))

/-- `Letter_Digit(c)` (mangling.c:108). -/
def letterDigit (c : Nat) : Bool := isLetter c || isDigit c

/-- `Hexa_Digit(c)` (mangling.c:109). -/
def hexaDigit (c : Nat) : Bool := isDigit c || (decide (65 ≤ c) && decide (c ≤ 70))

/-- `Hex_Num(c)` (mangling.c:111). -/
def hexNum (c : Nat) : Nat := if isDigit c then c - 48 else c - 65 + 10

/-- Character `_`. -/
def us : Nat := 95

/-- Loop of `String_Needs_Encoding` (mangling.c:267-283); `prev` is `str[-1]`. -/
def needsLoop (prev : Nat) : Str → Bool
  | [] => false
  | c :: s =>
    if c = us then
      if prev = us || s.isEmpty then true else needsLoop c s
    else if !letterDigit c then true else needsLoop c s

/-- `String_Needs_Encoding` (mangling.c:261-284). -/
def needsEncoding : Str → Bool
  | [] => true
  | c :: s => if !letterDigit c then true else needsLoop c s

/-- One upper case hexadecimal digit of `%02X`. -/
def hexChar (n : Nat) : Nat := if n < 10 then 48 + n else 55 + n

/-- `Encode_String` (mangling.c:291-301). -/
def encodeString : Str → Str
  | [] => []
  | c :: s => hexChar (c / 16) :: hexChar (c % 16) :: encodeString s

/-- printf `%d` of a non-negative integer. -/
def printNat (n : Nat) : Str := if h : n < 10 then [48 + n] else printNat (n / 10) ++ [48 + n % 10]

/-- A predicate indicator: module (`[]` when there is no qualification), functor, arity (`none` is -1). -/
structure Pi where
  module : Str
  pred : Str
  arity : Option Nat
deriving DecidableEq, Repr

/-- `module_encode` (mangling.c:137). -/
def moduleEncode (m : Str) : Nat := if m.isEmpty then 0 else (if needsEncoding m then 1 else 0) + 1

/-- The arity suffix written by `Mangle` (mangling.c:158-159). -/
def suffix : Option Nat → Str
  | some n => [us, us, 97] ++ printNat n
  | none => []

/-- `Mangle` (mangling.c:134-162). -/
def mangle (x : Pi) : Str :=
  let me := moduleEncode x.module
  let pe := if needsEncoding x.pred then 1 else 0
  [88, 48 + (me * 2 + pe), us]
    ++ (if me = 1 then x.module ++ [us, us] else if me = 2 then encodeString x.module ++ [us, us] else [])
    ++ (if pe = 0 then x.pred else encodeString x.pred)
    ++ suffix x.arity

/-- Loop of `Copy_Not_Encoded_String` (mangling.c:488-507). `acc` is the copied part, reversed (its head
is `str[-1]`). Returns the copied string and the rest. -/
def copyLoop (acc : Str) : Str → Str × Str
  | [] => (acc.reverse, [])
  | c :: s =>
    if c = us then
      if acc.head? = some us || s.isEmpty then (acc.tail.reverse, acc.head?.toList ++ c :: s)   -- 483-488
      else copyLoop (c :: acc) s
    else if !letterDigit c then (acc.reverse, c :: s)
    else copyLoop (c :: acc) s

/-- `Copy_Not_Encoded_String` (mangling.c:480-512). -/
def copyNotEncoded : Str → Option (Str × Str)
  | [] => none
  | c :: s => if !letterDigit c then none else some (copyLoop [c] s)

/-- `Decode_String` (mangling.c:519-535). -/
def decodeString : Str → Str × Str
  | a :: b :: s =>
    if hexaDigit a && hexaDigit b then
      let r := decodeString s
      ((hexNum a * 16 + hexNum b) :: r.1, r.2)
    else ([], a :: b :: s)
  | s => ([], s)

/-- Digits read by `strtoul` (mangling.c:370). -/
def readNat (n : Nat) : Str → Nat × Str
  | [] => (n, [])
  | c :: s => if isDigit c then readNat (n * 10 + (c - 48)) s else (n, c :: s)

/-- Parsing of the arity (mangling.c:367-382): result arity and rest. `maxArity` is 1024 in the code.
When `strtoul` finds no digit `str` is left on `__a`'s end in the code; the arity is then absent. -/
def parseArity (maxArity : Nat) (strict : Bool) (s : Str) : Option (Option Nat × Str) :=
  match s with
  | 95 :: 95 :: 97 :: r =>
    match r with
    | c :: _ =>
      if isDigit c then
        let (n, rest) := readNat 0 r
        let bad := match rest with | d :: _ => letterDigit d || d == us | [] => false
        if n > maxArity || bad then (if strict then none else some (none, rest))
        else some (some n, rest)
      else if strict then none else some (none, r)
    | [] => if strict then none else some (none, r)
  | s => if strict then none else some (none, s)

/-- Decoding of the module part (mangling.c:345-357). -/
def demModule (me : Nat) (s : Str) : Option (Str × Str) :=
  if me = 0 then some ([], s)
  else
    match (if me = 1 then copyNotEncoded s else some (decodeString s)) with
    | some (m, a :: b :: s) => if a = us ∧ b = us then some (m, s) else none
    | _ => none

/-- Decoding of the functor (mangling.c:359-364). -/
def demPred (allowEmpty : Bool) (pe : Nat) (s : Str) : Option (Str × Str) :=
  match (if pe = 0 then copyNotEncoded s else some (decodeString s)) with
  | some (p, s) => if p.isEmpty && !allowEmpty then none else some (p, s)
  | none => none

/-- `Demangle` (mangling.c:325-411). Parameters: `kEnd` is the excluded end of the coding digit
(`'5'` in the code, 335), `allowEmpty` accepts an empty functor (FALSE in the code, 363). -/
def demangleG (kEnd maxArity : Nat) (allowEmpty strict : Bool) (str : Str) : Option (Pi × Str) :=
  match str with
  | x :: k :: u :: s =>
    if x ≠ 88 ∨ k < 48 ∨ k ≥ kEnd ∨ u ≠ us then none
    else
      match demModule ((k - 48) / 2) s with
      | none => none
      | some (module, s) =>
        match demPred allowEmpty ((k - 48) % 2) s with
        | none => none
        | some (pred, s) =>
          match parseArity maxArity strict s with
          | none => none
          | some (arity, s) => some (⟨module, pred, arity⟩, s)
  | _ => none

/-- `Demangle` as written: the coding digit must be before `'5'` (mangling.c:335). -/
def demangle (strict : Bool) (str : Str) : Option (Pi × Str) := demangleG 53 1024 false strict str

end Gp.Mangle
