/-
The lexical level of reading and writing (properties C33 and following): character classes, the
properties computed when an atom is created, the text written for an atom with `quoted(true)`, and the
tokenizer.

Sources: src/EnginePl/atom.h, src/EnginePl/atom.c, src/BipsPl/write_supp.c, src/BipsPl/lexer_supp.c.

Characters are bytes, represented by natural numbers below 256.  A text is a list of bytes; the end of
the list is the end of file.  `Pl_Stream_Ungetc` is modelled by not consuming the character.  Character
conversion is the identity (the initial table, atom.c:166-167).  The 1 MB token buffers
(lexer_supp.h:43,93, parser_supp.c:79), which the code fills without checking, are modelled as unbounded.
Line and column counters are not modelled here.
-/
namespace Gp.Quote

/-- The character classes, atom.h:52-64. -/
inductive CT where
  | LA | SC | QT | DQ | BQ | GR | PC | DI | UL | CL | SL | CM | EX
  deriving DecidableEq, Repr

open CT

/-- The locale dependent part: the class of the bytes 128-255 computed with `islower`/`isupper`
(atom.c:161-164) and the answer of `isprint` for them (write_supp.c:861). -/
structure Loc where
  ext : Nat → CT
  print : Nat → Bool

/-- atom.c:161-164: the classes a byte above 127 can get. -/
structure Loc.Ok (l : Loc) : Prop where
  cls : ∀ c, l.ext c = SL ∨ l.ext c = CL ∨ l.ext c = EX

/-- The "C" locale: no letter and nothing printable above 127. -/
def Loc.c : Loc := ⟨fun _ => EX, fun _ => false⟩

/-- The table `pl_char_type`, atom.c:84-110, one row per line of the source. -/
def asciiTable : List CT :=
  [LA, LA, LA, LA, LA, LA, LA, LA, LA, LA, LA, LA, LA, LA, LA, LA,
   LA, LA, LA, LA, LA, LA, LA, LA, LA, LA, LA, LA, LA, LA, LA, LA,
   LA, SC, DQ, GR, GR, CM, GR, QT, PC, PC, GR, GR, SC, GR, GR, GR,
   DI, DI, DI, DI, DI, DI, DI, DI, DI, DI, GR, SC, GR, GR, GR, GR,
   GR, CL, CL, CL, CL, CL, CL, CL, CL, CL, CL, CL, CL, CL, CL, CL,
   CL, CL, CL, CL, CL, CL, CL, CL, CL, CL, CL, PC, GR, PC, GR, UL,
   BQ, SL, SL, SL, SL, SL, SL, SL, SL, SL, SL, SL, SL, SL, SL, SL,
   SL, SL, SL, SL, SL, SL, SL, SL, SL, SL, SL, PC, PC, PC, GR, LA]

/-- `pl_char_type[c]`, atom.c:84-110 and 161-164. -/
def charType (l : Loc) (c : Nat) : CT := if c < 128 then asciiTable.getD c EX else l.ext c

/-- `c_type & (UL | CL | SL | DI)`. -/
def CT.alnum : CT → Bool
  | UL | CL | SL | DI => true
  | _ => false

/-- `isprint` (write_supp.c:861): the ASCII range 32-126, otherwise according to the locale. -/
def isPrint (l : Loc) (c : Nat) : Bool := if c < 128 then 32 ≤ c && c < 127 else l.print c

/-- The escapes written and read by name: `pl_escape_char` (codes) and `pl_escape_symbol` (letters),
atom.c:113-114, as pairs (code, letter). -/
def escapes : List (Nat × Nat) :=
  [(7, 97), (8, 98), (12, 102), (10, 110), (13, 114), (9, 116), (11, 118)]

/-- `strchr(pl_escape_char, c)`, write_supp.c:851. -/
def escSymbol (c : Nat) : Option Nat := (escapes.find? (fun p => p.1 == c)).map Prod.snd

/-- `strchr(pl_escape_symbol, c)`, lexer_supp.c:676; a NUL byte matches the terminator of the string and
gives the terminator of `pl_escape_char`, again NUL. -/
def escChar (c : Nat) : Option Nat :=
  if c = 0 then some 0 else (escapes.find? (fun p => p.2 == c)).map Prod.fst

/-- Atom types, atom.h:73-76. -/
inductive AType where
  | ident | graphic | solo | other
  deriving DecidableEq, Repr

/-- The scan of the characters for `needs_scan`, atom.c:273-274. -/
def scanChar (l : Loc) (c : Nat) : Bool :=
  (c != 32 && (match charType l c with | QT | EX | LA => true | _ => false)) || c == 92

/-- `prop.needs_scan`, atom.c:259-275. -/
def needsScan (l : Loc) (s : List Nat) : Bool := s.any (scanChar l)

/-- `identifier`, atom.c:261-268 and 284-285. -/
def isIdent (l : Loc) (s : List Nat) : Bool :=
  match s with
  | [] => false
  | c :: _ => s.all (fun d => (charType l d).alnum) && charType l c == SL

/-- `graphic`, atom.c:261-271. -/
def isGraphic (l : Loc) (s : List Nat) : Bool := !s.isEmpty && s.all (fun d => charType l d == GR)

/-- `prop.type` and `prop.needs_quote`, atom.c:288-319. -/
def atomProp (l : Loc) (s : List Nat) : AType × Bool :=
  if isIdent l s then (.ident, false)
  else if isGraphic l s then
    (.graphic, s == [46] || s == [37] || (match s with | 47 :: 42 :: _ => true | _ => false))
  else match s with
    | [c] => if charType l c = SC then (.solo, c == 44) else (.other, true)
    | _ => (.other, needsScan l s || !(s == [91, 93] || s == [123, 125]))

/-- A hexadecimal digit of `%x`. -/
def hexDigit (d : Nat) : Nat := if d < 10 then 48 + d else 87 + d

/-- `sprintf(str, "\\x%x\\", (unsigned) (unsigned char) c)`, write_supp.c:863, for a byte. -/
def hexEsc (c : Nat) : List Nat :=
  [92, 120] ++ (if c < 16 then [hexDigit c] else [hexDigit (c / 16), hexDigit (c % 16)]) ++ [92]

/-- One character of a quoted atom which needs a scan, write_supp.c:851-867. -/
def showChar (l : Loc) (c : Nat) : List Nat :=
  match escSymbol c with
  | some s => [92, s]
  | none =>
    if c = 39 ∨ c = 92 then [c, c]
    else if isPrint l c = false then hexEsc c
    else [c]

/-- The text written by `Show_Atom` with `quoted` set, without the surrounding brackets of operators and
without the space `Emit_Space_If_Needed` may put before it, write_supp.c:808-875. -/
def showAtom (l : Loc) (s : List Nat) : List Nat :=
  if (atomProp l s).2 = false then s
  else [39] ++ (if needsScan l s then s.flatMap (showChar l) else s) ++ [39]

/-- Tokens, lexer_supp.h:52-82.  `float` keeps the text given to `sscanf` (lexer_supp.c:494). -/
inductive Tok where
  | var (s : List Nat)
  | int (n : Int)
  | float (s : List Nat)
  | name (s : List Nat) (quoted : Bool)
  | str (s : List Nat)
  | bq (s : List Nat)
  | punct (c : Nat)
  | openCt
  | fullStop
  | eof
  | ext (c : Nat)
  deriving DecidableEq, Repr

/-- Result of the tokenizer: a token and the remaining input, an error message, or undefined behaviour
(overflow of the C `int` accumulating a numeric escape). -/
inductive LexRes where
  | tok (t : Tok) (rest : List Nat)
  | err
  | ub
  deriving DecidableEq, Repr

/-- Result of `Lexer_Quoted_Char`: a character, or one of the codes -1, -2, -3, -4, -5, -6. -/
inductive QRes where
  | ch (c : Nat)
  | close
  | cont
  | eof
  | newline
  | tab
  | err
  | ub
  deriving DecidableEq, Repr

/-- `strchr("0123456789abcdefABCDEF", c)` turned into a digit, lexer_supp.c:693, 704-708; the terminator
of the string matches a NUL byte and has index 22, thus value 16. -/
def hexVal (c : Nat) : Option Nat :=
  if 48 ≤ c ∧ c ≤ 57 then some (c - 48)
  else if 97 ≤ c ∧ c ≤ 102 then some (c - 87)
  else if 65 ≤ c ∧ c ≤ 70 then some (c - 55)
  else if c = 0 then some 16
  else none

/-- `strchr("01234567", c)`, lexer_supp.c:699, 704-708; the terminator has index 8. -/
def octVal (c : Nat) : Option Nat :=
  if 48 ≤ c ∧ c ≤ 55 then some (c - 48) else if c = 0 then some 8 else none

/-- The loop of lexer_supp.c:703-711: accumulates the digits; returns the value and the input from the
first character which is not a digit. -/
def digits (val : Nat → Option Nat) (radix : Nat) : Nat → List Nat → Nat × List Nat
  | x, [] => (x, [])
  | x, c :: r =>
    match val c with
    | some i => digits val radix (x * radix + i) r
    | none => (x, c :: r)

/-- The loop of lexer_supp.c:735-738; the input starts with the current character `c`. -/
def pump (c0 : Nat) : List Nat → List Nat
  | [] => []
  | c :: r => if c = 92 then r else if c = c0 then c :: r else if c = 10 then r else pump c0 r

/-- The numeric escapes, lexer_supp.c:703-743.  `x0` is the initial value, the input starts after the `x`
or after the first octal digit.  A value which does not fit a C `int` is undefined behaviour. -/
def numEscape (val : Nat → Option Nat) (radix x0 c0 : Nat) (inp : List Nat) : QRes × List Nat :=
  let p := digits val radix x0 inp
  if p.1 ≥ 2 ^ 31 then (.ub, p.2)
  else if p.1 = 0 ∨ 256 ≤ p.1 then (.err, pump c0 p.2)
  else match p.2 with
    | 92 :: r => (.ch p.1, r)
    | _ => (.err, pump c0 p.2)

/-- The escape sequences, lexer_supp.c:668-753; the input starts after the backslash.  `strict` is the
flag strict_iso. -/
def lexEscape (strict : Bool) (c0 : Nat) : List Nat → QRes × List Nat
  | [] => (.err, [])
  | c :: r =>
    if c = 10 then (.cont, r)
    else if c = 92 ∨ c = 39 ∨ c = 34 ∨ c = 96 ∨ c = 0 then (.ch c, r)
    else match escChar c with
      | some x => (.ch x, r)
      | none =>
        if strict = false ∧ c = 115 then (.ch 32, r)
        else if strict = false ∧ c = 101 then (.ch 27, r)
        else if c = 120 then numEscape hexVal 16 0 c0 r
        else if 48 ≤ c ∧ c ≤ 55 then numEscape octVal 8 (c - 48) c0 r
        else (.err, r)

/-- `Lexer_Quoted_Char`, lexer_supp.c:610-754.  After a tab the code ungets it when it is the first
error; it is read again and then skipped: the model skips it at once. -/
def lexQuotedChar (strict : Bool) (c0 : Nat) (noEsc : Bool) : List Nat → QRes × List Nat
  | [] => (.eof, [])
  | c :: r =>
    if c = c0 then
      match r with
      | d :: r' => if d = c0 then (.ch c0, r') else (.close, r)
      | [] => (.close, [])
    else if c = 10 then (.newline, c :: r)
    else if c = 9 then (.tab, r)
    else if c ≠ 92 ∨ noEsc = true then (.ch c, r)
    else lexEscape strict c0 r

/-- The loop of `Lexer_Quoted`, lexer_supp.c:538-568.  `acc` is the text read so far (reversed), `bad`
is `error_found`, the first argument bounds the number of iterations (one character is consumed at each
iteration). -/
def lexQuotedLoop (strict : Bool) (c0 : Nat) (noEsc : Bool) :
    Nat → Bool → List Nat → List Nat → LexRes
  | 0, _, _, _ => .err
  | f + 1, bad, acc, inp =>
    match lexQuotedChar strict c0 noEsc inp with
    | (.close, r) => if bad then .err else .tok (.name acc.reverse true) r
    | (.cont, r) => lexQuotedLoop strict c0 noEsc f bad acc r
    | (.eof, _) => .err
    | (.newline, _) => .err
    | (.tab, r) => lexQuotedLoop strict c0 noEsc f true acc r
    | (.err, r) => lexQuotedLoop strict c0 noEsc f true acc r
    | (.ub, _) => .ub
    | (.ch c, r) => lexQuotedLoop strict c0 noEsc f bad (if bad then acc else c :: acc) r

/-- The flags read by the lexer: strict_iso, and whether double_quotes / back_quotes have a `no_escape`
value (lexer_supp.c:526, 531, 536). -/
structure Flags where
  strict : Bool := true
  dqNoEsc : Bool := false
  bqNoEsc : Bool := false

/-- `Lexer_Quoted`, lexer_supp.c:507-601; the input starts after the opening quote. -/
def lexQuoted (fl : Flags) (ct : CT) (c0 : Nat) (inp : List Nat) : LexRes :=
  match ct with
  | QT => lexQuotedLoop fl.strict c0 false (inp.length + 1) false [] inp
  | DQ =>
    match lexQuotedLoop fl.strict c0 fl.dqNoEsc (inp.length + 1) false [] inp with
    | .tok (.name s _) r => .tok (.str s) r
    | x => x
  | _ =>
    match lexQuotedLoop fl.strict c0 fl.bqNoEsc (inp.length + 1) false [] inp with
    | .tok (.name s _) r => .tok (.bq s) r
    | x => x

/-- Reading while the class satisfies `p`: lexer_supp.c:191-198, 251-257, 354-359, 462-466.  Returns the
text read and the remaining input. -/
def takeCT (l : Loc) (p : CT → Bool) : List Nat → List Nat × List Nat
  | [] => ([], [])
  | c :: r =>
    if p (charType l c) then
      let x := takeCT l p r
      (c :: x.1, x.2)
    else ([], c :: r)

/-- The value of a digit string in base 10; `strtol` saturates at LONG_MAX (lexer_supp.c:371-376). -/
def decVal (s : List Nat) : Nat := min (s.foldl (fun x c => x * 10 + (c - 48)) 0) (2 ^ 63 - 1)

/-- The value of a digit string in base 2, 8 or 16; `strtol` saturates (lexer_supp.c:453). -/
def radVal (radix : Nat) (s : List Nat) : Nat :=
  min (s.foldl (fun x c => x * radix + (hexVal c).getD 0) 0) (2 ^ 63 - 1)

/-- `c_type == DI`. -/
def isDI (t : CT) : Bool := t == DI

/-- `strchr(f, c) != NULL` for the digits of a radix, lexer_supp.c:432-437 (the terminator included). -/
def radDigit (radix c : Nat) : Bool :=
  if radix = 2 then c = 48 || c = 49 || c = 0
  else if radix = 8 then (octVal c).isSome else (hexVal c).isSome

/-- `0b`, `0o`, `0x`, lexer_supp.c:431-454; `rc` is the radix letter, the input starts after it. -/
def lexRadix (rc : Nat) (inp : List Nat) : LexRes :=
  let radix := if rc = 98 then 2 else if rc = 111 then 8 else 16
  let ds := inp.takeWhile (radDigit radix)
  if ds = [] then .tok (.int 0) (rc :: inp)
  else .tok (.int (radVal radix (ds.takeWhile (· ≠ 0)))) (inp.dropWhile (radDigit radix))

/-- `0'c`, lexer_supp.c:381-429; the input starts after the quote.  The strict case where the empty atom
is an operator (393-400) is the parameter `voidOp`. -/
def lexCharCode (fl : Flags) (voidOp : Bool) (inp : List Nat) : LexRes :=
  match lexQuotedChar fl.strict 39 false inp with
  | (.close, r) =>
    if fl.strict then (if voidOp then .tok (.int 0) (39 :: 39 :: r) else .err)
    else .tok (.int 39) r
  | (.cont, r) => .tok (.int 0) (39 :: 92 :: 10 :: r)
  | (.ch c, r) => .tok (.int c) r
  | (.ub, _) => .ub
  | (_, _) => .err

/-- The fractional part and the exponent, lexer_supp.c:457-498; `p` is the text before the point, the
input starts after the point. -/
def lexFloat (l : Loc) (p : List Nat) (inp : List Nat) : LexRes :=
  let fr := takeCT l isDI inp
  let m := p ++ [46] ++ fr.1
  match fr.2 with
  | e :: r =>
    if e = 101 ∨ e = 69 then
      match r with
      | c :: r' =>
        if charType l c = DI then
          let ex := takeCT l isDI r
          .tok (.float (m ++ [101] ++ ex.1)) ex.2
        else if (c = 43 ∨ c = 45) ∧ (r'.head?.map (charType l)) = some DI then
          let ex := takeCT l isDI r'
          .tok (.float (m ++ [101, c] ++ ex.1)) ex.2
        else .tok (.float m) (e :: r)
      | [] => .tok (.float m) (e :: r)
    else .tok (.float m) fr.2
  | [] => .tok (.float m) []

/-- `Lexer_Number` with `integer_only` false, lexer_supp.c:343-498; the input starts at the first
digit. -/
def lexNumber (l : Loc) (fl : Flags) (voidOp : Bool) (inp : List Nat) : LexRes :=
  let ds := takeCT l isDI inp
  match ds.2 with
  | [] => .tok (.int (decVal ds.1)) []
  | c :: r =>
    if c = 46 ∧ r.head?.map (charType l) = some DI then lexFloat l ds.1 r
    else if ds.1 = [48] then
      if c = 39 then lexCharCode fl voidOp r
      else if c = 98 ∨ c = 111 ∨ c = 120 then lexRadix c r
      else if c = 0 then lexRadix c r
      else .tok (.int 0) (c :: r)
    else .tok (.int (decVal ds.1)) (c :: r)

/-- The end of a bracketed comment, lexer_supp.c:225-245: the input starts after the opening; `none` when
the end of file is reached. -/
def skipComment : List Nat → Option (List Nat)
  | [] => none
  | [_] => none
  | c0 :: c :: r => if c0 = 42 ∧ c = 47 then some r else skipComment (c :: r)

/-- The end of a `%` comment, lexer_supp.c:260-275: the input starts after the `%`; the newline is
consumed. -/
def skipLine : List Nat → List Nat
  | [] => []
  | c :: r => if c = 10 then r else skipLine r

/-- The character after a `.` makes it a full stop, lexer_supp.c:214. -/
def endsClause (l : Loc) : List Nat → Bool
  | [] => true
  | d :: _ => charType l d == LA || charType l d == CM

/-- `Pl_Lexer_Token`, lexer_supp.c:151-334.  `lay` is `layout_before`, the first argument bounds the
number of layout characters and comments skipped. -/
def lexTok (l : Loc) (fl : Flags) (voidOp : Bool) (commaPunct : Bool) :
    Nat → Bool → List Nat → LexRes
  | 0, _, _ => .err
  | _ + 1, _, [] => .tok .eof []
  | f + 1, lay, c :: r =>
    match charType l c with
    | LA => lexTok l fl voidOp commaPunct f true r
    | SL => .tok (.name (takeCT l CT.alnum (c :: r)).1 false) (takeCT l CT.alnum (c :: r)).2
    | UL => .tok (.var (takeCT l CT.alnum (c :: r)).1) (takeCT l CT.alnum (c :: r)).2
    | CL => .tok (.var (takeCT l CT.alnum (c :: r)).1) (takeCT l CT.alnum (c :: r)).2
    | DI => lexNumber l fl voidOp (c :: r)
    | QT => lexQuoted fl QT c r
    | DQ => lexQuoted fl DQ c r
    | BQ => lexQuoted fl BQ c r
    | GR =>
      if c = 46 ∧ endsClause l r = true then .tok .fullStop r
      else
        if c = 47 ∧ r.head? = some 42 then
          match skipComment (r.drop 1) with
          | some r' => lexTok l fl voidOp commaPunct f true r'
          | none => .err
        else
          .tok (.name (c :: (takeCT l (· == GR) r).1) false) (takeCT l (· == GR) r).2
    | CM => lexTok l fl voidOp commaPunct f true (skipLine r)
    | PC => if c = 40 ∧ lay = false then .tok .openCt r else .tok (.punct c) r
    | SC => if c = 44 ∧ commaPunct = true then .tok (.punct c) r else .tok (.name [c] false) r
    | EX => .tok (.ext c) r

/-- `Pl_Lexer_Token`: one iteration per character is enough. -/
def lexToken (l : Loc) (fl : Flags) (voidOp : Bool) (commaPunct : Bool) (inp : List Nat) : LexRes :=
  lexTok l fl voidOp commaPunct (inp.length + 1) false inp

end Gp.Quote
