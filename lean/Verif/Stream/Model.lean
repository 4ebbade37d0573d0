/-
C36: the input side of a stream: BipsPl/stream_supp.c and the push-back stacks of BipsPl/stream_supp.h.

Simplifications (all the definitions below):
* the counters `char_count`, `line_count`, `line_pos` (`PlLong`) are mathematical integers;
* the underlying source (a stdio `FILE`, a string stream, …) is a fixed sequence of codes with an offset; `fgetc` gives the code at the
  offset or `EOF`, `ftell` gives the offset, `fseek` sets it (it refuses a negative offset only); `clearerr` has no effect, because the
  end of file indicator is not remembered;
* the mirrors (stream_supp.c:1289-1291) are in `Verif/Mirror`; the line editor, the piped stdin and the signals are not modelled.
-/
namespace Gp.Stream

/-- `EOF` of stdio. -/
def EOF : Int := -1
/-- The code of the newline. -/
def NL : Int := 10
/-- `STREAM_PB_SIZE`, stream_supp.h:48 (the value of the flag `max_unget`, flag_c.c:187). -/
def PB_SIZE : Nat := 8

/-- `PbStk`, stream_supp.h:118-124. The pointer is the index in `buff`. -/
structure Pb where
  buff : Nat → Int
  ptr : Nat
  nb : Nat

/-- `PB_Init`, stream_supp.h:489. The content of `buff` is kept. -/
def pbInit (p : Pb) : Pb := { p with ptr := 0, nb := 0 }

/-- `PB_Is_Empty`, stream_supp.h:493. -/
def pbEmpty (p : Pb) : Bool := p.nb == 0

/-- `PB_Push`, stream_supp.h:497-508. -/
def pbPush (p : Pb) (x : Int) : Pb :=
  { buff := fun i => if i = p.ptr then x else p.buff i
    ptr := if p.ptr ≠ PB_SIZE - 1 then p.ptr + 1 else 0
    nb := if p.nb < PB_SIZE then p.nb + 1 else p.nb }

/-- `PB_Pop`, stream_supp.h:513-523. The code calls it on a non-empty stack only. -/
def pbPop (p : Pb) : Int × Pb :=
  let ptr := if p.ptr ≠ 0 then p.ptr - 1 else PB_SIZE - 1
  (p.buff ptr, { p with ptr := ptr, nb := p.nb - 1 })

/-- `PB_Top`, stream_supp.h:528-536. -/
def pbTop (p : Pb) : Int :=
  if p.ptr ≠ 0 then p.buff (p.ptr - 1) else p.buff (PB_SIZE - 1)

/-- `STREAM_EOF_ACTION_xxx`, stream_supp.h:57-59. -/
inductive EofAction | error | eofCode | reset
  deriving DecidableEq

/-- The part of `StmProp` (stream_supp.h:101-113) that the functions below look at. `reposition` implies that `fct_tell` and `fct_seek`
are defined (Pl_Add_Stream, stream_supp.c:465-466), and the other direction is assumed for the model of `fct_tell`. -/
structure Props where
  text : Bool
  input : Bool
  reposition : Bool
  eofAction : EofAction

/-- `StmInf`, stream_supp.h:140-166, with the source (`src`, `pos`) in place of `file` and of the functions. -/
structure Stm where
  src : List Int
  pos : Nat
  prop : Props
  eofReached : Bool
  pbChar : Pb
  charCount : Int
  lineCount : Int
  linePos : Int
  pbLine : Pb

/-- What an operation gives back. `permission` is the error `permission_error(input, past_end_of_stream, S)`. -/
inductive Res
  | code (c : Int)
  | permission
  | ok
  | fail
  | eosNot | eosAt | eosPast
  deriving DecidableEq

/-- Init_Stream_Struct, stream_supp.c:409-446. The stacks have any content. -/
def openStm (src : List Int) (prop : Props) (g1 g2 : Nat → Int) : Stm :=
  { src, pos := 0, prop, eofReached := false, pbChar := ⟨g1, 0, 0⟩, charCount := 0, lineCount := 0, linePos := 0, pbLine := ⟨g2, 0, 0⟩ }

/-- `CALL_GETC` (stream_supp.h:372) on the source. -/
def callGetc (s : Stm) : Int × Stm :=
  match s.src[s.pos]? with
  | some c => (c, { s with pos := s.pos + 1 })
  | none => (EOF, s)

/-- `whence` of `fseek`. -/
inductive Whence | set | cur | «end»
  deriving DecidableEq

/-- `CALL_SEEK` (stream_supp.h:377) on the source: `none` is a non-zero value. -/
def callSeek (s : Stm) (off : Int) (w : Whence) : Option Stm :=
  let p := match w with
    | .set => off
    | .cur => s.pos + off
    | .«end» => s.src.length + off
  if p < 0 then none else some { s with pos := p.toNat }

/-- `Update_Counters`, stream_supp.c:1256-1265. -/
def updateCounters (s : Stm) (c : Int) : Stm :=
  let s := if c ≠ EOF then { s with charCount := s.charCount + 1 } else s
  if c = NL then { s with lineCount := s.lineCount + 1, linePos := 0 } else { s with linePos := s.linePos + 1 }

/-- Pl_Stream_Set_Position, stream_supp.c:1721-1748. -/
def setPosition (s : Stm) (w : Whence) (off cc lc lp : Int) : Bool × Stm :=
  match callSeek s off w with
  | none => (false, s)
  | some s =>
    let s := { s with charCount := cc }
    let s := if s.prop.text then { s with lineCount := lc, linePos := lp } else s
    let s := if s.eofReached then { s with eofReached := false } else s
    (true, { s with pbChar := pbInit s.pbChar, pbLine := pbInit s.pbLine })

/-- `Before_Reading`, stream_supp.c:1230-1251: an answer at once, or the stream to read. -/
def beforeReading (s : Stm) : Res ⊕ Stm :=
  if s.eofReached then
    match s.prop.eofAction with
    | .error => .inl .permission
    | .eofCode => .inl (.code EOF)
    | .reset =>
      let s := { s with eofReached := false }
      .inr (if s.prop.reposition then (setPosition s .set 0 0 0 0).2 else s)
  else .inr s

/-- The part of Pl_Stream_Getc after `Before_Reading`, stream_supp.c:1406-1424. -/
def getcBody (s : Stm) : Int × Stm :=
  let (c, s) :=
    if !pbEmpty s.pbChar then
      let (c, pb) := pbPop s.pbChar
      (c, { s with pbChar := pb })
    else callGetc s
  let s := if c = EOF then { s with eofReached := true } else s
  let s := if c = NL then { s with pbLine := pbPush s.pbLine s.linePos } else s
  (c, updateCounters s c)

/-- Pl_Stream_Getc, stream_supp.c:1399-1425 (get_char, get_code, get_byte: char_io_c.c:157-261). -/
def getc (s : Stm) : Res × Stm :=
  match beforeReading s with
  | .inl r => (r, s)
  | .inr s =>
    let (c, s) := getcBody s
    (.code c, s)

/-- Pl_Stream_Ungetc, stream_supp.c:1436-1457 (unget_char, unget_code, unget_byte: char_io_c.c:286-366, and the lexer). -/
def ungetc (c : Int) (s : Stm) : Stm :=
  let s := { s with pbChar := pbPush s.pbChar c, eofReached := false }
  let s := if (s.charCount : Int) > (0 : Int) then { s with charCount := s.charCount - 1 } else s
  if c = NL then
    let s := if (s.lineCount : Int) > (0 : Int) then { s with lineCount := s.lineCount - 1 } else s
    if !pbEmpty s.pbLine then
      let (l, pb) := pbPop s.pbLine
      { s with linePos := l, pbLine := pb }
    else { s with linePos := 0 }
  else if (s.linePos : Int) > (0 : Int) then { s with linePos := s.linePos - 1 } else s

/-- Pl_Stream_Peekc, stream_supp.c:1466-1482 (peek_char, peek_code, peek_byte: char_io_c.c:389-490). -/
def peekc (s : Stm) : Res × Stm :=
  match beforeReading s with
  | .inl r => (r, s)
  | .inr s =>
    if !pbEmpty s.pbChar then (.code (pbTop s.pbChar), s)
    else
      let (c, s) := callGetc s
      (.code c, { s with pbChar := pbPush s.pbChar c })

/-- Pl_Stream_End_Of_Stream, stream_supp.c:1658-1674. -/
def endOfStream (s : Stm) : Res × Stm :=
  if s.prop.eofAction = .reset ∨ s.prop.input = false then (.eosNot, s)
  else if s.eofReached then (.eosPast, s)
  else
    let (c, s) := peekc s
    if c = .code EOF then (.eosAt, s) else (.eosNot, s)

/-- Pl_Stream_Get_Position, stream_supp.c:1683-1712: offset, character count, line count, line position. -/
def getPosition (s : Stm) : Int × Int × Int × Int :=
  let off : Int := if s.prop.reposition then
      (if (s.pos : Int) - s.pbChar.nb < 0 then 0 else (s.pos : Int) - s.pbChar.nb)
    else 0
  if s.prop.text then (off, s.charCount, s.lineCount, s.linePos) else (off, s.charCount, 0, 0)

/-- The first loop of Pl_Stream_Set_Position_LC, stream_supp.c:1800-1802: `none` when the fuel is exhausted; the Boolean is false for `goto err`. -/
def loopLines (n : Int) : Nat → Stm → Option (Bool × Stm)
  | 0, _ => none
  | fuel + 1, s =>
    if s.lineCount < n then
      let (r, s) := getc s
      if r = .code EOF then some (false, s) else loopLines n fuel s
    else some (true, s)

/-- The second loop of Pl_Stream_Set_Position_LC, stream_supp.c:1806-1812. -/
def loopCols (n : Int) : Nat → Stm → Option (Bool × Stm)
  | 0, _ => none
  | fuel + 1, s =>
    if s.linePos < n then
      let (r, s) := getc s
      if r = .code EOF then some (false, s)
      else if r = .code NL then some (false, s)
      else loopCols n fuel s
    else some (true, s)

/-- Pl_Stream_Set_Position_LC, stream_supp.c:1758-1832, called by set_stream_line_column/3 (stream_c.c:1381-1407, where the line and the
column count from 1). The fuel of the loops is one more than the length of the source: `none` does not occur (`C36_set_line_column`). -/
def setPositionLC (s0 : Stm) (lc lp : Int) : Option (Bool × Stm) :=
  let s := { s0 with pos := 0 }
  let s := { s with charCount := 0, lineCount := 0, linePos := 0, pbChar := { s.pbChar with nb := 0 } }
  let s := if s.eofReached then { s with eofReached := false } else s
  let err (s : Stm) : Bool × Stm :=
    (false, { s with eofReached := s0.eofReached, charCount := s0.charCount, lineCount := s0.lineCount, linePos := s0.linePos,
                     pbChar := { s.pbChar with nb := s0.pbChar.nb }, pos := s0.pos })
  match loopLines lc (s.src.length + 2) s with
  | none => none
  | some (false, s) => some (err s)
  | some (true, s) =>
    match loopCols lp (s.src.length + 2) s with
    | none => none
    | some (false, s) => some (err s)
    | some (true, s) => some (true, { s with pbChar := pbInit s.pbChar, pbLine := pbInit s.pbLine })

/-- Pl_Set_Stream_Line_Column_3, stream_c.c:1402-1406. -/
def setLineColumn (s : Stm) (line col : Int) : Option (Bool × Stm) :=
  if line - 1 ≥ 0 ∧ col - 1 ≥ 0 then setPositionLC s (line - 1) (col - 1) else some (false, s)

/-- Pl_Seek_4 on a repositionable binary stream, stream_c.c:1265-1270: `none` is failure, otherwise the new location. -/
def seek4 (s : Stm) (w : Whence) (off : Int) : Option Int × Stm :=
  match setPosition s w off off 0 0 with
  | (false, s) => (none, s)
  | (true, s) => (some (getPosition s).1, s)

/-- The loop of Pl_Stream_Get_Key, stream_supp.c:1375-1376, on the remaining source: the number of codes read. A space is 32. -/
def skipLine : List Int → Nat
  | [] => 0
  | c :: l => if c ≥ 32 then skipLine l + 1 else 1

/-- Pl_Stream_Get_Key with `simulate`, stream_supp.c:1341-1390 (get_key/2 on a stream that is not the terminal: char_io_c.c:73-134). The counters of
stdout (:1378) are not part of this stream. -/
def getKey (s : Stm) : Res × Stm :=
  match beforeReading s with
  | .inl r => (r, s)
  | .inr s =>
    let (c, s) :=
      if !pbEmpty s.pbChar then
        let (c, pb) := pbPop s.pbChar
        (c, { s with pbChar := pb })
      else callGetc s
    let s := if c ≠ NL then { s with pos := s.pos + skipLine (s.src.drop s.pos) } else s
    let s := if c = EOF then { s with eofReached := true } else s
    let s := if c = NL then { s with pbLine := pbPush s.pbLine s.linePos } else s
    (.code c, updateCounters s c)

/-- The operations of a program on an input stream. -/
inductive Op
  | get
  | peek
  | unget (c : Int)
  | eos
  | setPos (off cc lc lp : Int)
  | setLC (line col : Int)

/-- One operation; `none` would be a loop that does not end. -/
def step (s : Stm) : Op → Option (Res × Stm)
  | .get => some (getc s)
  | .peek => some (peekc s)
  | .unget c => some (.ok, ungetc c s)
  | .eos => some (endOfStream s)
  | .setPos off cc lc lp =>
    let (b, s) := setPosition s .set off cc lc lp
    some (if b then .ok else .fail, s)
  | .setLC l c => (setLineColumn s l c).map fun (b, s) => (if b then .ok else .fail, s)

/-- Operations one after the other: the answers and the final stream. -/
def run : Stm → List Op → Option (List Res × Stm)
  | s, [] => some ([], s)
  | s, op :: ops =>
    match step s op with
    | none => none
    | some (r, s) => (run s ops).map fun (rs, s) => (r :: rs, s)

/-- Str_Stream_Getc, stream_supp.c:1978-1991, reads the bytes of a C string through `char` (unsigned: BipsPl is compiled
with -funsigned-char, BipsPl/Makefile.in:93 and configure.in:613) up to the first NUL: the codes that it gives. -/
def strSrc (bytes : List Nat) : List Int :=
  (bytes.takeWhile (· ≠ 0)).map fun (b : Nat) => (b : Int)

end Gp.Stream
