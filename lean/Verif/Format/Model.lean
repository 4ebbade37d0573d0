/-
format/2 and format/3: Format of BipsPl/format_c.c, with the string stream that holds the text after `~t` until the
column is known (BipsPl/stream_supp.c).

Characters are codes 1..255 (`char` is unsigned, configure.in:613).  Simplifications:

* an argument is what its readers see (`Arg`): its value as an integer, its name, its text as a string, and what the writers
  and printf make of it; none is an error of the reader;
* the output stream is its text, its line count and its line position; a stream error of the system is not modelled;
* the arguments are a proper list (an open list is an error at the place where a proper list has its end);
* undefined behaviour is the outcome `ub`: a pointer into a block that was reallocated, a buffer overrun, a read past the
  end of the format.
-/
namespace Gp.Format

/-- What the directives see of an argument. `int`: Arg_Integer (format_c.c 723-732); `atom`: Arg_Atom (689-697); `str`:
Arg_Any_String (706-714); `flt`: Arg_Float (741-750) followed by the printf conversion of the directive and its precision;
`txt`: the text Pl_Write_Term produces for `~k`, `~q`, `~p`, `~w` (given by the letter); `opts` and
`txtW`: for `~W`, the write options (opaque) when the argument is a list of options, the text written with options; `prf`:
the C printf with a conversion specification and its stars. -/
structure Arg where
  int : Option Int := none
  atom : Option (List Nat) := none
  str : Option (List Nat) := none
  flt : Option (Nat → Option Int → List Nat) := none
  txt : Nat → List Nat := fun _ => []
  opts : Option Nat := none
  txtW : Nat → List Nat := fun _ => []
  prf : List Nat → List Int → Option (List Nat) := fun _ _ => none

/-- The output stream: `pstm_orig`. -/
structure Stm where
  out : List Nat
  lineCount : Nat
  linePos : Nat

/-- Update_Counters, stream_supp.c 1256-1265, on the line count and the line position. -/
def counters (c : Nat) (lc lp : Nat) : Nat × Nat := if c = 10 then (lc + 1, 0) else (lc, lp + 1)

/-- Pl_Stream_Putc (stream_supp.c 1559-1564) on the output stream. -/
def Stm.put (s : Stm) (c : Nat) : Stm :=
  { out := s.out ++ [c], lineCount := (counters c s.lineCount s.linePos).1, linePos := (counters c s.lineCount s.linePos).2 }

/-- STR_STREAM_WRITE_BLOCK, stream_supp.c:82. -/
def BLOCK : Nat := 1024

/-- The string stream: the bytes from `buff` to `ptr`, `buff_alloc_size`, a number that changes when the block moves, and the
counters. -/
structure Str where
  buf : List Nat
  alloc : Nat
  gen : Nat
  lineCount : Nat
  linePos : Nat

/-- Pl_Add_Str_Stream (stream_supp.c 1854-1907) for output: the size is 1024, or what remains of a former use of the
static buffer (1878). -/
def newStr (alloc : Nat) : Str := { buf := [], alloc := alloc, gen := 0, lineCount := 0, linePos := 0 }

/-- Str_Stream_Putc (stream_supp.c 2000-2020): the block is reallocated when there is no room for the character and the
last NUL. Realloc may move the block: the pointers into it are lost. -/
def Str.store (s : Str) (c : Nat) : Str :=
  let s := if s.buf.length ≥ s.alloc - 1 then { s with alloc := s.alloc + BLOCK, gen := s.gen + 1 } else s
  { s with buf := s.buf ++ [c] }

/-- Pl_Stream_Putc (stream_supp.c 1559-1564) on the string stream. -/
def Str.put (s : Str) (c : Nat) : Str :=
  let s := s.store c
  { s with lineCount := (counters c s.lineCount s.linePos).1, linePos := (counters c s.lineCount s.linePos).2 }

/-- Pl_Rewind_Str_Stream (stream_supp.c 1959-1969). -/
def Str.rewind (s : Str) : Str := { s with buf := [], lineCount := 0, linePos := 0 }

/-- PadInf, format_c.c 60-64: the pointer (the block and the offset in it) and the character. -/
structure Pad where
  gen : Nat
  off : Nat
  fill : Nat

/-- The local variables of Format, format_c.c 172-191. `pad` is `none` when stm_pad is -1; `onPad`: pstm is the string
stream. -/
structure F where
  orig : Stm
  pad : Option Str
  onPad : Bool
  last : Nat
  pads : List Pad
  tab : Int

/-- The line count of pstm. -/
def F.lineCount (f : F) : Nat :=
  if f.onPad then (match f.pad with | some s => s.lineCount | none => 0) else f.orig.lineCount

/-- The line position of pstm. -/
def F.linePos (f : F) : Nat :=
  if f.onPad then (match f.pad with | some s => s.linePos | none => 0) else f.orig.linePos

/-- Pl_Stream_Putc(c, pstm). -/
def F.put (f : F) (c : Nat) : F :=
  if f.onPad then { f with pad := f.pad.map (·.put c) } else { f with orig := f.orig.put c }

/-- Pl_Stream_Puts (stream_supp.c 1573-1587), and any sequence of Pl_Stream_Putc. -/
def F.puts (f : F) (t : List Nat) : F := t.foldl F.put f

def Stm.puts (s : Stm) (t : List Nat) : Stm := t.foldl Stm.put s

/-- The loop of Flush_Padding, format_c.c 627-642: `i`, `p` as an offset, the entries from `i`. The pointers of the
entries are used for the end of the texts: a pointer into an old block is undefined. -/
def flushLoop (s : Str) (spc rem : Nat) (nb : Nat) : Nat → Nat → List Pad → Stm → Option Stm
  | _, _, [], o => some o
  | i, p, e :: rest, o =>
    let n := spc + (if (i : Int) ≥ (nb : Int) - rem then 1 else 0)
    let o := o.puts (List.replicate n e.fill)
    match rest with
    | [] => some (o.puts (s.buf.drop p))
    | e' :: _ =>
      if e'.gen ≠ s.gen then none
      else flushLoop s spc rem nb (i + 1) (max p e'.off) rest (o.puts ((s.buf.take e'.off).drop p))

/-- Flush_Padding, format_c.c 609-644. -/
def flush (f : F) (free : Int) : Option F :=
  if f.pads.length = 0 then some f
  else
    match f.pad with
    | none => none
    | some s =>
      let free := if free < 0 then 0 else free.toNat
      (flushLoop s (free / f.pads.length) (free % f.pads.length) f.pads.length 0 0 f.pads f.orig).map fun o =>
        { f with orig := o, pad := some s.rewind }

/-- The outcome of format/3: the output is there also after an error. -/
inductive Res where
  | ok (f : F)
  | err (f : F)
  | ub

/-- CLEAN, format_c.c:192. -/
def clean (f : F) : F := { f with pad := none }

/-- MAX_PAD, format_c.c:58 and 184. -/
def MAX_PAD : Nat := 1024

/-- The end of `~t`, format_c.c 569-586: a new entry, in the string stream. -/
def addPad (alloc : Nat) (c : Nat) (f : F) : Res :=
  let f := if f.pads.length = 0 then
      let s := f.pad.getD (newStr alloc)
      { f with pad := some s, onPad := true, last := s.lineCount }
    else f
  if f.pads.length ≥ MAX_PAD then .err (clean f)
  else
    match f.pad with
    | none => .ub
    | some s => .ok { f with pads := f.pads ++ [{ gen := s.gen, off := s.buf.length, fill := c }] }

/-- `~t`, format_c.c 558-586. -/
def dirT (alloc : Nat) (n : Option Int) (f : F) : Res :=
  match (if f.last ≠ f.lineCount then
      (flush f 0).map fun f => { f with pads := [], tab := 0, last := F.lineCount { f with pads := [], tab := 0 } }
    else some f) with
  | none => .ub
  | some f => addPad alloc ((n.getD 32) % 256).toNat f

/-- `~|` and `~+`, format_c.c 520-556. PlLong overflow of the tab stop is not modelled. -/
def dirStop (rel : Bool) (n : Option Int) (f : F) : Res :=
  match (if f.last ≠ f.lineCount then (flush f 0).map fun f => { f with pads := [], tab := 0 } else some f) with
  | none => .ub
  | some f =>
    let pos : Int := (f.orig.linePos : Int) + (if f.pads.length > 0 then f.linePos else 0)
    let f := { f with tab := if rel then f.tab + n.getD 8 else n.getD pos }
    let free := f.tab - pos
    match (if f.pads.length = 0 then some (f.puts (List.replicate free.toNat 32)) else flush f free) with
    | none => .ub
    | some f => .ok { f with pads := [], onPad := false, last := f.orig.lineCount }

/-- The digits that printf writes for a natural number ("%ld"). -/
def dec (x : Nat) : List Nat := if x < 10 then [48 + x] else dec (x / 10) ++ [48 + x % 10]

/-- printf("%ld"). -/
def decInt (x : Int) : List Nat := if x < 0 then 45 :: dec x.natAbs else dec x.natAbs

/-- The loop of `~d` and `~D`, format_c.c 314-322. -/
def dLoop (lg : Int) : Int → Int → List Nat → List Nat
  | _, _, [] => []
  | i, stop, c :: s =>
    let pre := if i = lg then [46] else []
    let stop := if i = lg then -1 else stop
    let pre' := if i = stop then [44] else []
    let stop := if i = stop then stop + 3 else stop
    pre ++ pre' ++ c :: dLoop lg (i + 1) stop s

/-- The cast of a size_t to int. -/
def toInt32 (x : Int) : Int := (x + 2 ^ 31) % 2 ^ 32 - 2 ^ 31

/-- `~d` and `~D`, format_c.c 281-323. (-x does not overflow: integers have 61 bits.) -/
def dirD (big : Bool) (n x : Int) : List Nat :=
  if n = 0 ∧ big = false then decInt x
  else
    let s := dec x.natAbs
    let lg := toInt32 (s.length - n)
    (if x < 0 then [45] else []) ++
      if lg ≤ 0 then [48, 46] ++ List.replicate (-lg).toNat 48 ++ s
      else
        let stop := if big then lg % 3 else -1
        dLoop lg 0 (if stop = 0 then 3 else stop) s

/-- The do-while loop of `~r` and `~R`, format_c.c 346-353: from the end of the buffer. (At most 61 digits: no overrun.) -/
def rLoop (k n : Nat) (x : Nat) (acc : List Nat) : List Nat :=
  let i := x % n
  let acc := (if i < 10 then i + 48 else i + k) :: acc
  if h : 2 ≤ n ∧ x / n ≠ 0 then rLoop k n (x / n) acc else acc
  termination_by x
  decreasing_by
    have : x ≠ 0 := by intro e; rw [e, Nat.zero_div] at h; exact h.2 rfl
    exact Nat.div_lt_self (by omega) (by omega)

/-- `~r` and `~R`, format_c.c 325-355, for a radix 2..36. -/
def dirR (big : Bool) (n x : Int) : List Nat :=
  (if x < 0 then [45] else []) ++ rLoop ((if big then 65 else 97) - 10) n.toNat x.natAbs []

/-- printf("%*s", w, s): left aligned for a negative width. -/
def pfS (w : Int) (s : List Nat) : List Nat :=
  if w < 0 then s ++ List.replicate ((-w).toNat - s.length) 32 else List.replicate (w.toNat - s.length) 32 ++ s

/-- printf("%-*.*s", n, n, s): a negative precision is none, a negative width is its absolute value. -/
def pfPS (n : Int) (s : List Nat) : List Nat :=
  let s := if n < 0 then s else s.take n.toNat
  s ++ List.replicate (n.natAbs - s.length) 32

/-- What a directive puts: characters, or characters through the buffer of Pl_Stream_Printf. -/
inductive Txt where
  | puts (t : List Nat)
  | printf (t : List Nat)

/-- BIG_BUFFER, stream_supp.c:86. -/
def BIG : Nat := 65535

/-- Pl_Stream_Printf, stream_supp.c 1596-1617: vsprintf into a buffer of BIG_BUFFER bytes. -/
def F.txt (f : F) : Txt → Option F
  | .puts t => some (f.puts t)
  | .printf t => if t.length < BIG then some (f.puts t) else none

/-- The outcome of the directives that put a text: the text and the remaining arguments, an error with or without CLEAN. -/
inductive TRes where
  | txt (t : Txt) (args : List Arg)
  | err (clean : Bool)

/-- Read_Arg (653-680) followed by a reader. -/
def withArg {α : Type} (args : List Arg) (r : Arg → Option α) (k : α → List Arg → TRes) : TRes :=
  match args with
  | [] => .err false
  | a :: args =>
    match r a with
    | none => .err false
    | some x => k x args

/-- The directives that put a text, format_c.c 244-421; the others are not known (588-590). -/
def dirText (d : Nat) (n : Option Int) (args : List Arg) : TRes :=
  if d = 97 then -- a
    withArg args (·.atom) fun p => .txt (match n with | some n => .printf (pfS (-n) p) | none => .puts p)
  else if d = 99 then -- c
    withArg args (·.int) fun x args =>
      if 1 ≤ x ∧ x < 256 then .txt (.puts (List.replicate (n.getD 1).toNat x.toNat)) args else .err true
  else if d = 101 ∨ d = 69 ∨ d = 102 ∨ d = 70 ∨ d = 103 ∨ d = 71 then -- e E f F g G
    withArg args (·.flt) fun g => .txt (.printf (g d n))
  else if d = 100 ∨ d = 68 then -- d D
    withArg args (·.int) fun x => .txt (.puts (dirD (d == 68) (n.getD 0) x))
  else if d = 114 ∨ d = 82 then -- r R
    withArg args (·.int) fun x args =>
      if n.getD 8 < 2 ∨ n.getD 8 > 36 then .err true else .txt (.puts (dirR (d == 82) (n.getD 8) x)) args
  else if d = 115 then -- s
    withArg args (·.str) fun p => .txt (.printf (match n with | some n => pfPS n p | none => p))
  else if d = 105 then -- i
    withArg args some fun _ => .txt (.puts [])
  else if d = 107 ∨ d = 113 ∨ d = 112 ∨ d = 119 then -- k q p w
    withArg args some fun a => .txt (.puts (a.txt d))
  else if d = 87 then -- W
    withArg args some fun a args => withArg args (·.opts) fun o => .txt (.puts (a.txtW o))
  else if d = 126 then .txt (.puts [126]) args -- ~
  else if d = 110 then .txt (.puts (List.replicate (n.getD 1).toNat 10)) args -- n
  else .err true

/-- The parsing of a C conversion specification, format_c.c 434-445: the specification (with its last character), the stars,
what remains. `none` at the end of the format: the NUL is taken for the last character. -/
def pctParse : List Nat → List Nat → Option (List Nat × List Nat)
  | _, [] => none
  | acc, c :: fmt => if 32 ≤ c ∧ c ≤ 57 then pctParse (acc ++ [c]) fmt else some (acc ++ [c], fmt)

/-- The arguments of the stars, format_c.c 436-442: two at most. -/
def stars : Nat → List Arg → Option (List Int × List Arg)
  | 0, args => some ([], args)
  | k + 1, args =>
    match args with
    | [] => none
    | a :: args =>
      match a.int with
      | none => none
      | some x => (stars k args).map fun (l, args) => (x :: l, args)

/-- "diouxXpcsaAeEfFgG", format_c.c:447. -/
def convs : List Nat := [100, 105, 111, 117, 120, 88, 112, 99, 115, 97, 65, 101, 69, 102, 70, 103, 71]

inductive PRes where
  | txt (t : Txt) (fmt : List Nat) (args : List Arg)
  | err (clean : Bool)
  | ub

/-- `~%`, format_c.c 423-498, from the `%`. The specification and the modifiers added to it must fit in `buff[2048]`. At the
end of the format strchr finds the NUL in the list of conversions (447 and 475): an argument is read as a float, and the
loop goes on after the end of the format. -/
def dirPct (fmt : List Nat) (args : List Arg) : PRes :=
  match fmt with
  | 37 :: fmt => .txt (.puts [37]) fmt args
  | _ =>
    match pctParse [37] fmt with
    | none =>
      match stars (min 2 (fmt.count 42)) args with
      | none => .err false
      | some (_, args) =>
        match args with
        | [] => .err false
        | a :: _ => if a.flt.isSome then .ub else .err false
    | some (spec, rest) =>
      if spec.length + 2 ≥ 2048 then .ub
      else
        match stars (min 2 (spec.count 42)) args with
        | none => .err false
        | some (ns, args) =>
          if spec.getLast?.getD 0 ∉ convs then .err true
          else
            match args with
            | [] => .err false
            | a :: args =>
              if spec.count 42 > 2 then .ub
              else
                match a.prf spec ns with
                | none => .err false
                | some t => .txt (.printf t) rest args

/-- isspace in the C locale. -/
def isSpace (c : Nat) : Bool := c == 32 || (9 ≤ c && c ≤ 13)

def isDigit (c : Nat) : Bool := 48 ≤ c && c ≤ 57

/-- strtol in base 10: spaces, a sign, digits; 0 and the whole string when there is no digit. It gives LONG_MIN or LONG_MAX
for what is out of range: both are errors in what follows, as any value out of 61 bits. -/
def strtol (s : List Nat) : Int × List Nat :=
  let s1 := s.dropWhile isSpace
  let neg := s1.head? = some 45
  let s2 := if s1.head? = some 45 ∨ s1.head? = some 43 then s1.tail else s1
  let ds := s2.takeWhile isDigit
  if ds = [] then (0, s)
  else
    let v : Int := ds.foldl (fun (v : Int) (c : Nat) => v * 10 + ((c : Int) - 48)) 0
    (if neg then -v else v, s2.dropWhile isDigit)

/-- The numeric argument, format_c.c 204-239: `none` is an error (with CLEAN or not); otherwise `n` if there is one. -/
def header (fmt : List Nat) (args : List Arg) : Except Bool (Option Int × List Nat × List Arg) :=
  match fmt with
  | 42 :: fmt =>
    match args with
    | [] => .error false
    | a :: args =>
      match a.int with
      | none => .error false
      | some n => if n < 0 then .error true else .ok (some n, fmt, args)
  | 96 :: c :: fmt => .ok (some (c : Int), fmt, args)
  | _ =>
    let (n, rest) := strtol fmt
    if n < -2 ^ 60 ∨ n > 2 ^ 60 - 1 then .error true
    else .ok (if rest.length = fmt.length then none else some n, rest, args)

def errRes (c : Bool) (f : F) : Res := .err (if c then clean f else f)

/-- The loop of Format, format_c.c 195-599. The first argument bounds the number of iterations (each one reads a character
of the format). -/
def loop (alloc : Nat) : Nat → List Nat → List Arg → F → Res
  | 0, _, _, _ => .ub
  | _ + 1, [], args, f =>
    match flush f 0 with
    | none => .ub
    | some f => if args.isEmpty then .ok (clean f) else .err (clean f)
  | k + 1, c :: fmt, args, f =>
    if c ≠ 126 then loop alloc k fmt args (f.put c)
    else
      match header fmt args with
      | .error c => errRes c f
      | .ok (n, fmt, args) =>
        match fmt with
        | [] => .err (clean f)
        | d :: fmt =>
          if d = 43 ∨ d = 124 then
            match dirStop (d == 43) n f with
            | .ok f => loop alloc k fmt args f
            | r => r
          else if d = 116 then
            match dirT alloc n f with
            | .ok f => loop alloc k fmt args f
            | r => r
          else if d = 78 then loop alloc k fmt args (if f.linePos > 0 then f.put 10 else f)
          else if d = 37 then
            match dirPct fmt args with
            | .err c => errRes c f
            | .ub => .ub
            | .txt t fmt args =>
              match f.txt t with
              | none => .ub
              | some f => loop alloc k fmt args f
          else
            match dirText d n args with
            | .err c => errRes c f
            | .txt t args =>
              match f.txt t with
              | none => .ub
              | some f => loop alloc k fmt args f

/-- Format, format_c.c 165-600: `alloc` is the size of the buffer of the string stream. -/
def format (alloc : Nat) (o : Stm) (fmt : List Nat) (args : List Arg) : Res :=
  loop alloc (fmt.length + 1) fmt args { orig := o, pad := none, onPad := false, last := o.lineCount, pads := [], tab := 0 }

end Gp.Format
