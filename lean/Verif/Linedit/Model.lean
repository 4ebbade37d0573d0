/-
Model of the line editor (Linedit/linedit.c:66-853, 968-1113): the line being edited, the clipboard, the history.

The line is an array of `cap` bytes (`cap` is the argument `size` of `Pl_LE_FGets`, linedit.c:246, 262), `pos`, `end` and `mark` are positions in this
array. An access outside of the array, of the clipboard or of a line of the history is the outcome `none`.

Not modelled: the display (`BACKD`, `FORWD`, `DISPL`, `ERASE`, `PUT_CHAR`), the interrupt key (linedit.c:307-330), the matching of the brackets
(linedit.c:723-793, display only), the help, the choice of the completion (linedit.c:543-568, see `Key.complete`), the keys of Windows. The test
of the classes of characters (`islower`, `isprint`, `tolower`, `toupper`, the separators) are parameters. The size is the same at each call.
-/
namespace Gp.Linedit

/-- `MAX_HISTORY_LINES` (linedit.c:97). -/
def maxHist : Nat := 64

/-- The size of `clipboard` (linedit.c:148). -/
def clipSize : Nat := 4096

/-- What the editor is given: the size of the array, the length of the prompt, the separators and the functions of `ctype.h`. -/
structure Cfg where
  cap : Nat
  prompt : Nat
  sep : Nat → Bool
  lower : Nat → Bool
  print : Nat → Bool
  toLow : Nat → Nat
  toUp : Nat → Nat

/-- `size` after `size--` (linedit.c:262). -/
def Cfg.size (c : Cfg) : Int := (c.cap : Int) - 1

/-- Reading a byte of an array. -/
def rd (m : List Nat) (i : Int) : Option Nat := if i < 0 then none else m[i.toNat]?

/-- Writing a byte of an array. -/
def wr (m : List Nat) (i : Int) (x : Nat) : Option (List Nat) :=
  if i < 0 ∨ (m.length : Int) ≤ i then none else some (m.set i.toNat x)

/-- `for (; k turns; p++) p[-n] = *p;` (linedit.c:389-390, 418-419, 478-479). -/
def moveDown (n : Int) : Nat → Int → List Nat → Option (List Nat)
  | 0, _, m => some m
  | k + 1, p, m => (rd m p).bind fun x => (wr m (p - n) x).bind fun m' => moveDown n k (p + 1) m'

/-- `for (p = end; k turns; p--) *p = p[-1];` (linedit.c:834-835). -/
def moveUp : Nat → Int → List Nat → Option (List Nat)
  | 0, _, m => some m
  | k + 1, p, m => (rd m (p - 1)).bind fun x => (wr m p x).bind fun m' => moveUp k (p - 1) m'

/-- The bytes from `p`. -/
def slice : Nat → Int → List Nat → Option (List Nat)
  | 0, _, _ => some []
  | k + 1, p, m => (rd m p).bind fun x => (slice k (p + 1) m).map (x :: ·)

/-- The copy of `[start, stop)` in the clipboard followed by `'\0'` (linedit.c:412-416, 432-436, 469-473). -/
def toClip (m : List Nat) (start stop : Int) : Option (List Nat) :=
  if clipSize < (stop - start).toNat + 1 then none else (slice (stop - start).toNat start m).map (·.takeWhile (· != 0))

/-- `Skip` (linedit.c:968-980), at most `k` turns. -/
def skipN (c : Cfg) (m : List Nat) (limit : Int) (want : Bool) (dir : Int) : Nat → Int → Option Int
  | 0, p => if p = limit then some p else none
  | k + 1, p =>
    if p = limit then some p
    else (rd m p).bind fun x => if c.sep x != want then some p else skipN c m limit want dir k (p + dir)

/-- `Skip` (linedit.c:968-980). -/
def skip (c : Cfg) (m : List Nat) (p limit : Int) (want : Bool) (dir : Int) : Option Int :=
  skipN c m limit want dir (limit - p).natAbs p

/-- `for (; p < end && !Is_A_Separator(*p); p++) *p = f(*p);` (linedit.c:526-527, 536-537), `k` is `end - p`. -/
def mapWord (c : Cfg) (f : Nat → Nat) : Nat → Int → List Nat → Option (List Nat × Int)
  | 0, p, m => some (m, p)
  | k + 1, p, m =>
    (rd m p).bind fun x => if c.sep x then some (m, p) else (wr m p (f x)).bind fun m' => mapWord c f k (p + 1) m'

/-- `HistCell` (linedit.c:119-125) when `line` is not `NULL`: the bytes before the `'\0'`, `line_length` and `buff_length`. -/
structure Cell where
  line : List Nat
  len : Nat
  buff : Nat

/-- `hist_tbl`, `hist_start`, `hist_end` (linedit.c:150-152). -/
structure Hist where
  tbl : List (Option Cell)
  start : Nat
  fin : Nat

/-- `Hist_Inc` (linedit.c:190). -/
def histInc (n : Nat) : Nat := if maxHist ≤ n + 1 then 0 else n + 1

/-- `Hist_Dec` (linedit.c:192). -/
def histDec (n : Nat) : Nat := if n = 0 then maxHist - 1 else n - 1

/-- The string at the start of the array: the bytes before the first `'\0'`. -/
def str0 (m : List Nat) : Option (List Nat) := if 0 ∈ m then some (m.takeWhile (· != 0)) else none

/-- `hist_tbl[no]`. -/
def Hist.cell (h : Hist) (no : Nat) : Option Cell := (h.tbl[no]?).join

/-- `buff_length` of `hist_tbl[no]` after the allocation (linedit.c:1079-1090). -/
def buffLen (h : Hist) (no len : Nat) : Nat :=
  match h.cell no with
  | some x => if x.buff < len then len else x.buff
  | none => len

/-- `History_Update_Line` (linedit.c:1072-1094); `t` is the string `line`. -/
def updateLine (h : Hist) (t : List Nat) (len no : Nat) : Option Hist :=
  if buffLen h no len < t.length then none
  else some { h with tbl := h.tbl.set no (some ⟨t, len, buffLen h no len⟩) }

/-- `History_Get_Line` (linedit.c:1103-1111): the array after `strcpy` and the length. -/
def getLine (h : Hist) (m : List Nat) (no : Nat) : Option (List Nat × Nat) :=
  match h.cell no with
  | none => none
  | some x => if m.length < x.line.length + 1 then none else some (x.line ++ 0 :: m.drop (x.line.length + 1), x.len)

/-- `strcmp(line, hist_tbl[hist_end - 1].line) == 0` guarded by `hist_end > 0` (linedit.c:1054). -/
def isDup (h : Hist) (t : List Nat) : Option Bool :=
  if h.fin = 0 then some false
  else match h.cell (h.fin - 1) with
    | none => none
    | some x => some (x.line == t)

/-- The end of `History_Add_Line` (linedit.c:1058-1062). -/
def pushLine (h : Hist) (t : List Nat) (len : Nat) : Option Hist :=
  (updateLine h t len h.fin).map fun h1 =>
    let e := histInc h1.fin
    if e = h1.start then { h1 with fin := e, start := histInc h1.start } else { h1 with fin := e }

/-- `History_Add_Line` (linedit.c:1043-1063). -/
def addLine (h : Hist) (t : List Nat) (len : Nat) : Option Hist :=
  if t.dropWhile (· == 32) = [] then some h
  else (isDup h t).bind fun b => if b then some h else pushLine h t len

/-- The state of the editor: the local variables of `Pl_LE_FGets` and the static variables `ins_mode`, `clipboard` (the bytes before `'\0'`) and
the history (linedit.c:136-152, 248-258). -/
structure St where
  mem : List Nat
  pos : Int
  fin : Int
  mark : Option Int
  clip : List Nat
  ins : Bool
  hist : Hist
  hno : Nat
  lastEof : Bool

/-- The keys (linedit.c:354-721). -/
inductive Key where
  | home | fin | left | right | back | del | ctrlD | killBeg | killEnd | yank | mark | copy | cut | prevWord | nextWord | capit | lower | upper
  | /-- The tabulation: `w` is the rest of the longest prefix of the words found, `more` when several words are found (linedit.c:543-578). -/
    complete (w : List Nat) (more : Bool)
  | tab | insert | swap | ret | up | down | upMatch | downMatch | first | last
  | /-- A key which is not one of the others (linedit.c:711-721). -/
    char (x : Nat)
deriving DecidableEq

/-- What a key does: nothing more, a beep, the end of the call with a line or with the end of file. -/
inductive Out where
  | go | beep | line (t : List Nat) | eof
deriving DecidableEq

/-- The start of `Pl_LE_FGets` (linedit.c:248-258) when no key is waiting. -/
def begin (s : St) : St := { s with pos := 0, fin := 0, mark := none, hno := s.hist.fin, lastEof := false }

/-- `New_Char` (linedit.c:814-850). -/
def newChar (c : Cfg) (s : St) (x : Nat) : Option (St × Bool) :=
  if (s.ins ∨ s.pos = s.fin) ∧ c.size ≤ s.fin then some (s, false)
  else if s.ins = false then
    (wr s.mem s.pos x).map fun m =>
      ({ s with mem := m, pos := s.pos + 1, fin := if s.fin < s.pos + 1 then s.pos + 1 else s.fin }, true)
  else
    (moveUp (s.fin - s.pos).toNat s.fin s.mem).bind fun m =>
      (wr m s.pos x).map fun m' => ({ s with mem := m', pos := s.pos + 1, fin := s.fin + 1 }, true)

/-- The loops on `New_Char` (linedit.c:443-445, 568-570, 582-584). -/
def newChars (c : Cfg) : St → List Nat → Option (St × Bool)
  | s, [] => some (s, true)
  | s, x :: xs => (newChar c s x).bind fun r => if r.2 then newChars c r.1 xs else some (r.1, false)

/-- `goto error` when `New_Char` is false, else `continue`. -/
def outOf (r : St × Bool) : St × Out := (r.1, if r.2 then .go else .beep)

/-- `Tab_To_Spaces` (linedit.c:1028-1034). -/
def tabSpaces (c : Cfg) (p : Nat) : Nat := 8 - (p + c.prompt) % 8

/-- `KEY_BACKSPACE` from the label `del_last` (linedit.c:388-397). -/
def delLast (s : St) : Option (St × Out) :=
  (moveDown 1 (s.fin - s.pos).toNat s.pos s.mem).map fun m => ({ s with mem := m, pos := s.pos - 1, fin := s.fin - 1 }, .go)

/-- The deletion of `[start, stop)` (linedit.c:417-427, 477-488). -/
def cutOut (s : St) (clip : List Nat) (start stop : Int) : Option (St × Out) :=
  (moveDown (stop - start) (s.fin - stop).toNat stop s.mem).map fun m =>
    ({ s with mem := m, pos := start, fin := s.fin - (stop - start), clip := clip }, .go)

/-- `*end = '\0'; History_Update_Line(str, end - str, h_no)` (linedit.c:623-624 for instance). -/
def save (s : St) : Option St :=
  (wr s.mem s.fin 0).bind fun m =>
    (str0 m).bind fun t => (updateLine s.hist t s.fin.toNat s.hno).map fun h => { s with mem := m, hist := h }

/-- The label `write_hist_line` (linedit.c:626-634). -/
def showLine (s : St) (no : Nat) : Option (St × Out) :=
  (getLine s.hist s.mem no).map fun r => ({ s with mem := r.1, fin := r.2, pos := r.2, hno := no }, .go)

/-- The label `write_hist_match_line` (linedit.c:659-666). -/
def showMatch (s : St) (no : Nat) : Option (St × Out) :=
  (getLine s.hist s.mem no).map fun r => ({ s with mem := r.1, fin := r.2, hno := no }, .go)

/-- `hist_tbl[h_no].line != NULL && strncmp(str, hist_tbl[h_no].line, pos - str) == 0` (linedit.c:656-657, 678-679); `pre` is the part of the
line before `pos`. -/
def matchesAt (h : Hist) (pre : List Nat) (no : Nat) : Bool :=
  match h.cell no with
  | none => false
  | some x => x.line.take pre.length == pre

/-- The loop `try_previous` (linedit.c:652-658), at most `k` turns: the number of the line and if it matches. -/
def tryPrev (h : Hist) (pre : List Nat) : Nat → Nat → Nat × Bool
  | 0, no => (no, false)
  | k + 1, no =>
    if no = h.start then (no, false)
    else if matchesAt h pre (histDec no) then (histDec no, true) else tryPrev h pre k (histDec no)

/-- The loop `try_next` (linedit.c:674-680), at most `k` turns. -/
def tryNext (h : Hist) (pre : List Nat) : Nat → Nat → Nat × Bool
  | 0, no => (no, false)
  | k + 1, no =>
    if h.start = h.fin ∨ no = h.fin then (no, false)
    else if matchesAt h pre (histInc no) then (histInc no, true) else tryNext h pre k (histInc no)

/-- The end of the keys `ESC P` and `ESC N`. -/
def afterTry (s : St) (r : Nat × Bool) : Option (St × Out) :=
  if r.2 then showMatch s r.1 else some ({ s with hno := r.1 }, .beep)

/-- `Hist_Is_Empty()` (linedit.c:202). -/
def Hist.empty (h : Hist) : Bool := h.start == h.fin

/-- The string returned by the key return (linedit.c:613-616): `'\n'` is added if there is room. -/
def retMem (c : Cfg) (s : St) (m : List Nat) : Option (List Nat) :=
  if s.fin < c.size then (wr m s.fin 10).bind fun m1 => wr m1 (s.fin + 1) 0 else wr m s.fin 0

/-- The key return (linedit.c:606-617). -/
def ret (c : Cfg) (s : St) : Option (St × Out) :=
  (wr s.mem s.fin 0).bind fun m =>
    (str0 m).bind fun t =>
      (addLine s.hist t s.fin.toNat).bind fun h =>
        (retMem c s m).bind fun m2 => (str0 m2).map fun t2 => (begin { s with mem := m2, hist := h }, .line t2)

/-- The switch on the key (linedit.c:354-721). -/
def act (c : Cfg) (s : St) : Key → Option (St × Out)
  | .home => some ({ s with pos := 0 }, .go)
  | .fin => some ({ s with pos := s.fin }, .go)
  | .left => if s.pos = 0 then some (s, .beep) else some ({ s with pos := s.pos - 1 }, .go)
  | .right => if s.pos = s.fin then some (s, .beep) else some ({ s with pos := s.pos + 1 }, .go)
  | .back => if s.pos = 0 then some (s, .beep) else delLast s
  | .del | .ctrlD => if s.pos = s.fin then some (s, .beep) else delLast { s with pos := s.pos + 1 }
  | .killBeg => (toClip s.mem 0 s.pos).bind fun t => cutOut s t 0 s.pos
  | .killEnd => (toClip s.mem s.pos s.fin).map fun t => ({ s with clip := t, fin := s.pos }, .go)
  | .yank => (newChars c s s.clip).map outOf
  | .mark => some ({ s with mark := some s.pos }, .go)
  | .copy =>
    match s.mark with
    | none => some (s, .beep)
    | some k =>
      let start := if k < s.pos then k else s.pos
      let stop := if k < s.pos then s.pos else k
      (toClip s.mem start stop).map fun t => ({ s with clip := t }, .go)
  | .cut =>
    match s.mark with
    | none => some (s, .beep)
    | some k =>
      let start := if k < s.pos then k else s.pos
      let stop := if k < s.pos then s.pos else k
      (toClip s.mem start stop).bind fun t => cutOut s t start stop
  | .prevWord =>
    (skip c s.mem (if s.pos = 0 then s.pos else s.pos - 1) 0 true (-1)).bind fun p1 =>
      (skip c s.mem p1 0 false (-1)).bind fun p2 =>
        (skip c s.mem p2 s.fin true 1).map fun p3 => ({ s with pos := p3 }, .go)
  | .nextWord =>
    (skip c s.mem s.pos s.fin false 1).bind fun p1 =>
      (skip c s.mem p1 s.fin true 1).map fun p2 => ({ s with pos := p2 }, .go)
  | .capit =>
    (skip c s.mem s.pos s.fin true 1).bind fun p =>
      (rd s.mem p).bind fun x =>
        (if c.lower x then wr s.mem p ((x + 224) % 256) else some s.mem).bind fun m =>
          (skip c m p s.fin false 1).map fun q => ({ s with mem := m, pos := q }, .go)
  | .lower =>
    (skip c s.mem s.pos s.fin true 1).bind fun p =>
      (mapWord c c.toLow (s.fin - p).toNat p s.mem).map fun r => ({ s with mem := r.1, pos := r.2 }, .go)
  | .upper =>
    (skip c s.mem s.pos s.fin true 1).bind fun p =>
      (mapWord c c.toUp (s.fin - p).toNat p s.mem).map fun r => ({ s with mem := r.1, pos := r.2 }, .go)
  | .complete w more => (newChars c s w).map fun r => (r.1, if r.2 ∧ more = false then .go else .beep)
  | .tab => (newChars c s (List.replicate (tabSpaces c s.pos.toNat) 32)).map outOf
  | .insert => some ({ s with ins := !s.ins }, .go)
  | .swap =>
    if s.pos = 0 ∨ s.pos = s.fin then some (s, .beep)
    else
      (rd s.mem s.pos).bind fun w =>
        (rd s.mem (s.pos - 1)).bind fun x =>
          (wr s.mem s.pos x).bind fun m =>
            (wr m (s.pos - 1) w).map fun m' => ({ s with mem := m', pos := s.pos + 1 }, .go)
  | .ret => ret c s
  | .up => if s.hist.empty ∨ s.hno = s.hist.start then some (s, .beep) else (save s).bind fun s1 => showLine s1 (histDec s1.hno)
  | .down => if s.hist.empty ∨ s.hno = s.hist.fin then some (s, .beep) else (save s).bind fun s1 => showLine s1 (histInc s1.hno)
  | .upMatch =>
    if s.hist.empty ∨ s.pos = 0 then some (s, .beep)
    else (save s).bind fun s1 => afterTry s1 (tryPrev s1.hist (s1.mem.take s1.pos.toNat) maxHist s1.hno)
  | .downMatch =>
    if s.hist.empty ∨ s.pos = 0 then some (s, .beep)
    else (save s).bind fun s1 => afterTry s1 (tryNext s1.hist (s1.mem.take s1.pos.toNat) maxHist s1.hno)
  | .first => if s.hist.empty ∨ s.hno = s.hist.start then some (s, .beep) else (save s).bind fun s1 => showLine s1 s1.hist.start
  | .last => if s.hist.empty ∨ s.hno = s.hist.fin then some (s, .beep) else (save s).bind fun s1 => showLine s1 s1.hist.fin
  | .char x => if c.print x then (newChar c s x).map outOf else some (s, .beep)

/-- One turn of the loop (linedit.c:296-721): `*end = ' '`, the test of the end of file, the switch. -/
def step (c : Cfg) (s : St) (k : Key) : Option (St × Out) :=
  (wr s.mem s.fin 32).bind fun m =>
    if k = .ctrlD ∧ s.fin = 0 then
      if s.lastEof then some ({ s with mem := m }, .beep) else some (begin { s with mem := m }, .eof)
    else act c { s with mem := m, lastEof := decide (k = .ctrlD) } k

/-- A sequence of keys; the results are kept. A call of `Pl_LE_FGets` which ends is followed by another one. -/
def run (c : Cfg) : St → List Key → Option (St × List Out)
  | s, [] => some (s, [])
  | s, k :: ks => (step c s k).bind fun r => (run c r.1 ks).map fun q => (q.1, r.2 :: q.2)

/-- The start of the program (linedit.c:136-152): any bytes in the array. -/
def init (m : List Nat) : St :=
  { mem := m, pos := 0, fin := 0, mark := none, clip := [], ins := true, hist := ⟨List.replicate maxHist none, 0, 0⟩, hno := 0, lastEof := false }

/-- The characters waiting at the start of the call (linedit.c:271-286): the array, `end`, and the rest if the line is complete. -/
def buffered (c : Cfg) : List Nat → List Nat → Int → Option (List Nat × Int × Bool)
  | [], m, e => some (m, e, false)
  | x :: xs, m, e =>
    if c.size ≤ e then some (m, e, true)
    else if x = 10 ∨ x = 13 then some (m, e, true)
    else if x = 9 then (putSpaces (tabSpaces c e.toNat) m e).bind fun m' => buffered c xs m' (e + tabSpaces c e.toNat)
    else (wr m e x).bind fun m' => buffered c xs m' (e + 1)
where
  /-- `for(n = Tab_To_Spaces(end - str); n; n--) *end++ = ' ';` (linedit.c:280-281). -/
  putSpaces : Nat → List Nat → Int → Option (List Nat)
    | 0, m, _ => some m
    | k + 1, m, e => (wr m e 32).bind fun m' => putSpaces k m' (e + 1)

end Gp.Linedit
