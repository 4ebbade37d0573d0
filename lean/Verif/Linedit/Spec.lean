import Verif.Linedit.Model
/-
What the editor does, on the text before the cursor, the text after the cursor and the list of the lines of the history (the oldest first). It
does not use the array, the positions in it nor the table of the history. `none` is a case where the array or the clipboard is accessed outside
of its bounds or where erased text is used: a mark which is beyond the end of the line, a copy of 4096 characters or more in the clipboard.
-/
namespace Gp.Linedit

/-- The text: what is before and after the cursor. -/
structure Txt where
  before : List Nat
  after : List Nat

/-- The editor: `h` is the number of the line shown (the number of lines of the history for the line being typed), `typed` the line being typed
when another one is shown, `pushes` the number of lines put in the history since the start. -/
structure Doc where
  txt : Txt
  mark : Option Nat
  clip : List Nat
  ins : Bool
  lines : List (List Nat)
  typed : List Nat
  pushes : Nat
  h : Nat
  lastEof : Bool

def Txt.all (t : Txt) : List Nat := t.before ++ t.after

/-- The text `l` with the cursor at `n`. -/
def at_ (l : List Nat) (n : Nat) : Txt := ⟨l.take n, l.drop n⟩

/-- A character typed: the line has at most `cap - 1` characters. -/
def typeChar (cap : Nat) (ins : Bool) (t : Txt) (x : Nat) : Option Txt :=
  if ins then if t.all.length + 1 < cap then some ⟨t.before ++ [x], t.after⟩ else none
  else match t.after with
    | [] => if t.all.length + 1 < cap then some ⟨t.before ++ [x], []⟩ else none
    | _ :: a => some ⟨t.before ++ [x], a⟩

/-- Some characters typed, until one is refused. -/
def typeChars (cap : Nat) (ins : Bool) : Txt → List Nat → Txt × Bool
  | t, [] => (t, true)
  | t, x :: xs => match typeChar cap ins t x with
    | none => (t, false)
    | some t' => typeChars cap ins t' xs

/-- The position of the previous word: the separators before the cursor are left, then a word; when only separators precede the cursor, the
first word of the line. -/
def prevWordAt (sep : Nat → Bool) (t : Txt) : Nat :=
  let r := t.before.reverse.dropWhile sep
  if r = [] then (t.all.takeWhile sep).length else (r.dropWhile (fun x => !sep x)).length

/-- The cursor goes over the separators, then over a word changed by `f`. -/
def changeWord (sep : Nat → Bool) (f : List Nat → List Nat) (t : Txt) : Txt :=
  let r := f (t.after.dropWhile sep)
  ⟨t.before ++ t.after.takeWhile sep ++ r.takeWhile (fun x => !sep x), r.dropWhile (fun x => !sep x)⟩

def capFirst (c : Cfg) : List Nat → List Nat
  | [] => []
  | x :: l => (if c.lower x then (x + 224) % 256 else x) :: l

/-- The text of the line number `j`. -/
def Doc.line (d : Doc) (j : Nat) : List Nat := if j < d.lines.length then d.lines[j]?.getD [] else d.typed

/-- The text shown replaces the line shown. -/
def Doc.save (d : Doc) : Doc :=
  if d.h < d.lines.length then { d with lines := d.lines.set d.h d.txt.all } else { d with typed := d.txt.all }

/-- The line `j` is shown, the cursor at the end. -/
def Doc.goTo (d : Doc) (j : Nat) : Doc := { d.save with h := j, txt := ⟨d.save.line j, []⟩ }

/-- The last line before `j` which starts with `b`. -/
def findUp (d : Doc) (b : List Nat) : Nat → Option Nat
  | 0 => none
  | j + 1 => if b <+: d.line j then some j else findUp d b j

/-- The first of the `k` lines after `j` which starts with `b`. -/
def findDown (d : Doc) (b : List Nat) : Nat → Nat → Option Nat
  | 0, _ => none
  | k + 1, j => if b <+: d.line (j + 1) then some (j + 1) else findDown d b k (j + 1)

/-- The line found is shown, the cursor does not move; if no line is found the text does not change but the line `dflt` is taken as shown. -/
def Doc.found (d : Doc) (dflt : Nat) : Option Nat → Doc × Out
  | some j => ({ d with h := j, txt := at_ (d.line j) d.txt.before.length }, .go)
  | none => ({ d with h := dflt }, .beep)

/-- The line put in the history: not if it has only spaces, not if it is the last one (but this is not seen when the number of lines put is a
multiple of 64); the last 63 lines are kept. -/
def Doc.add (d : Doc) : Doc :=
  if d.txt.all.all (· == 32) then d
  else if d.pushes % 64 ≠ 0 ∧ d.lines.getLast? = some d.txt.all then d
  else { d with lines := (d.lines ++ [d.txt.all]).drop (d.lines.length + 1 - 63), pushes := d.pushes + 1 }

/-- A new line. -/
def Doc.fresh (d : Doc) : Doc := { d with txt := ⟨[], []⟩, mark := none, h := d.lines.length, lastEof := false }

/-- The text between the mark and the cursor: start and end. -/
def Doc.span (d : Doc) (k : Nat) : Nat × Nat := (min k d.txt.before.length, max k d.txt.before.length)

def okOut (b : Bool) : Out := if b then .go else .beep

/-- The keys other than the end of file. -/
def specAct (c : Cfg) (d : Doc) : Key → Option (Doc × Out)
  | .home => some ({ d with txt := ⟨[], d.txt.all⟩ }, .go)
  | .fin => some ({ d with txt := ⟨d.txt.all, []⟩ }, .go)
  | .left => if d.txt.before = [] then some (d, .beep) else some ({ d with txt := at_ d.txt.all (d.txt.before.length - 1) }, .go)
  | .right => if d.txt.after = [] then some (d, .beep) else some ({ d with txt := at_ d.txt.all (d.txt.before.length + 1) }, .go)
  | .back => if d.txt.before = [] then some (d, .beep) else some ({ d with txt := ⟨d.txt.before.dropLast, d.txt.after⟩ }, .go)
  | .del | .ctrlD => if d.txt.after = [] then some (d, .beep) else some ({ d with txt := ⟨d.txt.before, d.txt.after.tail⟩ }, .go)
  | .killBeg => if d.txt.before.length < 4096 then some ({ d with txt := ⟨[], d.txt.after⟩, clip := d.txt.before }, .go) else none
  | .killEnd => if d.txt.after.length < 4096 then some ({ d with txt := ⟨d.txt.before, []⟩, clip := d.txt.after }, .go) else none
  | .yank => let r := typeChars c.cap d.ins d.txt d.clip; some ({ d with txt := r.1 }, okOut r.2)
  | .mark => some ({ d with mark := some d.txt.before.length }, .go)
  | .copy => match d.mark with
    | none => some (d, .beep)
    | some k =>
      if k ≤ d.txt.all.length ∧ (d.span k).2 - (d.span k).1 < 4096 then
        some ({ d with clip := (d.txt.all.take (d.span k).2).drop (d.span k).1 }, .go)
      else none
  | .cut => match d.mark with
    | none => some (d, .beep)
    | some k =>
      if k ≤ d.txt.all.length ∧ (d.span k).2 - (d.span k).1 < 4096 then
        some ({ d with clip := (d.txt.all.take (d.span k).2).drop (d.span k).1,
                       txt := ⟨d.txt.all.take (d.span k).1, d.txt.all.drop (d.span k).2⟩ }, .go)
      else none
  | .prevWord => some ({ d with txt := at_ d.txt.all (prevWordAt c.sep d.txt) }, .go)
  | .nextWord =>
    let r := d.txt.after.dropWhile (fun x => !c.sep x)
    some ({ d with txt := ⟨d.txt.before ++ d.txt.after.takeWhile (fun x => !c.sep x) ++ r.takeWhile c.sep, r.dropWhile c.sep⟩ }, .go)
  | .capit => some ({ d with txt := changeWord c.sep (capFirst c) d.txt }, .go)
  | .lower => some ({ d with txt := wordMap c.toLow }, .go)
  | .upper => some ({ d with txt := wordMap c.toUp }, .go)
  | .complete w more =>
    if 0 ∈ w then none
    else let r := typeChars c.cap d.ins d.txt w; some ({ d with txt := r.1 }, okOut (r.2 && !more))
  | .tab =>
    let r := typeChars c.cap d.ins d.txt (List.replicate (8 - (d.txt.before.length + c.prompt) % 8) 32)
    some ({ d with txt := r.1 }, okOut r.2)
  | .insert => some ({ d with ins := !d.ins }, .go)
  | .swap => match d.txt.before.getLast?, d.txt.after with
    | some x, y :: a => some ({ d with txt := ⟨d.txt.before.dropLast ++ [y, x], a⟩ }, .go)
    | _, _ => some (d, .beep)
  | .ret => some (d.add.fresh, .line (if d.txt.all.length + 1 < c.cap then d.txt.all ++ [10] else d.txt.all))
  | .up => if d.lines = [] ∨ d.h = 0 then some (d, .beep) else some (d.goTo (d.h - 1), .go)
  | .down => if d.lines = [] ∨ d.h = d.lines.length then some (d, .beep) else some (d.goTo (d.h + 1), .go)
  | .first => if d.lines = [] ∨ d.h = 0 then some (d, .beep) else some (d.goTo 0, .go)
  | .last => if d.lines = [] ∨ d.h = d.lines.length then some (d, .beep) else some (d.goTo d.lines.length, .go)
  | .upMatch => if d.lines = [] ∨ d.txt.before = [] then some (d, .beep) else some (d.save.found 0 (findUp d.save d.txt.before d.h))
  | .downMatch =>
    if d.lines = [] ∨ d.txt.before = [] then some (d, .beep)
    else some (d.save.found d.lines.length (findDown d.save d.txt.before (d.lines.length - d.h) d.h))
  | .char x =>
    if c.print x then
      match typeChar c.cap d.ins d.txt x with
      | some t => some ({ d with txt := t }, .go)
      | none => some (d, .beep)
    else some (d, .beep)
where
  wordMap (f : Nat → Nat) : Txt :=
    let r := d.txt.after.dropWhile c.sep
    ⟨d.txt.before ++ d.txt.after.takeWhile c.sep ++ (r.takeWhile (fun x => !c.sep x)).map f, r.dropWhile (fun x => !c.sep x)⟩

/-- A key: the end of file is only seen on an empty line, and not just after the key which erased the last character. -/
def specStep (c : Cfg) (d : Doc) (k : Key) : Option (Doc × Out) :=
  if k = .ctrlD ∧ d.txt.all = [] then
    if d.lastEof then some (d, .beep) else some (d.fresh, .eof)
  else specAct c { d with lastEof := decide (k = .ctrlD) } k

def specRun (c : Cfg) : Doc → List Key → Option (Doc × List Out)
  | d, [] => some (d, [])
  | d, k :: ks => (specStep c d k).bind fun r => (specRun c r.1 ks).map fun q => (q.1, r.2 :: q.2)

def start : Doc :=
  { txt := ⟨[], []⟩, mark := none, clip := [], ins := true, lines := [], typed := [], pushes := 0, h := 0, lastEof := false }

end Gp.Linedit
