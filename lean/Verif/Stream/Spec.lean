import Verif.Stream.Model
/-
C36: what a program may expect of an input stream, in terms of the text only. A stream is the codes read so far (the last one first) and the codes
that are still to be read. No push-back stack, no counter.
-/
namespace Gp.Stream.Spec
open Gp.Stream (EOF NL Res Op Props EofAction)

/-- Number of lines ended in a text. -/
def lines (l : List Int) : Nat := l.countP (· == NL)

/-- Number of codes since the last newline; `back` is the text read, the last code first. -/
def col (back : List Int) : Nat := (back.takeWhile (· != NL)).length

/-- The stream of a program. `look` codes of `todo` have been seen already (looked ahead or put back), `since` codes of `back` have been read
since the last change of position, `seenEof` says that the end of file has been looked ahead, `past` that it has been read, `eofs` how many times
it has been read on the current line. -/
structure S where
  back : List Int
  todo : List Int
  look : Nat
  since : Nat
  seenEof : Bool
  past : Bool
  eofs : Nat

/-- The stream at offset `n` of the file. -/
def at_ (file : List Int) (n : Nat) : S := ⟨(file.take n).reverse, file.drop n, 0, 0, false, false, 0⟩

/-- Reading after the end of file has been read: an answer, or the stream to read. -/
def before (file : List Int) (p : Props) (a : S) : Res ⊕ S :=
  if a.past then
    match p.eofAction with
    | .error => .inl .permission
    | .eofCode => .inl (.code EOF)
    | .reset => .inr (if p.reposition then at_ file 0 else { a with past := false })
  else .inr a

/-- Read one code of a stream that is not past its end. -/
def getBody (a : S) : Int × S :=
  match a.todo with
  | [] => (EOF, { a with seenEof := false, past := true, eofs := a.eofs + 1 })
  | c :: t => (c, { a with back := c :: a.back, todo := t, look := a.look - 1, since := a.since + 1, eofs := if c = NL then 0 else a.eofs })

/-- Look at the next code of a stream that is not past its end. -/
def peekBody (a : S) : Int × S :=
  match a.todo with
  | [] => (EOF, { a with seenEof := true })
  | c :: _ => (c, { a with look := max a.look 1 })

/-- The offset of the given line and column (from 1), if the file has it. -/
def findLC (file : List Int) (l c : Int) : Option Nat :=
  (List.range (file.length + 1)).find? fun n => decide ((lines (file.take n) : Int) + 1 = l ∧ (col (file.take n).reverse : Int) + 1 = c)

/-- One operation. -/
def step (file : List Int) (p : Props) (a : S) : Op → Res × S
  | .get => match before file p a with
    | .inl r => (r, a)
    | .inr a => (.code (getBody a).1, (getBody a).2)
  | .peek => match before file p a with
    | .inl r => (r, a)
    | .inr a => (.code (peekBody a).1, (peekBody a).2)
  | .unget c => (.ok, { a with back := a.back.tail, todo := c :: a.todo, look := a.look + 1, since := a.since - 1, past := false,
                               eofs := if c = NL then 0 else a.eofs })
  | .eos =>
    if p.eofAction = .reset ∨ p.input = false then (.eosNot, a)
    else if a.past then (.eosPast, a)
    else (if a.todo = [] then .eosAt else .eosNot, (peekBody a).2)
  | .setPos off _ _ _ => (.ok, at_ file off.toNat)
  | .setLC l c => match findLC file l c with
    | some n => (.ok, at_ file n)
    | none => (.fail, { a with since := 0 })

/-- What a program may do: put back what it has read (any code in place of another one, but a newline for a newline), at most 8 codes seen and not read;
go to a position of the file. -/
def Legal (file : List Int) (p : Props) (a : S) : Op → Prop
  | .unget c => a.since > 0 ∧ a.look + (if a.seenEof then 1 else 0) < 8 ∧ c ≠ EOF ∧ ∀ c' ∈ a.back.head?, (c = NL ↔ c' = NL)
  | .setPos off cc lc lp => p.reposition = true ∧ ∃ n, n ≤ file.length ∧ off = n ∧ cc = n ∧
      (p.text = true → lc = lines (file.take n) ∧ lp = col (file.take n).reverse)
  | .setLC _ _ => p.reposition = true ∧ p.text = true
  | _ => True

/-- Operations one after the other: the answers and the final stream. -/
def run (file : List Int) (p : Props) : S → List Op → List Res × S
  | a, [] => ([], a)
  | a, op :: ops =>
    let (r, a) := step file p a op
    let (rs, a) := run file p a ops
    (r :: rs, a)

/-- Every operation of the sequence is legal when its turn comes. -/
def LegalRun (file : List Int) (p : Props) : S → List Op → Prop
  | _, [] => True
  | a, op :: ops => Legal file p a op ∧ LegalRun file p (step file p a op).2 ops

/-- The position of a program that has read `back`: offset (0 when the stream cannot be repositioned), characters, lines, column (0 for a binary stream). -/
def position (p : Props) (back : List Int) : Int × Int × Int × Int :=
  (if p.reposition then (back.length : Int) else 0, back.length,
   if p.text then (lines back : Int) else 0, if p.text then (col back : Int) else 0)

end Gp.Stream.Spec
