import Verif.Mirror.Model
/-
Specification of the stream table: which streams are open, which alias designates which stream, which stream
is a mirror of which, and who receives a character.
-/
namespace Gp.Mirror.Spec

/-- The mirrors of a stream, as numbers. -/
def mirrors (s : St) (i : Nat) : List Nat :=
  match s.tbl i with
  | none => []
  | some p => p.mirror.map (·.stm)

/-- The streams which have a stream as a mirror. -/
def mirrorsOf (s : St) (i : Nat) : List Nat :=
  match s.tbl i with
  | none => []
  | some p => p.mirrorOf.map (·.stm)

def IsOpen (s : St) (i : Nat) : Prop := ∃ p, s.tbl i = some p

/-- The stream of an alias. -/
def resolve (s : St) (a : Nat) : Option Nat := (s.alias.find? (fun e => e.1 == a)).map (·.2)

/-- A stream term or an alias designates an open stream. -/
def Denotes (s : St) (x : Sora) (i : Nat) : Prop :=
  IsOpen s i ∧ match x with
    | .stream n => n = i
    | .alias a => resolve s a = some i

def IsInput (s : St) (i : Nat) : Prop := ∃ p, s.tbl i = some p ∧ p.input = true

def IsOutput (s : St) (i : Nat) : Prop := ∃ p, s.tbl i = some p ∧ p.output = true

/-- The tables agree with each other. -/
structure Consistent (s : St) : Prop where
  /-- the standard streams are open -/
  std : ∀ i, i < 3 → IsOpen s i
  /-- the number of the last stream is right -/
  last : IsOpen s s.last ∧ ∀ i, IsOpen s i → i ≤ s.last
  /-- an alias designates one stream, which is open -/
  alias : (s.alias.map (·.1)).Nodup ∧ ∀ a i, resolve s a = some i → IsOpen s i
  /-- the predefined aliases are always there -/
  predefined : ∀ a, a < 9 → ∃ i, resolve s a = some i
  /-- no stream is its own mirror, or twice a mirror of the same stream -/
  mirror : ∀ i, (mirrors s i).Nodup ∧ (mirrorsOf s i).Nodup ∧ i ∉ mirrors s i
  /-- the mirrors are open streams and the two lists agree -/
  sym : ∀ i j, j ∈ mirrors s i ↔ (i ∈ mirrorsOf s j ∧ IsOpen s i)
  opened : ∀ i j, j ∈ mirrors s i → IsOpen s j

mutual
/-- Who receives a character put on a stream, when `m` gives the mirrors: the stream, then for each mirror,
who receives a character put on it. -/
inductive Visits (m : Nat → List Nat) : Nat → List Nat → Prop
  | mk {i l} : VisitsAll m (m i) l → Visits m i (i :: l)
inductive VisitsAll (m : Nat → List Nat) : List Nat → List Nat → Prop
  | nil : VisitsAll m [] []
  | cons {i is l l'} : Visits m i l → VisitsAll m is l' → VisitsAll m (i :: is) (l ++ l')
end

/-- No stream is a mirror of itself through others. -/
def Acyclic (m : Nat → List Nat) : Prop := ∃ rank : Nat → Nat, ∀ i j, j ∈ m i → rank j < rank i

/-- The transitive closure of the relation `is a mirror of`. -/
inductive Path (m : Nat → List Nat) : Nat → Nat → Prop
  | one {i j} : j ∈ m i → Path m i j
  | step {i j k} : j ∈ m i → Path m j k → Path m i k

/-- The standard stream of a predefined alias: user_input, current_input, top_level_input and debugger_input are
the standard input, user_error is the standard error, the others are the standard output. -/
def standard : Nat → Option Nat
  | 0 => some 0
  | 1 => some 1
  | 2 => some 2
  | 3 => some 0
  | 4 => some 1
  | 5 => some 0
  | 6 => some 1
  | 7 => some 0
  | 8 => some 1
  | _ => none

/-- What was put on a stream. -/
def written (s : St) (i : Nat) : Option (List Nat) := (s.tbl i).map (·.out)

/-- The position after a text: characters, lines, characters of the last line. -/
def textPos : List Nat → Nat × Nat × Nat
  | [] => (0, 0, 0)
  | l => (l.length, l.count 10, (l.reverse.takeWhile (· ≠ 10)).length)

end Gp.Mirror.Spec
