import Verif.RbMap.Props
import Verif.Linedit.Model

/-
C62: the completion of the words at the tabulation key and by find_linedit_completion/2.
/repo/src/Linedit/completion.c, the list of the completions of /repo/src/Linedit/linedit.c:1121-1187, and
/repo/src/BipsPl/le_interf_c.c:136-178.

Simplifications: a C string is the list of its bytes without the final zero; the numbers are not bounded; the
dictionary is the map of `Gp.RbMap` (map_rbtree.h). `none` is a read outside of a string or through NULL.
Not modelled: the question asked above 20 lines (linedit.c:1156-1164), the words added by the creation of an
atom between two solutions.
-/
namespace Gp.Compl
open Gp.RbMap

/-- A C string without its final zero. -/
abbrev Word := List Nat

/-- `strcmp`: the final zero is smaller than the other bytes, compared as unsigned. -/
def strcmp : Word → Word → Int
  | [], [] => 0
  | [], _ :: _ => -1
  | _ :: _, [] => 1
  | a :: s, b :: t => if a < b then -1 else if b < a then 1 else strcmp s t

/-- `strncmp`. -/
def strncmp : Nat → Word → Word → Int
  | 0, _, _ => 0
  | _ + 1, [], [] => 0
  | _ + 1, [], _ :: _ => -1
  | _ + 1, _ :: _, [] => 1
  | n + 1, a :: s, b :: t => if a < b then -1 else if b < a then 1 else strncmp n s t

/-- `dico` (completion.c:82): the value of an entry is the length of the word. -/
abbrev Dico := Map Word Int

/-- `Pl_LE_Compl_Add_Word` (completion.c:96-104): new dictionary, `created`. -/
def addWord (d : Dico) (w : Word) (len : Int) : Option (Dico × Bool) :=
  (put strcmp (fun _ => len) d w).map fun r => (r.1, r.2.2)

/-- `Pl_LE_Compl_Remove_Word` (completion.c:113-117). -/
def removeWord (d : Dico) (w : Word) : Option (Dico × Bool) := remove strcmp d w

/-- `ComplMatch` (completion.h:59-70): `cur_word` and `cur_word_length` are the key and the value of `entry`
(completion.c:201-203, 245-247), NULL when `entry` is. -/
structure Cm where
  prefixLen : Nat
  nb : Nat
  maxWord : Int
  maxPrefix : Int
  curNo : Int
  entry : Option (Loc (Word × Int))

/-- `s[i]`: 0 at the end of the string, nothing after it. -/
def byteAt (s : Word) (i : Nat) : Option Nat :=
  if i < s.length then s[i]? else if i = s.length then some 0 else none

/-- The loop of completion.c:188-196 from an entry: the number of words, the length of the longest one, the last
one. -/
def scan (pre : Word) (n : Nat) (x : Loc (Word × Int)) (nb : Nat) (mx : Int) (last : Option (Loc (Word × Int))) :
    Nat × Int × Option (Loc (Word × Int)) :=
  if strncmp n pre x.e.1 = 0 then
    let mx' := if x.e.2 > mx then x.e.2 else mx
    match h : next x with
    | none => (nb + 1, mx', some x)
    | some y => scan pre n y (nb + 1) mx' (some x)
  else (nb, mx, last)
termination_by x.after.length
decreasing_by rw [next_after x y h]; simp

/-- `while (first[l] == last[l]) l++` (completion.c:212-213). -/
def common (a b : Word) (l : Nat) : Option Nat :=
  if l ≤ a.length then
    match byteAt a l, byteAt b l with
    | some x, some y => if x = y then common a b (l + 1) else some l
    | _, _ => none
  else none
termination_by a.length + 1 - l

/-- `Pl_LE_Compl_Match_First` (completion.c:165-217): the structure and the result. The string `pre` is compared
as a whole by `map_next` (completion.c:177), its `n` first bytes by the loop. -/
def matchFirst (d : Dico) (cm : Cm) (pre : Word) (n : Nat) : Option (Cm × Bool) :=
  let cm0 : Cm := ⟨n, 0, 0, cm.maxPrefix, 0, none⟩
  match mapNext strcmp d pre false with
  | none => some (cm0, false)
  | some x =>
    let r := scan pre n x 0 0 none
    let cm1 : Cm := { cm0 with nb := r.1, maxWord := r.2.1 }
    if r.1 = 0 then some (cm1, false)
    else
      let cm2 : Cm := { cm1 with entry := some x }
      if r.1 = 1 then some ({ cm2 with maxPrefix := x.e.2 }, true)
      else
        match r.2.2 with
        | none => none
        | some y => (common x.e.1 y.e.1 n).map fun l => ({ cm2 with maxPrefix := (l : Int) }, true)

/-- `k` times `map_next_entry` (completion.c:238-239). -/
def forward (x : Loc (Word × Int)) : Nat → Option (Loc (Word × Int))
  | 0 => some x
  | k + 1 => (next x).bind fun y => forward y k

/-- `k` times `map_prev_entry` (completion.c:241-242). -/
def backward (x : Loc (Word × Int)) : Nat → Option (Loc (Word × Int))
  | 0 => some x
  | k + 1 => (prev x).bind fun y => backward y k

/-- `Pl_LE_Compl_Match_Navig` (completion.c:226-249). -/
def navig (cm : Cm) (step : Int) : Option (Cm × Bool) :=
  let no := cm.curNo + step
  if no < 0 ∨ (cm.nb : Int) ≤ no then some (cm, false)
  else if step = 0 then some (cm, true)
  else
    (cm.entry.bind fun x => if step > 0 then forward x step.toNat else backward x (-step).toNat).map fun y =>
      ({ cm with curNo := no, entry := some y }, true)

/-- `Pl_LE_Compl_Match_Next` (completion.h:98). -/
def matchNext (cm : Cm) : Option (Cm × Bool) := navig cm 1

/-- `Pl_LE_Compl_Match_Goto` (completion.h:102). -/
def goto (cm : Cm) (no : Int) : Option (Cm × Bool) := navig cm (no - cm.curNo)

/-- `Pl_LE_Compl_Match_Last` (completion.c:260-267). -/
def matchLast (d : Dico) (cm : Cm) (pre : Word) (n : Nat) : Option (Cm × Bool) :=
  (matchFirst d cm pre n).bind fun r => if r.2 then navig r.1 ((r.1.nb : Int) - 1) else some (r.1, false)

/-- The columns `c`, `c + 1`, … (`k` of them) of the line `l` (linedit.c:1170-1183): the structure and the text;
`sp` is `space_prev`, negative it would be an endless loop. -/
def row (lines l : Nat) : Nat → Nat → Cm → Int → Option (Cm × Word)
  | 0, _, cm, _ => some (cm, [])
  | k + 1, c, cm, sp =>
    (goto cm ((c * lines + l : Nat) : Int)).bind fun r =>
      if r.2 then
        match r.1.entry with
        | none => none
        | some x =>
          if sp < 0 then none
          else (row lines l k (c + 1) r.1 (r.1.maxWord - x.e.2 + 1)).map fun t =>
            (t.1, List.replicate sp.toNat 32 ++ x.e.1 ++ t.2)
      else row lines l k (c + 1) r.1 sp

/-- The lines `l`, `l + 1`, … (`k` of them) (linedit.c:1166-1186). -/
def rows (lines cols : Nat) : Nat → Nat → Cm → Option (Cm × List Word)
  | 0, _, cm => some (cm, [])
  | k + 1, l, cm =>
    (row lines l cols 0 cm 0).bind fun r => (rows lines cols k (l + 1) r.1).map fun t => (t.1, r.2 :: t.2)

/-- `nb_cols` (linedit.c:1134-1139) for a screen of `col` columns. -/
def nbCols (col : Int) (maxWord : Int) : Nat :=
  if (col - 1 + 1) / (maxWord + 1) < 1 then 1 else ((col - 1 + 1) / (maxWord + 1)).toNat

/-- `nb_lines` (linedit.c:1141). -/
def nbLines (nb cols : Nat) : Nat := (nb + cols - 1) / cols

/-- `Display_All_Completions` (linedit.c:1121-1187): the lines displayed. -/
def displayAll (col : Int) (cm : Cm) : Option (Cm × List Word) :=
  rows (nbLines cm.nb (nbCols col cm.maxWord)) (nbCols col cm.maxWord) (nbLines cm.nb (nbCols col cm.maxWord)) 0 cm

/-- The start of the word to complete (linedit.c:554-556): `pos` is the cursor, `fin` the end of the line `m`. -/
def tabStart (c : Linedit.Cfg) (m : List Nat) (pos fin : Int) : Option Int :=
  (Linedit.skip c m (if pos = 0 then pos else pos - 1) 0 false (-1)).bind fun p => Linedit.skip c m p fin true 1

/-- The prefix looked for by the tabulation key and what it writes (linedit.c:557-570): the text between the
start `p` of the word and the cursor, then the rest of the longest prefix. -/
def tabText (d : Dico) (cm : Cm) (pre : Word) : Option (Cm × Word) :=
  (matchFirst d cm pre pre.length).bind fun r =>
    if r.2 then
      match r.1.entry with
      | none => none
      | some x =>
        if r.1.maxPrefix < pre.length ∨ (x.e.1.length : Int) < r.1.maxPrefix then none
        else some (r.1, (x.e.1.drop pre.length).take (r.1.maxPrefix - pre.length).toNat)
    else some (r.1, [])

/-- A solution of find_linedit_completion/2: the word and if a choice point is left. -/
structure Sol where
  word : Word
  more : Bool
  deriving DecidableEq

/-- `Pl_Create_Atom(compl_match.cur_word)`. -/
def curWord (cm : Cm) : Option Word := cm.entry.map (·.e.1)

/-- `Pl_Find_Linedit_Completion_2` (le_interf_c.c:136-155) with an unbound second argument; `cm` is the static
variable `compl_match` (62). -/
def find (d : Dico) (cm : Cm) (pre : Word) : Option (Cm × Option Sol) :=
  (matchFirst d cm pre pre.length).bind fun r =>
    if r.2 then (curWord r.1).map fun w => (r.1, some ⟨w, decide (r.1.nb > 1)⟩) else some (r.1, none)

/-- `Pl_Find_Linedit_Completion_Alt_0` (le_interf_c.c:164-178), on backtracking. -/
def findAlt (cm : Cm) : Option (Cm × Sol) :=
  (matchNext cm).bind fun r => (curWord r.1).map fun w => (r.1, ⟨w, decide (¬ r.1.curNo ≥ (r.1.nb : Int) - 1)⟩)

end Gp.Compl
