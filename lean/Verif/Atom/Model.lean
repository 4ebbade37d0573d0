/-
Model of the atom table: /repo/src/EnginePl/atom.c, atom.h.

A name is the list of its bytes (1..255, without the final NUL). The hash function of long strings is a parameter. The memory of
the names (`allocate`, Strdup) is not modelled: names are values. The properties of an atom other than its length and
the completion words of linedit are not modelled here (see Verif/Quote for the properties).
-/
namespace Gp.Atom

/-- A name. -/
abbrev Name := List Nat

/-- `AtomInf` (atom.h:104-111): the name, the hash code, the length (`prop.length`). -/
structure Inf where
  name : Name
  hash : Nat
  length : Nat

/-- `pl_atom_tbl` and `pl_nb_atom` (atom.c:157-158): `none` when the name is NULL. -/
structure St where
  tbl : Nat → Option Inf
  nb : Nat

/-- The constant parameters: `pl_max_atom` and the function `Pl_Hash_Buffer`. -/
structure Par where
  max : Nat
  hashBuffer : Name → Nat

/-- `ATOM_NIL` (atom.h:70). -/
notation "ATOM_NIL" => 256

/-- The name "[]". -/
notation "nilName" => ([91, 93] : List Nat)

/-- The adjustment of `pl_max_atom` at the beginning of `Pl_Init_Atom` (atom.c:148-155); `ATOM_MAX_BITS` is 54. -/
def adjust (m : Nat) : Nat :=
  let m := if m < 256 then 256 else m
  let m := if m ≤ ATOM_NIL then ATOM_NIL + 1 else m
  if m > 18014398509481984 then 18014398509481984 else m

/-- `Hash_String` (atom.c:434-456). -/
def hashString (P : Par) : Name → Nat
  | [] => 0
  | [c] => c
  | s => if s = nilName then ATOM_NIL else P.hashBuffer s

/-- The loop of `Locate_Atom` (atom.c:388-395) from the cell `p`; `some none` for NULL, `none` if it goes on after `fuel` turns. -/
def probe (P : Par) (t : Nat → Option Inf) (name : Name) (hash p0 : Nat) : Nat → Nat → Option (Option Nat)
  | _, 0 => none
  | p, fuel + 1 =>
    match t p with
    | none => some (some p)
    | some a =>
      if a.hash ≠ hash ∨ a.name ≠ name then
        let p' := if p + 1 = P.max then 0 else p + 1
        if p' = p0 then some none
        else probe P t name hash p0 p' fuel
      else some (some p)

/-- `Locate_Atom` (atom.c:378-423); the number of turns is bounded to see that the loop ends. -/
def locate (P : Par) (s : St) (name : Name) (hash : Nat) : Option (Option Nat) :=
  probe P s.tbl name hash (hash % P.max) (hash % P.max) P.max

/-- A result: the fatal error "Atom table full", or a value; `loop`: does not end; `crash`: NULL or a buffer overflow. -/
inductive Res (α : Type) where
  | ok (a : α)
  | full
  | loop
  | crash

/-- `Add_Atom` (atom.c:236-327): the atom and the new state. -/
def addAtom (s : St) (name : Name) (hash : Nat) (p : Option Nat) : Res (Nat × St) :=
  match p with
  | none => .full
  | some p =>
    match s.tbl p with
    | some _ => .ok (p, s)
    | none =>
      .ok (p, { tbl := fun x => if x = p then some ⟨name, hash, name.length % 65536⟩ else s.tbl x, nb := s.nb + 1 })

/-- `Pl_Create_Atom`, `Pl_Create_Allocate_Atom` (atom.c:200-227). -/
def create (P : Par) (s : St) (name : Name) : Res (Nat × St) :=
  let hash := hashString P name
  match locate P s name hash with
  | none => .loop
  | some p => addAtom s name hash p

/-- `Pl_Find_Atom` (atom.c:351-360): `ok none` for -1. -/
def find (P : Par) (s : St) (name : Name) : Res (Option Nat) :=
  match locate P s name (hashString P name) with
  | none => .loop
  | some none => .ok none
  | some (some p) =>
    match s.tbl p with
    | none => .ok none
    | some _ => .ok (some p)

/-- Creations in sequence: the atoms and the final state. -/
def createAll (P : Par) : St → List Name → Res (List Nat × St)
  | s, [] => .ok ([], s)
  | s, n :: l =>
    match create P s n with
    | .ok (a, s') =>
      match createAll P s' l with
      | .ok (as, s'') => .ok (a :: as, s'')
      | .full => .full
      | .loop => .loop
      | .crash => .crash
    | .full => .full
    | .loop => .loop
    | .crash => .crash

/-- `str_char[i]` (atom.c:170-178): the string of one character, empty for 0. -/
def strChar (i : Nat) : Name := if i = 0 then [] else [i]

/-- The names created by `Pl_Init_Atom` (atom.c:170-190): the 256 characters, [], '', {}, false, true, end_of_file. -/
def initNames : List Name :=
  (List.range 256).map strChar ++
    [nilName, [], [123, 125], [102, 97, 108, 115, 101], [116, 114, 117, 101],
     [101, 110, 100, 95, 111, 102, 95, 102, 105, 108, 101]]

/-- The empty table (Calloc). -/
def empty : St := ⟨fun _ => none, 0⟩

/-- `ATOM_CHAR` (atom.h:203) with OPTIM_1_CHAR_ATOM (atom.h:40). -/
def atomChar (c : Nat) : Nat := c % 256

/-- `Pl_Find_Next_Atom` (atom.c:583-593); the argument is `last_atom + 1`. -/
def findNext (P : Par) (s : St) (i : Nat) : Option Nat :=
  if h : i < P.max then
    if (s.tbl i).isSome then some i else findNext P s (i + 1)
  else none
termination_by P.max - i

/-- `Gen_Sym_Rand` (atom.c:474): the new state of the generator (an unsigned). -/
def rand (r : Nat) : Nat := (r * 1103515245 + 12345) % 4294967296

/-- `gen_sym_chars[Gen_Sym_Rand() % 62]` (atom.c:469, 513-514) for the state `r` of the generator. -/
def genChar (r : Nat) : Nat :=
  let c := r / 65536 % 32768 % 62
  if c < 10 then 48 + c else if c < 36 then 65 + (c - 10) else 97 + (c - 36)

/-- The loop of `Pl_Gen_New_Atom` (atom.c:511-548); `buf` is the content of the buffer before the position `str`. The buffer has
1024 characters. TRY_MAX is 1: a character is added after each failure. -/
def genLoop (P : Par) (s : St) (r : Nat) (buf : Name) : Res (Nat × Nat × St) :=
  if h : buf.length + 2 ≤ 1024 then
    let r := rand r
    let name := buf ++ [genChar r]
    let hash := hashString P name
    match locate P s name hash with
    | none => .loop
    | some none => .crash                                   -- patom is NULL at line 532
    | some (some p) =>
      match s.tbl p with
      | none =>
        match addAtom s name hash (some p) with
        | .ok (a, s') => .ok (a, r, s')
        | .full => .full
        | .loop => .loop
        | .crash => .crash
      | some _ => genLoop P s r name
  else .crash
termination_by 1024 - buf.length
decreasing_by
  simp only [List.length_append, List.length_cons, List.length_nil]; omega

/-- `Pl_Gen_New_Atom` (atom.c:466-573), called by new_atom/2 (atom_c.c:119-127). -/
def genNew (P : Par) (s : St) (r : Nat) (pre : Name) : Res (Nat × Nat × St) :=
  if s.nb ≥ P.max then .full else genLoop P s r pre

end Gp.Atom
