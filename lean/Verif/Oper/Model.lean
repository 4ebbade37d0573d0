import Verif.HashTbl.Model
/-
Model of the operator table: /repo/src/EnginePl/oper.c, oper.h, and of op/3 and current_op/3: /repo/src/BipsPl/oper_c.c.

The hash table is the model of Verif/HashTbl. The atoms are the natural numbers given by the atom table (Verif/Atom): the function
`atom` gives the atom of a name. The type checks of the arguments of op/3 and current_op/3 are not modelled (the priority is an
integer, the specifier and the operator are atoms), a list of operators is a sequence of calls (oper.pl:42-58).
-/
namespace Gp.Oper

open Gp.HashTbl (Tbl Key)

/-- `OperInf` without its key (oper.h:72-79). -/
structure Inf where
  prec : Int
  left : Int
  right : Int
deriving DecidableEq

/-- The state: `pl_oper_htbl` (oper.h:90) and the field `prop.op_mask` (4 bits, atom.h:92) of each atom. -/
structure St where
  tbl : Tbl Inf
  mask : Nat → BitVec 4

/-- The atom of a name (`Pl_Create_Atom`). -/
abbrev Atoms := String → Nat

/-- `PREFIX` (oper.h:56). -/
notation "PREFIX" => 0
/-- `POSTFIX` (oper.h:57). -/
notation "POSTFIX" => 1
/-- `INFIX` (oper.h:58). -/
notation "INFIX" => 2

/-- `Make_Oper_Key` (oper.h:47). -/
def key (a t : Nat) : Key := (BitVec.ofNat 64 a <<< 2) ||| BitVec.ofNat 64 t
/-- `Atom_Of_Oper` (oper.h:48). -/
def atomOf (k : Key) : Nat := (k >>> 2).toNat
/-- `Type_Of_Oper` (oper.h:49). -/
def typeOf (k : Key) : Nat := (k &&& 3#64).toNat

/-- `Make_Op_Mask` (oper.h:63). -/
def opMask (t : Nat) : BitVec 4 := 1#4 <<< t

/-- `Check_Oper` (oper.h:115-116). -/
def check (s : St) (a t : Nat) : Bool := s.mask a &&& opMask t != 0#4

/-- Update of the mask of an atom. -/
def setMask (m : Nat → BitVec 4) (a : Nat) (x : BitVec 4) : Nat → BitVec 4 := fun b => if b = a then x else m b

/-- `Pl_Create_Oper` (oper.c:192-211). `none`: undefined behaviour. -/
def createOper (s : St) (a t : Nat) (prec left right : Int) : Option St :=
  match HashTbl.extendIfNeeded s.tbl (s.tbl.gen + 1) with
  | none => none
  | some tb =>
    some { tbl := (HashTbl.insert tb (key a t) ⟨prec, left, right⟩ true).1, mask := setMask s.mask a (s.mask a ||| opMask t) }

/-- `Pl_Lookup_Oper` (oper.c:220-227). -/
def lookup (s : St) (a t : Nat) : Option Inf :=
  if check s a t then (HashTbl.find s.tbl (key a t)).map (·.val) else none

/-- `Pl_Lookup_Oper_Any_Type` (oper.c:236-251): the type of the operator and its definition. -/
def lookupAny (s : St) (a : Nat) : Option (Nat × Option Inf) :=
  if check s a PREFIX then some (PREFIX, (HashTbl.find s.tbl (key a PREFIX)).map (·.val))
  else if check s a INFIX then some (INFIX, (HashTbl.find s.tbl (key a INFIX)).map (·.val))
  else if check s a POSTFIX then some (POSTFIX, (HashTbl.find s.tbl (key a POSTFIX)).map (·.val))
  else none

/-- `Pl_Delete_Oper` (oper.c:260-268). -/
def deleteOper (s : St) (a t : Nat) : St :=
  { tbl := (HashTbl.delete s.tbl (key a t)).1, mask := setMask s.mask a (s.mask a &&& ~~~ opMask t) }

/-- `FX` .. `YFX` (oper_c.c:52-60) and the names of `Oper_Initializer` (oper_c.c:97-104). -/
def specifNames : List String := ["fx", "fy", "xf", "yf", "xfx", "xfy", "yfx"]

/-- The search in `atom_specif_tbl` (oper_c.c:131, 220): 7 if it is not a specifier. -/
def specifIndex (A : Atoms) (a : Nat) : Nat := (specifNames.map A).idxOf a

/-- The errors of op/3. -/
inductive Err where
  | domainPriority
  | domainSpecifier
  | permissionCreate
  | permissionModify
deriving DecidableEq

/-- The `switch (i)` of `Pl_Op_3` (oper_c.c:134-161): type, left and right. -/
def args (i : Nat) (prec : Int) : Option (Nat × Int × Int) :=
  match i with
  | 0 => some (PREFIX, 0, prec - 1)
  | 1 => some (PREFIX, 0, prec)
  | 2 => some (POSTFIX, prec - 1, 0)
  | 3 => some (POSTFIX, prec, 0)
  | 4 => some (INFIX, prec - 1, prec - 1)
  | 5 => some (INFIX, prec - 1, prec)
  | 6 => some (INFIX, prec, prec - 1)
  | _ => none

/-- The outcome of op/3: an error (the state is the same), a new state, or undefined behaviour. -/
inductive Res where
  | err (e : Err)
  | ok (s : St)
  | crash

/-- `Pl_Op_3` (oper_c.c:113-180). -/
def op3 (A : Atoms) (s : St) (prec : Int) (specif a : Nat) : Res :=
  if prec < 0 ∨ prec > 1200 then .err .domainPriority
  else
    match args (specifIndex A specif) prec with
    | none => .err .domainSpecifier
    | some (type, left, right) =>
      if (type ≠ PREFIX ∧ check s a (if type = POSTFIX then INFIX else POSTFIX) = true) ∨
          (a = 124 ∧ (type ≠ INFIX ∨ (prec > 0 ∧ prec ≤ 1000))) ∨ (a = 256 ∨ a = A "{}") then .err .permissionCreate
      else if a = 44 then .err .permissionModify
      else if prec > 0 then
        match createOper s a type prec left right with
        | none => .crash
        | some s' => .ok s'
      else .ok (deleteOper s a type)

/-- `Detect_Oper_Specif` (oper_c.c:347-368): the index of the specifier. -/
def detect (t : Nat) (o : Inf) : Nat :=
  if t = PREFIX then (if o.right < o.prec then 0 else 1)
  else if t = POSTFIX then (if o.left < o.prec then 2 else 3)
  else if o.left < o.prec then (if o.right < o.prec then 4 else 5) else 6

/-- The loop on the types (oper_c.c:236-238, 302-304): the least type of the mask among PREFIX and POSTFIX, else INFIX. -/
def firstType (m : BitVec 4) : Nat :=
  if m &&& opMask PREFIX != 0#4 then PREFIX else if m &&& opMask POSTFIX != 0#4 then POSTFIX else INFIX

/-- A solution of current_op/3 before the unifications (oper_c.c:268-270, 334-336): priority, index of the specifier, atom. -/
abbrev Sol := Int × Nat × Nat

/-- `Pl_Current_Op_3` for an atom (oper_c.c:229-251): the solution and the mask kept in the choice point (0 if there is none).
Outer `none`: NULL is dereferenced. -/
def currentOpAtom (s : St) (a : Nat) : Option (Option (Sol × BitVec 4)) :=
  let m := s.mask a
  if m = 0#4 then some none
  else
    let i := firstType m
    match lookup s a i with
    | none => none
    | some o => some (some ((o.prec, detect i o, a), m &&& ~~~ opMask i))

/-- `Pl_Current_Op_Alt_0` for an atom (oper_c.c:297-309, 334-336). -/
def currentOpAtomAlt (s : St) (a : Nat) (m : BitVec 4) : Option Sol :=
  let i := firstType m
  match lookup s a i with
  | none => none
  | some o => some (o.prec, detect i o, a)

/-- The solutions of current_op/3 for an atom, when the operators are not changed meanwhile. -/
def currentOpAtomAll (s : St) (a : Nat) : Option (List Sol) :=
  match currentOpAtom s a with
  | none => none
  | some none => some []
  | some (some (x, m)) =>
    if m = 0#4 then some [x]
    else
      match currentOpAtomAlt s a m with
      | none => none
      | some y => some [x, y]

/-- The solutions of current_op/3 for a variable (oper_c.c:252-270, 310-336), when the operators are not changed meanwhile: the
scan of the table. -/
def currentOpAll (s : St) : Option (List Sol) :=
  match HashTbl.scanAll s.tbl s.tbl.arr.flatten.length with
  | none => none
  | some l => some (l.map fun p => (p.val.prec, detect (typeOf p.key) p.val, atomOf p.key))

/-- The macros `T_FX` .. `T_YFX` (oper.c:67-79), the index as in oper_c.c. -/
def tMacro (i : Nat) (p : Int) : Nat × Int × Int :=
  match i with
  | 0 => (PREFIX, 0, p - 1)
  | 1 => (PREFIX, 0, p)
  | 2 => (POSTFIX, p - 1, 0)
  | 3 => (POSTFIX, p, 0)
  | 4 => (INFIX, p - 1, p - 1)
  | 5 => (INFIX, p - 1, p)
  | _ => (INFIX, p, p - 1)

/-- The `ADD_OPER` of `Pl_Init_Oper` (oper.c:95-182): priority, index of the specifier, name. -/
def initOps : List (Int × Nat × String) :=
  [(1200, 4, ":-"), (1200, 4, "-->"), (1200, 0, ":-"), (1200, 0, "?-"), (1105, 5, "|"), (1100, 5, ";"), (1050, 5, "->"),
   (1050, 5, "*->"), (1000, 5, ","), (900, 1, "\\+"), (700, 4, "="), (700, 4, "\\="), (700, 4, "=="), (700, 4, "\\=="),
   (700, 4, "@<"), (700, 4, "@>"), (700, 4, "@=<"), (700, 4, "@>="), (700, 4, "=.."), (700, 4, "is"), (700, 4, "=:="),
   (700, 4, "=\\="), (700, 4, "<"), (700, 4, "=<"), (700, 4, ">"), (700, 4, ">="), (600, 5, ":"), (500, 6, "+"), (500, 6, "-"),
   (500, 6, "/\\"), (500, 6, "\\/"), (400, 6, "*"), (400, 6, "/"), (400, 6, "//"), (400, 6, "rem"), (400, 6, "mod"),
   (400, 6, "div"), (400, 6, "<<"), (400, 6, ">>"), (200, 4, "**"), (200, 5, "^"), (200, 1, "+"), (200, 1, "-"), (200, 1, "\\"),
   (750, 5, "#<=>"), (750, 5, "#\\<=>"), (740, 5, "#==>"), (740, 5, "#\\==>"), (730, 5, "##"), (730, 6, "#\\/"),
   (730, 6, "#\\\\/"), (720, 6, "#/\\"), (720, 6, "#\\/\\"), (710, 1, "#\\"), (700, 4, "#="), (700, 4, "#\\="), (700, 4, "#<"),
   (700, 4, "#=<"), (700, 4, "#>"), (700, 4, "#>="), (700, 4, "#=#"), (700, 4, "#\\=#"), (700, 4, "#<#"), (700, 4, "#=<#"),
   (700, 4, "#>#"), (700, 4, "#>=#")]

/-- One `ADD_OPER` (oper.c:81). -/
def addOper (A : Atoms) (s : Option St) (d : Int × Nat × String) : Option St :=
  match s with
  | none => none
  | some s => let x := tMacro d.2.1 d.1; createOper s (A d.2.2) x.1 d.1 x.2.1 x.2.2

/-- `Pl_Init_Oper` (oper.c:90-183); START_OPER_TBL_SIZE is 1024 (pl_params.h:43). -/
def init (A : Atoms) : Option St :=
  match HashTbl.alloc 0 0 1024 with
  | none => none
  | some t => initOps.foldl (addOper A) (some ⟨t, fun _ => 0#4⟩)

/-- The state after a call of op/3: unchanged by an error. -/
def opStep (A : Atoms) (s : Option St) (c : Int × Nat × Nat) : Option St :=
  match s with
  | none => none
  | some s =>
    match op3 A s c.1 c.2.1 c.2.2 with
    | .err _ => some s
    | .ok s' => some s'
    | .crash => none

/-- Calls of op/3 (priority, specifier, atom) from the initial table. -/
def run (A : Atoms) (cs : List (Int × Nat × Nat)) : Option St := cs.foldl (opStep A) (init A)

end Gp.Oper
