/-
Model of the Prolog flags: `Fct_Get_...`, `Fct_Chk_...`, `Fct_Set_...` (/repo/src/BipsPl/flag_supp.c:116-194), `Fct_Set_Debug`
(/repo/src/BipsPl/flag_c.c:247-267), `Prolog_Flag_Lookup` (flag_supp.c:319-330), `Pl_Set_Prolog_Flag_2` (flag_supp.c:339-373),
`Pl_Current_Prolog_Flag_2` and `Pl_Current_Prolog_Flag_Alt_0` (flag_supp.c:383-416, 425-453).

Simplifications: a word is known by its dereferenced form (a variable, an atom, an integer or another term); the unification of the value of a flag with
the second argument is a test given as a parameter; the predicates debug/0 and nodebug/0 called by `Fct_Set_Debug` exist and do nothing else.
Accesses out of a table are `none`.
-/
namespace Gp.Flags

/-- A dereferenced word. -/
inductive Val
  | var
  | atm (a : Nat)
  | int (z : Int)
  | other (k : Nat)
deriving DecidableEq

/-- The types of flags (flag_supp.h:83-89): the table of atoms ends with -1. `debug` is a table with its own set function; `any` is given by its functions chk
and get (it is read-only: flag_c.c has version_data, c_cc_version_data and argv). -/
inductive Ty
  | integer
  | atom
  | tbl (l : List Int)
  | debug (off on : Nat)
  | any (chk : Val → Bool) (get : Val)

/-- `FlagInf` (flag_supp.h:92-102). -/
structure Flag where
  name : Nat
  modifiable : Bool
  ty : Ty
  value : Int

/-- The table of the flag debug (flag_c.c:219). -/
def debugTbl (off on : Nat) : List Int := [(off : Int), (on : Int), -1]

/-- `Fct_Get_Atom_Tbl` (flag_supp.c:160-164). -/
def getTbl (l : List Int) (i : Int) : Option Val :=
  if i < 0 then none else (l[i.toNat]?).map fun x => .atm x.toNat

/-- The functions get (flag_supp.c:116-120, 138-142, 160-164). -/
def get (f : Flag) : Option Val :=
  match f.ty with
  | .integer => some (.int f.value)
  | .atom => some (.atm f.value.toNat)
  | .tbl l => getTbl l f.value
  | .debug off on => getTbl (debugTbl off on) f.value
  | .any _ g => some g

/-- The loop of `Fct_Chk_Atom_Tbl` (flag_supp.c:175-179). -/
def chkTbl : List Int → Nat → Option Bool
  | [], _ => none
  | x :: l, a => if x ≥ 0 ∧ x ≠ a then chkTbl l a else some (decide (x = a))

/-- The functions chk (flag_supp.c:122-126, 144-148, 166-180). -/
def chk (f : Flag) (v : Val) : Option Bool :=
  match f.ty, v with
  | .integer, .int _ => some true
  | .integer, _ => some false
  | .atom, .atm _ => some true
  | .atom, _ => some false
  | .tbl l, .atm a => chkTbl l a
  | .tbl _, _ => some false
  | .debug off on, .atm a => chkTbl (debugTbl off on) a
  | .debug _ _, _ => some false
  | .any c _, v => some (c v)

/-- The loop of `Fct_Set_Atom_Tbl` (flag_supp.c:188-192), which does not look at the end of the table. -/
def setTbl : List Int → Nat → Nat → Option Nat
  | [], _, _ => none
  | x :: l, a, i => if x ≠ a then setTbl l a (i + 1) else some i

/-- The functions set (flag_supp.c:128-133, 150-155, 182-194, flag_c.c:247-267); `dbg` is `SYS_VAR_DEBUGGER`. The inner `none` is FALSE. -/
def set (dbg : Bool) (f : Flag) (v : Val) : Option (Option Flag) :=
  match f.ty, v with
  | .integer, .int z => some (some { f with value := z })
  | .atom, .atm a => some (some { f with value := a })
  | .tbl l, .atm a => (setTbl l a 0).map fun i => some { f with value := i }
  | .debug _ on, .atm a =>
    let value : Int := if a = on then 1 else 0
    if dbg = false then some (if value = 0 then some f else none)
    else some (some { f with value := value })
  | _, _ => none

/-- `Prolog_Flag_Lookup` (flag_supp.c:319-330): the index of the flag. -/
def lookup : List Flag → Nat → Option Nat
  | [], _ => none
  | f :: l, a => if f.name = a then some 0 else (lookup l a).map (· + 1)

inductive Err
  | instantiation
  | typeAtom
  | domainFlag
  | domainValue
  | permission
deriving DecidableEq

inductive Out
  | err (e : Err)
  | fail
  | ok (tbl : List Flag)

/-- `Pl_Rd_Atom_Check` (c_supp.c:447-459). -/
def rdAtomCheck : Val → Except Err Nat
  | .var => .error .instantiation
  | .atm a => .ok a
  | _ => .error .typeAtom

/-- `Pl_Set_Prolog_Flag_2` (flag_supp.c:339-373). -/
def setFlag (dbg : Bool) (tbl : List Flag) (fw vw : Val) : Option Out :=
  match rdAtomCheck fw with
  | .error e => some (.err e)
  | .ok a =>
    match lookup tbl a with
    | none => some (.err .domainFlag)
    | some i =>
      match tbl[i]? with
      | none => none
      | some f =>
        if vw = .var then some (.err .instantiation)
        else
          match chk f vw with
          | none => none
          | some false => some (.err .domainValue)
          | some true =>
            if f.modifiable = false then some (.err .permission)
            else
              match set dbg f vw with
              | none => none
              | some none => some .fail
              | some (some f') => some (.ok (tbl.set i f'))

/-- `Pl_Current_Prolog_Flag_2` with a bound flag (flag_supp.c:391-402): the value unified with the second argument. -/
def currentKnown (tbl : List Flag) (fw : Val) : Option (Except Err Val) :=
  match rdAtomCheck fw with
  | .error e => some (.error e)
  | .ok a =>
    match lookup tbl a with
    | none => some (.error .domainFlag)
    | some i =>
      match tbl[i]? with
      | none => none
      | some f => (get f).map .ok

/-- The answer for the flag of index `i` (flag_supp.c:412-415, 450-452): the flag and its value if the unification succeeds. -/
def answer (unif : Nat → Val → Bool) (tbl : List Flag) (i : Nat) : Option (List (Nat × Val)) :=
  match tbl[i]? with
  | none => none
  | some f =>
    match get f with
    | none => none
    | some v => some (if unif f.name v then [(f.name, v)] else [])

/-- The successive calls of `Pl_Current_Prolog_Flag_Alt_0` (flag_supp.c:425-453), `i` being the index saved in the choice point and `tbls i` the table at the time of
the call; `n` bounds the number of calls. -/
def alts (unif : Nat → Val → Bool) (tbls : Nat → List Flag) : Nat → Nat → Option (List (Nat × Val))
  | 0, _ => none
  | n + 1, i =>
    match answer unif (tbls i) i with
    | none => none
    | some l =>
      if i + 1 = (tbls i).length then some l
      else (alts unif tbls n (i + 1)).map (l ++ ·)

/-- All the answers of `Pl_Current_Prolog_Flag_2` with an unbound flag (flag_supp.c:404-415). -/
def currentAll (unif : Nat → Val → Bool) (tbls : Nat → List Flag) (n : Nat) : Option (List (Nat × Val)) :=
  match answer unif (tbls 0) 0 with
  | none => none
  | some l => (alts unif tbls n 1).map (l ++ ·)

end Gp.Flags
