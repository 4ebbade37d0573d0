import Verif.HashTbl.Model
/-
Model of current_predicate/1: `Pl_Current_Predicate_2`, `Pl_Current_Predicate_Alt_0` (/repo/src/BipsPl/pred_c.c:76-140, 149-205), on
the hash table of predicates (part HashTbl).

Simplifications: the name and the arity of the indicator are given by their values, after the checks of
`Pl_Get_Pred_Indicator` (term_supp.c:924-969), with two facts about their words: whether the word itself is the atom or the
integer (or is a reference to it), and whether both are the same variable. The prolog flag strict_iso is a parameter. The key
`Functor_Arity(f, n)` (wam_inst.h:116-120) is computed on natural numbers: the disjunction is a sum since f < 2^54, and the
casts to int are not modelled (atoms are below 2^31). A choice point is the scan it saves.
-/
namespace Gp.CurPred
open Gp.HashTbl

/-- `Functor_Arity` (wam_inst.h:118). -/
def functorArity (f n : Nat) : Key := BitVec.ofNat 64 (n * 2 ^ 54 + f)

/-- `Functor_Of` (wam_inst.h:119). -/
def functorOf (k : Key) : Nat := k.toNat % 2 ^ 54

/-- `Arity_Of` (wam_inst.h:120). -/
def arityOf (k : Key) : Nat := k.toNat / 2 ^ 54

/-- The name or the arity in the indicator: its value (`none` for a variable), and whether the word is the value itself (otherwise it is a
reference to it: `Pl_Unify_Variable` does not dereference, term_supp.c:945-946). -/
structure Arg where
  val : Option Nat
  direct : Bool

/-- What the retry knows of an argument: the tag of the word, which is not dereferenced (pred_c.c:169-170). -/
def Arg.tag (a : Arg) : Option Nat := if a.direct then a.val else none

/-- The indicator Name/Arity; `same` when both are one variable. -/
structure Indic where
  name : Arg
  arity : Arg
  same : Bool

/-- What is used of the atoms: whether the first character is '$'. The properties of a predicate: built-in or not. -/
structure Ctx where
  dollar : Nat → Bool
  strictIso : Bool

/-- The set of predicates looked at (pred_c.c:93-94). -/
def which (C : Ctx) (w : Nat) : Nat := if w = 0 ∧ C.strictIso = false then 1 else w

/-- `Pred_Is_Ok` (pred_c.c:96-98). -/
def predIsOk (C : Ctx) (w : Nat) (func : Nat) (builtin : Bool) : Bool :=
  w == 2 || (!C.dollar func && (w == 1 || !builtin))

/-- The test of the loops (pred_c.c:118-119, 187-188); -1 is `none`. -/
def keep (C : Ctx) (w : Nat) (func arity : Option Nat) (p : Node Bool) : Bool :=
  ((func == none && arity == none) || func == some (functorOf p.key) || arity == some (arityOf p.key)) &&
    predIsOk C w (functorOf p.key) p.val

/-- The loop of a scan up to a predicate which passes the test (pred_c.c:110-123, 175-190). `none`: undefined behaviour (or no fuel). -/
def search (t : Tbl Bool) (c : Node Bool → Bool) : Nat → Option (Option (Node Bool × Scan)) → Option (Option (Node Bool × Scan))
  | _, none => none
  | _, some none => some none
  | 0, some (some _) => none
  | n + 1, some (some (p, s)) => if c p then some (some (p, s)) else search t c n (next t s)

/-- `Pl_Get_Atom(..., name_word) && Pl_Get_Integer(..., arity_word)` (pred_c.c:134-135, 203-204): an argument with a value must be equal, and
one variable cannot be both an atom and an integer. -/
def unify (i : Indic) (p : Node Bool) : Bool :=
  (i.name.val == none || i.name.val == some (functorOf p.key)) && (i.arity.val == none || i.arity.val == some (arityOf p.key)) && !i.same

/-- The answers from the result of a search, when the execution always fails back into the choice point (`Pl_Current_Predicate_Alt_0`, pred_c.c:149-205);
the table is not changed. -/
def answers (C : Ctx) (w : Nat) (t : Tbl Bool) (i : Indic) : Nat → Option (Option (Node Bool × Scan)) → Option (List (Nat × Nat))
  | _, none => none
  | _, some none => some []
  | 0, some (some _) => none
  | n + 1, some (some (p, s)) =>
    (answers C w t i n (search t (keep C w i.name.tag i.arity.tag) n (next t s))).map fun l =>
      if unify i p then (functorOf p.key, arityOf p.key) :: l else l

/-- `Pl_Current_Predicate_2` (pred_c.c:76-140) and its retries: all the answers. -/
def currentPredicate (C : Ctx) (w : Nat) (t : Tbl Bool) (i : Indic) (fuel : Nat) : Option (List (Nat × Nat)) :=
  match i.name.val, i.arity.val with
  | some f, some n =>
    match find t (functorArity f n) with
    | none => some []
    | some p => some (if predIsOk C (which C w) f p.val then [(f, n)] else [])
  | func, arity => answers C (which C w) t i fuel (search t (keep C (which C w) func arity) fuel (first t))

/-- `Pl_Create_Pred` (EnginePl/pred.c:134-172), for the table: the growth then the insertion without replacement. -/
def createPred (t : Tbl Bool) (gen' f n : Nat) (builtin : Bool) : Option (Tbl Bool) :=
  (extendIfNeeded t gen').map fun t' => (insert t' (functorArity f n) builtin false).1

end Gp.CurPred
