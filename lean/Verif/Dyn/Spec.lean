/-!
Specification of the clauses of dynamic predicates: the logical database update view. Nothing here depends on the model.

A predicate is the list of its clauses. A call takes the candidates of this list at the moment of the call; the alternatives are
kept in the choice point and nothing changes them.
-/
namespace Gp.Dyn

/-- The principal functor of a first argument (`none` when the predicate has no argument). -/
inductive Arg where
  | none
  | var
  | int (n : Int)
  | atm (a : Nat)
  | flt
  | lst
  | stc (f : Nat)
deriving DecidableEq

/-- The first argument of a clause may unify with the first argument of a call. -/
def mayUnify (call cl : Arg) : Prop := call = .var ∨ cl = .var ∨ call = cl

/-- The candidate clauses of a call: all of them if there is no first argument or if it is a variable or a float, otherwise those
with a variable or with the same principal functor. -/
def cand (call cl : Arg) : Bool :=
  match call with
  | .none | .var | .flt => true
  | _ => cl = call || cl = .var

/-- A clause: its identity, its first argument and the file it comes from. -/
structure ACl where
  id : Nat
  arg : Arg
  file : Int
deriving DecidableEq

/-- A predicate: its clauses, and how many times all its clauses were erased at once. -/
structure APred where
  gen : Nat
  cls : List ACl

/-- The alternatives of a call: the predicate, its `gen` at the moment of the call, the clauses which remain to be tried. -/
structure AScan where
  p : Nat
  gen : Nat
  rest : List Nat
deriving DecidableEq

/-- The database, the choice points (the last one first) and the number of clauses created. -/
structure ASt where
  pred : Nat → APred
  scans : List AScan
  next : Nat

/-- What is done with the clause given by a call: clause/2 (or the execution of a fact) reads it, retract/1 deletes it, the
execution of a rule enters its body. -/
inductive Act where
  | read
  | retract
  | enter
deriving DecidableEq

/-- The operations. -/
inductive Op where
  /-- asserta/1 (`front`) or assertz/1 -/
  | add (p : Nat) (a : Arg) (file : Int) (front : Bool)
  /-- a call, clause/2 or retract/1 -/
  | start (p : Nat) (a : Arg) (act : Act)
  /-- backtracking to the last choice point -/
  | redo (act : Act)
  /-- a cut: the last choice points are removed -/
  | cut (k : Nat)
  /-- the execution of a body ends -/
  | leave (k : Nat)
  /-- retractall/1 with a most general head, abolish/1, consult/1 -/
  | eraseAll (p : Nat)
  /-- consult/1 of a file for a multifile predicate -/
  | eraseFile (p : Nat) (file : Int)

def ASt.setPred (a : ASt) (p : Nat) (x : APred) : ASt := { a with pred := fun q => if q = p then x else a.pred q }

/-- The clause `c` given by a call of generation `gen` is deleted by a retract. -/
def ASt.act (a : ASt) (p gen c : Nat) : Act → ASt
  | .retract =>
    if gen = (a.pred p).gen then a.setPred p { a.pred p with cls := (a.pred p).cls.filter (fun x => x.id ≠ c) } else a
  | _ => a

/-- An operation: the new state and the clause given, if any. -/
def astep (a : ASt) : Op → ASt × Option Nat
  | .add p arg file front =>
    let x : ACl := ⟨a.next, arg, file⟩
    let l := (a.pred p).cls
    ({ a.setPred p { a.pred p with cls := if front then x :: l else l ++ [x] } with next := a.next + 1 }, some a.next)
  | .start p arg act =>
    match ((a.pred p).cls.filter (fun x => cand arg x.arg)).map (·.id) with
    | [] => (a, none)
    | c :: r =>
      let a' := if r = [] then a else { a with scans := ⟨p, (a.pred p).gen, r⟩ :: a.scans }
      (a'.act p (a.pred p).gen c act, some c)
  | .redo act =>
    match a.scans with
    | ⟨p, gen, c :: r⟩ :: ss =>
      let a' := { a with scans := if r = [] then ss else ⟨p, gen, r⟩ :: ss }
      (a'.act p gen c act, some c)
    | _ => (a, none)
  | .cut k => ({ a with scans := a.scans.drop k }, none)
  | .leave _ => (a, none)
  | .eraseAll p => (a.setPred p ⟨(a.pred p).gen + 1, []⟩, none)
  | .eraseFile p f => (a.setPred p { a.pred p with cls := (a.pred p).cls.filter (fun x => x.file ≠ f) }, none)

/-- The empty database. -/
def ainit : ASt := ⟨fun _ => ⟨0, []⟩, [], 0⟩

end Gp.Dyn
