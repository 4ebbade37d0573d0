import Verif.TermInl.Model
/-
Model of call/2-11 and call_with_args/1-11: `Pl_Call_Closure` (/repo/src/BipsPl/call_args_c.c:91-160), with the memory of the part
TermInl and the argument registers A(0), A(1), ...

Simplifications: what is reached at the end (the code of a predicate, or '$call_internal'/2) is a result; native code and
byte code are not distinguished (call_args_c.c:156-159). The word with the information of the call (call_args_c.c:130) is a
parameter. `none` means that the global stack overflows, that a register out of the bank is accessed or that the memory is
not well formed.
-/
namespace Gp.CallN
open Gp.Heap Gp.Unify Gp.ListBip Gp.TermInl

/-- `NB_OF_X_REGS` (pl_params.h:48). -/
abbrev NB_REGS : Nat := 256

/-- `MAX_ARITY` (pl_params.h:49). -/
abbrev MAX_ARITY : Nat := NB_REGS - 1

/-- The argument registers. -/
abbrev Regs := Nat → Cell

inductive CErr where
  | instantiation | typeAtom | typeCallable | maxArity

/-- What does not depend on the memory: the atom '.', `Pl_Lookup_Pred` (`none` if there is no predicate, otherwise whether it is a control
construct), and the word of the information of the call. -/
structure Ctx where
  dot : Nat
  lookup : Nat → Nat → Option Bool
  info : Cell

/-- The result: the predicate called, or '$call_internal'/2, or an error. -/
inductive Res where
  | jump (f n : Nat) (A : Regs)
  | internal (s : St) (A : Regs)
  | err (e : CErr)

/-- `Pl_Rd_Atom_Check` (c_supp.c:446-459). -/
def rdAtom (m : Mem) (w : Cell) : Option (Except CErr (Nat × Nat × Adr)) :=
  match deref m w with
  | none => none
  | some (.ref _) => some (.error .instantiation)
  | some (.atm i) => some (.ok (i, 0, 0))
  | some _ => some (.error .typeAtom)

/-- `Pl_Rd_Callable_Check` (c_supp.c:1423-1460): functor, arity and address of the arguments. -/
def rdCallable (C : Ctx) (m : Mem) (w : Cell) : Option (Except CErr (Nat × Nat × Adr)) :=
  match deref m w with
  | none => none
  | some (.ref _) => some (.error .instantiation)
  | some (.atm i) => some (.ok (i, 0, 0))
  | some (.lst a) => some (.ok (C.dot, 2, a))
  | some (.stc a) =>
    match m a with
    | .fn f k => some (.ok (f, k, a + 1))
    | _ => none
  | some _ => some (.error .typeCallable)

/-- Assignment of a register. -/
def wr (A : Regs) (i : Nat) (w : Cell) : Option Regs :=
  if i < NB_REGS then some fun j => if j = i then w else A j else none

/-- `memmove(&A(d), &A(1), n)` (call_args_c.c:149). -/
def move (A : Regs) (d n : Nat) : Option Regs :=
  if d + n ≤ NB_REGS ∧ 1 + n ≤ NB_REGS then some fun j => if d ≤ j ∧ j < d + n then A (j - d + 1) else A j else none

/-- The loop which copies the arguments of the closure in the registers (call_args_c.c:152-154). -/
def copyArgs (m : Mem) : Nat → Adr → Nat → Regs → Option Regs
  | 0, _, _, A => some A
  | k + 1, a, i, A =>
    match wr A i (m a) with
    | none => none
    | some A' => copyArgs m k (a + 1) (i + 1) A'

/-- The loop which copies the arguments of the closure in the new structure (call_args_c.c:123-124). -/
def pushArgs : Nat → Adr → St → Option St
  | 0, _, s => some s
  | k + 1, a, s =>
    match push s (s.mem a) with
    | none => none
    | some s' => pushArgs k (a + 1) s'

/-- The loop which copies the registers in the new structure (call_args_c.c:125-126). -/
def pushRegs (A : Regs) : Nat → Nat → St → Option St
  | 0, _, s => some s
  | k + 1, i, s =>
    match push s (A i) with
    | none => none
    | some s' => pushRegs A k (i + 1) s'

/-- The new goal (call_args_c.c:118-128). -/
def buildGoal (s : St) (A : Regs) (f k rest : Nat) (a : Adr) : Option (St × Regs) :=
  if k + rest > 0 then
    match push s (.fn f (k + rest)) with
    | none => none
    | some s1 =>
      match pushArgs k a s1 with
      | none => none
      | some s2 =>
        match pushRegs A rest 1 s2 with
        | none => none
        | some s3 => (wr A 0 (.stc s.h)).map fun A' => (s3, A')
  else some (s, A)

/-- `Pl_Call_Closure` after the closure is read (call_args_c.c:108-160). -/
def callWith (C : Ctx) (rest : Nat) (s : St) (A : Regs) (f k : Nat) (a : Adr) : Option Res :=
  if k + rest > MAX_ARITY then some (.err .maxArity)
  else
    match C.lookup f (k + rest) with
    | some false =>
      match (if k ≠ 1 then move A k rest else some A) with
      | none => none
      | some A1 =>
        match copyArgs s.mem k a 0 A1 with
        | none => none
        | some A2 => some (.jump f (k + rest) A2)
    | _ =>
      match buildGoal s A f k rest a with
      | none => none
      | some (s1, A1) => (wr A1 1 C.info).map fun A2 => .internal s1 A2

/-- `Pl_Call_Closure` (call_args_c.c:91-160): `atoms` for call_with_args, `rest` is the number of extra arguments. -/
def callClosure (C : Ctx) (atoms : Bool) (rest : Nat) (s : St) (A : Regs) : Option Res :=
  match (if atoms then rdAtom s.mem (A 0) else rdCallable C s.mem (A 0)) with
  | none => none
  | some (.error e) => some (.err e)
  | some (.ok (f, k, a)) => callWith C rest s A f k a

end Gp.CallN
