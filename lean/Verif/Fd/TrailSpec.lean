import Verif.Fd.Trail
/-
Histories of operations, and the abstract meaning of backtracking: a stack of copies of the memory.
-/
namespace Gp.Fd.Trail

open Gp.FdRange Gp.Fd

/-- One operation of a history. -/
inductive Op where
  | newVar (min max : Int) | newRange (r : Range) (nb : Int) | newInt (n : Int)
  | newCstr (af fct opt : Int) (v : Option Nat) | addDep (v : Nat) (i : Fin 5) (cf : Int) | stop (cf : Nat) (x : Int)
  | newBlock (size : Nat) (m : Nat → Int)
  | updInt (v : Nat) (n : Int) | updInterval (v : Nat) (nb min max : Int) | updRange (v : Nat) (nb : Int) (r : Range)
  | toSparse (v : Nat) | remove (v : Nat) (n : Int) | newDate
  | create | retry | trust | cut (k : Nat) | softCut (k : Nat)
  | copyVar (v : Nat)

/-- The operations. `newBlock` is an argument frame of a constraint (fd_to_c.h), `newDate` is `DATE++` (fd_inst.c:1318-1352). -/
def step (c : Cfg) (st : St) : Op → St
  | .newVar min max => newVar st min max
  | .newRange r nb => newRange c st r nb
  | .newInt n => newIntVar st n
  | .newCstr af fct opt v => newCstr st af fct opt v
  | .addDep v i cf => addDep st v i cf
  | .stop cf x => stopCstr st cf x
  | .newBlock size m => { st with mem := fun l => if st.cs ≤ l.2 ∧ l.1 = .word then m l.2 else st.mem l, cs := st.cs + size }
  | .updInt v n => updInt c st v n
  | .updInterval v nb min max => updInterval c st v nb min max
  | .updRange v nb r => updRange c st v nb r
  | .toSparse v => toSparse c st v
  | .remove v n => remove c st v n
  | .newDate => { st with date := st.date + 1 }
  | .create => create st
  | .retry => retry st
  | .trust => trust st
  | .cut k => cut st k
  | .softCut k => softCut st k
  | .copyVar v => copyVar st v

/-- The conditions of the calls: a variable which exists, vectors of the right size, an interval for `toSparse`
(fd_inst.c:1081), a value of the vector for `remove` (fd_inst.c:1066), a choice point for a failure. The copy of a variable is excluded. -/
def OpOk (c : Cfg) (st : St) : Op → Prop
  | .addDep v _ _ => v ∈ st.vars
  | .updInt v _ => v ∈ st.vars
  | .updInterval v _ _ _ => v ∈ st.vars
  | .updRange v _ r => v ∈ st.vars ∧ ∀ ws, r.vec = some ws → ws.length ≤ c.size
  | .toSparse v => v ∈ st.vars ∧ st.vecAdr v = 0
  | .remove v n => v ∈ st.vars ∧ (st.vecAdr v ≠ 0 → n.toNat / 64 < c.size)
  | .retry => st.cps ≠ []
  | .trust => st.cps ≠ []
  | .copyVar _ => False
  | _ => True

/-- What is remembered of the creation of a choice point: the memory, the top of the constraint stack and the variables. -/
structure Snap where
  mem : Mem
  cs : Nat
  vars : List Nat

/-- The stack of the copies: one for each choice point. -/
def snapStep (st : St) (l : List Snap) : Op → List Snap
  | .create => ⟨st.mem, st.cs, st.vars⟩ :: l
  | .trust => l.tail
  | .cut k => l.drop k
  | .softCut k => l.eraseIdx k
  | _ => l

/-- The initial state: an empty trail, no choice point, `STAMP = 0` and `DATE = 1` (fd_inst.c:426-432). The base of the stack is not
the address 0. -/
def init (base heap : Nat) : St := ⟨fun _ => 0, base + 1, heap, 0, 1, [], [], []⟩

/-- The states of all histories, with the copies. -/
inductive Reach (c : Cfg) : St → List Snap → Prop where
  | init (base heap : Nat) : Reach c (init base heap) []
  | step {st l} (op : Op) : Reach c st l → OpOk c st op → Reach c (step c st op) (snapStep st l op)

/-- The words of the frames which existed at the copy are equal, except `Nb_Cstr` (fd_inst.h:67). -/
def Restored (m : Mem) (s : Snap) : Prop := ∀ f a, a < s.cs → f ≠ .ncstr → m (f, a) = s.mem (f, a)

end Gp.Fd.Trail
