import Verif.Fd.Tell
/-
Model of the propagation of the constraints: the queue, the chains of dependencies, the constraint frames, the optimization on
instantiated variables, the FD switch (EngineFD/fd_inst.c:765-826, 929-955, 995-1017, 1317-1451, EngineFD/fd_to_c.h and the functions
emitted by Fd2C/compile.pl:55-259).

A variable is a number; `dummy_fd_var` is `none`. A constraint frame is an index of `frames`. A compiled block `X in r` is a function
which reads the domains and either exits, or fails, or tells a range to X (compile.pl:208-216 `e_bloc`; the C functions called by
`fd_check_fct` with several tells, fd_symbolic_c.c, are not modelled). `Chains_Mask` has the bits of the chains which are not empty
(fd_inst.c:798-805), so it is not stored. The trail is in `Verif.Fd.Trail`.
-/
namespace Gp.Fd

open Gp.FdRange

/-- The domains of the variables. -/
abbrev Store := Nat → Fdv

/-- The bit of a chain in a mask (fd_inst.h:100-111). -/
def Ev.bit (e : Ev) (i : Fin 5) : Bool :=
  match i with
  | 0 => e.min
  | 1 => e.max
  | 2 => e.minMax
  | 3 => e.dom
  | 4 => e.val

/-- What the function of a block does: `fd_test_exit_condition`/`fd_load_val`, `fd_test_fail_condition`, or one of `fd_tell_...`
(fd_to_c.h:280-364, 546-551). -/
inductive Act where
  | exit
  | fail
  | tell (op : Op)

/-- A block: the told variable, its function, the dependencies and whether optim2 is allowed (compile.pl:201-241). -/
structure Blk where
  x : Nat
  f : Store → Act
  deps : List (Nat × Fin 5)
  optim : Bool

/-- A case of a switch: the constraints to stop and the blocks to start (compile.pl:142-174). -/
structure Case where
  stops : List Nat
  blks : List Blk

/-- The function of a constraint frame: a block or a `wait_switch` (compile.pl:132-137, 179-183): the address of a case or TRUE. -/
inductive Fct where
  | blk (x : Nat) (f : Store → Act)
  | swt (f : Store → Option Case)

/-- `Optim_Pointer`: to `optim2_date_always`, to `optim2_date_never` or to the date of a variable (fd_inst.c:771, 1449-1450). -/
inductive Opt where
  | always
  | never
  | date (x : Nat)
deriving DecidableEq

/-- A constraint frame (fd_inst.h:144-150); `deps` is the list of `fd_add_dependency` done for it (compile.pl:246-259), it is kept to
state the theorems. -/
structure Frame where
  fct : Fct
  opt : Opt
  deps : List (Nat × Fin 5)

/-- The state: the domains, `FD_INT_Date`, `Queue_Propag_Mask` (5 bits and MASK_TO_KEEP_IN_QUEUE), `Queue_Next_Fdv_Adr` (of the
variables and of `dummy_fd_var`), `TP`, the chains, the constraint frames and `DATE`. -/
structure QSt where
  dom : Store
  date : Nat → BitVec 64
  mask : Nat → Ev
  keep : Nat → Bool
  next : Nat → Nat
  nextD : Nat
  tp : Option Nat
  chains : Nat → Fin 5 → List Nat
  frames : List Frame
  now : BitVec 64

/-- `f` with the value `y` at `x`. -/
def upd {α : Type} (f : Nat → α) (x : Nat) (y : α) : Nat → α := fun z => if z = x then y else f z

/-- `Is_Var_In_Queue` (fd_inst.h:81). -/
def QSt.inQ (st : QSt) (x : Nat) : Bool := (st.mask x).any || st.keep x

/-- `propag & Chains_Mask(fdv_adr)` (fd_inst.c:1320). -/
def QSt.masked (st : QSt) (x : Nat) (ev : Ev) : Ev :=
  ⟨ev.min && !(st.chains x 0).isEmpty, ev.max && !(st.chains x 1).isEmpty, ev.minMax && !(st.chains x 2).isEmpty,
    ev.dom && !(st.chains x 3).isEmpty, ev.val && !(st.chains x 4).isEmpty⟩

/-- `All_Propagations` (fd_inst.c:1317-1331). -/
def allProp (st : QSt) (x : Nat) (ev : Ev) : QSt :=
  let p := st.masked x ev
  if p.any then
    if st.inQ x = false then
      match st.tp with
      | none => { st with mask := upd st.mask x p, nextD := x, tp := some x }
      | some t => { st with mask := upd st.mask x p, next := upd st.next t x, tp := some x }
    else { st with mask := upd st.mask x ((st.mask x).or p) }
  else st

/-- The update of a variable by a tell: when it becomes an integer its date is `DATE` (fd_inst.c:285-286). -/
def setVar (st : QSt) (x : Nat) (v : Fdv) : QSt :=
  { st with
    dom := upd st.dom x v
    date := if (st.dom x).tag = none ∧ v.tag ≠ none then upd st.date x st.now else st.date }

/-- A tell inside a constraint function: `Pl_Fd_Tell_...` (fd_inst.c:1026-1308), then `All_Propagations`. -/
def tellVar (c : Cfg) (st : QSt) (x : Nat) (op : Op) : Bool × QSt :=
  let r := tell c (st.dom x) op
  if r.ok then (true, allProp (setVar st x r.v) x r.ev) else (false, st)

/-- The function of a block (compile.pl:208-216). -/
def runBlk (c : Cfg) (st : QSt) (x : Nat) (f : Store → Act) : Bool × QSt :=
  match f st.dom with
  | .exit => (true, st)
  | .fail => (false, st)
  | .tell op => tellVar c st x op

/-- `Pl_Fd_Create_C_Frame` (fd_inst.c:765-781); `Nb_Cstr` is in `Verif.Fd.Trail`. -/
def createFrame (st : QSt) (fct : Fct) (opt : Opt) (deps : List (Nat × Fin 5)) : QSt :=
  { st with frames := st.frames ++ [⟨fct, opt, deps⟩] }

/-- `Pl_Fd_Add_Dependency` (fd_inst.c:790-810). -/
def addDep (st : QSt) (d : Nat × Fin 5) (id : Nat) : QSt :=
  if (st.dom d.1).ground then st
  else { st with chains := fun y j => if y = d.1 ∧ j = d.2 then id :: st.chains y j else st.chains y j }

/-- The dependencies of a constraint (compile.pl:246-259). -/
def addDeps (st : QSt) (ds : List (Nat × Fin 5)) (id : Nat) : QSt := ds.foldl (fun st d => addDep st d id) st

/-- `..._inst` of a block (compile.pl:221-241): if it has dependencies, the frame and the dependencies are created; then the function
is called. -/
def instBlk (c : Cfg) (st : QSt) (b : Blk) : Bool × QSt :=
  if b.deps.isEmpty then runBlk c st b.x b.f
  else
    let id := st.frames.length
    let st := createFrame st (.blk b.x b.f) (if b.optim then .date b.x else .always) b.deps
    runBlk c (addDeps st b.deps id) b.x b.f

/-- A sequence of `fd_call_internal` (fd_to_c.h:164-169). -/
def instBlks (c : Cfg) : QSt → List Blk → Bool × QSt
  | st, [] => (true, st)
  | st, b :: bs =>
    let (ok, st) := instBlk c st b
    if ok then instBlks c st bs else (false, st)

/-- `Pl_Fd_Stop_Constraint` (fd_inst.c:1446-1451). -/
def stopCstr (st : QSt) (id : Nat) : QSt :=
  { st with frames := st.frames.modify id (fun fr => ⟨fr.fct, .never, fr.deps⟩) }

/-- The function of a case: `fd_stop_constraint` and the calls of the blocks (compile.pl:157-174; fd_to_c.h:222-224). -/
def runCase (c : Cfg) (st : QSt) (k : Case) : Bool × QSt :=
  instBlks c (k.stops.foldl stopCstr st) k.blks

/-- The call of the function of the constraint `id`, with the handling of the switch (fd_inst.c:1394-1412; fd_to_c.h:196-215). -/
def exec (c : Cfg) (st : QSt) (id : Nat) (fct : Fct) : Bool × QSt :=
  match fct with
  | .blk x f => runBlk c st x f
  | .swt f =>
    match f st.dom with
    | none => (true, st)
    | some k =>
      let (ok, st) := runCase c st k
      if ok then (true, stopCstr st id) else (false, st)

/-- The date pointed by `Optim_Pointer` (DATE_NEVER = 0, DATE_ALWAYS = 1, fd_inst.c:167-171). -/
def QSt.pdate (st : QSt) : Opt → BitVec 64
  | .always => 1#64
  | .never => 0#64
  | .date x => st.date x

/-- The `do ... while` over a chain (fd_inst.c:1382-1415). -/
def chainLoop (c : Cfg) : QSt → List Nat → Bool × QSt
  | st, [] => (true, st)
  | st, id :: ids =>
    match st.frames[id]? with
    | none => (false, st)
    | some fr =>
      if st.pdate fr.opt ≠ 1#64 ∧ st.pdate fr.opt ≠ st.now then chainLoop c st ids
      else
        let (ok, st) := exec c st id fr.fct
        if ok then chainLoop c st ids else (false, st)

/-- The `for` over the bits of `propag` (fd_inst.c:1376-1416); the chain is read when its bit is reached. -/
def bitsLoop (c : Cfg) (x : Nat) (p : Ev) : QSt → List (Fin 5) → Bool × QSt
  | st, [] => (true, st)
  | st, i :: is =>
    if p.bit i then
      let (ok, st) := chainLoop c st (st.chains x i)
      if ok then bitsLoop c x p st is else (false, st)
    else bitsLoop c x p st is

/-- The bits, from the least significant one. -/
def allBits : List (Fin 5) := [0, 1, 2, 3, 4]

/-- The body of the main loop for the variable `bp` up to the test (fd_inst.c:1369-1420). -/
def body (c : Cfg) (st : QSt) (bp : Nat) : Bool × QSt :=
  let p := st.mask bp
  let st := { st with mask := upd st.mask bp Ev.empty, keep := upd st.keep bp true }
  let (ok, st) := bitsLoop c bp p st allBits
  if ok then (true, { st with keep := upd st.keep bp false }) else (false, st)

/-- The loop of `Clear_Queue` from `bp` (fd_inst.c:1006-1016). The fuel is the number of iterations: `none` if it is not enough. -/
def clearLoop : Nat → QSt → Nat → Option QSt
  | 0, _, _ => none
  | n + 1, st, bp =>
    let st := { st with mask := upd st.mask bp Ev.empty, keep := upd st.keep bp false }
    if some bp = st.tp then some { st with tp := none } else clearLoop n st (st.next bp)

/-- `Clear_Queue` (fd_inst.c:995-1017). -/
def clearQueue (fuel : Nat) (st : QSt) : Option QSt :=
  match st.tp with
  | none => some st
  | some _ => clearLoop fuel st st.nextD

/-- The result of `Pl_Fd_After_Add_Cstr` in the case of a failure (fd_inst.c:1354-1359, 1399-1404). -/
def failQueue (fuel : Nat) (st : QSt) : Option (Bool × QSt) := (clearQueue fuel st).map (fun st => (false, st))

/-- The main loop of `Pl_Fd_After_Add_Cstr` (fd_inst.c:1367-1436). The fuel bounds the number of iterations: `none` if it is not
enough. -/
def mainLoop (c : Cfg) : Nat → QSt → Nat → Option (Bool × QSt)
  | 0, _, _ => none
  | n + 1, st, bp =>
    let (ok, st) := body c st bp
    if ok = false then failQueue n { st with nextD := bp }
    else if (st.mask bp).any = false then
      if some bp = st.tp then some (true, { st with tp := none }) else mainLoop c n st (st.next bp)
    else mainLoop c n st bp

/-- `Pl_Fd_After_Add_Cstr` (fd_inst.c:1340-1437). -/
def afterAdd (c : Cfg) (fuel : Nat) (ok : Bool) (st : QSt) : Option (Bool × QSt) :=
  if ok = false then failQueue fuel st
  else
    match st.tp with
    | none => some (true, st)
    | some _ => mainLoop c fuel st st.nextD

/-- `Pl_Fd_Before_Add_Cstr` (fd_inst.c:929-955): DATE_NEVER is skipped. -/
def beforeAdd (st : QSt) : QSt :=
  { st with now := if st.now + 1#64 = 0#64 then st.now + 2#64 else st.now + 1#64, tp := none }

/-- The `wait_switch` of a constraint: the frame and its dependencies if any, then the call (compile.pl:107-127, 221-241). -/
def instSwt (c : Cfg) (st : QSt) (f : Store → Option Case) (deps : List (Nat × Fin 5)) : Bool × QSt :=
  if deps.isEmpty then
    match f st.dom with
    | none => (true, st)
    | some k => runCase c st k
  else
    let id := st.frames.length
    let st := createFrame st (.swt f) .always deps
    exec c (addDeps st deps id) id (.swt f)

/-- A user constraint: blocks and possibly a switch (compile.pl:55-76). -/
structure UserCstr where
  blks : List Blk
  swt : Option ((Store → Option Case) × List (Nat × Fin 5))

/-- The calls of the functions of a user constraint (compile.pl:72, 99-103). -/
def install (c : Cfg) (st : QSt) (u : UserCstr) : Bool × QSt :=
  let (ok, st) := instBlks c st u.blks
  if ok then
    match u.swt with
    | none => (true, st)
    | some (f, deps) => instSwt c st f deps
  else (false, st)

/-- The entry point of a user constraint (compile.pl:55-76). -/
def post (c : Cfg) (fuel : Nat) (st : QSt) (u : UserCstr) : Option (Bool × QSt) :=
  let (ok, st) := install c (beforeAdd st) u
  afterAdd c fuel ok st

end Gp.Fd
