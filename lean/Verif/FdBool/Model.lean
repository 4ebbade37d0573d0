/-
Model of the boolean constraints over finite domains (`#\`, `#<=>`, `#\<=>`, `##`, `#==>`,
`#\==>`, `#/\`, `#\/\`, `#\/`, `#\\/`) and of the comparisons inside them: src/BipsFD/fd_bool_c.c,
and of fd_cardinality (src/BipsFD/fd_bool.pl:105-150; in Card.lean).

A constraint is first simplified (constants removed, negations only on variables), then
loaded: each node is either made true, made false, or given a new variable for its truth value.

Simplifications: the arithmetic expressions are of an abstract type `α`; `lr a b` is what
`Pl_Load_Left_Right` and `Pl_Term_Math_Loading` give for `a` and `b` (C48): the words of the
left and of the right part and the constant.  A primitive constraint is recorded in the order of
posting; what it does to domains is in Prims.lean.  The sizes of the two stacks
(BOOL_STACK_SIZE, VARS_STACK_SIZE, both 100000) are not modelled.
-/
namespace Gp.FdBool

/-- The binary boolean operators (fd_bool_c.c:57-64); `##` is NEQUIV (fd_bool_c.c:435-436). -/
inductive BOp where
  | equiv | nequiv | imply | nimply | and | nand | or | nor
deriving DecidableEq, Repr

/-- `op + 1` or `op - 1` under a negation (fd_bool_c.c:458-459). -/
def BOp.flip : BOp → BOp
  | .equiv => .nequiv | .nequiv => .equiv
  | .imply => .nimply | .nimply => .imply
  | .and => .nand | .nand => .and
  | .or => .nor | .nor => .or

/-- The comparisons (fd_bool_c.c:66-78). -/
inductive COp where
  | eq | neq | lt | gte | gt | lte
deriving DecidableEq, Repr

/-- `op + 1` or `op - 1` under a negation (fd_bool_c.c:458-459). -/
def COp.flip : COp → COp
  | .eq => .neq | .neq => .eq
  | .lt => .gte | .gte => .lt
  | .gt => .lte | .lte => .gt

/-- The constraint given by the user: `bad` is any term which is no constraint. `full`: the
comparison has the form `#=#`. -/
inductive Ex (α : Type) where
  | var (n : Nat)
  | int (k : Int)
  | bad
  | not (e : Ex α)
  | bin (op : BOp) (l r : Ex α)
  | cmp (op : COp) (full : Bool) (a b : α)

/-- The comparisons of a node (fd_bool_c.c:371-374). -/
inductive NOp where
  | eq | neq | lt | lte
deriving DecidableEq, Repr

/-- The nodes made by Simplify (fd_bool_c.c:341-376). -/
inductive Node (α : Type) where
  | zero
  | one
  | var (x : Nat)
  | not (x : Nat)
  | bin (op : BOp) (l r : Node α)
  | cmp (op : NOp) (full : Bool) (a b : α)

/-- The node of a comparison (fd_bool_c.c:461-473): `>` and `>=` are turned round. -/
def cmpNode {α : Type} (op : COp) (full : Bool) (a b : α) : Node α :=
  match op with
  | .eq => .cmp .eq full a b
  | .neq => .cmp .neq full a b
  | .lt => .cmp .lt full a b
  | .lte => .cmp .lte full a b
  | .gt => .cmp .lt full b a
  | .gte => .cmp .lte full b a

/-- What Simplify gives: the node and the variables put in `vars_tbl`; `none`: a type error. -/
abbrev Sres (α : Type) := Option (Node α × List Nat)

/-- The case EQUIV (fd_bool_c.c:497-536); `nl`, `nr` are the nodes of both sides, `ml` and `mr` the
results of `Simplify(-1, ...)` on them. -/
def simpEquiv {α : Type} (nl nr : Node α) (ml mr : Sres α) : Sres α :=
  match nl, nr with
  | .zero, _ => mr
  | .one, _ => some (nr, [])
  | _, .zero => ml
  | _, .one => some (nl, [])
  | .not x, _ => mr.map fun m => (.bin .equiv (.var x) m.1, m.2)
  | _, .not x => ml.map fun m => (.bin .equiv m.1 (.var x), m.2)
  | _, _ => some (.bin .equiv nl nr, [])

/-- The case NEQUIV (fd_bool_c.c:538-590). -/
def simpNequiv {α : Type} (nl nr : Node α) (ml mr : Sres α) : Sres α :=
  match nl, nr with
  | .zero, _ => some (nr, [])
  | .one, _ => mr
  | _, .zero => some (nl, [])
  | _, .one => ml
  | .not x, _ => some (.bin .equiv (.var x) nr, [])
  | _, .not x => some (.bin .equiv nl (.var x), [])
  | .var x, .var y => some (.bin .nequiv (.var x) (.var y), [])
  | .var x, _ => mr.map fun m => (.bin .equiv (.var x) m.1, m.2)
  | _, .var x => ml.map fun m => (.bin .equiv m.1 (.var x), m.2)
  | _, _ => some (.bin .nequiv nl nr, [])

/-- The case IMPLY (fd_bool_c.c:592-621). -/
def simpImply {α : Type} (nl nr : Node α) (ml : Sres α) : Sres α :=
  match nl, nr with
  | .zero, _ => some (.one, [])
  | _, .one => some (.one, [])
  | .one, _ => some (nr, [])
  | _, .zero => ml
  | .not x, _ => some (.bin .or (.var x) nr, [])
  | _, .not x => ml.map fun m => (.bin .imply (.var x) m.1, m.2)
  | _, _ => some (.bin .imply nl nr, [])

/-- The case NIMPLY (fd_bool_c.c:623-657). -/
def simpNimply {α : Type} (nl nr : Node α) (mr : Sres α) : Sres α :=
  match nl, nr with
  | .zero, _ => some (.zero, [])
  | _, .one => some (.zero, [])
  | .one, _ => mr
  | _, .zero => some (nl, [])
  | .not x, _ => some (.bin .nor (.var x) nr, [])
  | _, .not x => some (.bin .and nl (.var x), [])
  | _, _ => some (.bin .nimply nl nr, [])

/-- The case AND (fd_bool_c.c:659-693). -/
def simpAnd {α : Type} (nl nr : Node α) : Sres α :=
  match nl, nr with
  | .zero, _ => some (.zero, [])
  | _, .zero => some (.zero, [])
  | .one, _ => some (nr, [])
  | _, .one => some (nl, [])
  | .not x, _ => some (.bin .nimply nr (.var x), [])
  | _, .not x => some (.bin .nimply nl (.var x), [])
  | _, _ => some (.bin .and nl nr, [])

/-- The case NAND (fd_bool_c.c:695-731). -/
def simpNand {α : Type} (nl nr : Node α) (ml mr : Sres α) : Sres α :=
  match nl, nr with
  | .zero, _ => some (.one, [])
  | _, .zero => some (.one, [])
  | .one, _ => mr
  | _, .one => ml
  | .not x, _ => some (.bin .imply nr (.var x), [])
  | _, .not x => some (.bin .imply nl (.var x), [])
  | _, _ => some (.bin .nand nl nr, [])

/-- The case OR (fd_bool_c.c:733-767). -/
def simpOr {α : Type} (nl nr : Node α) : Sres α :=
  match nl, nr with
  | .one, _ => some (.one, [])
  | _, .one => some (.one, [])
  | .zero, _ => some (nr, [])
  | _, .zero => some (nl, [])
  | .not x, _ => some (.bin .imply (.var x) nr, [])
  | _, .not x => some (.bin .imply (.var x) nl, [])
  | _, _ => some (.bin .or nl nr, [])

/-- The case NOR (fd_bool_c.c:769-805). -/
def simpNor {α : Type} (nl nr : Node α) (ml mr : Sres α) : Sres α :=
  match nl, nr with
  | .one, _ => some (.zero, [])
  | _, .one => some (.zero, [])
  | .zero, _ => mr
  | _, .zero => ml
  | .not x, _ => some (.bin .nimply (.var x) nr, [])
  | _, .not x => some (.bin .nimply (.var x) nl, [])
  | _, _ => some (.bin .nor nl nr, [])

/-- The switch of Simplify (fd_bool_c.c:495-806). -/
def simpBin {α : Type} (op : BOp) (nl nr : Node α) (ml mr : Sres α) : Sres α :=
  match op with
  | .equiv => simpEquiv nl nr ml mr
  | .nequiv => simpNequiv nl nr ml mr
  | .imply => simpImply nl nr ml
  | .nimply => simpNimply nl nr mr
  | .and => simpAnd nl nr
  | .nand => simpNand nl nr ml mr
  | .or => simpOr nl nr
  | .nor => simpNor nl nr ml mr

/-- Simplify (fd_bool_c.c:378-809); `pos`: the sign is 1.  An integer is converted to a C `int`
before the test (fd_bool_c.c:414-416). -/
def simplify {α : Type} : Ex α → Bool → Sres α
  | .var n, pos => some (if pos then .var n else .not n, [n])
  | .int k, pos =>
    if k % 2 ^ 32 = 0 then some (if pos then .zero else .one, [])
    else if k % 2 ^ 32 = 1 then some (if pos then .one else .zero, [])
    else none
  | .bad, _ => none
  | .not e, pos => simplify e (!pos)
  | .cmp op full a b, pos => some (cmpNode (if pos then op else op.flip) full a b, [])
  | .bin op l r, pos =>
    match simplify l true, simplify r true with
    | some (nl, vl), some (nr, vr) =>
      (simpBin (if pos then op else op.flip) nl nr (simplify l false) (simplify r false)).map
        fun m => (m.1, vl ++ vr ++ m.2)
    | _, _ => none

/-- The words of the variables: those of the user and the new ones
(`Pl_Fd_New_Bool_Variable`). -/
inductive W where
  | user (n : Nat)
  | new (k : Nat)
deriving DecidableEq, Repr

/-- The result of the loading of two arithmetic expressions (C48): `l + c` on the left and `r` on
the right; `mask` tells which words there are. -/
structure LR (ω : Type) where
  c : Int
  l : Option ω
  r : Option ω

/-- The primitive constraints (fd_bool_fd.fd:105-700); `bool` is `Pl_Fd_Check_For_Bool_Var` or the
creation of a boolean variable, `int` is `Pl_Get_Integer`, `same` is `Pl_Fd_Math_Unify_X_Y`, `cmp` the
four constraints of fd_math_c.c, `load` the constraints which load two expressions. -/
inductive Prim (α ω : Type) where
  | bool (x : W)
  | int (x : W) (k : Int)
  | same (x y : W)
  | notEq (x b : W)
  | tri (op : BOp) (x y b : W)
  | imply1 (x y : W)
  | and0 (x y : W)
  | or1 (x y : W)
  | cmp (op : NOp) (full : Bool) (a b : α)
  | load (a b : α) (w : LR ω)
  | eqC (full : Bool) (x : ω) (c : Int) (b : W)
  | eqY (full : Bool) (x y : ω) (b : W)
  | plusEqY (full : Bool) (x : ω) (c : Int) (y : ω) (b : W)
  | neqC (full : Bool) (x : ω) (c : Int) (b : W)
  | neqY (full : Bool) (x y : ω) (b : W)
  | plusNeqY (full : Bool) (x : ω) (c : Int) (y : ω) (b : W)
  | ltY (x y : ω) (b : W)
  | lteC (x : ω) (c : Int) (b : W)
  | lteY (x y : ω) (b : W)
  | plusLteY (x : ω) (c : Int) (y : ω) (b : W)
  | gteC (x : ω) (c : Int) (b : W)
  | plusGteY (x : ω) (c : Int) (y : ω) (b : W)

/-- The constraints posted and the number of new boolean variables. -/
structure St (α ω : Type) where
  posted : List (Prim α ω)
  next : Nat

/-- Outcome: `ub` is the use of a word which has not been set. -/
inductive Out (α ω β : Type) where
  | ok (b : β) (st : St α ω)
  | fail
  | ub

def Out.bind {α ω β δ : Type} (r : Out α ω β) (f : β → St α ω → Out α ω δ) : Out α ω δ :=
  match r with
  | .ok b st => f b st
  | .fail => .fail
  | .ub => .ub

def St.post {α ω : Type} (st : St α ω) (l : List (Prim α ω)) : St α ω := { st with posted := st.posted ++ l }

/-- `Tag_REF(Pl_Fd_New_Bool_Variable())`. -/
def St.newBool {α ω : Type} (st : St α ω) : St α ω :=
  ⟨st.posted ++ [.bool (.new st.next)], st.next + 1⟩

/-- The comparison which is posted for the given truth value (Set_Eq, Set_Neq, Set_Lt, Set_Lte: fd_bool_c.c:1288-1292,
1360-1364, 1433-1437, 1505-1509). -/
def cmpSet {α ω : Type} (op : NOp) (full : Bool) (a b : α) (v : Bool) : Prim α ω :=
  match op, v with
  | .eq, true => .cmp .eq full a b
  | .eq, false => .cmp .neq full a b
  | .neq, true => .cmp .neq full a b
  | .neq, false => .cmp .eq full a b
  | .lt, true => .cmp .lt full a b
  | .lt, false => .cmp .lte full b a
  | .lte, true => .cmp .lte full a b
  | .lte, false => .cmp .lt full b a

/-- The constraint between the loaded expressions and the truth value `b`: Set_Eq, Set_Neq, Set_Lt
and Set_Lte with result 2 (fd_bool_c.c:1294-1340, 1366-1413, 1439-1485, 1511-1560). -/
def cmpTruth {α ω : Type} (op : NOp) (full : Bool) (w : LR ω) (b : W) : Prim α ω :=
  match op, w.l, w.r with
  | .eq, none, none => .int b (if w.c = 0 then 1 else 0)
  | .eq, some l, none => if w.c > 0 then .int b 0 else .eqC full l (-w.c) b
  | .eq, none, some r => if w.c < 0 then .int b 0 else .eqC full r w.c b
  | .eq, some l, some r =>
    if w.c > 0 then .plusEqY full l w.c r b
    else if w.c < 0 then .plusEqY full r (-w.c) l b
    else .eqY full l r b
  | .neq, none, none => .int b (if w.c ≠ 0 then 1 else 0)
  | .neq, some l, none => if w.c > 0 then .int b 1 else .neqC full l (-w.c) b
  | .neq, none, some r => if w.c < 0 then .int b 1 else .neqC full r w.c b
  | .neq, some l, some r =>
    if w.c > 0 then .plusNeqY full l w.c r b
    else if w.c < 0 then .plusNeqY full r (-w.c) l b
    else .neqY full l r b
  | .lt, none, none => .int b (if w.c < 0 then 1 else 0)
  | .lt, some l, none => if w.c ≥ 0 then .int b 0 else .lteC l (-w.c - 1) b
  | .lt, none, some r => if w.c < 0 then .int b 1 else .gteC r (w.c + 1) b
  | .lt, some l, some r =>
    if w.c > 0 then .plusLteY l (w.c + 1) r b
    else if w.c < 0 then .plusGteY r (-w.c - 1) l b
    else .ltY l r b
  | .lte, none, none => .int b (if w.c ≤ 0 then 1 else 0)
  | .lte, some l, none => if w.c > 0 then .int b 0 else .lteC l (-w.c) b
  | .lte, none, some r => if w.c ≤ 0 then .int b 1 else .gteC r w.c b
  | .lte, some l, some r =>
    if w.c > 0 then .plusLteY l w.c r b
    else if w.c < 0 then .plusGteY r (-w.c) l b
    else .lteY l r b

/-- The end of Set_Equiv, Set_Nequiv, ..., Set_Nor with result 2 (e.g. fd_bool_c.c:1066-1068). -/
def triPost {α ω : Type} (op : BOp) (x y : W) (st : St α ω) : Out α ω W :=
  .ok (.new st.next) (st.newBool.post [.bool x, .bool y, .tri op x y (.new st.next)])

/-- Load_Bool_Into_Word with result 2: the word with the truth value of a node
(fd_bool_c.c:942-957, 965-1014, 1025-1038 and the ends of the functions Set_...).  For ZERO and ONE
the code unifies the word, which has not been set. -/
def loadW {α ω : Type} (lr : α → α → Option (LR ω)) : Node α → St α ω → Out α ω W
  | .zero, _ => .ub
  | .one, _ => .ub
  | .var x, st => .ok (.user x) st
  | .not x, st =>
    .ok (.new st.next) (st.newBool.post [.bool (.user x), .bool (.new st.next), .notEq (.user x) (.new st.next)])
  | .bin op l r, st =>
    (loadW lr l st).bind fun x st => (loadW lr r st).bind fun y st => triPost op x y st
  | .cmp op full a b, st =>
    match lr a b with
    | none => .fail
    | some w => .ok (.new st.next) (st.newBool.post [.load a b w, cmpTruth op full w (.new st.next)])

/-- The operator on which Set_Nequiv, Set_Nimply, Set_Nand and Set_Nor call the function of the
opposite operator with `1 - result` (fd_bool_c.c:1083-1084, 1140-1141, 1197-1198, 1254-1255), and the result. -/
def setOp (op : BOp) (v : Bool) : BOp × Bool :=
  match op with
  | .nequiv => (.equiv, !v)
  | .nimply => (.imply, !v)
  | .nand => (.and, !v)
  | .nor => (.or, !v)
  | op => (op, v)

/-- Load_Bool_Into_Word with result 0 or 1: a node is made false or true (Set_Zero, Set_One, Set_Var,
Set_Not, Set_Equiv, Set_Imply, Set_And, Set_Or: fd_bool_c.c:942-1267). -/
def setTo {α ω : Type} (lr : α → α → Option (LR ω)) : Node α → Bool → St α ω → Out α ω Unit
  | .zero, v, st => if v then .fail else .ok () st
  | .one, v, st => if v then .ok () st else .fail
  | .var x, v, st => .ok () (st.post [.int (.user x) (if v then 1 else 0)])
  | .not x, v, st => .ok () (st.post [.int (.user x) (if v then 0 else 1)])
  | .cmp op full a b, v, st => .ok () (st.post [cmpSet op full a b v])
  | .bin op l r, v, st =>
    match setOp op v with
    | (.imply, false) => (setTo lr l true st).bind fun _ st => setTo lr r false st
    | (.and, true) => (setTo lr l true st).bind fun _ st => setTo lr r true st
    | (.or, false) => (setTo lr l false st).bind fun _ st => setTo lr r false st
    | (op1, v1) =>
      (loadW lr l st).bind fun x st => (loadW lr r st).bind fun y st =>
        match op1, v1 with
        | .equiv, true => .ok () (st.post [.same x y])
        | .equiv, false => .ok () (st.post [.bool x, .bool y, .notEq x y])
        | .imply, _ => .ok () (st.post [.bool x, .bool y, .imply1 x y])
        | .and, _ => .ok () (st.post [.bool x, .bool y, .and0 x y])
        | _, _ => .ok () (st.post [.bool x, .bool y, .or1 x y])

/-- Pl_Fd_Bool_Meta_3 (fd_bool_c.c:291-337); `none` is a type error.  Each variable of `vars_tbl` is made boolean,
from the last one. -/
def post {α ω : Type} (lr : α → α → Option (LR ω)) (e : Ex α) (st : St α ω) : Option (Out α ω Unit) :=
  (simplify e true).map fun m =>
    (setTo lr m.1 true st).bind fun _ st => .ok () (st.post (m.2.reverse.map fun x => .bool (.user x)))

end Gp.FdBool
