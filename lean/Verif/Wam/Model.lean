import Verif.Heap.Model
/-
Model of the control part of the abstract machine: /repo/src/EnginePl/wam_inst.c (choice points,
environments, cut, trail) with the macros of wam_inst.h.

Words of the frames which hold addresses or code pointers are represented by `.int`. The trail is a list of
records (its top first) instead of a sequence of words; `trLen` gives the number of words.
The data outside the stacks which is restored by the function calls of the trail (`TFC`, used by
g_assignb) is a parameter `X`, `fc` gives the effect of these functions.
Stack overflow tests are not modelled.
-/
namespace Gp.Wam
open Gp.Heap

/-- Registers and stacks (wam_archi.def:58-77). -/
structure M (X : Type) where
  mem : Mem
  trail : List TrRec
  h : Nat
  hb1 : Nat
  b : Nat
  e : Nat
  cp : Nat
  cs : Nat
  lssa : Nat
  stamp : Int
  areg : Nat → Cell
  ext : X

variable {X : Type}

/-- `Mem_Word_Cpy` (wam_inst.h:555-566); the C loop needs at least one word. -/
def setMany (m : Mem) (a : Adr) : List Cell → Mem
  | [] => m
  | w :: ws => setMany (m.set a w) (a + 1) ws

/-- The words read by `Mem_Word_Cpy`. -/
def getMany (m : Mem) (a : Adr) : Nat → List Cell
  | 0 => []
  | n + 1 => m a :: getMany m (a + 1) n

/-- A word which holds an address. -/
def rd (m : Mem) (a : Adr) : Nat :=
  match m a with
  | .int z => z.toNat
  | _ => 0

/-- Number of words of a trail record (wam_inst.h:492-529). -/
def recLen : TrRec → Nat
  | .uv _ => 1
  | .ov _ _ => 2
  | .mv _ ws => ws.length + 2
  | .fc _ args => args.length + 3

/-- `TR - Trail_Stack`. -/
def trLen : List TrRec → Nat
  | [] => 0
  | r :: t => recLen r + trLen t

/-- `Pl_Untrail` (wam_inst.c:1724-1759): effect on the memory of one record. -/
def undo1 (m : Mem) : TrRec → Mem
  | .uv a => m.set a (.ref a)
  | .ov a w => m.set a w
  | .mv a ws => setMany m a ws
  | .fc _ _ => m

/-- `Pl_Untrail` (wam_inst.c:1724-1759): effect outside the stacks of one record. -/
def undoExt1 (fc : Nat → List Cell → X → X) (x : X) : TrRec → X
  | .fc f args => fc f args x
  | _ => x

/-- `Pl_Untrail` (wam_inst.c:1724-1759). -/
def untrail (fc : Nat → List Cell → X → X) (low : Nat) : List TrRec → Mem → X → List TrRec × Mem × X
  | [], m, x => ([], m, x)
  | r :: t, m, x =>
    if trLen (r :: t) > low then untrail fc low t (undo1 m r) (undoExt1 fc x r) else (r :: t, m, x)

/-- `Local_Top` (wam_archi.def:118). -/
def M.localTop (m : M X) : Nat := if m.b ≥ m.e then m.b else m.e

/-- Save the argument registers: `AB(cur_B, i) = A(i)` (wam_inst.c:1457-1458; wam_inst.h:81). -/
def saveArgs (m : Mem) (b : Nat) (areg : Nat → Cell) : Nat → Mem
  | 0 => m
  | n + 1 => (saveArgs m b areg n).set (b - 8 - n) (areg n)

/-- `CREATE_CHOICE_COMMON_PART` (wam_inst.c:1404-1418) and `Pl_Create_Choice_Point` (1451-1515; the versions
for arities 0 to 4 are the unrolled loop). -/
def create (m : M X) (alt arity : Nat) : M X :=
  let b := m.localTop + 7 + arity
  let mem := m.mem.set (b - 1) (.int alt)
  let mem := mem.set (b - 2) (.int m.cp)
  let mem := mem.set (b - 3) (.int m.e)
  let mem := mem.set (b - 4) (.int m.b)
  let mem := mem.set (b - 5) (.int m.h)
  let mem := mem.set (b - 6) (.int (trLen m.trail))
  let mem := mem.set (b - 7) (.int m.cs)
  { m with b := b, hb1 := m.h, stamp := m.stamp + 1, mem := saveArgs mem b m.areg arity }

/-- `A(i) = AB(cur_B, i)` for `i < arity` (wam_inst.c:1532-1533). -/
def loadArgs (mem : Mem) (b : Nat) (areg : Nat → Cell) (arity : Nat) : Nat → Cell :=
  fun i => if i < arity then mem (b - 8 - i) else areg i

/-- `UPDATE_DELETE_COMMON_PART` (wam_inst.c:1423-1431). -/
def backCommon (fc : Nat → List Cell → X → X) (m : M X) : M X :=
  let u := untrail fc (rd m.mem (m.b - 6)) m.trail m.mem m.ext
  { m with trail := u.1, mem := u.2.1, ext := u.2.2,
           cp := rd u.2.1 (m.b - 2), h := rd u.2.1 (m.b - 5), e := rd u.2.1 (m.b - 3), cs := rd u.2.1 (m.b - 7) }

/-- `UPDATE_CHOICE_COMMON_PART` (wam_inst.c:1435-1438) and `Pl_Update_Choice_Point` (1526-1589). -/
def update (fc : Nat → List Cell → X → X) (m : M X) (alt arity : Nat) : M X :=
  let m' := backCommon fc m
  let mem := m'.mem.set (m.b - 1) (.int alt)
  { m' with mem := mem, hb1 := m'.h, areg := loadArgs mem m.b m.areg arity }

/-- `Assign_B` (wam_inst.h:534). -/
def M.assignB (m : M X) (b : Nat) : M X := { m with b := b, hb1 := rd m.mem (b - 5) }

/-- `DELETE_CHOICE_COMMON_PART` (wam_inst.c:1442-1445) and `Pl_Delete_Choice_Point` (1600-1673). -/
def delete (fc : Nat → List Cell → X → X) (m : M X) (arity : Nat) : M X :=
  let m' := backCommon fc m
  let m'' := m'.assignB (rd m'.mem (m.b - 4))
  { m'' with stamp := m''.stamp - 1, areg := loadArgs m'.mem m.b m.areg arity }

/-- `Pl_Cut` (wam_inst.c:1302-1306). -/
def cut (m : M X) (b : Nat) : M X := m.assignB b

/-- `Pl_Soft_Cut` (wam_inst.c:1331-1346): the loop, with `n` turns at most. -/
def softCutLoop (mem : Mem) (kill : Nat) : Nat → Nat → Mem
  | 0, _ => mem
  | n + 1, cur =>
    let prev := rd mem (cur - 4)
    if prev = kill then mem.set (cur - 4) (.int (rd mem (kill - 4)))
    else if cur < kill then mem
    else softCutLoop mem kill n prev

/-- `Pl_Soft_Cut` (wam_inst.c:1316-1347). -/
def softCut (m : M X) (kill : Nat) : M X :=
  if m.b = kill then m.assignB (rd m.mem (m.b - 4))
  else { m with mem := softCutLoop m.mem kill (m.b + 1) m.b }

/-- `Pl_Allocate` (wam_inst.c:1024-1035). -/
def allocate (m : M X) (n : Nat) : M X :=
  let e := m.localTop + 2 + n
  { m with e := e, mem := (m.mem.set (e - 1) (.int m.cp)).set (e - 2) (.int m.e) }

/-- `Pl_Deallocate` (wam_inst.c:1057-1064). -/
def deallocate (m : M X) : M X := { m with cp := rd m.mem (m.e - 1), e := rd m.mem (m.e - 2) }

/-- `Word_Needs_Trailing` (wam_inst.h:451-452). -/
def M.needsTrailing (m : M X) (a : Adr) : Bool := decide (a < m.hb1) || (decide (m.lssa ≤ a) && decide (a < m.b))

/-- `Bind_UV` (wam_inst.h:456-463). -/
def bindUV (m : M X) (a : Adr) (w : Cell) : M X :=
  { m with trail := if m.needsTrailing a then .uv a :: m.trail else m.trail, mem := m.mem.set a w }

/-- `Bind_OV` (wam_inst.h:468-475). -/
def bindOV (m : M X) (a : Adr) (w : Cell) : M X :=
  { m with trail := if m.needsTrailing a then .ov a (m.mem a) :: m.trail else m.trail, mem := m.mem.set a w }

/-- `Bind_MV` (wam_inst.h:480-487). -/
def bindMV (m : M X) (a : Adr) (ws : List Cell) : M X :=
  { m with trail := if m.needsTrailing a then .mv a (getMany m.mem a ws.length) :: m.trail else m.trail,
           mem := setMany m.mem a ws }

/-- `Trail_FC` (wam_inst.h:519-529) by g_assignb (G_Trail_For_Backtrack, BipsPl/g_var_inl_c.c:1152-1174): the
external data becomes `x`. -/
def trailFC (m : M X) (f : Nat) (args : List Cell) (x : X) : M X :=
  { m with trail := .fc f args :: m.trail, ext := x }

/-- `Global_Push` (wam_inst.h:181). -/
def push (m : M X) (w : Cell) : M X := { m with mem := m.mem.set m.h w, h := m.h + 1 }

/-- An assignment without trailing, as the first assignment of a permanent variable
(wam_inst.c: Pl_Get_Y_Variable, Pl_Put_Y_Variable) or setarg/4 with `undo = false`
(BipsPl/term_inl_c.c:513). -/
def store (m : M X) (a : Adr) (w : Cell) : M X := { m with mem := m.mem.set a w }

/-- `Pl_Reset_Prolog` (engine.c:249-262): `lssa` is the address of the local stack, `h` the start of the
global stack. -/
def reset (mem : Mem) (h lssa cs fail : Nat) (areg : Nat → Cell) (x : X) : M X :=
  create { mem, trail := [], h, hb1 := 0, b := lssa, e := lssa, cp := 0, cs, lssa, stamp := 0, areg, ext := x } fail 0

end Gp.Wam
