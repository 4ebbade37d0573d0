import Verif.Fd.Tell
/-
Model of the memory of the finite domain variables and of its trail: the conditional trailing with time stamps
(EngineFD/fd_inst.c:195-362), the frames on the constraint stack (fd_inst.h:43-155), the choice points and the trail
(EnginePl/wam_inst.c:1304-1346, 1404-1446, 1725-1759, wam_inst.h:492-514).

Simplifications. A cell is named by its field and the address of its frame, so that frames do not overlap by construction (in the
code a frame or a vector is a block of words taken on the top of the stack). Words are integers. The word which holds
`extra_cstr` and `min` is two cells, always saved and written together by `Trail_OV` / `FD_Bind_OV`. The queue fields of a variable are
in `Verif.Fd.Queue`. The source range of a copy is a value. Other entries of the trail (Prolog variables, functions) are in
`Verif.Wam`. There is no overflow of the stacks, nor of `STAMP`.
-/
namespace Gp.Fd.Trail

open Gp.FdRange Gp.Fd

/-- The words of the frames (fd_inst.h:56-73 for a variable, 134-135 for a chain record, 140-155 for a constraint frame) and of
the vectors (`word`, whose address is its own). -/
inductive Field where
  | tag | date | rstamp | nb | extra | min | max | vecp | cstamp | ncstr | mask | chain (i : Fin 5) | word | optim | af | cstr | cfp | next
deriving DecidableEq

/-- A word of memory: its field and its frame. -/
abbrev Loc := Field × Nat

/-- The contents of the memory. -/
abbrev Mem := Loc → Int

/-- A write. -/
def Mem.set (m : Mem) (l : Loc) (x : Int) : Mem := fun k => if k = l then x else m k

/-- An entry of the trail, the saved words: one or two for `Trail_OV`, several for `Trail_MV` (wam_inst.h:496-515). -/
abbrev Ent := List (Loc × Int)

/-- The part of a choice point which is used here: `CSB`, `HB` and `TRB` (wam_inst.c:1414-1416); `trb` is the number of entries. -/
structure Cp where
  csb : Nat
  hb : Nat
  trb : Nat

/-- The registers `CS`, `H`, `STAMP`, `DATE`, the trail (newest entry first), the chain of choice points from `B`.
`vars` is not in the code: the frames created by `Pl_Fd_New_Variable...` which are below `CS`. -/
structure St where
  mem : Mem
  cs : Nat
  hp : Nat
  stamp : Int
  date : Int
  trail : List Ent
  cps : List Cp
  vars : List Nat

/-- `CSB(B)`; 0 when there is no choice point. -/
def St.csb (st : St) : Nat := match st.cps with | [] => 0 | cp :: _ => cp.csb

/-- `Trail_OV`, `Trail_MV` (wam_inst.h:496-515): save the words `ls`. -/
def St.save (st : St) (ls : List Loc) : St := { st with trail := ls.map (fun l => (l, st.mem l)) :: st.trail }

/-- A write. -/
def St.wr (st : St) (l : Loc) (x : Int) : St := { st with mem := st.mem.set l x }

/-- `Tag_INT(n)` in the tag word; `Tag_FDV(adr)` is `fdvTag` (the address is not kept). -/
def intTag (n : Int) : Int := 2 * n + 1

/-- `Tag_FDV(fdv_adr)` (fd_inst.c:848). -/
def fdvTag : Int := 0

/-- `DATE_ALWAYS`, `DATE_NEVER` (fd_inst.c:167-168). -/
def dateAlways : Int := 1

@[inherit_doc dateAlways] def dateNever : Int := 0

/-- The words of `Trail_MV(fdv_adr + OFFSET_RANGE, RANGE_SIZE)` (fd_inst.h:49, 62-64). -/
def rangeLocs (v : Nat) : List Loc := [(.rstamp, v), (.nb, v), (.extra, v), (.min, v), (.max, v), (.vecp, v)]

/-- The words of a vector. -/
def vecLocs (size p : Nat) : List Loc := (List.range size).map (fun i => (Field.word, p + i))

/-- The words of `Trail_MV(fdv_adr + OFFSET_CHAINS, CHAINS_SIZE)` (fd_inst.h:52, 66-73). -/
def chainsLocs (v : Nat) : List Loc :=
  [(.cstamp, v), (.ncstr, v), (.mask, v), (.chain 0, v), (.chain 1, v), (.chain 2, v), (.chain 3, v), (.chain 4, v)]

/-- `Vec(fdv_adr)`: the address of the vector, 0 for NULL. -/
def St.vecAdr (st : St) (v : Nat) : Nat := (st.mem (.vecp, v)).toNat

/-- `Trail_Range_If_Necessary` (fd_inst.c:229-241). -/
def trailRange (c : Cfg) (st : St) (v : Nat) : St :=
  if st.mem (.rstamp, v) ≠ st.stamp then
    let st1 := st.save (rangeLocs v)
    let st2 := if st1.vecAdr v ≠ 0 then st1.save (vecLocs c.size (st1.vecAdr v)) else st1
    st2.wr (.rstamp, v) st2.stamp
  else st

/-- `Trail_Fd_Int_Variable_If_Necessary` (fd_inst.c:214-224). -/
def trailInt (c : Cfg) (st : St) (v : Nat) : St :=
  if v < st.csb then trailRange c ((st.save [(.tag, v)]).save [(.date, v)]) v else st

/-- `Trail_Chains_If_Necessary` (fd_inst.c:246-255). -/
def trailChains (st : St) (v : Nat) : St :=
  if st.mem (.cstamp, v) ≠ st.stamp then (st.save (chainsLocs v)).wr (.cstamp, v) st.stamp else st

/-- The assignments of `Update_Range_From_Int` (fd_inst.c:266-286), after the trailing. -/
def intWrites (st : St) (v : Nat) (n : Int) : St :=
  (((((st.wr (.nb, v) 1).wr (.min, v) n).wr (.max, v) n).wr (.vecp, v) 0).wr (.tag, v) (intTag n)).wr (.date, v) st.date

/-- `Update_Range_From_Int` (fd_inst.c:260-288). -/
def updInt (c : Cfg) (st : St) (v : Nat) (n : Int) : St := intWrites (trailInt c st v) v n

/-- `Update_Interval_From_Interval` (fd_inst.c:293-319). -/
def updInterval (c : Cfg) (st : St) (v : Nat) (nb min max : Int) : St :=
  if st.mem (.nb, v) ≠ nb then (((trailRange c st v).wr (.nb, v) nb).wr (.min, v) min).wr (.max, v) max else st

/-- `Vector_Allocate_If_Necessary` on the field `vec` of the range of a variable (fd_range.h:217-234). -/
def allocVec (c : Cfg) (st : St) (v : Nat) : St :=
  if st.vecAdr v = 0 then { st with mem := st.mem.set (.vecp, v) st.cs, cs := st.cs + c.size } else st

/-- The writes of the words of a vector from the address `p` (`Pl_Vector_Copy`, `Pl_Vector_From_Interval`, fd_range.c:140-167, 382-389). -/
def writeVec (m : Mem) (p : Nat) : List (BitVec 64) → Mem
  | [] => m
  | w :: ws => writeVec (m.set (.word, p) w.toNat) (p + 1) ws

/-- A `Bool`. -/
def boolInt (b : Bool) : Int := if b then 1 else 0

/-- A `Bool` read from the memory. -/
def toBool (x : Int) : Bool := x != 0

/-- `Pl_Range_Copy` to the range of a variable (fd_range.c:863-876). -/
def rangeCopy (c : Cfg) (st : St) (v : Nat) (r : Range) : St :=
  let st1 := ((st.wr (.extra, v) (boolInt r.extra)).wr (.min, v) r.min).wr (.max, v) r.max
  match r.vec with
  | none => st1.wr (.vecp, v) 0
  | some ws =>
    let st2 := allocVec c st1 v
    { st2 with mem := writeVec st2.mem (st2.vecAdr v) ws }

/-- `FD_Bind_OV((WamWord *) &(r->extra_cstr), ...)` (fd_inst.c:202-209, 358): the whole word. -/
def bindExtra (st : St) (v : Nat) (b : Bool) : St :=
  let st1 := if v < st.csb then st.save [(.extra, v), (.min, v)] else st
  (st1.wr (.extra, v) (boolInt b)).wr (.min, v) 0

/-- `Update_Range_From_Range` (fd_inst.c:328-362). `extra_cstr` is 0 or 1, compared as a boolean. -/
def updRange (c : Cfg) (st : St) (v : Nat) (nb : Int) (r : Range) : St :=
  if st.mem (.min, v) ≠ r.min ∨ st.mem (.max, v) ≠ r.max ∨ st.mem (.nb, v) ≠ nb ∨ (st.vecAdr v = 0 ∧ r.vec.isSome) then
    rangeCopy c ((trailRange c st v).wr (.nb, v) nb) v r
  else if toBool (st.mem (.extra, v)) ≠ r.extra then bindExtra st v r.extra
  else st

/-- The words of a vector, read from the memory. -/
def readVec (m : Mem) (p size : Nat) : List (BitVec 64) := (List.range size).map (fun i => BitVec.ofInt 64 (m (.word, p + i)))

/-- `Range(fdv_adr)` read from the memory. -/
def rangeOf (c : Cfg) (m : Mem) (v : Nat) : Range :=
  ⟨toBool (m (.extra, v)), m (.min, v), m (.max, v),
    if (m (.vecp, v)).toNat = 0 then none else some (readVec m (m (.vecp, v)).toNat c.size)⟩

/-- `FD_Tag_Value(fdv_adr)` read from the memory. -/
def tagOf (x : Int) : Option Int := if x % 2 = 1 then some (x / 2) else none

/-- A variable read from the memory. -/
def fdvOf (c : Cfg) (m : Mem) (v : Nat) : Fdv := ⟨tagOf (m (.tag, v)), m (.nb, v), rangeOf c m v⟩

/-- `Pl_Range_Becomes_Sparse(r); Nb_Elem(fdv_adr) = ...` after the trailing, in `Pl_Fd_Tell_Not_Value` (fd_inst.c:1097-1099,
fd_range.c:987-999). -/
def toSparse (c : Cfg) (st : St) (v : Nat) : St :=
  let st1 := trailRange c st v
  let r := becomesSparse c (rangeOf c st1.mem v)
  (rangeCopy c st1 v r).wr (.nb, v) (r.max - r.min + 1)

/-- `Vector_Reset_Value(r->vec, n)` (fd_range.h:212): one word is written. -/
def resetWord (st : St) (v : Nat) (n : Nat) : St :=
  let l : Loc := (.word, st.vecAdr v + n / 64)
  st.wr l (((BitVec.ofInt 64 (st.mem l)) &&& ~~~ (1#64 <<< (n % 64))).toNat : Int)

/-- `Pl_Fd_Tell_Not_Value`, the removal of `n` (fd_inst.c:1122-1145). -/
def remove (c : Cfg) (st : St) (v : Nat) (n : Int) : St :=
  let min := st.mem (.min, v)
  let max := st.mem (.max, v)
  let st1 := trailRange c st v
  let st2 := if st1.vecAdr v ≠ 0 then resetWord st1 v n.toNat else st1
  let st3 := st2.wr (.nb, v) (st2.mem (.nb, v) - 1)
  let w := readVec st3.mem (st3.vecAdr v) c.size
  if n = min then st3.wr (.min, v) (if st3.vecAdr v = 0 then n + 1 else vecNextAfter c w n)
  else if n = max then st3.wr (.max, v) (if st3.vecAdr v = 0 then n - 1 else vecNextBefore c w n)
  else st3

/-- The assignments of `Pl_Fd_New_Variable_Interval` at the address `v` (fd_inst.c:848-862). -/
def varInit (st : St) (v : Nat) (min max : Int) : St :=
  let st1 := (st.wr (.tag, v) fdvTag).wr (.date, v) dateAlways
  let st2 := (((((st1.wr (.rstamp, v) st.stamp).wr (.nb, v) (max - min + 1)).wr (.extra, v) 0).wr (.min, v) min).wr (.max, v) max).wr
    (.vecp, v) 0
  let st3 := ((st2.wr (.cstamp, v) st.stamp).wr (.ncstr, v) 0).wr (.mask, v) 0
  ((((st3.wr (.chain 0, v) 0).wr (.chain 1, v) 0).wr (.chain 2, v) 0).wr (.chain 3, v) 0).wr (.chain 4, v) 0

/-- `Pl_Fd_New_Variable_Interval` (fd_inst.c:836-866). `FD_VARIABLE_FRAME_SIZE` is 17. -/
def newVar (st : St) (min max : Int) : St :=
  let st1 := varInit st st.cs min max
  { st1 with cs := st.cs + 17, vars := st.cs :: st.vars }

/-- `Pl_Fd_New_Variable_Range` (fd_inst.c:886-893). -/
def newRange (c : Cfg) (st : St) (r : Range) (nb : Int) : St :=
  let st1 := newVar st 0 imax
  (rangeCopy c st1 st.cs r).wr (.nb, st.cs) nb

/-- `Pl_Fd_New_Int_Variable` (fd_inst.c:903-920). `FD_INT_VARIABLE_FRAME_SIZE` is 9. -/
def newIntVar (st : St) (n : Int) : St :=
  let st1 := (st.wr (.tag, st.cs) (intTag n)).wr (.date, st.cs) dateNever
  let st2 := (((((st1.wr (.rstamp, st.cs) st.stamp).wr (.nb, st.cs) 1).wr (.extra, st.cs) 0).wr (.min, st.cs) n).wr
    (.max, st.cs) n).wr (.vecp, st.cs) 0
  { st2 with cs := st.cs + 9 }

/-- `Pl_Fd_Create_C_Frame` (fd_inst.c:766-781) with the environment `af`, the address `fct` of the code, `opt` the date which is
pointed to; `v` is the variable of the constraint. -/
def newCstr (st : St) (af fct opt : Int) (v : Option Nat) : St :=
  let st1 := ((st.wr (.af, st.cs) af).wr (.optim, st.cs) opt).wr (.cstr, st.cs) fct
  let st2 := match v with
    | none => st1
    | some v => if tagOf (st.mem (.tag, v)) = none then st1.wr (.ncstr, v) (st1.mem (.ncstr, v) + 1) else st1
  { st2 with cs := st.cs + 3 }

/-- `Pl_Fd_Add_Dependency` (fd_inst.c:791-810) with the constraint frame `cf` on the chain `i`. -/
def addDep (st : St) (v : Nat) (i : Fin 5) (cf : Int) : St :=
  if tagOf (st.mem (.tag, v)) ≠ none then st
  else
    let st1 := trailChains st v
    let st2 := st1.wr (.mask, v) ((BitVec.ofInt 64 (st1.mem (.mask, v)) ||| (1#64 <<< i.val)).toNat : Int)
    let st3 := ((st2.wr (.cfp, st.cs) cf).wr (.next, st.cs) (st2.mem (.chain i, v))).wr (.chain i, v) st.cs
    { st3 with cs := st.cs + 2 }

/-- `Pl_Fd_Stop_Constraint` (fd_inst.c:1446-1451): `FD_Bind_OV` on the pointer of the constraint frame. -/
def stopCstr (st : St) (cf : Nat) (x : Int) : St :=
  let st1 := if cf < st.csb then st.save [(.optim, cf)] else st
  st1.wr (.optim, cf) x

/-- `Pl_Create_Choice_Point` (wam_inst.c:1404-1418). -/
def create (st : St) : St :=
  { st with cps := ⟨st.cs, st.hp, st.trail.length⟩ :: st.cps, stamp := st.stamp + 1 }

/-- One iteration of `Pl_Untrail` (wam_inst.c:1742-1750). -/
def undoEnt : Ent → Mem → Mem
  | [], m => m
  | (l, o) :: e, m => undoEnt e (m.set l o)

/-- `Pl_Untrail` (wam_inst.c:1725-1759) on the entries above `TRB`. -/
def undo : List Ent → Mem → Mem
  | [], m => m
  | e :: t, m => undo t (undoEnt e m)

/-- `UPDATE_DELETE_COMMON_PART` (wam_inst.c:1423-1431). -/
def restore (st : St) : St :=
  match st.cps with
  | [] => st
  | cp :: _ =>
    let k := st.trail.length - cp.trb
    { st with mem := undo (st.trail.take k) st.mem, trail := st.trail.drop k, cs := cp.csb, hp := cp.hb,
              vars := st.vars.filter (fun v => decide (v < cp.csb)) }

/-- `Pl_Update_Choice_Point` (wam_inst.c:1436-1439). -/
def retry (st : St) : St := restore st

/-- `Pl_Delete_Choice_Point` (wam_inst.c:1443-1446). -/
def trust (st : St) : St :=
  let st1 := restore st
  { st1 with cps := st1.cps.tail, stamp := st1.stamp - 1 }

/-- `Pl_Cut` (wam_inst.c:1304-1307): the `k` newest choice points are forgotten. -/
def cut (st : St) (k : Nat) : St := { st with cps := st.cps.drop k }

/-- `Pl_Soft_Cut` (wam_inst.c:1318-1346): the choice point number `k` (0 is the newest) is unchained. -/
def softCut (st : St) (k : Nat) : St := { st with cps := st.cps.eraseIdx k }

/-- `Pl_Fd_Copy_Variable0` (fd_inst.c:1676-1693) as it is called by `Pl_Copy_Term_2` (term_inl_c.c:464-480, term_supp.c:404-421): the
new frame is on the top of the global stack. Only for an interval (the vector is then also put in the global stack). The global
stack is above the constraint stack (wam_archi.def:122-125, stacks_sigsegv.c:373-390). -/
def copyVar (st : St) (v : Nat) : St :=
  let a := st.hp
  let st1 := varInit st a (st.mem (.min, v)) (st.mem (.max, v))
  { (st1.wr (.nb, a) (st.mem (.nb, v))).wr (.extra, a) (st.mem (.extra, v)) with hp := a + 17 }

/-! ### The tells on the memory -/

/-- `Pl_Fd_Tell_Value` (fd_inst.c:1027-1046). -/
def tellValueM (c : Cfg) (st : St) (v : Nat) (n : Int) : St :=
  let f := fdvOf c st.mem v
  if testValue f.r n = false then st
  else if f.ground then st
  else updInt c st v n

/-- `Pl_Fd_Tell_Not_Value` (fd_inst.c:1056-1151) from the label `start`; `again` is the `goto start`. -/
def notBodyM (c : Cfg) (n : Int) (again : St → Nat → St) (st : St) (v : Nat) : St :=
  let f := fdvOf c st.mem v
  if testValue f.r n = false then st
  else if f.ground then st
  else if f.r.vec = none ∧ n ≠ f.r.min ∧ n ≠ f.r.max then
    if f.r.min > c.vmax then st
    else if f.r.min = c.vmax then updInt c st v f.r.min
    else again (toSparse c st v) v
  else if f.nb = 2 then updInt c st v (if n = f.r.min then f.r.max else f.r.min)
  else remove c st v n

/-- `Pl_Fd_Tell_Not_Value` (fd_inst.c:1056-1151). -/
def tellNotValueM (c : Cfg) (st : St) (v : Nat) (n : Int) : St := notBodyM c n (notBodyM c n (fun st _ => st)) st v

/-- `Pl_Fd_Tell_Interv_Interv` (fd_inst.c:1184-1212). -/
def tellIntervIntervM (c : Cfg) (st : St) (v : Nat) (min max : Int) : St :=
  let f := fdvOf c st.mem v
  let mn := if min ≥ f.r.min then min else f.r.min
  let mx := if max ≤ f.r.max then max else f.r.max
  if mn > mx then st
  else if mn = mx then updInt c st v mn
  else updInterval c st v (mx - mn + 1) mn mx

/-- `Pl_Fd_Tell_Range_Range` (fd_inst.c:1222-1261). -/
def tellRangeRangeM (c : Cfg) (st : St) (v : Nat) (range : Range) : St :=
  let range := inter c range (fdvOf c st.mem v).r
  if range.isEmpty then st
  else if range.min = range.max then updInt c st v range.min
  else updRange c st v (nbElem range) range

/-- The functions called by the compiled constraints (fd_to_c.h:280-327, fd_inst.c:1161-1174, 1273-1308). -/
def tellM (c : Cfg) (st : St) (v : Nat) : Gp.Fd.Op → St
  | .value n => tellValueM c st v n
  | .notValue n => tellNotValueM c st v n
  | .interval min max =>
    let f := fdvOf c st.mem v
    if f.ground then st
    else if f.r.vec.isSome then tellRangeRangeM c st v (initInterval min max)
    else tellIntervIntervM c st v min max
  | .range r => if (fdvOf c st.mem v).ground then st else tellRangeRangeM c st v r

end Gp.Fd.Trail
