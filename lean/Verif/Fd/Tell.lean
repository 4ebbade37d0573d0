import Verif.FdRange.Model
/-
Model of the restriction of a finite domain variable: the `Pl_Fd_Tell_...` functions (EngineFD/fd_inst.c:1026-1308) and the macros
they use (fd_inst.c:260-364). 64-bit little-endian machine, `int` of 32 bits.

The frame of a variable (fd_inst.h:45-73) is reduced to its value, its number of elements and its range; the trail is in
`Verif.Fd.Trail`, the chains and the queue are in `Verif.Fd.Queue`. Vectors are values: the allocation on the constraint stack is not
modelled. A message of `Pl_Fd_Display_Extra_Cstr` is the flag `warn`.
-/
namespace Gp.Fd

open Gp.FdRange

/-- The propagation events, one bit per chain (fd_inst.h:107-112). -/
structure Ev where
  min : Bool
  max : Bool
  minMax : Bool
  dom : Bool
  val : Bool
deriving DecidableEq

/-- `MASK_EMPTY` (fd_inst.h:107). -/
def Ev.empty : Ev := ⟨false, false, false, false, false⟩

/-- The union of two masks (fd_inst.c:1329). -/
def Ev.or (a b : Ev) : Ev := ⟨a.min || b.min, a.max || b.max, a.minMax || b.minMax, a.dom || b.dom, a.val || b.val⟩

/-- A mask which is not 0. -/
def Ev.any (a : Ev) : Bool := a.min || a.max || a.minMax || a.dom || a.val

/-- A variable: `FD_Tag_Value` (`some n` for Tag_INT(n), `none` for Tag_FDV), `Nb_Elem` and `Range` (fd_inst.h:57-66). -/
structure Fdv where
  tag : Option Int
  nb : Int
  r : Range
deriving DecidableEq

/-- The result of a tell: the boolean, the variable, the events given to `All_Propagations`, whether a warning is displayed. -/
structure Res where
  ok : Bool
  v : Fdv
  ev : Ev
  warn : Bool
deriving DecidableEq

/-- `Fd_Variable_Is_Ground` (fd_inst.h:159). -/
def Fdv.ground (v : Fdv) : Bool := v.tag.isSome

/-- `Pl_Fd_New_Variable_Interval` (fd_inst.c:836-866). -/
def newInterval (min max : Int) : Fdv := ⟨none, max - min + 1, initInterval min max⟩

/-- `Pl_Fd_New_Int_Variable` (fd_inst.c:903-920). -/
def newInt (n : Int) : Fdv := ⟨some n, 1, initInterval n n⟩

/-- `Update_Range_From_Int` (fd_inst.c:260-286): the events. -/
def intEv (v : Fdv) (n : Int) : Ev := ⟨decide (v.r.min ≠ n), decide (v.r.max ≠ n), true, true, true⟩

/-- `Update_Range_From_Int` (fd_inst.c:260-286): the variable. -/
def setInt (v : Fdv) (n : Int) : Fdv := ⟨some n, 1, ⟨v.r.extra, n, n, none⟩⟩

/-- `Update_Interval_From_Interval` (fd_inst.c:291-316): the events. -/
def intervalEv (v : Fdv) (nb min max : Int) : Ev :=
  if v.nb ≠ nb then ⟨decide (v.r.min ≠ min), decide (v.r.max ≠ max), true, true, false⟩ else Ev.empty

/-- `Update_Interval_From_Interval` (fd_inst.c:291-316): the variable. -/
def setInterval (v : Fdv) (nb min max : Int) : Fdv :=
  if v.nb ≠ nb then ⟨v.tag, nb, ⟨v.r.extra, min, max, v.r.vec⟩⟩ else v

/-- The first events of `Update_Range_From_Range` (fd_inst.c:332-345). -/
def rangeEv (v : Fdv) (nb : Int) (range : Range) : Ev :=
  ⟨decide (v.r.min ≠ range.min), decide (v.r.max ≠ range.max), decide (v.r.min ≠ range.min) || decide (v.r.max ≠ range.max),
    decide (v.nb ≠ nb), false⟩

/-- `Update_Range_From_Range` (fd_inst.c:325-362). In the last case a whole word (64 bits) is written at the address of
`extra_cstr`, which is an `int` followed by the `int` `min` (fd_range.h:54-61): `min` receives the high part of the word, which is 0. -/
def updRange (v : Fdv) (nb : Int) (range : Range) : Fdv × Ev :=
  if (rangeEv v nb range).any || (v.r.vec.isNone && range.vec.isSome) then (⟨v.tag, nb, copy range⟩, rangeEv v nb range)
  else if v.r.extra ≠ range.extra then
    (⟨v.tag, v.nb, ⟨range.extra, 0, v.r.max, v.r.vec⟩⟩, (rangeEv v nb range).or ⟨false, false, false, true, false⟩)
  else (v, rangeEv v nb range)

/-- `Pl_Fd_Tell_Value` (fd_inst.c:1027-1046). -/
def tellValue (c : Cfg) (v : Fdv) (n : Int) : Res :=
  if testValue v.r n = false then ⟨false, v, Ev.empty, v.r.extra && decide (n > c.vmax)⟩
  else if v.ground then ⟨true, v, Ev.empty, false⟩
  else ⟨true, setInt v n, intEv v n, false⟩

/-- The end of `Pl_Fd_Tell_Not_Value` (fd_inst.c:1112-1150): sparse or n == min or n == max. -/
def removeValue (c : Cfg) (v : Fdv) (n : Int) : Res :=
  if v.nb = 2 then
    let m := if n = v.r.min then v.r.max else v.r.min
    ⟨true, setInt v m, intEv v m, false⟩
  else
    let vec := v.r.vec.map (fun w => resetV w n.toNat)
    if n = v.r.min then
      ⟨true, ⟨v.tag, v.nb - 1, ⟨v.r.extra, (match vec with | none => n + 1 | some w => vecNextAfter c w n), v.r.max, vec⟩⟩,
        ⟨true, false, true, true, false⟩, false⟩
    else if n = v.r.max then
      ⟨true, ⟨v.tag, v.nb - 1, ⟨v.r.extra, v.r.min, (match vec with | none => n - 1 | some w => vecNextBefore c w n), vec⟩⟩,
        ⟨false, true, true, true, false⟩, false⟩
    else ⟨true, ⟨v.tag, v.nb - 1, ⟨v.r.extra, v.r.min, v.r.max, vec⟩⟩, ⟨false, false, false, true, false⟩, false⟩

/-- `Pl_Fd_Tell_Not_Value` (fd_inst.c:1056-1151) from the label `start`; `again` is the `goto start`. -/
def notBody (c : Cfg) (n : Int) (again : Fdv → Res) (v : Fdv) : Res :=
  if testValue v.r n = false then ⟨true, v, Ev.empty, false⟩
  else if v.ground then ⟨false, v, Ev.empty, v.r.extra⟩
  else if v.r.vec = none ∧ n ≠ v.r.min ∧ n ≠ v.r.max then
    if v.r.min > c.vmax then ⟨false, v, Ev.empty, true⟩
    else if v.r.min = c.vmax then ⟨true, setInt v v.r.min, intEv v v.r.min, true⟩
    else
      let r' := becomesSparse c v.r
      let res := again ⟨v.tag, r'.max - r'.min + 1, r'⟩
      if r'.extra then ⟨res.ok, res.v, Ev.or ⟨false, true, true, true, false⟩ res.ev, res.warn⟩ else res
  else removeValue c v n

/-- `Pl_Fd_Tell_Not_Value` (fd_inst.c:1056-1151). There is at most one `goto start`: then the range is sparse. -/
def tellNotValue (c : Cfg) (v : Fdv) (n : Int) : Res :=
  notBody c n (notBody c n (fun v => ⟨false, v, Ev.empty, false⟩)) v

/-- `Pl_Fd_Tell_Int_Range` (fd_inst.c:1161-1174). -/
def tellIntRange (c : Cfg) (v : Fdv) (range : Range) : Res :=
  if testValue range v.r.min = false then ⟨false, v, Ev.empty, decide (v.r.min > c.vmax) && range.extra⟩
  else ⟨true, v, Ev.empty, false⟩

/-- `Pl_Fd_Tell_Interv_Interv` (fd_inst.c:1184-1212). -/
def tellIntervInterv (v : Fdv) (min max : Int) : Res :=
  let mn := if min ≥ v.r.min then min else v.r.min
  let mx := if max ≤ v.r.max then max else v.r.max
  if mn > mx then ⟨false, v, Ev.empty, false⟩
  else if mn = mx then ⟨true, setInt v mn, intEv v mn, false⟩
  else ⟨true, setInterval v (mx - mn + 1) mn mx, intervalEv v (mx - mn + 1) mn mx, false⟩

/-- `Pl_Fd_Tell_Range_Range` (fd_inst.c:1222-1261). -/
def tellRangeRange (c : Cfg) (v : Fdv) (range : Range) : Res :=
  let range := inter c range v.r
  if range.isEmpty then ⟨false, v, Ev.empty, range.extra⟩
  else if range.min = range.max then ⟨true, setInt v range.min, intEv v range.min, range.extra⟩
  else
    let (v', ev) := updRange v (nbElem range) range
    ⟨true, v', ev, false⟩

/-- `Pl_Fd_Tell_Interval` (fd_inst.c:1273-1291). -/
def tellInterval (c : Cfg) (v : Fdv) (min max : Int) : Res :=
  if v.ground then ⟨decide (v.r.min ≥ min) && decide (v.r.min ≤ max), v, Ev.empty, false⟩
  else if v.r.vec.isSome then tellRangeRange c v (initInterval min max)
  else tellIntervInterv v min max

/-- `Pl_Fd_Tell_Range` (fd_inst.c:1302-1308). -/
def tellRange (c : Cfg) (v : Fdv) (range : Range) : Res :=
  if v.ground then tellIntRange c v range else tellRangeRange c v range

/-- The tell of `Pl_Fd_Use_Vector` (fd_inst.c:1564-1583). -/
def useVector (c : Cfg) (v : Fdv) : Res :=
  if v.r.vec.isSome then ⟨true, v, Ev.empty, false⟩ else tellRangeRange c v (becomesSparse c (initInterval 0 imax))

/-- The tells of `Pl_Fd_Check_For_Bool_Var` for a FD variable (fd_inst.c:1617-1646). -/
def checkBool (c : Cfg) (v : Fdv) : Res :=
  if v.r.min > 1 then ⟨false, v, Ev.empty, false⟩
  else if v.r.max ≤ 1 then ⟨true, v, Ev.empty, false⟩
  else if v.r.min = 1 then tellValue c v 1
  else if testValue v.r 1 = false then tellValue c v 0
  else if v.r.vec.isSome then tellRangeRange c v (initInterval 0 1)
  else tellIntervInterv v 0 1

/-- The conversion `(int)` of an integer (unify.c:151,158, wam_inst.c:259,878, fd_inst.c:462), implementation defined: modulo 2^32. -/
def toInt32 (n : Int) : Int := (n + 2147483648) % 4294967296 - 2147483648

/-- `Pl_Fd_Unify_With_Integer0` (fd_inst.c:1517-1523) as it is called by the unification (unify.c:150-151, 154-158). -/
def unifyInt (c : Cfg) (v : Fdv) (n : Int) : Res := tellValue c v (toInt32 n)

/-- The operations on a variable. -/
inductive Op where
  | value (n : Int)
  | notValue (n : Int)
  | interval (min max : Int)
  | range (r : Range)

/-- The functions called by the compiled constraints (fd_to_c.h:280-327). -/
def tell (c : Cfg) (v : Fdv) : Op → Res
  | .value n => tellValue c v n
  | .notValue n => tellNotValue c v n
  | .interval min max => tellInterval c v min max
  | .range r => tellRange c v r

end Gp.Fd
