import Verif.Arith.Model
/-
Model of the finite domain ranges (EngineFD/fd_range.c, fd_range.h), on a 64-bit machine (WORD_SIZE = 64).

A vector is the list of its words. The bounds of a range are C `int`s, they are integers here: the additions and subtractions of
bounds do not overflow for bounds up to fd_max_integer = 2^28 - 1 (fd_hook_range.h:44). The multiplications are checked: `none` is
an undefined behaviour (overflow, division by zero or access outside of a vector).
The stack RANGE_TOP_STACK is not modelled: a new vector has any content (`Cfg.junk`).
-/
namespace Gp.FdRange

open Gp.Tag (Word)
open Gp.Arith (lsb msb popcount)

abbrev Vec := List Word

/-- `pl_vec_size` and the content of the memory which is read without having been written: a new vector, and around a vector
(see `fromVector`). -/
structure Cfg where
  size : Nat
  junk : Vec
  after : Word
  below : Int

/-- `Pl_Define_Vector_Size` (fd_range.c:126-131): `pl_vec_size`. -/
def vecSize (maxVal : Nat) : Nat := maxVal / 64 + 1

/-- `pl_vec_max_integer` (fd_range.c:130). -/
def Cfg.vmax (c : Cfg) : Int := c.size * 64 - 1

/-- `INTERVAL_MAX_INTEGER` (fd_hook_range.h:44), TAG_SIZE = 3. -/
def imax : Int := 268435455

/-- `Range` (fd_range.h:54-61); `vec` is `none` for an interval. -/
structure Range where
  extra : Bool
  min : Int
  max : Int
  vec : Option Vec
deriving DecidableEq

/-- `Is_Empty` (fd_range.h:278). -/
def Range.isEmpty (r : Range) : Bool := r.min > r.max

/-- `Set_To_Empty` (fd_range.h:282). -/
def Range.setEmpty (r : Range) : Range := { r with max := -2147483648 }

/-- ALL_1 (fd_range.c:86). -/
def all1 : Word := BitVec.allOnes 64

/-! Vectors -/

/-- `Vector_Test_Value` (fd_range.h:202). -/
def tst (v : Vec) (n : Nat) : Bool := (v.getD (n / 64) 0#64 &&& (1#64 <<< (n % 64))) != 0#64

/-- `Vector_Set_Value` (fd_range.h:207); `none` outside of the vector. -/
def setV (v : Vec) (n : Int) : Option Vec :=
  if 0 ≤ n ∧ n.toNat / 64 < v.length then some (v.modify (n.toNat / 64) (fun w => w ||| (1#64 <<< (n.toNat % 64)))) else none

/-- `Vector_Reset_Value` (fd_range.h:212). -/
def resetV (v : Vec) (n : Nat) : Vec := v.modify (n / 64) (fun w => w &&& ~~~ (1#64 <<< (n % 64)))

/-- `Pl_Vector_From_Interval` (fd_range.c:140-167). -/
def vecFromInterval (size min max : Nat) : Vec :=
  let v := List.replicate (min / 64) 0#64 ++ List.replicate (max / 64 + 1 - min / 64) all1
    ++ List.replicate (size - (max / 64 + 1)) 0#64
  (v.modify (min / 64) (fun w => w &&& (all1 <<< (min % 64)))).modify (max / 64) (fun w => w &&& (all1 >>> (63 - max % 64)))

/-- `Pl_Vector_Nb_Elem` (fd_range.c:176-190). -/
def vecNbElem : Vec → Nat
  | [] => 0
  | w :: v => popcount w + vecNbElem v

/-- The inner loop of VECTOR_BEGIN_ENUM (fd_range.h:256-258): the elements of a word. -/
def enumWord : Nat → Word → Nat → List Nat
  | 0, _, _ => []
  | k + 1, w, e => if w &&& 1#64 != 0#64 then e :: enumWord k (w >>> 1) (e + 1) else enumWord k (w >>> 1) (e + 1)

/-- VECTOR_BEGIN_ENUM ... VECTOR_END_ENUM (fd_range.h:246-267): the elements, in the order of the loop. -/
def enumVec : Vec → Nat → List Nat
  | [], _ => []
  | w :: v, e => enumWord 64 w e ++ enumVec v (e + 64)

/-- `Pl_Vector_Ith_Elem` (fd_range.c:199-215). -/
def vecIth (v : Vec) (i : Int) : Int :=
  if i > 0 then (match (enumVec v 0)[(i - 1).toNat]? with | some e => e | none => -1) else -1

/-- The loop of `Pl_Vector_Next_After` (fd_range.c:255-261): from a word number, the first word which is not null. -/
def findUp : Vec → Nat → Option (Nat × Word)
  | [], _ => none
  | w :: v, i => if w != 0#64 then some (i, w) else findUp v (i + 1)

/-- `Pl_Vector_Next_After` (fd_range.c:224-267). -/
def vecNextAfter (c : Cfg) (v : Vec) (n : Int) : Int :=
  if n ≥ 0 then
    if n > c.vmax then -1
    else
      let wn := n.toNat / 64
      let bn := n.toNat % 64 + 1
      let word := if bn ≥ 64 then 0#64 else v.getD wn 0#64 &&& ~~~ ((1#64 <<< bn) - 1#64)
      match (if word != 0#64 then some (wn, word) else findUp (v.drop (wn + 1)) (wn + 1)) with
      | none => -1
      | some (i, w) => i * 64 + lsb w
  else
    match findUp v 0 with
    | none => -1
    | some (i, w) => i * 64 + lsb w

/-- The loop of `Pl_Vector_Next_Before` (fd_range.c:307-313) on the words below a word number, the highest first. -/
def findDown (v : Vec) : Nat → Option (Nat × Word)
  | 0 => none
  | i + 1 => if v.getD i 0#64 != 0#64 then some (i, v.getD i 0#64) else findDown v i

/-- `Pl_Vector_Next_Before` (fd_range.c:276-319). -/
def vecNextBefore (c : Cfg) (v : Vec) (n : Int) : Int :=
  if n ≤ c.vmax then
    if n < 0 then -1
    else
      let wn := n.toNat / 64
      let bn := n.toNat % 64
      let word := v.getD wn 0#64 &&& ((1#64 <<< bn) - 1#64)
      match (if word != 0#64 then some (wn, word) else findDown v wn) with
      | none => -1
      | some (i, w) => i * 64 + msb w
  else
    match findDown v c.size with
    | none => -1
    | some (i, w) => i * 64 + msb w

/-- `Pl_Vector_Full` (fd_range.c:345-353). -/
def vecFull (size : Nat) : Vec := List.replicate size all1

/-- `Pl_Vector_Empty` (fd_range.c:328-336). -/
def vecEmpty (size : Nat) : Vec := List.replicate size 0#64

/-- `Pl_Vector_Test_Null_Inter` (fd_range.c:362-374). -/
def vecNullInter : Vec → Vec → Bool
  | w :: v, w1 :: v1 => if w &&& w1 != 0#64 then false else vecNullInter v v1
  | _, _ => true

/-- `Pl_Vector_Union` (fd_range.c:398-406). -/
def vecUnion (v v1 : Vec) : Vec := List.zipWith (· ||| ·) v v1

/-- `Pl_Vector_Inter` (fd_range.c:415-423). -/
def vecInter (v v1 : Vec) : Vec := List.zipWith (· &&& ·) v v1

/-- `Pl_Vector_Compl` (fd_range.c:432-440). -/
def vecCompl (v : Vec) : Vec := v.map (~~~ ·)

/-- The inner loop of the operations on two vectors (fd_range.c:462-471, 498-506, 533-542, 712-721): `f` gives the value, the loop is left
(`goto loop1`) when `stop`; `none`: undefined. -/
def innerLoop (f : Int → Option Int) (stop : Int → Bool) : List Nat → Vec → Option Vec
  | [], v => some v
  | e :: l, v =>
    match f e with
    | none => none
    | some x =>
      if stop x then some v
      else
        match setV v x with
        | none => none
        | some v' => innerLoop f stop l v'

/-- The outer loop (fd_range.c:460-475, 496-510, 531-546). -/
def outerLoop (f : Int → Int → Option Int) (stop : Int → Bool) (l1 : List Nat) : List Nat → Vec → Option Vec
  | [], v => some v
  | e :: l, v =>
    match innerLoop (f e) stop l1 v with
    | none => none
    | some v' => outerLoop f stop l1 l v'

/-- An `int` product (undefined if it overflows). -/
def mul32 (x y : Int) : Option Int := if -2147483648 ≤ x * y ∧ x * y ≤ 2147483647 then some (x * y) else none

/-- `Pl_Vector_Add_Vector` (fd_range.c:449-476). -/
def vecAddVec (c : Cfg) (v v1 : Vec) : Option Vec :=
  outerLoop (fun x y => some (x + y)) (fun x => x > c.vmax) (enumVec v1 0) (enumVec v 0) (vecEmpty c.size)

/-- `Pl_Vector_Sub_Vector` (fd_range.c:485-511). -/
def vecSubVec (c : Cfg) (v v1 : Vec) : Option Vec :=
  outerLoop (fun x y => some (x - y)) (fun x => x < 0) (enumVec v1 0) (enumVec v 0) (vecEmpty c.size)

/-- `Pl_Vector_Mul_Vector` (fd_range.c:520-547). -/
def vecMulVec (c : Cfg) (v v1 : Vec) : Option Vec :=
  outerLoop mul32 (fun x => x > c.vmax) (enumVec v1 0) (enumVec v 0) (vecEmpty c.size)

/-- The inner loop of `Pl_Vector_Div_Vector` (fd_range.c:574-582). -/
def divLoop (e : Nat) : List Nat → Vec → Option Vec
  | [], v => some v
  | e1 :: l, v =>
    if e1 ≠ 0 ∧ e % e1 = 0 then
      match setV v (e / e1 : Nat) with
      | none => none
      | some v' => divLoop e l v'
    else divLoop e l v

/-- The outer loop of `Pl_Vector_Div_Vector` (fd_range.c:568-585). -/
def divOuter (l1 : List Nat) : List Nat → Vec → Option Vec
  | [], v => some v
  | e :: l, v =>
    match (if e = 0 then setV v 0 else divLoop e l1 v) with
    | none => none
    | some v' => divOuter l1 l v'

/-- `Pl_Vector_Div_Vector` (fd_range.c:556-586). -/
def vecDivVec (c : Cfg) (v v1 : Vec) : Option Vec := divOuter (enumVec v1 0) (enumVec v 0) (vecEmpty c.size)

/-- The inner loop of `Pl_Vector_Mod_Vector` (fd_range.c:608-616). -/
def modLoop (e : Nat) : List Nat → Vec → Option Vec
  | [], v => some v
  | e1 :: l, v =>
    if e1 ≠ 0 then
      match setV v (e % e1 : Nat) with
      | none => none
      | some v' => modLoop e l v'
    else modLoop e l v

/-- The outer loop of `Pl_Vector_Mod_Vector` (fd_range.c:606-618). -/
def modOuter (l1 : List Nat) : List Nat → Vec → Option Vec
  | [], v => some v
  | e :: l, v =>
    match modLoop e l1 v with
    | none => none
    | some v' => modOuter l1 l v'

/-- `Pl_Vector_Mod_Vector` (fd_range.c:595-619). -/
def vecModVec (c : Cfg) (v v1 : Vec) : Option Vec := modOuter (enumVec v1 0) (enumVec v 0) (vecEmpty c.size)

/-- The bit shift of `Pl_Vector_Add_Value` for n >= 0 (fd_range.c:655-661). -/
def shiftUp (b : Nat) : Vec → Word → Vec
  | [], _ => []
  | w :: v, rem => ((w <<< b) ||| rem) :: shiftUp b v (w >>> (64 - b))

/-- The bit shift for n < 0, from the last word (fd_range.c:683-689): the words and the last `rem`. -/
def shiftDown (b : Nat) : Vec → Vec × Word
  | [] => ([], 0#64)
  | w :: v =>
    let (v', rem) := shiftDown b v
    (((w >>> b) ||| rem) :: v', w <<< (64 - b))

/-- `Pl_Vector_Add_Value` (fd_range.c:628-692). The word shifts are `take` and `drop`; the bit shifts only concern the words from
`word_no` (n >= 0), resp. until `pl_vec_size - 1 - word_no` (n < 0). -/
def vecAddValue (size : Nat) (v : Vec) (n : Int) : Vec :=
  if n ≥ 0 then
    let wn := n.toNat / 64
    let bn := n.toNat % 64
    let v1 := if wn ≠ 0 then (List.replicate (Min.min wn size) 0#64 ++ v).take size else v
    if bn ≠ 0 then v1.take wn ++ shiftUp bn (v1.drop wn) 0#64 else v1
  else
    let wn := (-n).toNat / 64
    let bn := (-n).toNat % 64
    let v1 := if wn ≠ 0 then v.drop wn ++ List.replicate (Min.min wn size) 0#64 else v
    if bn ≠ 0 then (shiftDown bn (v1.take (size - wn))).1 ++ v1.drop (size - wn) else v1

/-- `(unsigned) x > (unsigned) pl_vec_max_integer` (e.g. fd_range.c:716). -/
def outside (c : Cfg) (x : Int) : Bool := x < 0 || x > c.vmax

/-- `Pl_Vector_Mul_Value` (fd_range.c:701-722). -/
def vecMulValue (c : Cfg) (v : Vec) (n : Int) : Option Vec :=
  innerLoop (fun e => mul32 e n) (outside c) (enumVec v 0) (vecEmpty c.size)

/-- The loop of `Pl_Vector_Div_Value` (fd_range.c:745-753). -/
def divValueLoop (n : Int) : List Nat → Vec → Option Vec
  | [], v => some v
  | e :: l, v =>
    if Int.tmod e n = 0 then
      match setV v (Int.tdiv e n) with
      | none => none
      | some v' => divValueLoop n l v'
    else divValueLoop n l v

/-- `Pl_Vector_Div_Value` (fd_range.c:731-754). -/
def vecDivValue (c : Cfg) (v : Vec) (n : Int) : Option Vec :=
  if n = 0 then some (vecEmpty c.size) else divValueLoop n (enumVec v 0) (vecEmpty c.size)

/-- The loop of `Pl_Vector_Mod_Value` (fd_range.c:777-783). -/
def modValueLoop (c : Cfg) (n : Int) : List Nat → Vec → Option Vec
  | [], v => some v
  | e :: l, v =>
    if outside c (Int.tmod e n) then modValueLoop c n l v
    else
      match setV v (Int.tmod e n) with
      | none => none
      | some v' => modValueLoop c n l v'

/-- `Pl_Vector_Mod_Value` (fd_range.c:763-784). -/
def vecModValue (c : Cfg) (v : Vec) (n : Int) : Option Vec :=
  if n = 0 then some (vecEmpty c.size) else modValueLoop c n (enumVec v 0) (vecEmpty c.size)

/-! Ranges -/

/-- `Pl_Range_Test_Value` (fd_range.c:793-806). -/
def testValue (r : Range) (n : Int) : Bool :=
  if n < r.min ∨ n > r.max then false
  else
    match r.vec with
    | none => true
    | some v => if n = r.min ∨ n = r.max then true else tst v n.toNat

/-- The loop of `Pl_Range_Test_Null_Inter` (fd_range.c:848-850). -/
def nullInterLoop (v : Vec) : Nat → Int → Bool
  | 0, _ => true
  | k + 1, i => if tst v i.toNat then false else nullInterLoop v k (i + 1)

/-- Interval with sparse (fd_range.c:844-852). -/
def nullInterIS (r r1 : Range) (v1 : Vec) : Bool :=
  if r.min ≤ r1.min then false else nullInterLoop v1 (r.max - r.min + 1).toNat r.min

/-- The tests of `Pl_Range_Test_Null_Inter` before the distinction of the representations (fd_range.c:820-825). -/
def nullInterPre (r r1 : Range) : Option Bool :=
  if r.min > r1.max ∨ r1.min > r.max then some true
  else if r.min = r1.min ∨ r.min = r1.max ∨ r.max = r1.min ∨ r.max = r1.max then some false
  else none

/-- The inclusion tests (fd_range.c:833-835). -/
def nullInterOverlap (r r1 : Range) : Bool :=
  (r.min ≥ r1.min ∧ r.max ≥ r1.max) ∨ (r1.min ≥ r.min ∧ r1.max ≥ r.max)

/-- `Pl_Range_Test_Null_Inter` (fd_range.c:815-853). For a sparse range and an interval the function is called again with the
arguments exchanged: the first tests have then the same results, they are not repeated. -/
def testNullInter (r r1 : Range) : Bool :=
  match nullInterPre r r1 with
  | some b => b
  | none =>
    match r.vec, r1.vec with
    | some v, some v1 => vecNullInter v1 v
    | none, none => false
    | some v, none => if nullInterOverlap r r1 then false else nullInterIS r1 r v
    | none, some v1 => if nullInterOverlap r r1 then false else nullInterIS r r1 v1

/-- `Pl_Range_Nb_Elem` (fd_range.c:885-893). -/
def nbElem (r : Range) : Int :=
  match r.vec with
  | none => r.max - r.min + 1
  | some v => vecNbElem v

/-- `Pl_Range_Ith_Elem` (fd_range.c:902-919). -/
def ithElem (r : Range) (i : Int) : Int :=
  if r.isEmpty then -1
  else
    match r.vec with
    | none => if r.min + i - 1 < r.min ∨ r.min + i - 1 > r.max then -1 else r.min + i - 1
    | some v => vecIth v i

/-- `Pl_Range_Next_After` (fd_range.c:928-948). -/
def nextAfter (c : Cfg) (r : Range) (n : Int) : Int :=
  if r.isEmpty then -1
  else
    match r.vec with
    | none => if n ≥ r.max then -1 else if n + 1 < r.min then r.min else n + 1
    | some v => vecNextAfter c v n

/-- `Pl_Range_Next_Before` (fd_range.c:957-977). -/
def nextBefore (c : Cfg) (r : Range) (n : Int) : Int :=
  if r.isEmpty then -1
  else
    match r.vec with
    | none => if n ≤ r.min then -1 else if n - 1 > r.max then r.max else n - 1
    | some v => vecNextBefore c v n

/-- `Vector_Allocate_If_Necessary` (fd_range.h:217-234). -/
def allocIf (c : Cfg) (v : Option Vec) : Vec := v.getD c.junk

/-- `Pl_Range_Becomes_Sparse` (fd_range.c:986-999). -/
def becomesSparse (c : Cfg) (r : Range) : Range :=
  let min := if r.min < 0 then 0 else r.min
  let max := if r.max > c.vmax then c.vmax else r.max
  { extra := r.max > c.vmax, min := min, max := max,
    vec := some (if max ≥ min then vecFromInterval c.size min.toNat max.toNat else allocIf c r.vec) }

/-- `Pl_Range_From_Vector` (fd_range.c:1008-1036). When all the words are null the word after the vector is read: if it is null the
range is set to empty; otherwise `min` is found there, and `max` before the vector (a negative value). -/
def fromVector (c : Cfg) (r : Range) (v : Vec) : Range :=
  match findUp v 0, findDown v v.length with
  | some (i, w), some (j, w') => { r with min := i * 64 + lsb w, max := j * 64 + msb w', vec := some v }
  | _, _ =>
    if c.after = 0#64 then { r with vec := some v }.setEmpty
    else { r with min := c.size * 64 + lsb c.after, max := c.below, vec := some v }

/-- `Pl_Range_Copy` (fd_range.c:862-876): the vector is copied. -/
def copy (r1 : Range) : Range := r1

/-- `Range_Init_Interval` (fd_range.h:285-293). -/
def initInterval (a b : Int) : Range := ⟨false, a, b, none⟩

/-- `Pl_Range_Set_Value` on a vector (fd_range.c:1072-1078, 1083-1091). -/
def setSparse (c : Cfg) (r : Range) (v : Vec) (n : Int) (always : Bool) : Option Range :=
  if outside c n then some { r with extra := true, vec := some v }
  else
    match setV v n with
    | none => none
    | some v' => some (if always ∨ n < r.min ∨ n > r.max then fromVector c r v' else { r with vec := some v' })

/-- `Pl_Range_Set_Value` (fd_range.c:1045-1092). -/
def setValue (c : Cfg) (r : Range) (n : Int) : Option Range :=
  if r.isEmpty then some (initInterval n n)
  else
    match r.vec with
    | none =>
      if n ≥ r.min ∧ n ≤ r.max then some r
      else if n = r.min - 1 then some { r with min := r.min - 1 }
      else if n = r.max + 1 then some { r with max := r.max + 1 }
      else
        match (becomesSparse c r).vec with
        | none => none
        | some v => setSparse c (becomesSparse c r) v n true
    | some v => setSparse c r v n false

/-- `Pl_Range_Reset_Value` (fd_range.c:1101-1142). -/
def resetValue (c : Cfg) (r : Range) (n : Int) : Option Range :=
  if r.isEmpty ∨ n < r.min ∨ n > r.max then some r
  else if r.min = r.max then some r.setEmpty
  else
    match r.vec with
    | none =>
      if n = r.min then some { r with min := r.min + 1 }
      else if n = r.max then some { r with max := r.max - 1 }
      else
        match (becomesSparse c r).vec with
        | none => none
        | some v => some (if outside c n then becomesSparse c r else { becomesSparse c r with vec := some (resetV v n.toNat) })
    | some v =>
      if outside c n then some r
      else if n = r.min ∨ n = r.max then some (fromVector c r (resetV v n.toNat)) else some { r with vec := some (resetV v n.toNat) }

/-- The conversion of the argument which cannot be modified (fd_range.c:1170-1173, 1177-1183 etc.). -/
def sparseArg (c : Cfg) (r : Range) : Range :=
  match r.vec with
  | none => becomesSparse c r
  | some _ => r

/-- Sparse with sparse (fd_range.c:1185-1203). -/
def unionSS (r r1 : Range) : Range :=
  let extra := r.extra || r1.extra
  if r.isEmpty then { r1 with extra := extra }
  else if r1.isEmpty then { r with extra := extra }
  else { extra := extra, min := if r.min ≤ r1.min then r.min else r1.min, max := if r.max ≥ r1.max then r.max else r1.max,
         vec := some (vecUnion (r.vec.getD []) (r1.vec.getD [])) }

/-- `Pl_Range_Union` (fd_range.c:1151-1204). -/
def union (c : Cfg) (r r1 : Range) : Range :=
  match r.vec, r1.vec with
  | none, none =>
    if r.isEmpty = false ∧ r1.isEmpty = false ∧ r1.min ≤ r.max + 1 ∧ r.min ≤ r1.max + 1 then
      { r with min := if r.min ≤ r1.min then r.min else r1.min, max := if r.max ≥ r1.max then r.max else r1.max }
    else unionSS (becomesSparse c r) (becomesSparse c r1)
  | _, _ => unionSS (sparseArg c r) (sparseArg c r1)

/-- Sparse with sparse (fd_range.c:1238-1251). -/
def interSS (c : Cfg) (r r1 : Range) : Range :=
  let extra := r.extra && r1.extra
  if r.isEmpty then { r with extra := extra }
  else if r1.isEmpty then { r with extra := extra }.setEmpty
  else fromVector c { r with extra := extra } (vecInter (r.vec.getD []) (r1.vec.getD []))

/-- `Pl_Range_Inter` (fd_range.c:1213-1252). -/
def inter (c : Cfg) (r r1 : Range) : Range :=
  match r.vec, r1.vec with
  | none, none => { r with min := if r.min ≥ r1.min then r.min else r1.min, max := if r.max ≤ r1.max then r.max else r1.max }
  | _, _ => interSS c (sparseArg c r) (sparseArg c r1)

/-- The complement of a sparse range (fd_range.c:1297-1309). -/
def complSparse (c : Cfg) (r : Range) : Range :=
  if r.isEmpty then { extra := true, min := 0, max := c.vmax, vec := some (vecFull c.size) }
  else fromVector c { r with extra := true } (vecCompl (r.vec.getD []))

/-- `Pl_Range_Compl` (fd_range.c:1261-1310). -/
def compl (c : Cfg) (r : Range) : Range :=
  match r.vec with
  | none =>
    if r.isEmpty then { r with min := 0, max := imax }
    else if r.min ≤ 0 then
      if r.max ≥ imax then r.setEmpty else { r with min := r.max + 1, max := imax }
    else if r.max ≥ imax then { r with max := r.min - 1, min := 0 }
    else complSparse c (becomesSparse c r)
  | some _ => complSparse c r

/-- The end of the addition of two sparse ranges (fd_range.c:1352-1360). -/
def addSS (c : Cfg) (r r1 : Range) : Option Range :=
  match vecAddVec c (r.vec.getD []) (r1.vec.getD []) with
  | none => none
  | some v =>
    let r' : Range := { extra := r.extra || (r1.extra || decide (r.max + r1.max > c.vmax)), min := r.min + r1.min,
                        max := r.max + r1.max, vec := some v }
    some (if r'.extra ∨ r'.min < 0 then fromVector c r' v else r')

/-- `Pl_Range_Add_Range` (fd_range.c:1319-1361). -/
def addRange (c : Cfg) (r r1 : Range) : Option Range :=
  if r.isEmpty then some r
  else if r1.isEmpty then some r.setEmpty
  else
    match r.vec, r1.vec with
    | none, none => some { r with min := r.min + r1.min, max := r.max + r1.max }
    | _, _ => addSS c (sparseArg c r) (sparseArg c r1)

/-- The end of the subtraction of two sparse ranges (fd_range.c:1403-1410). -/
def subSS (c : Cfg) (r r1 : Range) : Option Range :=
  match vecSubVec c (r.vec.getD []) (r1.vec.getD []) with
  | none => none
  | some v =>
    let r' : Range := { extra := r.extra || r1.extra, min := r.min - r1.max, max := r.max - r1.min, vec := some v }
    some (if r'.extra ∨ r'.min < 0 then fromVector c r' v else r')

/-- `Pl_Range_Sub_Range` (fd_range.c:1370-1411). -/
def subRange (c : Cfg) (r r1 : Range) : Option Range :=
  if r.isEmpty then some r
  else if r1.isEmpty then some r.setEmpty
  else
    match r.vec, r1.vec with
    | none, none => some { r with min := r.min - r1.max, max := r.max - r1.min }
    | _, _ => subSS c (sparseArg c r) (sparseArg c r1)

/-- The common part of `Pl_Range_Mul_Range`, `Pl_Range_Div_Range`, `Pl_Range_Mod_Range` (fd_range.c:1420-1449, 1458-1487,
1496-1526). -/
def opRange (c : Cfg) (op : Cfg → Vec → Vec → Option Vec) (r r1 : Range) : Option Range :=
  if r.isEmpty then some r
  else if r1.isEmpty then some r.setEmpty
  else
    match op c ((sparseArg c r).vec.getD []) ((sparseArg c r1).vec.getD []) with
    | none => none
    | some v => some (fromVector c { sparseArg c r with extra := (sparseArg c r).extra || (sparseArg c r1).extra } v)

/-- `Pl_Range_Mul_Range` (fd_range.c:1420-1449). -/
def mulRange (c : Cfg) (r r1 : Range) : Option Range := opRange c vecMulVec r r1
/-- `Pl_Range_Div_Range` (fd_range.c:1458-1487). -/
def divRange (c : Cfg) (r r1 : Range) : Option Range := opRange c vecDivVec r r1
/-- `Pl_Range_Mod_Range` (fd_range.c:1496-1526). -/
def modRange (c : Cfg) (r r1 : Range) : Option Range := opRange c vecModVec r r1

/-- `Pl_Range_Add_Value` (fd_range.c:1535-1557). -/
def addValue (c : Cfg) (r : Range) (n : Int) : Range :=
  if n = 0 ∨ r.isEmpty then r
  else
    match r.vec with
    | none => { r with min := r.min + n, max := r.max + n }
    | some v =>
      let v' := vecAddValue c.size v n
      let r' : Range := { extra := r.extra || decide (r.max + n > c.vmax), min := r.min + n, max := r.max + n, vec := some v' }
      if r'.extra ∨ r'.min < 0 then fromVector c r' v' else r'

/-- `Pl_Range_Mul_Value` (fd_range.c:1565-1582). -/
def mulValue (c : Cfg) (r : Range) (n : Int) : Option Range :=
  if n = 1 ∨ r.isEmpty then some r
  else
    let r0 := sparseArg c r
    match vecMulValue c (r0.vec.getD []) n, mul32 r0.min n, mul32 r0.max n with
    | some v, some min, some max =>
      let r' : Range := { extra := r0.extra || decide (max > c.vmax), min := min, max := max, vec := some v }
      some (if r'.extra then fromVector c r' v else r')
    | _, _, _ => none

/-- `Pl_Range_Div_Value` (fd_range.c:1591-1608). -/
def divValue (c : Cfg) (r : Range) (n : Int) : Option Range :=
  if n = 1 ∨ r.isEmpty then some r
  else
    let r0 := sparseArg c r
    match vecDivValue c (r0.vec.getD []) n with
    | none => none
    | some v =>
      if n = 0 then none
      else
        let r' : Range := { extra := r0.extra || decide (Int.tdiv r0.max n > c.vmax), min := Int.tdiv (r0.min + n - 1) n,
                            max := Int.tdiv r0.max n, vec := some v }
        some (if r'.extra then fromVector c r' v else r')

/-- `Pl_Range_Mod_Value` (fd_range.c:1617-1688). -/
def modValue (c : Cfg) (r : Range) (n0 : Int) : Option Range :=
  if r.isEmpty then some r
  else
    let n := if n0 < 0 then -n0 else n0
    match r.vec with
    | none =>
      if r.min ≥ 0 then
        if r.max - r.min + 1 ≥ n then some { r with min := 0, max := n - 1 }
        else
          let r' := { r with min := Int.tmod r.min n, max := Int.tmod r.max n }
          if r'.min > r'.max then some (union c { r' with max := n - 1 } (initInterval 0 r'.max)) else some r'
      else if r.max ≤ 0 then
        if r.max - r.min + 1 ≥ n then some { r with min := -(n - 1), max := 0 }
        else
          let r' := { r with min := Int.tmod r.min n, max := Int.tmod r.max n }
          if r'.min > r'.max then some (union c { r' with max := 0 } (initInterval (-(n - 1)) r'.max)) else some r'
      else some { r with min := if r.min ≥ -n + 1 then r.min else -n + 1, max := if r.max ≤ n - 1 then r.max else n - 1 }
    | some v =>
      match vecModValue c v n with
      | none => none
      | some v' => some (fromVector c r v')

end Gp.FdRange
