import Verif.Tag.Model
/-
Model of the integer part of arithmetic evaluation: /repo/src/BipsPl/arith_inl_c.c, and of the bit
functions of /repo/src/EnginePl/misc.c, for a 64-bit machine.

Simplifications, valid for the whole file:
* a `PlLong` is an `Int`; every C operation which could leave the 64-bit range goes through `chk`,
  whose failure is the distinct outcome `ub` (signed overflow is undefined behaviour in C);
* `<<` on a negative `PlLong` is the two's complement shift and `>>` is arithmetic, as gcc defines them;
* `Pl_Err_xxx` does not return (it raises the Prolog error), hence the outcome `err`;
* a FLT-tagged word is represented by the double it points to (`Num.flt`); the double operations are
  an abstract parameter `Dbl` (libm and the FPU are not modelled).
-/
namespace Gp.Arith
open Gp.Tag

/-- Errors raised by evaluation (Pl_Err_Evaluation / Pl_Err_Type / Pl_Err_Domain, error_supp.c). -/
inductive Err where
  | zeroDivisor
  | intOverflow
  | floatOverflow
  | undefined
  | instantiation
  | typeInteger            -- type_error(integer, _)
  | typeFloat              -- type_error(float, _)
  | typeEvaluable          -- type_error(evaluable, _)
  | notLessThanZero (culprit : Word)  -- domain_error(not_less_than_zero, culprit)
deriving DecidableEq, Repr

/-- Outcome of a C function. -/
inductive Out (α : Type) where
  | ok (a : α)
  | err (e : Err)
  | ub
deriving DecidableEq, Repr

def Out.bind {α β : Type} : Out α → (α → Out β) → Out β
  | .ok a, f => f a
  | .err e, _ => .err e
  | .ub, _ => .ub

instance : Monad Out where
  pure := .ok
  bind := Out.bind

/-- A `PlLong` result: undefined outside 64 bits. -/
def chk (z : Int) : Out Int := if -2 ^ 63 ≤ z ∧ z < 2 ^ 63 then .ok z else .ub

/-- `Pl_Fct_Fast_Neg` (arith_inl_c.c:843-850). -/
def fastNeg (xw : Word) : Out Word :=
  let x := untagInt xw
  if x = intLowest then .err .intOverflow else do
    let z ← chk (-x); .ok (tagInt z)

/-- `Pl_Fct_Fast_Inc` (arith_inl_c.c:852-859). -/
def fastInc (xw : Word) : Out Word :=
  let x := untagInt xw
  if x = intGreatest then .err .intOverflow else do
    let z ← chk (x + 1); .ok (tagInt z)

/-- `Pl_Fct_Fast_Dec` (arith_inl_c.c:861-868). -/
def fastDec (xw : Word) : Out Word :=
  let x := untagInt xw
  if x = intLowest then .err .intOverflow else do
    let z ← chk (x - 1); .ok (tagInt z)

/-- `Pl_Fct_Fast_Add` (arith_inl_c.c:870-879). -/
def fastAdd (xw yw : Word) : Out Word := do
  let z ← chk (untagInt xw + untagInt yw)
  if testIntOverflow z then .err .intOverflow else .ok (tagInt z)

/-- `Pl_Fct_Fast_Sub` (arith_inl_c.c:881-890). -/
def fastSub (xw yw : Word) : Out Word := do
  let z ← chk (untagInt xw - untagInt yw)
  if testIntOverflow z then .err .intOverflow else .ok (tagInt z)

/-- `mul_overflow` (arith_inl_c.c:589-621), gcc branch: `__builtin_mul_overflow` tells whether the
exact product is outside 64 bits and stores it wrapped. -/
def mulOverflow (a b : Int) : Bool × Int :=
  (!decide (-2 ^ 63 ≤ a * b ∧ a * b < 2 ^ 63), (BitVec.ofInt 64 (a * b)).toInt)

/-- `Pl_Fct_Fast_Mul` (arith_inl_c.c:892-901). -/
def fastMul (xw yw : Word) : Out Word :=
  let r := mulOverflow (untagInt xw) (untagInt yw)
  if r.1 || testIntOverflow r.2 then .err .intOverflow else .ok (tagInt r.2)

/-- C `/` and `%` on `PlLong` (truncation); zero divisor or overflow is undefined. -/
def cdiv (x y : Int) : Out Int := if y = 0 then .ub else chk (x.tdiv y)
def crem (x y : Int) : Out Int :=
  if y = 0 ∨ (x = -2 ^ 63 ∧ y = -1) then .ub else .ok (x.tmod y)

/-- `Pl_Fct_Fast_Integer_Div` (arith_inl_c.c:903-916). -/
def fastIntegerDiv (xw yw : Word) : Out Word :=
  let x := untagInt xw
  let y := untagInt yw
  if y = 0 then .err .zeroDivisor
  else if x = intLowest ∧ y = -1 then .err .intOverflow
  else do let q ← cdiv x y; .ok (tagInt q)

/-- Test `(m ^ y) < 0` (arith_inl_c.c:934, 965). -/
def signsDiffer (m y : Int) : Bool :=
  decide ((BitVec.ofInt 64 m ^^^ BitVec.ofInt 64 y).toInt < 0)

/-- Correction `if (m != 0 && (m ^ y) < 0) m += y` (arith_inl_c.c:934-935, 965-966). -/
def floorFix (m y : Int) : Out Int := if m ≠ 0 ∧ signsDiffer m y then chk (m + y) else .ok m

/-- `Pl_Fct_Fast_Integer_Div2` (arith_inl_c.c:918-940): `div`. -/
def fastIntegerDiv2 (xw yw : Word) : Out Word :=
  let x := untagInt xw
  let y := untagInt yw
  if y = 0 then .err .zeroDivisor
  else if x = intLowest ∧ y = -1 then .err .intOverflow
  else do
    let m ← crem x y
    let m ← floorFix m y
    let d ← chk (x - m)
    let m ← cdiv d y
    .ok (tagInt m)

/-- `Pl_Fct_Fast_Rem` (arith_inl_c.c:941-951). -/
def fastRem (xw yw : Word) : Out Word :=
  let x := untagInt xw
  let y := untagInt yw
  if y = 0 then .err .zeroDivisor
  else do let r ← crem x y; .ok (tagInt r)

/-- `Pl_Fct_Fast_Mod` (arith_inl_c.c:953-969). -/
def fastMod (xw yw : Word) : Out Word :=
  let x := untagInt xw
  let y := untagInt yw
  if y = 0 then .err .zeroDivisor
  else do
    let m ← crem x y
    let m ← floorFix m y
    .ok (tagInt m)

/-- `Pl_Fct_Fast_And` / `Or` / `Xor` (arith_inl_c.c:971-987) work on the tagged words. -/
def fastAnd (xw yw : Word) : Out Word := .ok (xw &&& yw)
def fastOr (xw yw : Word) : Out Word := .ok (xw ||| yw)
def fastXor (xw yw : Word) : Out Word := .ok ((xw ^^^ yw) ||| tagMask)

/-- `Pl_Fct_Fast_Not` (arith_inl_c.c:989-994). -/
def fastNot (xw : Word) : Out Word := .ok (tagInt (~~~ (BitVec.ofInt 64 (untagInt xw))).toInt)

/-- Body of `Pl_Fct_Fast_Shl` for `y >= 0` (arith_inl_c.c:1010-1023). -/
def shlPos (x y : Int) : Out Word :=
  if y ≥ 61 then
    if x ≠ 0 then .err .intOverflow else .ok (tagInt 0)
  else if x > intGreatest >>> y.toNat then .err .intOverflow
  else .ok (tagInt ((BitVec.ofInt 64 x <<< y.toNat).toInt))

/-- Body of `Pl_Fct_Fast_Shr` for `y >= 0` (arith_inl_c.c:1043-1045). -/
def shrPos (x y : Int) : Out Word :=
  let z := if y ≥ 64 then (if x ≥ 0 then 0 else -1) else x >>> y.toNat
  .ok (tagInt z)

/-- `Pl_Fct_Fast_Shl` (arith_inl_c.c:997-1025). The call of `Pl_Fct_Fast_Shr` with `-y > 0` is
inlined. -/
def fastShl (xw yw : Word) : Out Word :=
  let x := untagInt xw
  let y := untagInt yw
  if y < 0 then
    if y = intLowest then .ok (tagInt 0)
    else shrPos x (untagInt (tagInt (-y)))
  else shlPos x y

/-- `Pl_Fct_Fast_Shr` (arith_inl_c.c:1027-1048). -/
def fastShr (xw yw : Word) : Out Word :=
  let x := untagInt xw
  let y := untagInt yw
  if y < 0 then
    if y = intLowest then
      if x = 0 then .ok xw else .err .intOverflow
    else shlPos x (untagInt (tagInt (-y)))
  else shrPos x y

/-- One test-and-shift of `Pl_LSB` (misc.c:313-331): if the low `k` bits are 0 skip them. -/
def lsbStep (k : Nat) (s : Nat × Word) : Nat × Word :=
  if s.2 <<< (64 - k) = 0#64 then (s.1 + k, s.2.sshiftRight k) else s

/-- `Pl_LSB` (misc.c:308-334); gcc builds use `__builtin_ctzl`, specified to give the same result.
The last step does not shift `x`, which is then dead. -/
def lsb (x : Word) : Nat :=
  (lsbStep 1 (lsbStep 2 (lsbStep 4 (lsbStep 8 (lsbStep 16 (lsbStep 32 (0, x))))))).1

/-- One test-and-shift of `Pl_MSB` (misc.c:350-368): if the high `k` bits are 0 skip them
(`>>` is arithmetic). -/
def msbStep (k : Nat) (s : Nat × Word) : Nat × Word :=
  if s.2.sshiftRight (64 - k) = 0#64 then (s.1 - k, s.2 <<< k) else s

/-- `Pl_MSB` (misc.c:345-371); gcc builds use `63 - __builtin_clzl(x)`. -/
def msb (x : Word) : Nat :=
  (msbStep 1 (msbStep 2 (msbStep 4 (msbStep 8 (msbStep 16 (msbStep 32 (63, x))))))).1

/-- Table of `Pl_Popcount` (misc.c:384-401). -/
def nbBitsInByte : List Nat :=
  [ 0, 1, 1, 2, 1, 2, 2, 3, 1, 2, 2, 3, 2, 3, 3, 4, 1, 2, 2, 3, 2, 3, 3,
    4, 2, 3, 3, 4, 3, 4, 4, 5,
    1, 2, 2, 3, 2, 3, 3, 4, 2, 3, 3, 4, 3, 4, 4, 5, 2, 3, 3, 4, 3, 4, 4, 5,
    3, 4, 4, 5, 4, 5, 5, 6,
    1, 2, 2, 3, 2, 3, 3, 4, 2, 3, 3, 4, 3, 4, 4, 5, 2, 3, 3, 4, 3, 4, 4, 5,
    3, 4, 4, 5, 4, 5, 5, 6,
    2, 3, 3, 4, 3, 4, 4, 5, 3, 4, 4, 5, 4, 5, 5, 6, 3, 4, 4, 5, 4, 5, 5, 6,
    4, 5, 5, 6, 5, 6, 6, 7,
    1, 2, 2, 3, 2, 3, 3, 4, 2, 3, 3, 4, 3, 4, 4, 5, 2, 3, 3, 4, 3, 4, 4, 5,
    3, 4, 4, 5, 4, 5, 5, 6,
    2, 3, 3, 4, 3, 4, 4, 5, 3, 4, 4, 5, 4, 5, 5, 6, 3, 4, 4, 5, 4, 5, 5, 6,
    4, 5, 5, 6, 5, 6, 6, 7,
    2, 3, 3, 4, 3, 4, 4, 5, 3, 4, 4, 5, 4, 5, 5, 6, 3, 4, 4, 5, 4, 5, 5, 6,
    4, 5, 5, 6, 5, 6, 6, 7,
    3, 4, 4, 5, 4, 5, 5, 6, 4, 5, 5, 6, 5, 6, 6, 7, 4, 5, 5, 6, 5, 6, 6, 7,
    5, 6, 6, 7, 6, 7, 7, 8 ]

/-- Lookup of byte number `i` in the table (misc.c:404-412). -/
def byteCount (x : Word) (i : Nat) : Nat :=
  (nbBitsInByte[((x.sshiftRight (8 * i)) &&& 0xFF#64).toNat]?).getD 0

/-- `Pl_Popcount` (misc.c:381-416); gcc builds use `__builtin_popcountl`. -/
def popcount (x : Word) : Nat :=
  byteCount x 0 + byteCount x 1 + byteCount x 2 + byteCount x 3 +
  byteCount x 4 + byteCount x 5 + byteCount x 6 + byteCount x 7

/-- `Pl_Fct_Fast_LSB` (arith_inl_c.c:1050-1057). The culprit given to `Pl_Err_Domain` is the
*untagged* integer, used as a word. -/
def fastLSB (xw : Word) : Out Word :=
  let x := untagInt xw
  if x < 0 then .err (.notLessThanZero (BitVec.ofInt 64 x))
  else .ok (tagInt (if x = 0 then -1 else lsb (BitVec.ofInt 64 x)))

/-- `Pl_Fct_Fast_MSB` (arith_inl_c.c:1059-1066). -/
def fastMSB (xw : Word) : Out Word :=
  let x := untagInt xw
  if x < 0 then .err (.notLessThanZero (BitVec.ofInt 64 x))
  else .ok (tagInt (if x = 0 then -1 else msb (BitVec.ofInt 64 x)))

/-- `Pl_Fct_Fast_Popcount` (arith_inl_c.c:1068-1075). -/
def fastPopcount (xw : Word) : Out Word :=
  let x := untagInt xw
  if x < 0 then .err (.notLessThanZero (BitVec.ofInt 64 x))
  else .ok (tagInt (popcount (BitVec.ofInt 64 x)))

/-- `Pl_Fct_Fast_Abs` (arith_inl_c.c:1077-1084). -/
def fastAbs (xw : Word) : Out Word :=
  let x := untagInt xw
  if x = intLowest then .err .intOverflow
  else if x < 0 then do let z ← chk (-x); .ok (tagInt z)
  else .ok xw

/-- `Pl_Fct_Fast_Sign` (arith_inl_c.c:1086-1091). -/
def fastSign (xw : Word) : Out Word :=
  let x := untagInt xw
  .ok (if x < 0 then tagInt (-1) else if x = 0 then tagInt 0 else tagInt 1)

/-- Loop of `Pl_Fct_Fast_GCD` (arith_inl_c.c:1110-1115); both arguments are non-negative there. -/
def gcdLoop (x y : Nat) : Nat :=
  if h : y = 0 then x else gcdLoop y (x % y)
termination_by y
decreasing_by exact Nat.mod_lt _ (Nat.pos_of_ne_zero h)

/-- `if (x < 0) x = -x` (arith_inl_c.c:1103-1107). -/
def cabs (x : Int) : Out Int := if x < 0 then chk (-x) else .ok x

/-- `Pl_Fct_Fast_GCD` (arith_inl_c.c:1093-1117). -/
def fastGCD (xw yw : Word) : Out Word :=
  let x := untagInt xw
  let y := untagInt yw
  if (x = intLowest ∧ y = 0) ∨ (x = 0 ∧ y = intLowest) then .err .intOverflow
  else do
    let x ← cabs x
    let y ← cabs y
    .ok (tagInt (gcdLoop x.toNat y.toNat))

/-- Loop of `pow_overflow` (arith_inl_c.c:664-674): `r`, `a`, `b` with `b >= 0`; `none` = overflow. -/
def powLoop (r a : Int) (b : Nat) : Option Int :=
  let s := if b % 2 = 1 then mulOverflow r a else (false, r)
  if s.1 then none
  else if h : b / 2 = 0 then some s.2
  else
    let q := mulOverflow a a
    if q.1 then none else powLoop s.2 q.2 (b / 2)
termination_by b
decreasing_by omega

/-- Result codes of `pow_overflow`: 0, 1, 2, 3 (arith_inl_c.c:624-629). -/
inductive PowRes where
  | ok (r : Int) | overflow | undefined | notInt
deriving DecidableEq, Repr

/-- `pow_overflow` (arith_inl_c.c:630-677). For `a = -1` the C code computes `1 - ((b & 1) << 1)`. -/
def powOverflow (a b : Int) : PowRes :=
  if a = 1 then .ok 1
  else if a = -1 then .ok (1 - 2 * (b % 2))
  else if a = 0 then
    if b ≥ 0 then .ok (if b = 0 then 1 else 0) else .undefined
  else if b < 0 then .notInt
  else match powLoop 1 a b.toNat with
    | some r => .ok r
    | none => .overflow

/-- `Pl_Fct_Fast_IPow` (arith_inl_c.c:1121-1140). -/
def fastIPow (xw yw : Word) : Out Word :=
  match powOverflow (untagInt xw) (untagInt yw) with
  | .undefined => .err .undefined
  | .notInt => .err .typeFloat
  | .overflow => .err .intOverflow
  | .ok z => if testIntOverflow z then .err .intOverflow else .ok (tagInt z)

/-- Comparisons of integers (arith_inl_c.c:1589-1632); `=:=` and `=\=` compare the words. -/
def fastEq (xw yw : Word) : Bool := xw == yw
def fastNeq (xw yw : Word) : Bool := xw != yw
def fastLt (xw yw : Word) : Bool := decide (untagInt xw < untagInt yw)
def fastLte (xw yw : Word) : Bool := decide (untagInt xw ≤ untagInt yw)
def fastGt (xw yw : Word) : Bool := decide (untagInt xw > untagInt yw)
def fastGte (xw yw : Word) : Bool := decide (untagInt xw ≥ untagInt yw)

end Gp.Arith
