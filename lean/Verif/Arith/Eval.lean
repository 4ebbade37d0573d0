import Verif.Arith.Model
/-
Model of the evaluation of an arithmetic expression: Load_Math_Expression and Pl_Arith_Evaluate_2
(/repo/src/BipsPl/arith_inl_c.c:449-537), the evaluable table (183-247) and the non "fast" functions
which dispatch on the type of the operands (macros 740-838, functions 1145-1371, 1506-1548).

Simplifications:
* names are strings instead of atom numbers; the evaluable hash table (a finite map, see HashTbl) is
  the function `lookup`;
* a term is dereferenced (`Exp`); terms of arity above 2 are `stcN` (no evaluable has that arity);
* double operations are the abstract structure `Dbl`;
* C does not fix the order in which the two operands of a call are evaluated
  (`CALL_MATH_FCT_2(Load(a), Load(b))`, 518): an oracle `ord` chooses at each node;
* the strict_iso flag is a parameter.
-/
namespace Gp.Arith
open Gp.Tag

/-- The double-precision operations used by the evaluator (not modelled further). -/
structure Dbl where
  D : Type
  ofInt : Int → D                       -- (double) x, To_Double
  check : D → Option Err                -- Check_Double_Errors (arith_inl_c.c:329-352)
  neg : D → D
  inc : D → D
  dec : D → D
  abs : D → D
  sign : D → D
  add : D → D → D
  sub : D → D → D
  mul : D → D → D
  pow : D → D → Out D                   -- Pow (1351-1361)
  /-- purely floating functions, by name (sqrt, sin, ..., float) -/
  fun1 : String → D → Out D
  /-- `/`, `**`, atan2, log/2 -/
  fun2 : String → D → D → Out D
  /-- rounding functions: floor, ceiling, round, truncate applied to a double, with the overflow
  test of FtoI (802-818) -/
  round : String → D → Out Int
  /-- float_fractional_part, float_integer_part -/
  part : String → D → D
  pi : D
  e : D
  epsilon : D
  /-- Compare_Numbers (1285-1313) when at least one operand is a double -/
  cmpID : Int → D → Int
  cmpDD : D → D → Int

/-- A number: an INT-tagged word or a double. -/
inductive Num (M : Dbl) where
  | int (w : Word)
  | flt (d : M.D)

variable (M : Dbl)

/-- `Make_Tagged_Float` (arith_inl_c.c:414-427). -/
def mkFloat (d : M.D) : Out (Num M) :=
  match M.check d with
  | some e => .err e
  | none => .ok (.flt d)

/-- `To_Double` (arith_inl_c.c:435-440). -/
def toDouble : Num M → M.D
  | .int w => M.ofInt (untagInt w)
  | .flt d => d

/-- Evaluable functions of one argument (arith_inl_c.c:190-247). -/
inductive Fn1 where
  | identity | neg | inc | dec | not | lsb | msb | popcount | abs | sign
  | fltFun (name : String) | roundFun (name : String) | partFun (name : String)
deriving DecidableEq

/-- Evaluable functions of two arguments. -/
inductive Fn2 where
  | add | sub | mul | idiv | div | rem | mod | and | or | xor | shl | shr | min | max | gcd | ipow
  | fltFun (name : String)
deriving DecidableEq

/-- Table of evaluables of arity 1 (arith_inl_c.c:193-246). -/
def lookup1 : String → Option Fn1
  | "+" => some .identity | "-" => some .neg | "inc" => some .inc | "dec" => some .dec
  | "\\" => some .not | "lsb" => some .lsb | "msb" => some .msb | "popcount" => some .popcount
  | "abs" => some .abs | "sign" => some .sign
  | "sqrt" => some (.fltFun "sqrt") | "tan" => some (.fltFun "tan") | "atan" => some (.fltFun "atan")
  | "cos" => some (.fltFun "cos") | "acos" => some (.fltFun "acos") | "sin" => some (.fltFun "sin")
  | "asin" => some (.fltFun "asin") | "tanh" => some (.fltFun "tanh") | "atanh" => some (.fltFun "atanh")
  | "cosh" => some (.fltFun "cosh") | "acosh" => some (.fltFun "acosh") | "sinh" => some (.fltFun "sinh")
  | "asinh" => some (.fltFun "asinh") | "exp" => some (.fltFun "exp") | "log" => some (.fltFun "log")
  | "log10" => some (.fltFun "log10") | "float" => some (.fltFun "float")
  | "ceiling" => some (.roundFun "ceiling") | "floor" => some (.roundFun "floor")
  | "round" => some (.roundFun "round") | "truncate" => some (.roundFun "truncate")
  | "float_fractional_part" => some (.partFun "float_fractional_part")
  | "float_integer_part" => some (.partFun "float_integer_part")
  | _ => none

/-- Table of evaluables of arity 2 (arith_inl_c.c:197-236). -/
def lookup2 : String → Option Fn2
  | "+" => some .add | "-" => some .sub | "*" => some .mul | "/" => some (.fltFun "/")
  | "//" => some .idiv | "div" => some .div | "rem" => some .rem | "mod" => some .mod
  | "/\\" => some .and | "\\/" => some .or | "xor" => some .xor | "<<" => some .shl | ">>" => some .shr
  | "min" => some .min | "max" => some .max | "gcd" => some .gcd | "^" => some .ipow
  | "**" => some (.fltFun "**") | "atan2" => some (.fltFun "atan2") | "log" => some (.fltFun "log")
  | _ => none

/-- Wrap an integer result. -/
def outInt (r : Out Word) : Out (Num M) := r.bind (fun w => .ok (.int w))

/-- Wrap a double result: `Make_Tagged_Float`. -/
def outFlt (r : Out M.D) : Out (Num M) := r.bind (mkFloat M)

/-- Macro `ItoI` (arith_inl_c.c:784-787). -/
def itoi (f : Word → Out Word) : Num M → Out (Num M)
  | .flt _ => .err .typeInteger
  | .int w => outInt M (f w)

/-- Macro `IFtoIF` (arith_inl_c.c:778-780). -/
def iftoif (g : M.D → M.D) (f : Word → Out Word) : Num M → Out (Num M)
  | .int w => outInt M (f w)
  | .flt d => mkFloat M (g d)

/-- Macro `IxItoI` (arith_inl_c.c:769-774). -/
def ixitoi (f : Word → Word → Out Word) : Num M → Num M → Out (Num M)
  | .flt _, _ => .err .typeInteger
  | .int _, .flt _ => .err .typeInteger
  | .int x, .int y => outInt M (f x y)

/-- Macro `IFxIFtoIF` (arith_inl_c.c:749-752). -/
def ifxiftoif (g : M.D → M.D → Out M.D) (f : Word → Word → Out Word) : Num M → Num M → Out (Num M)
  | .int x, .int y => outInt M (f x y)
  | x, y => outFlt M (g (toDouble M x) (toDouble M y))

/-- `Compare_Numbers` (arith_inl_c.c:1285-1313). -/
def compareNumbers : Num M → Num M → Int
  | .int x, .int y =>
    if untagInt x < untagInt y then -1 else if untagInt x ≠ untagInt y then 1 else 0
  | .int x, .flt d => M.cmpID (untagInt x) d
  | .flt d, .int y => -M.cmpID (untagInt y) d
  | .flt d, .flt d' => M.cmpDD d d'

/-- Tie rule of `Pl_Fct_Min` / `Pl_Fct_Max` (arith_inl_c.c:1326, 1340). -/
def preferFlt : Num M → Num M → Num M
  | .flt d, _ => .flt d
  | .int _, y => y

/-- Functions of one argument. `FtoI` on an integer returns it unless strict_iso (802-808); `FtoF`
on an integer is a type error (822-829). -/
def apply1 (strictIso : Bool) (f : Fn1) (x : Num M) : Out (Num M) :=
  match f with
  | .identity => .ok x                                       -- 1569-1573
  | .neg => iftoif M M.neg fastNeg x                         -- 1145-1149
  | .inc => iftoif M M.inc fastInc x
  | .dec => iftoif M M.dec fastDec x
  | .not => itoi M fastNot x
  | .lsb => itoi M fastLSB x
  | .msb => itoi M fastMSB x
  | .popcount => itoi M fastPopcount x
  | .abs => iftoif M M.abs fastAbs x
  | .sign => iftoif M M.sign fastSign x
  | .fltFun n => outFlt M (M.fun1 n (toDouble M x))
  | .roundFun n =>
    match x with
    | .int w => if strictIso then .err .typeFloat else .ok (.int w)
    | .flt d => (M.round n d).bind (fun z => .ok (.int (tagInt z)))
  | .partFun n =>
    match x with
    | .int _ => .err .typeFloat
    | .flt d => mkFloat M (M.part n d)

/-- Functions of two arguments (arith_inl_c.c:1163-1371). -/
def apply2 (f : Fn2) (x y : Num M) : Out (Num M) :=
  match f with
  | .add => ifxiftoif M (fun a b => .ok (M.add a b)) fastAdd x y
  | .sub => ifxiftoif M (fun a b => .ok (M.sub a b)) fastSub x y
  | .mul => ifxiftoif M (fun a b => .ok (M.mul a b)) fastMul x y
  | .idiv => ixitoi M fastIntegerDiv x y
  | .div => ixitoi M fastIntegerDiv2 x y
  | .rem => ixitoi M fastRem x y
  | .mod => ixitoi M fastMod x y
  | .and => ixitoi M fastAnd x y
  | .or => ixitoi M fastOr x y
  | .xor => ixitoi M fastXor x y
  | .shl => ixitoi M fastShl x y
  | .shr => ixitoi M fastShr x y
  | .gcd => ixitoi M fastGCD x y
  | .ipow => ifxiftoif M M.pow fastIPow x y
  | .min =>
    let c := compareNumbers M x y
    .ok (if c < 0 then x else if c > 0 then y else preferFlt M x y)
  | .max =>
    let c := compareNumbers M x y
    .ok (if c > 0 then x else if c < 0 then y else preferFlt M x y)
  | .fltFun n => outFlt M (M.fun2 n (toDouble M x) (toDouble M y))

/-- A (dereferenced) term to evaluate. -/
inductive Exp where
  | var
  | int (w : Word)
  | flt (d : M.D)
  | atm (a : String)
  | nil                                  -- the atom []
  | lst (hd tl : Exp)
  | stc1 (f : String) (x : Exp)
  | stc2 (f : String) (x y : Exp)
  | stcN (f : String)
  | fdv                                  -- a finite domain variable

/-- `Load_Math_Expression` (arith_inl_c.c:449-525). `ord` tells at each call node which operand is
evaluated first (`true`: the first one). -/
def load (strictIso : Bool) (ord : Exp M → Bool) : Exp M → Out (Num M)
  | .int w => .ok (.int w)                                   -- 461-462
  | .flt d => .ok (.flt d)
  | .var => .err .instantiation                              -- 499-500
  | .fdv => .err .typeEvaluable                              -- 501-502
  | .nil => .err .typeEvaluable
  | .atm a =>                                                -- 506-513, 523
    if a = "pi" then mkFloat M M.pi
    else if a = "e" then mkFloat M M.e
    else if a = "epsilon" then mkFloat M M.epsilon
    else .err .typeEvaluable
  | .lst hd tl =>                                            -- 478-498
    match tl with
    | .nil =>
      match hd with
      | .var => .err .instantiation
      | .int w => .ok (.int w)
      | _ => .err .typeInteger
    | _ => .err .typeEvaluable
  | .stc1 f x =>
    match lookup1 f with
    | none => .err .typeEvaluable
    | some fn => (load strictIso ord x).bind (apply1 M strictIso fn)
  | .stc2 f x y =>
    match lookup2 f with
    | none => .err .typeEvaluable
    | some fn =>
      if ord (.stc2 f x y) then
        (load strictIso ord x).bind fun a => (load strictIso ord y).bind fun b => apply2 M fn a b
      else
        (load strictIso ord y).bind fun b => (load strictIso ord x).bind fun a => apply2 M fn a b
  | .stcN _ => .err .typeEvaluable

end Gp.Arith
