import Verif.Fd.Queue
/-
Model of the primitive constraints of BipsFD/fd_math_fd.fd:60-323, 462-470, BipsFD/fd_bool_fd.fd:115-278 and EngineFD/fd_unify.fd:45-50,
and of their compilation by Fd2C (Fd2C/parse.pl:579-671, 878-898, Fd2C/compile.pl:201-382, 387-425). The terms are C expressions over
`int` variables of 32 bits (EngineFD/fd_to_c.h:60-64, 95-96, 524-551, 653-654).

Not modelled: the `_F` versions (full arc-consistency) except `dom`, the constraints with a C function, the symbolic constraints, and
those with a `wait_switch` (the switch itself is in Queue.lean).
-/
namespace Gp.Fd

open Gp.FdRange

/-- The operators of the terms: `+ - * /> /<` (parse.pl:615-636, 824-825), and the macros `and`, `or`, `xor` of fd_bool_fd.fd:40-45. -/
inductive Bop where
  | add | sub | mul | divUp | divDn | and | or | xor
deriving DecidableEq

/-- The terms over the parameters of a constraint (parse.pl:642-671): an integer (a literal, `max_integer` or an `int` parameter), `min`,
`max` and `val` of a parameter, an operator, and the macro `ite(c == 0, a, b)` of fd_math_fd.fd:41. -/
inductive Tm where
  | cst (n : Int)
  | mn (p : Nat)
  | mx (p : Nat)
  | vl (p : Nat)
  | bin (o : Bop) (a b : Tm)
  | ite0 (t a b : Tm)
deriving DecidableEq

/-- The C variables which receive the bounds and the values (compile.pl:318-361). -/
structure Rd where
  lo : Nat → Int
  hi : Nat → Int
  vl : Nat → Int

/-- A bitwise operation on `int`. -/
def bits (f : BitVec 32 → BitVec 32 → BitVec 32) (a b : Int) : Int := (f (BitVec.ofInt 32 a) (BitVec.ofInt 32 b)).toInt

/-- An operator; `w` is applied to each intermediate result: `toInt32` for the `int` of C (an overflow is undefined in C, here it wraps),
`id` for exact integers. The division truncates (fd_to_c.h:95-96); a division by 0, undefined in C, gives 0. -/
def Bop.ev (w : Int → Int) : Bop → Int → Int → Int
  | .add, a, b => w (a + b)
  | .sub, a, b => w (a - b)
  | .mul, a, b => w (a * b)
  | .divUp, a, b => w ((w (w (a + b) - 1)).tdiv b)
  | .divDn, a, b => w (a.tdiv b)
  | .and, a, b => bits (· &&& ·) a b
  | .or, a, b => bits (· ||| ·) a b
  | .xor, a, b => bits (· ^^^ ·) a b

/-- The value of a term. -/
def Tm.ev (w : Int → Int) (r : Rd) : Tm → Int
  | .cst n => n
  | .mn p => r.lo p
  | .mx p => r.hi p
  | .vl p => r.vl p
  | .bin o a b => o.ev w (a.ev w r) (b.ev w r)
  | .ite0 t a b => if t.ev w r = 0 then a.ev w r else b.ev w r

/-- What is used of a parameter (parse.pl:878-894). -/
inductive Mk where
  | min | max | dom | val
deriving DecidableEq

/-- The uses of the parameters, in the order of the text (parse.pl:652-658). -/
def Tm.marks : Tm → List (Nat × Mk)
  | .cst _ => []
  | .mn p => [(p, .min)]
  | .mx p => [(p, .max)]
  | .vl p => [(p, .val)]
  | .bin _ a b => a.marks ++ b.marks
  | .ite0 t a b => t.marks ++ a.marks ++ b.marks

/-- The ranges: `lo .. hi`, `~{t}`, `{t}` and `dom(p)` (parse.pl:498-522). -/
inductive Rg where
  | itv (lo hi : Tm)
  | compl (t : Tm)
  | single (t : Tm)
  | dom (p : Nat)
deriving DecidableEq

def Rg.marks : Rg → List (Nat × Mk)
  | .itv lo hi => lo.marks ++ hi.marks
  | .compl t => t.marks
  | .single t => t.marks
  | .dom p => [(p, .dom)]

/-- `e_compute_dep_chain` (compile.pl:366-382). -/
def chainOf (ms : List (Nat × Mk)) (p : Nat) : Fin 5 :=
  if (p, Mk.val) ∈ ms then 4
  else if (p, Mk.dom) ∈ ms then 3
  else if (p, Mk.min) ∈ ms then if (p, Mk.max) ∈ ms then 2 else 0
  else 1

/-- The parameters used, each once, in the order of the first use (parse.pl:878-898). -/
def params : List (Nat × Mk) → List Nat
  | [] => []
  | (p, _) :: ms => p :: (params ms).filter (fun q => decide (q ≠ p))

/-- The dependencies of a block (compile.pl:246-251). -/
def Rg.deps (g : Rg) : List (Nat × Fin 5) := (params g.marks).map (fun p => (p, chainOf g.marks p))

/-- The loading of the bounds and values of the variables `a p` (fd_to_c.h:524-551). -/
def rd (s : Store) (a : Nat → Nat) : Rd := ⟨fun p => (s (a p)).r.min, fun p => (s (a p)).r.max, fun p => (s (a p)).r.min⟩

/-- The told operation after the simplifications (compile.pl:387-416). -/
def Rg.op (s : Store) (a : Nat → Nat) : Rg → Op
  | .itv lo hi => .interval (lo.ev toInt32 (rd s a)) (hi.ev toInt32 (rd s a))
  | .compl t => .notValue (t.ev toInt32 (rd s a))
  | .single t => .value (t.ev toInt32 (rd s a))
  | .dom p => .range (s (a p)).r

/-- The function of a block (compile.pl:208-216): `fd_load_val` exits if the variable is not instantiated (fd_to_c.h:546-551). -/
def Rg.act (a : Nat → Nat) (g : Rg) (s : Store) : Act :=
  if g.marks.all (fun m => decide (m.2 ≠ Mk.val) || (s (a m.1)).ground) then .tell (g.op s a) else .exit

/-- A block `start X in r`; optim2 is allowed since there is no `always` (compile.pl:223-226). -/
def mkBlk (a : Nat → Nat) (b : Nat × Rg) : Blk :=
  ⟨a b.1, b.2.act a, b.2.deps.map (fun d => (a d.1, d.2)), true⟩

/-- A constraint with the blocks `bs` on the variables `a p`. -/
def mkCstr (a : Nat → Nat) (bs : List (Nat × Rg)) : UserCstr := ⟨bs.map (mkBlk a), none⟩

/-- `Pl_Fd_Prolog_To_Value` (fd_inst.c:499-512) for an `int` parameter (fd_to_c.h:110-111). -/
def toValue (n : Int) : Int := if n < -imax then -imax else if n > imax then imax else n

namespace Tm
def add (a b : Tm) : Tm := .bin .add a b
def sub (a b : Tm) : Tm := .bin .sub a b
def mul (a b : Tm) : Tm := .bin .mul a b
def divUp (a b : Tm) : Tm := .bin .divUp a b
def divDn (a b : Tm) : Tm := .bin .divDn a b
/-- The macro `not` (fd_bool_fd.fd:40). -/
def not (a : Tm) : Tm := .bin .sub (.cst 1) a
def and (a b : Tm) : Tm := .bin .and a b
def or (a b : Tm) : Tm := .bin .or a b
def xor (a b : Tm) : Tm := .bin .xor a b
/-- The macro `eqv` (fd_bool_fd.fd:44). -/
def eqv (a b : Tm) : Tm := .not (.xor a b)
end Tm

/-- The primitive constraints; the integers are those of the Prolog arguments, the variables are numbers. -/
inductive Prim where
  | xEqC (x : Nat) (c : Int)
  | unify (x y : Nat)
  | xEqY (x y : Nat)
  | xPlusCEqY (x : Nat) (c : Int) (y : Nat)
  | xNeqC (x : Nat) (c : Int)
  | xNeqY (x y : Nat)
  | xPlusCNeqY (x : Nat) (c : Int) (y : Nat)
  | xLtY (x y : Nat)
  | xLteC (x : Nat) (c : Int)
  | xLteY (x y : Nat)
  | xPlusCLteY (x : Nat) (c : Int) (y : Nat)
  | xGteC (x : Nat) (c : Int)
  | xPlusCGteY (x : Nat) (c : Int) (y : Nat)
  | axEqY (a : Int) (x y : Nat)
  | xPlusYEqZ (x y z : Nat)
  | axPlusYEqZ (a : Int) (x y z : Nat)
  | axPlusByEqZ (a : Int) (x : Nat) (b : Int) (y z : Nat)
  | xPlusYPlusZEqT (x y z t : Nat)
  | axPlusYPlusZEqT (a : Int) (x y z t : Nat)
  | axPlusByPlusZEqT (a : Int) (x : Nat) (b : Int) (y z t : Nat)
  | xyEqZ (x y z : Nat)

/-- The variables of a constraint: the `fdv` parameters. -/
def Prim.vars : Prim → List Nat
  | .xEqC x _ | .xNeqC x _ | .xLteC x _ | .xGteC x _ => [x]
  | .unify x y | .xEqY x y | .xPlusCEqY x _ y | .xNeqY x y | .xPlusCNeqY x _ y | .xLtY x y | .xLteY x y | .xPlusCLteY x _ y
  | .xPlusCGteY x _ y | .axEqY _ x y => [x, y]
  | .xPlusYEqZ x y z | .axPlusYEqZ _ x y z | .axPlusByEqZ _ x _ y z | .xyEqZ x y z => [x, y, z]
  | .xPlusYPlusZEqT x y z t | .axPlusYPlusZEqT _ x y z t | .axPlusByPlusZEqT _ x _ y z t => [x, y, z, t]

open Tm in
/-- The blocks, the parameters are numbered: X = 0, Y = 1, Z = 2, T = 3 (fd_math_fd.fd:60-323, 462-470, fd_unify.fd:45-50; `pl_x_eq_c` is
`Pl_Get_Integer_Tagged`, math_supp.c:1375-1379, wam_inst.c:255-259: the value is cast to `int`). -/
def Prim.blks : Prim → List (Nat × Rg)
  | .xEqC _ c => [(0, .single (cst (toInt32 c)))]
  | .unify _ _ => [(0, .dom 1), (1, .dom 0)]
  | .xEqY _ _ => [(0, .itv (mn 1) (mx 1)), (1, .itv (mn 0) (mx 0))]
  | .xPlusCEqY _ c _ =>
    [(0, .itv (sub (mn 1) (cst (toValue c))) (sub (mx 1) (cst (toValue c)))),
     (1, .itv (add (mn 0) (cst (toValue c))) (add (mx 0) (cst (toValue c))))]
  | .xNeqC _ c => [(0, .compl (cst (toValue c)))]
  | .xNeqY _ _ => [(0, .compl (vl 1)), (1, .compl (vl 0))]
  | .xPlusCNeqY _ c _ => [(0, .compl (sub (vl 1) (cst (toValue c)))), (1, .compl (add (vl 0) (cst (toValue c))))]
  | .xLtY _ _ => [(0, .itv (cst 0) (sub (mx 1) (cst 1))), (1, .itv (add (mn 0) (cst 1)) (cst imax))]
  | .xLteC _ c => [(0, .itv (cst 0) (cst (toValue c)))]
  | .xLteY _ _ => [(0, .itv (cst 0) (mx 1)), (1, .itv (mn 0) (cst imax))]
  | .xPlusCLteY _ c _ =>
    [(0, .itv (cst 0) (sub (mx 1) (cst (toValue c)))), (1, .itv (add (mn 0) (cst (toValue c))) (cst imax))]
  | .xGteC _ c => [(0, .itv (cst (toValue c)) (cst imax))]
  | .xPlusCGteY _ c _ =>
    [(0, .itv (sub (mn 1) (cst (toValue c))) (cst imax)), (1, .itv (cst 0) (add (mx 0) (cst (toValue c))))]
  | .axEqY a _ _ =>
    [(0, .itv (divUp (mn 1) (cst (toValue a))) (divDn (mx 1) (cst (toValue a)))),
     (1, .itv (mul (cst (toValue a)) (mn 0)) (mul (cst (toValue a)) (mx 0)))]
  | .xPlusYEqZ _ _ _ =>
    [(0, .itv (sub (mn 2) (mx 1)) (sub (mx 2) (mn 1))),
     (1, .itv (sub (mn 2) (mx 0)) (sub (mx 2) (mn 0))),
     (2, .itv (add (mn 0) (mn 1)) (add (mx 0) (mx 1)))]
  | .axPlusYEqZ a _ _ _ =>
    [(0, .itv (divUp (sub (mn 2) (mx 1)) (cst (toValue a))) (divDn (sub (mx 2) (mn 1)) (cst (toValue a)))),
     (1, .itv (sub (mn 2) (mul (cst (toValue a)) (mx 0))) (sub (mx 2) (mul (cst (toValue a)) (mn 0)))),
     (2, .itv (add (mul (cst (toValue a)) (mn 0)) (mn 1)) (add (mul (cst (toValue a)) (mx 0)) (mx 1)))]
  | .axPlusByEqZ a _ b _ _ =>
    [(0, .itv (divUp (sub (mn 2) (mul (cst (toValue b)) (mx 1))) (cst (toValue a)))
              (divDn (sub (mx 2) (mul (cst (toValue b)) (mn 1))) (cst (toValue a)))),
     (1, .itv (divUp (sub (mn 2) (mul (cst (toValue a)) (mx 0))) (cst (toValue b)))
              (divDn (sub (mx 2) (mul (cst (toValue a)) (mn 0))) (cst (toValue b)))),
     (2, .itv (add (mul (cst (toValue a)) (mn 0)) (mul (cst (toValue b)) (mn 1)))
              (add (mul (cst (toValue a)) (mx 0)) (mul (cst (toValue b)) (mx 1))))]
  | .xPlusYPlusZEqT _ _ _ _ =>
    [(0, .itv (sub (sub (mn 3) (mx 1)) (mx 2)) (sub (sub (mx 3) (mn 1)) (mn 2))),
     (1, .itv (sub (sub (mn 3) (mx 0)) (mx 2)) (sub (sub (mx 3) (mn 0)) (mn 2))),
     (2, .itv (sub (sub (mn 3) (mx 0)) (mx 1)) (sub (sub (mx 3) (mn 0)) (mn 1))),
     (3, .itv (add (add (mn 0) (mn 1)) (mn 2)) (add (add (mx 0) (mx 1)) (mx 2)))]
  | .axPlusYPlusZEqT a _ _ _ _ =>
    [(0, .itv (divUp (sub (sub (mn 3) (mx 1)) (mx 2)) (cst (toValue a))) (divDn (sub (sub (mx 3) (mn 1)) (mn 2)) (cst (toValue a)))),
     (1, .itv (sub (sub (mn 3) (mul (cst (toValue a)) (mx 0))) (mx 2)) (sub (sub (mx 3) (mul (cst (toValue a)) (mn 0))) (mn 2))),
     (2, .itv (sub (sub (mn 3) (mul (cst (toValue a)) (mx 0))) (mx 1)) (sub (sub (mx 3) (mul (cst (toValue a)) (mn 0))) (mn 1))),
     (3, .itv (add (add (mul (cst (toValue a)) (mn 0)) (mn 1)) (mn 2)) (add (add (mul (cst (toValue a)) (mx 0)) (mx 1)) (mx 2)))]
  | .axPlusByPlusZEqT a _ b _ _ _ =>
    [(0, .itv (divUp (sub (sub (mn 3) (mul (cst (toValue b)) (mx 1))) (mx 2)) (cst (toValue a)))
              (divDn (sub (sub (mx 3) (mul (cst (toValue b)) (mn 1))) (mn 2)) (cst (toValue a)))),
     (1, .itv (divUp (sub (sub (mn 3) (mul (cst (toValue a)) (mx 0))) (mx 2)) (cst (toValue b)))
              (divDn (sub (sub (mx 3) (mul (cst (toValue a)) (mn 0))) (mn 2)) (cst (toValue b)))),
     (2, .itv (sub (sub (mn 3) (mul (cst (toValue a)) (mx 0))) (mul (cst (toValue b)) (mx 1)))
              (sub (sub (mx 3) (mul (cst (toValue a)) (mn 0))) (mul (cst (toValue b)) (mn 1)))),
     (3, .itv (add (add (mul (cst (toValue a)) (mn 0)) (mul (cst (toValue b)) (mn 1))) (mn 2))
              (add (add (mul (cst (toValue a)) (mx 0)) (mul (cst (toValue b)) (mx 1))) (mx 2)))]
  | .xyEqZ _ _ _ =>
    [(0, .itv (ite0 (mx 1) (cst 0) (divUp (mn 2) (mx 1))) (ite0 (mn 1) (cst imax) (divDn (mx 2) (mn 1)))),
     (1, .itv (ite0 (mx 0) (cst 0) (divUp (mn 2) (mx 0))) (ite0 (mn 0) (cst imax) (divDn (mx 2) (mn 0)))),
     (2, .itv (mul (mn 0) (mn 1)) (mul (mx 0) (mx 1)))]

/-- The variable of a parameter. -/
def Prim.arg (k : Prim) (p : Nat) : Nat := k.vars.getD p 0

/-- The user constraint. -/
def Prim.cstr (k : Prim) : UserCstr := mkCstr k.arg k.blks

end Gp.Fd
