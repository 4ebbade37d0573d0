/-!
# The translation of arithmetic constraints (`#=`, `#\=`, `#<`, `#=<`, `#>`, `#>=`)

Model of `src/BipsFD/math_supp.c` and of the four comparison functions of
`src/BipsFD/fd_math_c.c`.  A constraint between two arithmetic expressions is turned into a
polynomial (products are developed, other non linear operators get a fresh result variable and
a delayed primitive constraint), the polynomial is split into a left and a right part with
positive coefficients, and each part is loaded into a variable through primitive constraints.

What is kept: the polynomials with their tables of monomial terms, the delayed constraints and
the posted primitive constraints in order, the resource limits, the resource and type errors, the
failures decided during the translation, the `sort` flag and the variables that are already
known to be integers when the translation reads them.

What is simplified: coefficients and constants are unbounded integers (in the code `PlLong`); the
hypotheses of the theorems bound all of them by the largest FD integer.  What a primitive
constraint does to domains is the subject of C23--C27; here a primitive constraint stands for
the relation it propagates (`Cstr.sat`).
-/

namespace Gp.FdMath

/-- `INTERVAL_MAX_INTEGER`: `src/EngineFD/fd_hook_range.h:44`. -/
def MAX : Int := 268435455

/-- Variables: those of the expressions, the result cells pushed on the heap
(`src/BipsFD/math_supp.c:582-583, 1025-1026, 1030-1031`), the new FD variables
(`New_Tagged_Fd_Variable`, allocated on the constraint stack). -/
inductive Var where
  | orig (n : Nat)
  | heap (n : Nat)
  | fd (n : Nat)
  deriving DecidableEq, Repr

/-- A tagged word that is an integer or a variable (`src/BipsFD/math_supp.c:466-471`). -/
inductive W where
  | int (n : Int)
  | var (v : Var)
  deriving DecidableEq, Repr

/-- Arithmetic expressions, with the operators of `arith_tbl`
(`src/BipsFD/math_supp.c:756-1118`); `atom` is an atom and `bad` any other term, both of which
are not evaluable. -/
inductive Tm where
  | var (n : Nat)
  | int (n : Int)
  | atom
  | bad
  | pos (a : Tm)
  | neg (a : Tm)
  | add (a b : Tm)
  | sub (a b : Tm)
  | mul (a b : Tm)
  | pow (a b : Tm)
  | min (a b : Tm)
  | max (a b : Tm)
  | dist (a b : Tm)
  | quot (a b : Tm)
  | rem (a b : Tm)
  | quotRem (a b r : Tm)
  | div (a b : Tm)
  deriving Repr

/-- `Pl_Blt_Compound`: `src/BipsPl/type_inl_c.c:145-149`. -/
def Tm.compound : Tm → Bool
  | .var _ | .int _ | .atom => false
  | _ => true

/-- Primitive constraints: `src/BipsFD/fd_math_fd.fd:60-324, 421-462, 544-579, 674-709,
804-840, 935-976`, `pl_x_eq_c` of `src/BipsFD/math_supp.c:1375-1379`.  `fdVar` is the bare call
of `Pl_Fd_Prolog_To_Fd_Var`. -/
inductive Cstr where
  | fdVar (x : W)
  | xEqC (x : W) (c : Int)
  | xEqY (x y : W)
  | xPlusCEqY (x : W) (c : Int) (y : W)
  | xNeqC (x : W) (c : Int)
  | xNeqY (x y : W)
  | xPlusCNeqY (x : W) (c : Int) (y : W)
  | xLtY (x y : W)
  | xLteC (x : W) (c : Int)
  | xLteY (x y : W)
  | xPlusCLteY (x : W) (c : Int) (y : W)
  | xGteC (x : W) (c : Int)
  | xPlusCGteY (x : W) (c : Int) (y : W)
  | axEqY (a : Int) (x y : W)
  | xPlusYEqZ (x y z : W)
  | axPlusYEqZ (a : Int) (x y z : W)
  | axPlusByEqZ (a : Int) (x : W) (b : Int) (y z : W)
  | xPlusYPlusZEqT (x y z t : W)
  | axPlusYPlusZEqT (a : Int) (x y z t : W)
  | axPlusByPlusZEqT (a : Int) (x : W) (b : Int) (y z t : W)
  | zeroPowerNEqY (n y : W)
  | aPowerNEqY (a : Int) (n y : W)
  | xPowerAEqY (x : W) (a : Int) (y : W)
  | x2EqY (x y : W)
  | xyEqZ (x y z : W)
  | minXA (x : W) (a : Int) (z : W)
  | minXY (x y z : W)
  | maxXA (x : W) (a : Int) (z : W)
  | maxXY (x y z : W)
  | absXA (x : W) (a : Int) (z : W)
  | absXY (x y z : W)
  | quotRemAY (a : Int) (y r z : W)
  | quotRemXA (x : W) (a : Int) (r z : W)
  | quotRemXY (x y r z : W)
  deriving DecidableEq, Repr

/-- Delayed constraints (`NonLin`, `src/BipsFD/math_supp.c:88-104, 133-139`); the result word is
kept beside.  The integer arguments are words of the code that are known to be integers. -/
inductive NL where
  | x2 (x : W)
  | xy (x y : W)
  | divAY (a : Int) (y : W)
  | divXA (x : W) (a : Int)
  | divXY (x y : W)
  | zeroPowerN (n : W)
  | aPowerN (a : Int) (n : W)
  | xPowerA (x : W) (a : Int)
  | minXA (x : W) (a : Int)
  | minXY (x y : W)
  | maxXA (x : W) (a : Int)
  | maxXY (x y : W)
  | absXA (x : W) (a : Int)
  | absXY (x y : W)
  | quotRemAY (a : Int) (y r : W)
  | quotRemXA (x : W) (a : Int) (r : W)
  | quotRemXY (x y r : W)
  deriving DecidableEq, Repr

/-- The primitive constraints posted for one delayed constraint:
`Load_Delay_Cstr_Part`, `src/BipsFD/math_supp.c:1255-1326`. -/
def NL.post (res : W) : NL → List Cstr
  | .x2 x => [.x2EqY x res]
  | .xy x y => [.xyEqZ x y res]
  | .divAY a y => [.xGteC y 1, .xyEqZ res y (.int a)]
  | .divXA x a => [.axEqY a res x]
  | .divXY x y => [.xGteC y 1, .xyEqZ res y x]
  | .zeroPowerN n => [.zeroPowerNEqY n res]
  | .aPowerN a n => [.aPowerNEqY a n res]
  | .xPowerA x a => [.xPowerAEqY x a res]
  | .minXA x a => [.minXA x a res]
  | .minXY x y => [.minXY x y res]
  | .maxXA x a => [.maxXA x a res]
  | .maxXY x y => [.maxXY x y res]
  | .absXA x a => [.absXA x a res]
  | .absXY x y => [.absXY x y res]
  | .quotRemAY a y r => [.quotRemAY a y r res]
  | .quotRemXA x a r => [.quotRemXA x a r res]
  | .quotRemXY x y r => [.quotRemXY x y r res]

/-- A polynomial: `src/BipsFD/math_supp.c:113-129`. -/
structure Poly where
  c : Int
  m : List (Int × Var)
  deriving DecidableEq, Repr

/-- `New_Poly`: `src/BipsFD/math_supp.c:206`. -/
def Poly.new : Poly := ⟨0, []⟩

/-- `Add_Cst_To_Poly`: `src/BipsFD/math_supp.c:207`. -/
def Poly.addCst (p : Poly) (s n : Int) : Poly := { p with c := p.c + s * n }

/-- State of the translation: constraints already posted (in order), the delay stack, the number
of heap cells pushed and of FD variables made, the `sort` flag
(`src/BipsFD/math_supp.c:151-159`). -/
structure St where
  posted : List Cstr
  delayed : List (NL × W)
  h : Nat
  cs : Nat
  sort : Bool
  deriving DecidableEq, Repr

/-- `Pl_Load_Left_Right` empties the delay stack: `src/BipsFD/math_supp.c:266-267`. -/
def St.init : St := ⟨[], [], 0, 0, false⟩

/-- Post primitive constraints. -/
def St.post (st : St) (l : List Cstr) : St := { st with posted := st.posted ++ l }

/-- Outcome: a value, failure of the constraint (`FALSE`), a type, instantiation or resource
error, or `ub` where the code releases a heap cell that is still referenced
(`src/BipsFD/math_supp.c:1056`). -/
inductive Res (α : Type) where
  | ok (a : α) (st : St)
  | fail
  | err
  | ub
  deriving DecidableEq, Repr

def Res.bind (r : Res α) (f : α → St → Res β) : Res β :=
  match r with
  | .ok a st => f a st
  | .fail => .fail
  | .err => .err
  | .ub => .ub

/-- What the model is parametrised by.  `inst posted n` is the integer variable `n` is known to
be once the constraints `posted` have been propagated (read by `DEREF`,
`src/BipsFD/math_supp.c:704, 801, 810`); `qs` is `qsort` with `Compar_Monom`
(`src/BipsFD/math_supp.c:340`). -/
structure Env where
  inst : List Cstr → Nat → Option Int
  qs : List (Int × Var) → List (Int × Var)

/-- `Compar_Monom`: `src/BipsFD/math_supp.c:555-568`. -/
def comparMonom (m1 m2 : Int × Var) : Int :=
  let cmp := if m1.1 > 0 then (if m2.1 > 0 then m2.1 - m1.1 else -1)
    else (if m2.1 > 0 then 1 else m1.1 - m2.1)
  if cmp > 0 then 1 else if cmp = 0 then 0 else -1

/-- The loop of `Add_Monom` over the table: `src/BipsFD/math_supp.c:617-622`. -/
def bump (a : Int) (x : Var) : List (Int × Var) → Option (List (Int × Var))
  | [] => none
  | (b, y) :: l => if y = x then some ((b + a, y) :: l) else (bump a x l).map ((b, y) :: ·)

/-- `Add_Monom`: `src/BipsFD/math_supp.c:606-630`; `MAX_MONOMS` is 2000 (line 65). -/
def addMonom (p : Poly) (s a : Int) (x : Var) (st : St) : Res Poly :=
  if a = 0 then .ok p st
  else
    let a := if s < 0 then -a else a
    match bump a x p.m with
    | some m => .ok { p with m := m } st
    | none =>
      if 2000 ≤ p.m.length then .err
      else .ok { p with m := p.m ++ [(a, x)] } st

/-- `Push_Delayed_Cstr`: `src/BipsFD/math_supp.c:577-597`; `DELAY_CSTR_STACK_SIZE` is 1000
(line 62). -/
def push (d : NL) (st : St) : Res Var :=
  let res := Var.heap st.h
  if 1000 ≤ st.delayed.length then .err
  else .ok res { st with h := st.h + 1, delayed := st.delayed ++ [(d, .var res)] }

/-- `Add_Multiply_Monom`: `src/BipsFD/math_supp.c:640-657`. -/
def addMul (p : Poly) (s : Int) (m1 m2 : Int × Var) (st : St) : Res Poly :=
  let a := m1.1 * m2.1
  if a = 0 then .ok p st
  else
    (push (if m1.2 = m2.2 then .x2 (.var m1.2) else .xy (.var m1.2) (.var m2.2)) st).bind
      fun x st => addMonom p s a x st

/-- The inner loop of the product: `src/BipsFD/math_supp.c:840-842`. -/
def mulRow (s : Int) (m1 : Int × Var) : List (Int × Var) → Poly → St → Res Poly
  | [], p, st => .ok p st
  | m2 :: l, p, st => (addMul p s m1 m2 st).bind fun p st => mulRow s m1 l p st

/-- The outer loop of the product: `src/BipsFD/math_supp.c:837-843`. -/
def mulRows (s : Int) (p2 : Poly) : List (Int × Var) → Poly → St → Res Poly
  | [], p, st => .ok p st
  | m1 :: l, p, st =>
    (addMonom p s (m1.1 * p2.c) m1.2 st).bind fun p st =>
      (mulRow s m1 p2.m p st).bind fun p st => mulRows s p2 l p st

/-- The last loop of the product: `src/BipsFD/math_supp.c:845-846`. -/
def mulLast (s c1 : Int) : List (Int × Var) → Poly → St → Res Poly
  | [], p, st => .ok p st
  | m2 :: l, p, st =>
    (addMonom p s (m2.1 * c1) m2.2 st).bind fun p st => mulLast s c1 l p st

/-- The product of two polynomials: `src/BipsFD/math_supp.c:835-848`. -/
def mulPoly (s : Int) (p1 p2 p : Poly) (st : St) : Res Poly :=
  (mulRows s p2 p1.m (p.addCst s (p1.c * p2.c)) st).bind fun p st => mulLast s p1.c p2.m p st

/-- `New_Tagged_Fd_Variable`: a new FD variable on the constraint stack
(`src/EngineFD/fd_inst.c:836-875`); its number is the count of those made before. -/
def St.newFd (st : St) : St := { st with cs := st.cs + 1 }

/-- The constraint of `Load_Poly_Rec` for the first two monomial terms and the rest `z`:
`src/BipsFD/math_supp.c:1219-1233`. -/
def step3 (m0 m1 : Int × Var) (z load : W) : Cstr :=
  if m0.1 = 1 then
    if m1.1 = 1 then .xPlusYPlusZEqT (.var m0.2) (.var m1.2) z load
    else .axPlusYPlusZEqT m1.1 (.var m1.2) (.var m0.2) z load
  else if m1.1 = 1 then .axPlusYPlusZEqT m0.1 (.var m0.2) (.var m1.2) z load
  else .axPlusByPlusZEqT m0.1 (.var m0.2) m1.1 (.var m1.2) z load

/-- `Load_Poly_Rec`: `src/BipsFD/math_supp.c:1181-1239`. -/
def loadPolyRec : List (Int × Var) → W → St → St
  | [], _, st => st
  | [m0], load, st => st.post [.axEqY m0.1 (.var m0.2) load]
  | [m0, m1], load, st =>
    st.post [
      if m0.1 = 1 then
        if m1.1 = 1 then .xPlusYEqZ (.var m0.2) (.var m1.2) load
        else .axPlusYEqZ m1.1 (.var m1.2) (.var m0.2) load
      else if m1.1 = 1 then .axPlusYEqZ m0.1 (.var m0.2) (.var m1.2) load
      else .axPlusByEqZ m0.1 (.var m0.2) m1.1 (.var m1.2) load]
  | m0 :: m1 :: m2 :: l, load, st =>
    if l = [] ∧ m2.1 = 1 then st.post [step3 m0 m1 (.var m2.2) load]
    else
      let load1 := W.var (.fd st.cs)
      loadPolyRec (m2 :: l) load1 (st.newFd.post [step3 m0 m1 load1 load])

/-- `Load_Poly`: `src/BipsFD/math_supp.c:1140-1164`.  The unification of
`Pl_Fd_Math_Unify_X_Y` (lines 1340-1364) is the constraint that both are equal. -/
def loadPoly (m : List (Int × Var)) (pref : Option Var) (st : St) : Var × St :=
  match m with
  | [(1, x)] =>
    match pref with
    | some v => (v, st.post [.xEqY (.var x) (.var v)])
    | none => (x, st)
  | _ =>
    match pref with
    | some v => (v, loadPolyRec m (.var v) st)
    | none => (.fd st.cs, loadPolyRec m (.var (.fd st.cs)) st.newFd)

/-- The two parts of a polynomial, both with positive coefficients:
`src/BipsFD/math_supp.c:338-390`; `MAX_COEF_FOR_SORT` is 100 (line 67). -/
def splitPoly (E : Env) (p : Poly) (st : St) : List (Int × Var) × List (Int × Var) :=
  if st.sort ∨ p.m.length > 1000 then
    let q := E.qs p.m
    let l := q.takeWhile (fun m => decide (m.1 > 0))
    let r := (q.dropWhile (fun m => decide (m.1 > 0))).takeWhile (fun m => decide (m.1 < 0))
    (l, r.map fun m => (-m.1, m.2))
  else
    (p.m.filter (fun m => decide (m.1 > 0)),
      (p.m.filter (fun m => decide (m.1 < 0))).map fun m => (-m.1, m.2))

/-- What `Load_Left_Right_Rec` returns: the mask and the two words as options, the constant. -/
structure LR where
  c : Int
  l : Option Var
  r : Option Var
  deriving DecidableEq, Repr

/-- The loading of the left part: `src/BipsFD/math_supp.c:428-439`.  Returns the left word, and
the preferred word if the right part is the single variable to load the left part into. -/
def loadLeft (optim : Bool) (c : Int) (l r : List (Int × Var)) (st : St) :
    Option Var × Option Var × St :=
  match l with
  | [] => (none, none, st)
  | _ =>
    let pref : Option Var :=
      match r with
      | [(1, x)] => if optim ∧ c = 0 then some x else none
      | _ => none
    let q := loadPoly l pref st
    (some q.1, pref, q.2)

/-- The loading of both parts: `src/BipsFD/math_supp.c:428-456`.  When the right part is the
preferred word the code leaves `r_word` unset; it is not read in that case (the constant is 0 and
the relation is `#=`), the model puts the preferred word. -/
def leftRight (E : Env) (optim : Bool) (p : Poly) (st : St) : LR × St :=
  let lr := splitPoly E p st
  let q := loadLeft optim p.c lr.1 lr.2 st
  match lr.2 with
  | [] => (⟨p.c, q.1, none⟩, q.2.2)
  | _ =>
    match q.2.1 with
    | some x => (⟨p.c, q.1, some x⟩, q.2.2)
    | none =>
      let t := loadPoly lr.2 (if optim ∧ p.c = 0 then q.1 else none) q.2.2
      (⟨p.c, q.1, some t.1⟩, t.2)

/-- The end of `Load_Term_Into_Word`: `src/BipsFD/math_supp.c:488-538`. -/
def toWord (lr : LR) (st : St) : Res W :=
  let c := lr.c
  match lr.l, lr.r with
  | none, none => if c < 0 then .fail else .ok (.int c) st
  | some l, none =>
    if c = 0 then .ok (.var l) st
    else
      let x := W.var (.fd st.cs)
      if c > 0 then .ok x (st.newFd.post [.xPlusCEqY (.var l) c x])
      else .ok x (st.newFd.post [.xPlusCEqY x (-c) (.var l)])
  | none, some r =>
    let x := W.var (.fd st.cs)
    if c < 0 then .fail
    else
      let w := W.var (.fd st.newFd.cs)
      .ok x (st.newFd.newFd.post [.xPlusYEqZ (.var r) x w, .xEqC w c])
  | some l, some r =>
    let x := W.var (.fd st.cs)
    if c = 0 then .ok x (st.newFd.post [.xPlusYEqZ (.var r) x (.var l)])
    else
      let w := W.var (.fd st.newFd.cs)
      let st := st.newFd.newFd.post [.xPlusYEqZ (.var r) x w]
      if c > 0 then .ok x (st.post [.xPlusCEqY (.var l) c w])
      else .ok x (st.post [.xPlusCEqY w (-c) (.var l)])

/-- `Load_Term_Into_Word` once the term is a polynomial: `src/BipsFD/math_supp.c:476-539`. -/
def loadFin (E : Env) (r : Res Poly) : Res W :=
  r.bind fun p st =>
    let q := leftRight E false p st
    toWord q.1 q.2

/-- The loop of `Pl_Power` on 32-bit unsigned integers: `src/BipsFD/oper_supp.c:88-97`.
`fuel` bounds the number of iterations, one per bit of `n`. -/
def powLoop : Nat → Nat → Nat → Nat → Nat
  | 0, _, xn, _ => xn
  | fuel + 1, n, xn, xp =>
    if n = 0 then xn
    else powLoop fuel (n / 2) (if n % 2 = 1 then xn * xp % 2 ^ 32 else xn) (xp * xp % 2 ^ 32)

/-- `Pl_Power`: `src/BipsFD/oper_supp.c:74-101`; the arguments are cast to `unsigned`
(`src/BipsFD/math_supp.c:897`). -/
def plPower (x n : Int) : Int :=
  let x := (x % 2 ^ 32).toNat
  let n := (n % 2 ^ 32).toNat
  if n = 0 ∨ x = 1 then 1
  else if x = 0 then 0
  else if n ≥ 32 then MAX
  else
    let xn : Int := powLoop 32 n 1 x
    if xn > 0 ∧ xn ≤ MAX then xn else MAX

/-- `POWER_2` once both operands are loaded: `src/BipsFD/math_supp.c:891-935`. -/
def powW (w1 w2 : W) (s : Int) (p : Poly) (st : St) : Res Poly :=
  match w1, w2 with
  | .int n1, .int n2 =>
    if plPower n1 n2 < 0 then .fail else .ok (p.addCst s (plPower n1 n2)) st
  | .int n1, .var x2 =>
    if n1 = 1 then .ok (p.addCst s 1) st
    else (push (if n1 = 0 then .zeroPowerN (.var x2) else .aPowerN n1 (.var x2)) st).bind
      fun z st => addMonom p s 1 z st
  | .var _, .var _ => .err
  | .var x1, .int n2 =>
    if n2 = 0 then .ok (p.addCst s 1) st
    else if n2 = 1 then addMonom p s 1 x1 st
    else (push (if n2 = 2 then .x2 (.var x1) else .xPowerA (.var x1) n2) st).bind
      fun z st => addMonom p s 1 z st

/-- `MIN_2` once both operands are loaded: `src/BipsFD/math_supp.c:942-964`. -/
def minW (w1 w2 : W) (s : Int) (p : Poly) (st : St) : Res Poly :=
  match w1, w2 with
  | .int n1, .int n2 => .ok (p.addCst s (if n1 ≤ n2 then n1 else n2)) st
  | .int n1, .var x2 => (push (.minXA (.var x2) n1) st).bind fun z st => addMonom p s 1 z st
  | .var x1, .int n2 => (push (.minXA (.var x1) n2) st).bind fun z st => addMonom p s 1 z st
  | .var x1, .var x2 =>
    (push (.minXY (.var x1) (.var x2)) st).bind fun z st => addMonom p s 1 z st

/-- `MAX_2` once both operands are loaded: `src/BipsFD/math_supp.c:971-993`. -/
def maxW (w1 w2 : W) (s : Int) (p : Poly) (st : St) : Res Poly :=
  match w1, w2 with
  | .int n1, .int n2 => .ok (p.addCst s (if n1 ≥ n2 then n1 else n2)) st
  | .int n1, .var x2 => (push (.maxXA (.var x2) n1) st).bind fun z st => addMonom p s 1 z st
  | .var x1, .int n2 => (push (.maxXA (.var x1) n2) st).bind fun z st => addMonom p s 1 z st
  | .var x1, .var x2 =>
    (push (.maxXY (.var x1) (.var x2)) st).bind fun z st => addMonom p s 1 z st

/-- `DIST_2` once both operands are loaded: `src/BipsFD/math_supp.c:1000-1022`. -/
def distW (w1 w2 : W) (s : Int) (p : Poly) (st : St) : Res Poly :=
  match w1, w2 with
  | .int n1, .int n2 => .ok (p.addCst s (if n1 ≥ n2 then n1 - n2 else n2 - n1)) st
  | .int n1, .var x2 => (push (.absXA (.var x2) n1) st).bind fun z st => addMonom p s 1 z st
  | .var x1, .int n2 => (push (.absXA (.var x1) n2) st).bind fun z st => addMonom p s 1 z st
  | .var x1, .var x2 =>
    (push (.absXY (.var x1) (.var x2)) st).bind fun z st => addMonom p s 1 z st

/-- `DIV_2` once both operands are loaded: `src/BipsFD/math_supp.c:1082-1111`. -/
def divW (w1 w2 : W) (s : Int) (p : Poly) (st : St) : Res Poly :=
  match w1, w2 with
  | .int n1, .int n2 =>
    if n2 = 0 ∨ n1.tmod n2 ≠ 0 then .fail else .ok (p.addCst s (n1.tdiv n2)) st
  | .int n1, .var x2 => (push (.divAY n1 (.var x2)) st).bind fun z st => addMonom p s 1 z st
  | .var x1, .int n2 =>
    if n2 = 0 then .fail
    else (push (.divXA (.var x1) n2) st).bind fun z st => addMonom p s 1 z st
  | .var x1, .var x2 =>
    (push (.divXY (.var x1) (.var x2)) st).bind fun z st => addMonom p s 1 z st

/-- Which of the three operators that share the code `quot_rem`. -/
inductive QR where
  | quot
  | rem
  | quotRem
  deriving DecidableEq, Repr

/-- The delayed constraint of `quot_rem`: `src/BipsFD/math_supp.c:1064, 1069, 1071`. -/
def qrNL (w1 w2 w3 : W) : NL :=
  match w1, w2 with
  | .int n1, w2 => .quotRemAY n1 w2 w3
  | w1, .int n2 => .quotRemXA w1 n2 w3
  | w1, w2 => .quotRemXY w1 w2 w3

/-- `QUOT_2`, `REM_2`, `QUOT_REM_3` once the operands are loaded: `src/BipsFD/math_supp.c:1041-1075`.
`h0` is the number of the heap cell pushed for the remainder of `//` and `rem`
(lines 1025-1031).  `H--` (line 1056) gives the last cell back: if that is the cell of the
remainder nothing refers to it and the model keeps counting (the code would use the address
again), otherwise a cell that is referenced is released. -/
def qrW (k : QR) (h0 : Nat) (w1 w2 w3 : W) (s : Int) (p : Poly) (st : St) : Res Poly :=
  match w1, w2 with
  | .int n1, .int n2 =>
    if n2 = 0 then .fail
    else
      match k with
      | .rem => .ok (p.addCst s (n1.tmod n2)) st
      | .quotRem => .ok (p.addCst s (n1.tdiv n2)) (st.post [.xEqC w3 (n1.tmod n2)])
      | .quot =>
        if st.h = h0 + 1 then .ok (p.addCst s (n1.tdiv n2)) st else .ub
  | _, _ =>
    (push (qrNL w1 w2 w3) st).bind fun z st =>
      match k, w3 with
      | .rem, .var x3 => addMonom p s 1 x3 st
      | _, _ => addMonom p s 1 z st

/-- `Make_Self_Ref(H)`, `Global_Push`: `src/BipsFD/math_supp.c:1025-1026, 1030-1031`. -/
def St.pushCell (st : St) : St := { st with h := st.h + 1 }

/-- `sort = FALSE` at the start of `Load_Left_Right_Rec`: `src/BipsFD/math_supp.c:329`. -/
def St.unsorted (st : St) : St := { st with sort := false }

/-- `if (n1 > MAX_COEF_FOR_SORT) sort = TRUE`: `src/BipsFD/math_supp.c:716-717, 807-808`. -/
def St.noteCoef (st : St) (n : Int) : St := { st with sort := st.sort || decide (n > 100) }

/-- `DEREF` of a subterm: `src/BipsFD/math_supp.c:704, 801, 810`. -/
def rd (E : Env) (st : St) : Tm → Tm
  | .var n =>
    match E.inst st.posted n with
    | some k => .int k
    | none => .var n
  | e => e

/-- `Normalize`: `src/BipsFD/math_supp.c:691-1121`.  The jumps to `terminal_rec` are calls.  The
limit on the variables noted in `vars_tbl` (100000, lines 725-728) is left out. -/
def normalize (E : Env) : Tm → Int → Poly → St → Res Poly
  | .var n, s, p, st =>
    match E.inst st.posted n with
    | some k => .ok (p.addCst s k) (st.noteCoef k)
    | none => addMonom p s 1 (.orig n) st
  | .int n, s, p, st => .ok (p.addCst s n) (st.noteCoef n)
  | .atom, _, _, _ => .err
  | .bad, _, _, _ => .err
  | .pos a, s, p, st => normalize E a s p st
  | .neg a, s, p, st => normalize E a (-s) p st
  | .add a b, s, p, st =>
    if a.compound then (normalize E b s p st).bind fun p st => normalize E a s p st
    else (normalize E a s p st).bind fun p st => normalize E b s p st
  | .sub a b, s, p, st =>
    if a.compound then (normalize E b (-s) p st).bind fun p st => normalize E a s p st
    else (normalize E a s p st).bind fun p st => normalize E b (-s) p st
  | .mul a b, s, p, st =>
    let any := fun (st : St) =>
      (normalize E a 1 .new st).bind fun p1 st =>
        (normalize E b 1 .new st).bind fun p2 st => mulPoly s p1 p2 p st
    match rd E st a with
    | .int n =>
      match rd E (st.noteCoef n) b with
      | .var v => addMonom p s n (.orig v) (st.noteCoef n)
      | _ => any (st.noteCoef n)
    | _ => any st
  | .pow a b, s, p, st =>
    (loadFin E (normalize E a 1 .new st.unsorted)).bind fun w1 st =>
      (loadFin E (normalize E b 1 .new st.unsorted)).bind fun w2 st => powW w1 w2 s p st
  | .min a b, s, p, st =>
    (loadFin E (normalize E a 1 .new st.unsorted)).bind fun w1 st =>
      (loadFin E (normalize E b 1 .new st.unsorted)).bind fun w2 st => minW w1 w2 s p st
  | .max a b, s, p, st =>
    (loadFin E (normalize E a 1 .new st.unsorted)).bind fun w1 st =>
      (loadFin E (normalize E b 1 .new st.unsorted)).bind fun w2 st => maxW w1 w2 s p st
  | .dist a b, s, p, st =>
    (loadFin E (normalize E a 1 .new st.unsorted)).bind fun w1 st =>
      (loadFin E (normalize E b 1 .new st.unsorted)).bind fun w2 st => distW w1 w2 s p st
  | .quot a b, s, p, st =>
    (loadFin E (normalize E a 1 .new st.pushCell.unsorted)).bind fun w1 st1 =>
      (loadFin E (normalize E b 1 .new st1.unsorted)).bind fun w2 st2 =>
        qrW .quot st.h w1 w2 (.var (.heap st.h)) s p st2
  | .rem a b, s, p, st =>
    (loadFin E (normalize E a 1 .new st.pushCell.unsorted)).bind fun w1 st1 =>
      (loadFin E (normalize E b 1 .new st1.unsorted)).bind fun w2 st2 =>
        qrW .rem st.h w1 w2 (.var (.heap st.h)) s p st2
  | .quotRem a b r, s, p, st =>
    (loadFin E (normalize E a 1 .new st.unsorted)).bind fun w1 st =>
      (loadFin E (normalize E b 1 .new st.unsorted)).bind fun w2 st =>
        (loadFin E (normalize E r 1 .new st.unsorted)).bind fun w3 st =>
          qrW .quotRem 0 w1 w2 w3 s p st
  | .div a b, s, p, st =>
    (loadFin E (normalize E a 1 .new st.unsorted)).bind fun w1 st =>
      (loadFin E (normalize E b 1 .new st.unsorted)).bind fun w2 st => divW w1 w2 s p st

/-- The four relations of `src/BipsFD/fd_math_c.c`. -/
inductive Rel where
  | eq
  | neq
  | lt
  | lte
  deriving DecidableEq, Repr

/-- `Pl_Fd_Eq_2` after the loading: `src/BipsFD/fd_math_c.c:98-131`. -/
def eqPost (lr : LR) (st : St) : Res Unit :=
  let c := lr.c
  match lr.l, lr.r with
  | none, none => if c ≠ 0 then .fail else .ok () st
  | some l, none => if c > 0 then .fail else .ok () (st.post [.xEqC (.var l) (-c)])
  | none, some r => if c < 0 then .fail else .ok () (st.post [.xEqC (.var r) c])
  | some l, some r =>
    if c > 0 then .ok () (st.post [.xPlusCEqY (.var l) c (.var r)])
    else if c < 0 then .ok () (st.post [.xPlusCEqY (.var r) (-c) (.var l)])
    else .ok () st

/-- `Pl_Fd_Neq_2` after the loading: `src/BipsFD/fd_math_c.c:158-199`. -/
def neqPost (lr : LR) (st : St) : Res Unit :=
  let c := lr.c
  match lr.l, lr.r with
  | none, none => if c = 0 then .fail else .ok () st
  | some l, none =>
    if c > 0 then .ok () (st.post [.fdVar (.var l)])
    else .ok () (st.post [.xNeqC (.var l) (-c)])
  | none, some r =>
    if c < 0 then .ok () (st.post [.fdVar (.var r)])
    else .ok () (st.post [.xNeqC (.var r) c])
  | some l, some r =>
    if c > 0 then .ok () (st.post [.xPlusCNeqY (.var l) c (.var r)])
    else if c < 0 then .ok () (st.post [.xPlusCNeqY (.var r) (-c) (.var l)])
    else .ok () (st.post [.xNeqY (.var l) (.var r)])

/-- `Pl_Fd_Lt_2` after the loading: `src/BipsFD/fd_math_c.c:227-265`. -/
def ltPost (lr : LR) (st : St) : Res Unit :=
  let c := lr.c
  match lr.l, lr.r with
  | none, none => if c ≥ 0 then .fail else .ok () st
  | some l, none =>
    if c ≥ 0 then .fail else .ok () (st.post [.xLteC (.var l) (-c - 1)])
  | none, some r =>
    if c < 0 then .ok () (st.post [.fdVar (.var r)])
    else .ok () (st.post [.xGteC (.var r) (c + 1)])
  | some l, some r =>
    if c > 0 then .ok () (st.post [.xPlusCLteY (.var l) (c + 1) (.var r)])
    else if c < 0 then .ok () (st.post [.xPlusCGteY (.var r) (-c - 1) (.var l)])
    else .ok () (st.post [.xLtY (.var l) (.var r)])

/-- `Pl_Fd_Lte_2` after the loading: `src/BipsFD/fd_math_c.c:293-331`. -/
def ltePost (lr : LR) (st : St) : Res Unit :=
  let c := lr.c
  match lr.l, lr.r with
  | none, none => if c > 0 then .fail else .ok () st
  | some l, none =>
    if c > 0 then .fail else .ok () (st.post [.xLteC (.var l) (-c)])
  | none, some r =>
    if c ≤ 0 then .ok () (st.post [.fdVar (.var r)])
    else .ok () (st.post [.xGteC (.var r) c])
  | some l, some r =>
    if c > 0 then .ok () (st.post [.xPlusCLteY (.var l) c (.var r)])
    else if c < 0 then .ok () (st.post [.xPlusCGteY (.var r) (-c) (.var l)])
    else .ok () (st.post [.xLteY (.var l) (.var r)])

/-- The four functions of `src/BipsFD/fd_math_c.c:83-334` after the loading. -/
def relPost : Rel → LR → St → Res Unit
  | .eq => eqPost
  | .neq => neqPost
  | .lt => ltPost
  | .lte => ltePost

/-- `Pl_Term_Math_Loading`: `src/BipsFD/math_supp.c:280-307`.  The variables that are still plain
variables become FD variables there (lines 295-304); in the model every variable ranges over the
FD integers from the start. -/
def St.flush (st : St) : St :=
  { st with posted := st.posted ++ st.delayed.flatMap (fun d => d.1.post d.2), delayed := [] }

/-- `Pl_Fd_Eq_2`, `Pl_Fd_Neq_2`, `Pl_Fd_Lt_2`, `Pl_Fd_Lte_2`: `src/BipsFD/fd_math_c.c:83-334`;
`Pl_Load_Left_Right`, `Load_Left_Right_Rec`: `src/BipsFD/math_supp.c:254-271, 318-336`. -/
def translate (E : Env) (rel : Rel) (le re : Tm) : Res Unit :=
  ((normalize E le 1 .new .init).bind fun p st => normalize E re (-1) p st).bind fun p st =>
    let q := leftRight E (decide (rel = .eq)) p st
    (relPost rel q.1 q.2).bind fun _ st => .ok () st.flush

/-- The user's relations: `src/BipsFD/fd_math.pl:43-71`; the full arc consistency versions
(lines 76-104) differ only in the propagation. -/
inductive Op where
  | eq
  | neq
  | lt
  | lte
  | gt
  | gte
  deriving DecidableEq, Repr

/-- `#=`, `#\=`, `#<`, `#=<`, `#>`, `#>=`: `src/BipsFD/fd_math.pl:43-71`. -/
def post (E : Env) (op : Op) (le re : Tm) : Res Unit :=
  match op with
  | .eq => translate E .eq le re
  | .neq => translate E .neq le re
  | .lt => translate E .lt le re
  | .lte => translate E .lte le re
  | .gt => translate E .lt re le
  | .gte => translate E .lte re le

/-! ## What a primitive constraint stands for -/

/-- An integer parameter of a primitive constraint is clamped:
`Pl_Fd_Prolog_To_Value`, `src/EngineFD/fd_inst.c:500-512`. -/
def clamp (v : Int) : Int := if v < -MAX then -MAX else if v > MAX then MAX else v

/-- The value of a word given as an FD argument; an integer is cast to `int`
(`Pl_Fd_Prolog_To_Fd_Var`, `src/EngineFD/fd_inst.c:461-462`). -/
def W.val (τ : Var → Int) : W → Int
  | .int n => n.bmod (2 ^ 32)
  | .var v => τ v

/-- The relation a primitive constraint propagates, as written in
`src/BipsFD/fd_math_fd.fd:60-324, 421-470, 544-595, 674-727, 804-862, 935-985` (read at values
instead of intervals), with clamped parameters; `pl_x_eq_c` unifies with the unclamped integer
(`src/BipsFD/math_supp.c:1375-1379`). -/
def Cstr.sat (τ : Var → Int) : Cstr → Prop
  | .fdVar _ => True
  | .xEqC (.int n) c => n = c
  | .xEqC (.var v) c => τ v = c
  | .xEqY x y => x.val τ = y.val τ
  | .xPlusCEqY x c y => x.val τ + clamp c = y.val τ
  | .xNeqC x c => x.val τ ≠ clamp c
  | .xNeqY x y => x.val τ ≠ y.val τ
  | .xPlusCNeqY x c y => x.val τ + clamp c ≠ y.val τ
  | .xLtY x y => x.val τ < y.val τ
  | .xLteC x c => x.val τ ≤ clamp c
  | .xLteY x y => x.val τ ≤ y.val τ
  | .xPlusCLteY x c y => x.val τ + clamp c ≤ y.val τ
  | .xGteC x c => x.val τ ≥ clamp c
  | .xPlusCGteY x c y => x.val τ + clamp c ≥ y.val τ
  | .axEqY a x y => clamp a * x.val τ = y.val τ
  | .xPlusYEqZ x y z => x.val τ + y.val τ = z.val τ
  | .axPlusYEqZ a x y z => clamp a * x.val τ + y.val τ = z.val τ
  | .axPlusByEqZ a x b y z => clamp a * x.val τ + clamp b * y.val τ = z.val τ
  | .xPlusYPlusZEqT x y z t => x.val τ + y.val τ + z.val τ = t.val τ
  | .axPlusYPlusZEqT a x y z t => clamp a * x.val τ + y.val τ + z.val τ = t.val τ
  | .axPlusByPlusZEqT a x b y z t =>
    clamp a * x.val τ + clamp b * y.val τ + z.val τ = t.val τ
  | .zeroPowerNEqY n y => y.val τ = if n.val τ = 0 then 1 else 0
  | .aPowerNEqY a n y => y.val τ = clamp a ^ (n.val τ).toNat
  | .xPowerAEqY x a y => y.val τ = x.val τ ^ (clamp a).toNat
  | .x2EqY x y => y.val τ = x.val τ * x.val τ
  | .xyEqZ x y z => x.val τ * y.val τ = z.val τ
  | .minXA x a z => z.val τ = min (x.val τ) (clamp a)
  | .minXY x y z => z.val τ = min (x.val τ) (y.val τ)
  | .maxXA x a z => z.val τ = max (x.val τ) (clamp a)
  | .maxXY x y z => z.val τ = max (x.val τ) (y.val τ)
  | .absXA x a z => z.val τ = ((x.val τ - clamp a).natAbs : Int)
  | .absXY x y z => z.val τ = ((x.val τ - y.val τ).natAbs : Int)
  | .quotRemAY a y r z => clamp a = z.val τ * y.val τ + r.val τ ∧ r.val τ < y.val τ
  | .quotRemXA x a r z => x.val τ = z.val τ * clamp a + r.val τ ∧ r.val τ < clamp a
  | .quotRemXY x y r z => x.val τ = z.val τ * y.val τ + r.val τ ∧ r.val τ < y.val τ

end Gp.FdMath
