import Verif.Fd.Queue
/-
Model of the symbolic constraints (BipsFD/fd_symbolic_c.c:75-481, BipsFD/fd_symbolic_fd.fd:57-103, BipsFD/fd_symbolic.pl:44-129).

Not modelled: the reading of the Prolog lists into arrays (fd_inst.c:579-770); the propagation after the first execution of the blocks (see
`Verif.Fd.Queue`: the blocks of `pl_fd_element` are blocks `X in r`, the functions called by `fd_check_fct` are run at each event on the
variables of the list). A variable is a number, an array of variables is a list of numbers (with repetitions if a variable occurs several
times).
-/
namespace Gp.FdSymb

open Gp.FdRange Gp.Fd

/-- `(int) (l[j])`: the 32 low bits of a word. -/
def toInt (w : Int) : Int := (BitVec.ofInt 32 w).toInt

/-- `l[j]` where `l[0]` is the number of elements, `l[1]`... the elements (fd_inst.c:620-632); `none` outside of the array. -/
def arr (l : List Int) (j : Int) : Option Int :=
  if j = 0 then some l.length else if j < 0 then none else l[(j - 1).toNat]?

/-- The values of `j` in the loops on a range (fd_symbolic_c.c:181-197, 267-284, `VECTOR_BEGIN_ENUM` fd_range.h:246-267). -/
def idx (i : Range) : List Int :=
  match i.vec with
  | none => (List.range (i.max - i.min + 1).toNat).map (fun k : Nat => i.min + (k : Int))
  | some v =>
    if i.min = i.max then (List.range (i.max - i.min + 1).toNat).map (fun k : Nat => i.min + (k : Int))
    else (enumVec v 0).map (fun k : Nat => (k : Int))

/-- `Pl_Fd_Element_I` and `Pl_Fd_Element_Var_I` (fd_symbolic_c.c:154-161, 240-247). -/
def elementI (c : Cfg) (n : Nat) : Range := becomesSparse c (initInterval 1 n)

/-- The loop of `Pl_Fd_Element_I_To_V` (fd_symbolic_c.c:181-197). -/
def setVals (l : List Int) : List Int → Vec → Option Vec
  | [], v => some v
  | j :: js, v =>
    match arr l j with
    | none => none
    | some w =>
      match setV v (toInt w) with
      | none => none
      | some v' => setVals l js v'

/-- `Pl_Fd_Element_I_To_V` (fd_symbolic_c.c:170-200); `r0` is the local range which is not initialised (fd_to_c.h:665, 502-506). `none` is
an access outside of the array or of the vector. -/
def elementIToV (c : Cfg) (r0 i : Range) (l : List Int) : Option Range :=
  match setVals l (idx i) (vecEmpty c.size) with
  | none => none
  | some v => some (fromVector c r0 v)

/-- The loops of `Pl_Fd_Element_V_To_I` and `Pl_Fd_Element_Var_V_To_I` (fd_symbolic_c.c:223-228, 307-312) from `j`. -/
def setIdx {α : Type} (p : α → Bool) : Int → List α → Vec → Option Vec
  | _, [], v => some v
  | j, x :: xs, v =>
    if p x then
      match setV v j with
      | none => none
      | some v' => setIdx p (j + 1) xs v'
    else setIdx p (j + 1) xs v

/-- `Pl_Fd_Element_V_To_I` (fd_symbolic_c.c:209-231). -/
def elementVToI (c : Cfg) (r0 v : Range) (l : List Int) : Option Range :=
  match setIdx (fun w => testValue v (toInt w)) 1 l (vecEmpty c.size) with
  | none => none
  | some w => some (fromVector c r0 w)

/-- The loop of `Pl_Fd_Element_Var_I_To_V` (fd_symbolic_c.c:268-284); `none` is an access outside of the array. -/
def unions (c : Cfg) (l : List Range) : List Int → Range → Option Range
  | [], v => some v
  | j :: js, v =>
    match (if j < 1 then none else l[(j - 1).toNat]?) with
    | none => none
    | some r => unions c l js (union c v r)

/-- `Pl_Fd_Element_Var_I_To_V` (fd_symbolic_c.c:256-285); `l` has the ranges of the variables of the array. -/
def elementVarIToV (c : Cfg) (r0 i : Range) (l : List Range) : Option Range :=
  unions c l (idx i) (Range.setEmpty { r0 with extra := false, vec := none })

/-- `Pl_Fd_Element_Var_V_To_I` (fd_symbolic_c.c:294-315). -/
def elementVarVToI (c : Cfg) (r0 v : Range) (l : List Range) : Option Range :=
  match setIdx (fun r => !testNullInter r v) 1 l (vecEmpty c.size) with
  | none => none
  | some w => some (fromVector c r0 w)

/-- The outcome of a constraint: undefined (access outside of an array), failure or the new domains. -/
inductive Out (α : Type) where
  | undef
  | fail
  | ok (a : α)
deriving DecidableEq

/-- A block `X in f(...)` (fd_to_c.h:319-327, 502-506): the range is computed then told. -/
def tellFct (c : Cfg) (x : Fdv) : Option Range → Out Fdv
  | none => .undef
  | some r => if (tell c x (.range r)).ok then .ok (tell c x (.range r)).v else .fail

/-- The first execution of the three blocks of `pl_fd_element` (fd_symbolic_fd.fd:57-63), I and V are two variables; `r1` and `r2` are the
contents of the local ranges. -/
def element (c : Cfg) (r1 r2 : Range) (i : Fdv) (l : List Int) (v : Fdv) : Out (Fdv × Fdv) :=
  match tellFct c i (some (elementI c l.length)) with
  | .undef => .undef
  | .fail => .fail
  | .ok i1 =>
    match tellFct c v (elementIToV c r1 i1.r l) with
    | .undef => .undef
    | .fail => .fail
    | .ok v1 =>
      match tellFct c i1 (elementVToI c r2 v1.r l) with
      | .undef => .undef
      | .fail => .fail
      | .ok i2 => .ok (i2, v1)

/-- `Pl_Fd_Element_V_To_Xi` (fd_symbolic_c.c:324-333): it is `Pl_Fd_Tell_Range` on the variable `array[i]`. -/
def elementVToXi (c : Cfg) (x : Fdv) (v : Range) : Res :=
  if x.ground then tellIntRange c x v else tellRangeRange c x v

/-- The loop which removes `v` from the variables not instantiated (fd_symbolic_c.c:363-374, 454-465). -/
def notAll (c : Cfg) (v : Int) : List Nat → Store → Option Store
  | [], s => some s
  | x :: xs, s =>
    if (s x).ground then notAll c v xs s
    else if (tell c (s x) (.notValue v)).ok then notAll c v xs (upd s x (tell c (s x) (.notValue v)).v)
    else none

/-- The loop which tells `v` to the variables which can take it (fd_symbolic_c.c:406-418, 467-479). -/
def valAll (c : Cfg) (v : Int) : List Nat → Store → Option Store
  | [], s => some s
  | x :: xs, s =>
    if testValue (s x).r v then
      if (tell c (s x) (.value v)).ok then valAll c v xs (upd s x (tell c (s x) (.value v)).v)
      else none
    else valAll c v xs s

/-- The number of variables instantiated to `v` (fd_symbolic_c.c:351-358, 441-449). -/
def nbIs (s : Store) (v : Int) (xs : List Nat) : Int := (xs.countP (fun x => decide ((s x).tag = some v)) : Nat)

/-- The number of variables which can take `v` (fd_symbolic_c.c:394-401): the size, minus one for each one which cannot. -/
def nbCan (s : Store) (v : Int) (xs : List Nat) : Int :=
  (xs.length : Int) - (xs.countP (fun x => !testValue (s x).r v) : Nat)

/-- The same in `Pl_Fd_Exactly` (fd_symbolic_c.c:441-449): the domain is tested only if the variable is not instantiated to `v`. -/
def nbCan' (s : Store) (v : Int) (xs : List Nat) : Int :=
  (xs.length : Int) - (xs.countP (fun x => !decide ((s x).tag = some v) && !testValue (s x).r v) : Nat)

/-- `Pl_Fd_Atmost` (fd_symbolic_c.c:342-377). -/
def atmost (c : Cfg) (n : Int) (xs : List Nat) (v : Int) (s : Store) : Option Store :=
  if nbIs s v xs > n then none
  else if nbIs s v xs = n then notAll c v xs s
  else some s

/-- `Pl_Fd_Atleast` (fd_symbolic_c.c:386-421). -/
def atleast (c : Cfg) (n : Int) (xs : List Nat) (v : Int) (s : Store) : Option Store :=
  if nbCan s v xs < n then none
  else if nbCan s v xs = n then valAll c v xs s
  else some s

/-- `Pl_Fd_Exactly` (fd_symbolic_c.c:430-481). -/
def exactly (c : Cfg) (n : Int) (xs : List Nat) (v : Int) (s : Store) : Option Store :=
  if nbIs s v xs > n ∨ nbCan' s v xs < n then none
  else if nbIs s v xs = n then notAll c v xs s
  else if nbCan' s v xs = n then valAll c v xs s
  else some s

/-- An element of the list of `fd_all_different/1`: an integer or a variable. -/
inductive Item where
  | int (n : Int)
  | var (x : Nat)
deriving DecidableEq

/-- `Fd_All_Different_Rec` (fd_symbolic_c.c:110-145) on a proper list of integers and variables (the errors are not modelled);
`neq` is the posting of the constraint X ≠ Y or X ≠ C (`pl_x_neq_c`, `pl_x_neq_y`), which fails or gives a new state. -/
def diffRec {S : Type} (neq : Item → Item → S → Option S) (x : Item) : List Item → S → Option S
  | [], s => some s
  | y :: ys, s =>
    match x, y with
    | .int n, .int m => if n ≠ m then diffRec neq x ys s else none
    | .int _, .var _ => match neq y x s with | none => none | some s' => diffRec neq x ys s'
    | .var _, _ => match neq x y s with | none => none | some s' => diffRec neq x ys s'

/-- `Pl_Fd_All_Different_1` (fd_symbolic_c.c:75-101). -/
def allDiff {S : Type} (neq : Item → Item → S → Option S) : List Item → S → Option S
  | [], s => some s
  | x :: xs, s => match diffRec neq x xs s with | none => none | some s' => allDiff neq xs s'

/-- `'$create_column'/3` (fd_symbolic.pl:126-129): the column of the heads and the tails; `none` if it fails. -/
def createColumn {α : Type} : List (List α) → Option (List α × List (List α))
  | [] => some ([], [])
  | [] :: _ => none
  | (x :: l) :: ts =>
    match createColumn ts with
    | none => none
    | some (col, ts') => some (x :: col, l :: ts')

/-- The answers of `'$lines_to_columns'/2` (fd_symbolic.pl:116-121): a finite derivation. -/
inductive Columns {α : Type} : List (List α) → List (List α) → Prop
  | stop (ts : List (List α)) : Columns ([] :: ts) []
  | step {ts ts' : List (List α)} {col : List α} {cols : List (List α)} (h : ts.head? ≠ some []) :
      createColumn ts = some (col, ts') → Columns ts' cols → Columns ts (col :: cols)

/-- The constraints posted by `'$fd_relationc1'/3` (fd_symbolic.pl:107-111): `fd_element(R, C, X)` for each column and each variable; it
fails if the lengths are different. -/
def relationc {α β : Type} : List α → List β → Option (List (α × β))
  | [], [] => some []
  | c :: cs, x :: xs => match relationc cs xs with | none => none | some p => some ((c, x) :: p)
  | _, _ => none

end Gp.FdSymb
