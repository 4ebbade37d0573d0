import Verif.Fd.Queue
/-
Model of the labeling: fd_labeling/1,2, fd_labelingff/1 (BipsFD/fd_values.pl:69-248, BipsFD/fd_values_c.c:292-750) above the model of
the propagation (`Verif.Fd.Queue`).

The whole search is modelled: the list of the answers which are obtained if the user asks for all of them. A choice point restores
the domains, the dates, the chains and the constraint frames (this is C27, `Verif.Fd.TrailProps`) and what has been trailed in the array
of the variables. The queue, `DATE`, the other changes in the array and the random numbers are not restored.

Simplifications. The elements of the list are finite domain variables (instantiated or not), not plain Prolog variables: these raise an
error. The options are already decoded (fd_values.pl:120-191). `extra_cstr` is only used to display a warning. `Nb_Cstr` of a variable
does not change during the labeling since no constraint is added: it is the parameter `nbc`. The random generator is any function `rnd`
of a counter. The counter of backtracks is not modelled. The stacks are large enough.
-/
namespace Gp.Label

open Gp.FdRange Gp.Fd

/-- The value methods (fd_values_c.c:55-63). -/
inductive Val where
  | min | max | random | middle | bisect | limitsMin | limitsMax
deriving DecidableEq

/-- The variable methods, apart from the standard one (fd_values_c.c:67-73). -/
inductive Var where
  | firstFail | mostConstrained | smallest | largest | maxRegret | random
deriving DecidableEq

/-- The parameters of a labeling. -/
structure Opt where
  val : Val
  var : Var
  reorder : Bool
  nbc : Nat → Nat
  rnd : Nat → Nat → Nat

/-- An entry of the trail for the array: `Trail_OV(array - 1)` saves the number of elements (fd_values_c.c:601), `Trail_MV(array - 1,
n + 1)` the number and the first cells (fd_values_c.c:644). -/
inductive Undo where
  | cnt (n : Nat)
  | pack (n : Nat) (cells : List Nat)

/-- The state: the constraints, the array of variables (fd_values_c.c:481-523: `array[0]` is the number of elements), its trail, the
number of random numbers already used. -/
structure St where
  q : QSt
  n : Nat
  arr : List Nat
  tr : List Undo
  seed : Nat

/-! ### The restrictions -/

/-- `Pl_Fd_In_Interval`, `Pl_Fd_Remove_Value` (fd_inst.c:1461-1467, 1532-1538): a tell and the propagation. -/
def tellOp (c : Cfg) (fuel : Nat) (st : QSt) (x : Nat) (op : Op) : Option (Bool × QSt) :=
  let (ok, st) := tellVar c (beforeAdd st) x op
  afterAdd c fuel ok st

/-- `Pl_Fd_Assign_Value_Fast` (fd_inst.c:1496-1507): the value is not tested. -/
def assign (c : Cfg) (fuel : Nat) (st : QSt) (x : Nat) (n : Int) : Option (Bool × QSt) :=
  let st := beforeAdd st
  afterAdd c fuel true (allProp (setVar st x (setInt (st.dom x) n)) x (intEv (st.dom x) n))

/-! ### The choice of the value -/

/-- `Select_Value` (fd_values_c.c:296-322). -/
def selectValue (o : Opt) (s : St) (x : Nat) (m : Val) : Int × St :=
  match m with
  | .min | .limitsMin => ((s.q.dom x).r.min, s)
  | .max | .limitsMax => ((s.q.dom x).r.max, s)
  | .bisect | .middle => (ithElem (s.q.dom x).r (Int.tdiv (s.q.dom x).nb 2), s)
  | .random => (ithElem (s.q.dom x).r ((o.rnd s.seed (s.q.dom x).nb.toNat : Nat) + 1), { s with seed := s.seed + 1 })

/-- The method of the alternative: `limits` takes the bounds in turn (fd_values_c.c:395-398). -/
def nextMethod : Val → Val
  | .limitsMin => .limitsMax
  | .limitsMax => .limitsMin
  | m => m

/-! ### The choice of the variable -/

/-- `Cmp_First_Fail`, `Cmp_Most_Constrained`, `Cmp_Smallest`, `Cmp_Largest`, `Cmp_Max_Regret` (fd_values_c.c:671-750): the new variable
`y` is better than `x`. -/
def better (c : Cfg) (o : Opt) (s : Store) (x y : Nat) : Bool :=
  match o.var with
  | .firstFail => decide ((s y).nb < (s x).nb)
  | .mostConstrained => decide ((s y).nb < (s x).nb) || (decide ((s y).nb = (s x).nb) && decide (o.nbc y > o.nbc x))
  | .smallest => decide ((s y).r.min < (s x).r.min) || (decide ((s y).r.min = (s x).r.min) && decide (o.nbc y > o.nbc x))
  | .largest => decide ((s y).r.max > (s x).r.max) || (decide ((s y).r.max = (s x).r.max) && decide (o.nbc y > o.nbc x))
  | .maxRegret =>
    let lx := nextAfter c (s x).r (s x).r.min - (s x).r.min
    let ly := nextAfter c (s y).r (s y).r.min - (s y).r.min
    decide (ly > lx) || (decide (ly = lx) && decide (o.nbc y > o.nbc x))
  | .random => false

/-- The exchange of two cells (fd_values_c.c:595-597, 623-624). -/
def swap (l : List Nat) (i j : Nat) : List Nat := (l.set i (l.getD j 0)).set j (l.getD i 0)

/-- The loop over the array (fd_values_c.c:611-635) from the cell `p`, with `k` cells left: the array, `res_elem`, `nb_ground`. -/
def scan (c : Cfg) (o : Opt) (s : Store) : Nat → Nat → List Nat → Option Nat → Nat → List Nat × Option Nat × Nat
  | 0, _, arr, res, ng => (arr, res, ng)
  | k + 1, p, arr, res, ng =>
    let y := arr.getD p 0
    if (s y).ground then scan c o s k (p + 1) arr res (ng + 1)
    else
      match res with
      | none => scan c o s k (p + 1) arr (some p) ng
      | some e =>
        if better c o s (arr.getD e 0) y then
          if o.reorder then scan c o s k (p + 1) (swap arr e p) (some e) ng
          else scan c o s k (p + 1) arr (some p) ng
        else scan c o s k (p + 1) arr (some e) ng

/-- The loop of METHOD_RANDOM (fd_values_c.c:589-608). -/
def pickRandom (o : Opt) : Nat → St → St × Option Nat
  | 0, s => (s, none)
  | n + 1, s =>
    let i := o.rnd s.seed (n + 1)
    let y := s.arr.getD i 0
    let s := { s with arr := swap s.arr i n, seed := s.seed + 1 }
    if (s.q.dom y).ground then pickRandom o n s
    else ({ s with tr := .cnt s.n :: s.tr, n := n }, some y)

/-- The packing of the array (fd_values_c.c:640-655): the instantiated variables are removed. The loop copies the other ones in order,
in place: a cell is read before it is written. -/
def pack (s : St) (ng : Nat) : St :=
  { s with
    tr := .pack s.n (s.arr.take (s.n - ng)) :: s.tr
    n := s.n - ng
    arr := (s.arr.take s.n).filter (fun y => !(s.q.dom y).ground) ++ s.arr.drop (s.n - ng) }

/-- The other methods (fd_values_c.c:611-658): `*res_elem` is read after the packing. -/
def pickBest (c : Cfg) (o : Opt) (s : St) : St × Option Nat :=
  let (arr, res, ng) := scan c o s.q.dom s.n 0 s.arr none 0
  let s := { s with arr := arr }
  match res with
  | none => (s, none)
  | some e =>
    let s := if s.n > 50 ∧ ng ≥ s.n / 2 then pack s ng else s
    (s, some (s.arr.getD e 0))

/-- `Pl_Fd_Sel_Array_Pick_Var_4` (fd_values_c.c:535-662). -/
def pick (c : Cfg) (o : Opt) (s : St) : St × Option Nat :=
  if s.n = 0 then (s, none)
  else if o.var = .random then pickRandom o s.n s
  else pickBest c o s

/-! ### Backtracking -/

/-- The undo of entries of the trail: the number of elements and the cells. -/
def undo : List Undo → Nat → List Nat → Nat × List Nat
  | [], n, arr => (n, arr)
  | .cnt m :: es, _, arr => undo es m arr
  | .pack m cells :: es, _, arr => undo es m (cells ++ arr.drop cells.length)

/-- Back to the choice point created in the state `s`, from the state `t` (`Pl_Delete_Choice_Point`, fd_values_c.c:386; wam_inst.c:1404-1446,
1725-1759): what is trailed is restored. -/
def back (s t : St) : St :=
  let (n, arr) := undo (t.tr.take (t.tr.length - s.tr.length)) t.n t.arr
  { q := { t.q with dom := s.q.dom, date := s.q.date, chains := s.q.chains, frames := s.q.frames }
    n := n, arr := arr, tr := t.tr.drop (t.tr.length - s.tr.length), seed := t.seed }

/-! ### The search -/

/-- What is left to label: `'$fd_labeling_std'` with the rest of the list, or `'$fd_labeling_mth'` (fd_values.pl:196-223). -/
inductive Ctl where
  | std (xs : List Nat)
  | mth

/-- What is called: the labeling, `Pl_Indomain_2`, `Pl_Indomain_Alt_0` for the value `v`. -/
inductive Job where
  | label
  | indomain (x : Nat) (m : Val)
  | alt (x : Nat) (m : Val) (v : Int)

/-- The next variable (fd_values.pl:209-223). -/
def nextVar (c : Cfg) (o : Opt) (s : St) : Ctl → St × Option (Nat × Ctl)
  | .std [] => (s, none)
  | .std (x :: xs) => (s, some (x, .std xs))
  | .mth => match pick c o s with
    | (s, none) => (s, none)
    | (s, some x) => (s, some (x, .mth))

/-- All the answers of a call followed by the rest of the labeling, and the last state. The fuel bounds the depth of the calls and the
length of a propagation: `none` if it is not enough.
`label`: '$fd_labeling_std', '$fd_labeling_mth' (fd_values.pl:209-223).
`indomain`: `Pl_Indomain_2` (fd_values_c.c:331-368): a choice point, then the value is assigned, or the interval is bisected.
`alt`: `Pl_Indomain_Alt_0` (fd_values_c.c:377-440) after the restoration: the value is removed, then the next value is tried with a
new choice point; or the other part of the interval. -/
def search (c : Cfg) (o : Opt) : Nat → Job → St → Ctl → Option (List QSt × St)
  | 0, _, _, _ => none
  | fuel + 1, .label, s, ctl =>
    match nextVar c o s ctl with
    | (s, none) => some ([s.q], s)
    | (s, some (x, ctl)) => search c o fuel (.indomain x o.val) s ctl
  | fuel + 1, .indomain x m, s, ctl =>
    if (s.q.dom x).ground then search c o fuel .label s ctl
    else
      let (v, s) := selectValue o s x m
      let first :=
        if m = .bisect then
          match tellOp c fuel s.q x (.interval 0 v) with
          | none => none
          | some (false, q) => some ([], { s with q := q })
          | some (true, q) => search c o fuel (.indomain x m) { s with q := q } ctl
        else
          match assign c fuel s.q x v with
          | none => none
          | some (false, q) => some ([], { s with q := q })
          | some (true, q) => search c o fuel .label { s with q := q } ctl
      match first with
      | none => none
      | some (l, t) =>
        match search c o fuel (.alt x m v) (back s t) ctl with
        | none => none
        | some (l', t) => some (l ++ l', t)
  | fuel + 1, .alt x m v, s, ctl =>
    if m = .bisect then
      match tellOp c fuel s.q x (.interval (v + 1) imax) with
      | none => none
      | some (false, q) => some ([], { s with q := q })
      | some (true, q) => search c o fuel (.indomain x m) { s with q := q } ctl
    else
      match tellOp c fuel s.q x (.notValue v) with
      | none => none
      | some (false, q) => some ([], { s with q := q })
      | some (true, q) => search c o fuel (.indomain x (nextMethod m)) { s with q := q } ctl

/-- `Pl_Fd_Sel_Array_From_List_2` (fd_values_c.c:469-526): the variables of the list which are not instantiated. -/
def selArray (s : Store) (xs : List Nat) : List Nat := xs.filter (fun x => !(s x).ground)

/-- `'$fd_labeling'` on a list (fd_values.pl:86-99, 196-202); the standard method is `none`. A single variable is the list of this
variable with the standard method. -/
def labeling (c : Cfg) (o : Opt) (std : Bool) (fuel : Nat) (q : QSt) (xs : List Nat) (seed : Nat) : Option (List QSt × St) :=
  if std then search c o fuel .label ⟨q, 0, [], [], seed⟩ (.std xs)
  else search c o fuel .label ⟨q, (selArray q.dom xs).length, selArray q.dom xs, [], seed⟩ .mth

end Gp.Label
