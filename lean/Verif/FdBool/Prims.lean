/-
Model of the primitive constraints of src/BipsFD/fd_bool_fd.fd and of fd_reified_in (src/BipsFD/fd_bool_c.c:1566-1660).

A domain is its set of values with its minimum and its maximum.  A rule `start V in R` gives for
the present domains a set of values for V, or waits (`val` of a variable which is not
instantiated).  A `wait_switch` starts the rules of the first case whose condition holds and is
then removed.

Simplifications: the sets are mathematical: the truncation of sparse ranges to the maximum of the vectors is in C20 to
C24, and the wake-up of the rules in C25 and C26.  The C integers do not overflow.
-/
namespace Gp.FdBool

/-- A domain: `Range` (EngineFD/fd_range.h). -/
structure Dm where
  lo : Int
  hi : Int
  mem : Int → Prop

/-- The minimum and the maximum are those of the set. -/
structure Dm.ok (d : Dm) : Prop where
  lo : d.mem d.lo
  hi : d.mem d.hi
  low : ∀ v, d.mem v → d.lo ≤ v
  high : ∀ v, d.mem v → v ≤ d.hi

/-- The domain of an instantiated variable. -/
def Dm.single (v : Int) : Dm := ⟨v, v, fun x => x = v⟩

/-- The variables of a primitive constraint. -/
inductive Vr where
  | x | y | b
deriving DecidableEq

/-- The domains of the variables. -/
abbrev Env := Vr → Dm

/-- A rule: the variable which is reduced, and the set (`none`: it waits). -/
abbrev Rule := Vr × (Env → Option (Int → Prop))

/-- `val(v)`: the rule waits for the variable to be instantiated (compile.pl, `val`). -/
def Dm.val (d : Dm) : Option Int := open Classical in if d.lo = d.hi then some d.lo else none

/-- `l .. u`. -/
def itv (l u : Int) : Int → Prop := fun v => l ≤ v ∧ v ≤ u

/-- The macros (fd_bool_fd.fd:40-45); on 0 and 1, `&` and `|` are the minimum and the maximum, and `^` is different. -/
def bnot (x : Int) : Int := 1 - x
def band (x y : Int) : Int := min x y
def bor (x y : Int) : Int := max x y
def bxor (x y : Int) : Int := if x = y then 0 else 1
def beqv (x y : Int) : Int := bnot (bxor x y)

/-- `{ f(val(v), val(w)) }`. -/
def single2 (f : Int → Int → Int) (v w : Vr) (E : Env) : Option (Int → Prop) :=
  match (E v).val, (E w).val with
  | some a, some c => some fun u => u = f a c
  | _, _ => none

/-- `{ f(val(v)) }`. -/
def single1 (f : Int → Int) (v : Vr) (E : Env) : Option (Int → Prop) := (E v).val.map fun a u => u = f a

/-- `~{ f(val(v)) }`. -/
def compl1 (f : Int → Int) (v : Vr) (E : Env) : Option (Int → Prop) := (E v).val.map fun a u => u ≠ f a

def maxInt : Int := 2 ^ 28 - 1

/-- pl_not_x_eq_b (fd_bool_fd.fd:115-120). -/
def rNot : List Rule := [(.x, single1 bnot .b), (.b, single1 bnot .x)]

/-- pl_x_equiv_y_eq_b (fd_bool_fd.fd:130-136). -/
def rEquiv : List Rule :=
  [(.b, single2 beqv .x .y), (.x, single2 beqv .y .b), (.y, single2 beqv .x .b)]

/-- pl_x_nequiv_y_eq_b (fd_bool_fd.fd:146-152). -/
def rNequiv : List Rule :=
  [(.b, single2 bxor .x .y), (.x, single2 bxor .y .b), (.y, single2 bxor .x .b)]

/-- pl_x_imply_y_eq_b (fd_bool_fd.fd:162-168). -/
def rImply : List Rule :=
  [(.b, fun E => some (itv (bor (bnot (E .x).hi) (E .y).lo) (bor (bnot (E .x).lo) (E .y).hi))),
   (.x, fun E => some (itv (bnot (E .b).hi) (bor (bnot (E .b).lo) (E .y).hi))),
   (.y, fun E => some (itv (band (E .b).lo (E .x).lo) (E .b).hi))]

/-- pl_x_imply_y_eq_1 (fd_bool_fd.fd:173-178). -/
def rImply1 : List Rule :=
  [(.x, fun E => some (itv 0 (E .y).hi)), (.y, fun E => some (itv (E .x).lo 1))]

/-- pl_x_nimply_y_eq_b (fd_bool_fd.fd:188-194). -/
def rNimply : List Rule :=
  [(.b, fun E => some (itv (band (E .x).lo (bnot (E .y).hi)) (band (E .x).hi (bnot (E .y).lo)))),
   (.x, fun E => some (itv (E .b).lo (bor (E .b).hi (E .y).hi))),
   (.y, fun E => some (itv (band (bnot (E .b).hi) (E .x).lo) (bnot (E .b).lo)))]

/-- pl_x_and_y_eq_b (fd_bool_fd.fd:204-210). -/
def rAnd : List Rule :=
  [(.b, fun E => some (itv (band (E .x).lo (E .y).lo) (band (E .x).hi (E .y).hi))),
   (.x, fun E => some (itv (E .b).lo (bor (E .b).hi (bnot (E .y).lo)))),
   (.y, fun E => some (itv (E .b).lo (bor (E .b).hi (bnot (E .x).lo))))]

/-- pl_x_and_y_eq_0 (fd_bool_fd.fd:215-220). -/
def rAnd0 : List Rule :=
  [(.x, fun E => some (itv 0 (bnot (E .y).lo))), (.y, fun E => some (itv 0 (bnot (E .x).lo)))]

/-- pl_x_nand_y_eq_b (fd_bool_fd.fd:230-236). -/
def rNand : List Rule :=
  [(.b, fun E => some (itv (bor (bnot (E .x).hi) (bnot (E .y).hi)) (bor (bnot (E .x).lo) (bnot (E .y).lo)))),
   (.x, fun E => some (itv (bnot (E .b).hi) (bor (bnot (E .b).lo) (bnot (E .y).lo)))),
   (.y, fun E => some (itv (bnot (E .b).hi) (bor (bnot (E .b).lo) (bnot (E .x).lo))))]

/-- pl_x_or_y_eq_b (fd_bool_fd.fd:246-252). -/
def rOr : List Rule :=
  [(.b, fun E => some (itv (bor (E .x).lo (E .y).lo) (bor (E .x).hi (E .y).hi))),
   (.x, fun E => some (itv (band (E .b).lo (bnot (E .y).hi)) (E .b).hi)),
   (.y, fun E => some (itv (band (E .b).lo (bnot (E .x).hi)) (E .b).hi))]

/-- pl_x_or_y_eq_1 (fd_bool_fd.fd:257-262). -/
def rOr1 : List Rule :=
  [(.x, fun E => some (itv (bnot (E .y).hi) 1)), (.y, fun E => some (itv (bnot (E .x).hi) 1))]

/-- pl_x_nor_y_eq_b (fd_bool_fd.fd:272-278). -/
def rNor : List Rule :=
  [(.b, fun E => some (itv (band (bnot (E .x).hi) (bnot (E .y).hi)) (band (bnot (E .x).lo) (bnot (E .y).lo)))),
   (.x, fun E => some (itv (band (bnot (E .b).hi) (bnot (E .y).hi)) (bnot (E .b).lo))),
   (.y, fun E => some (itv (band (bnot (E .b).hi) (bnot (E .x).hi)) (bnot (E .b).lo)))]

/-- A case of a wait_switch. -/
structure Case where
  cond : Env → Prop
  rules : List Rule

def toB (k : Int) : List Rule := [(.b, fun _ => some fun v => v = k)]
def same (s : Int → Prop) : List Rule := [(.x, fun _ => some s)]

/-- pl_truth_x_eq_c (fd_bool_fd.fd:294-309). -/
def tEqC (c : Int) : List Case :=
  [⟨fun E => (E .b).hi = 0, same fun v => v ≠ c⟩,
   ⟨fun E => (E .b).lo = 1, same fun v => v = c⟩,
   ⟨fun E => (E .x).lo > c ∨ (E .x).hi < c, toB 0⟩,
   ⟨fun E => (E .x).lo = c ∧ (E .x).hi = c, toB 1⟩]

/-- pl_truth_x_plus_c_eq_y (fd_bool_fd.fd:336-353); pl_truth_x_eq_y (fd_bool_fd.fd:314-331) is the one for 0. -/
def tPlusEqY (c : Int) : List Case :=
  [⟨fun E => (E .b).hi = 0, [(.x, compl1 (· - c) .y), (.y, compl1 (· + c) .x)]⟩,
   ⟨fun E => (E .b).lo = 1, [(.x, fun E => some (itv ((E .y).lo - c) ((E .y).hi - c))),
      (.y, fun E => some (itv ((E .x).lo + c) ((E .x).hi + c)))]⟩,
   ⟨fun E => (E .x).lo + c > (E .y).hi ∨ (E .x).hi + c < (E .y).lo, toB 0⟩,
   ⟨fun E => (E .x).lo + c = (E .y).hi ∧ (E .x).hi + c = (E .y).lo, toB 1⟩]

/-- pl_truth_x_eq_c_F (fd_bool_fd.fd:361-376). -/
def tEqCF (c : Int) : List Case :=
  [⟨fun E => (E .b).hi = 0, same fun v => v ≠ c⟩,
   ⟨fun E => (E .b).lo = 1, same fun v => v = c⟩,
   ⟨fun E => ¬(E .x).mem c, toB 0⟩,
   ⟨fun E => (E .x).lo = c ∧ (E .x).hi = c, toB 1⟩]

/-- pl_truth_x_plus_c_eq_y_F (fd_bool_fd.fd:402-419); pl_truth_x_eq_y_F (fd_bool_fd.fd:381-398) is the one for 0. -/
def tPlusEqYF (c : Int) : List Case :=
  [⟨fun E => (E .b).hi = 0, [(.x, compl1 (· - c) .y), (.y, compl1 (· + c) .x)]⟩,
   ⟨fun E => (E .b).lo = 1, [(.x, fun E => some fun v => (E .y).mem (v + c)), (.y, fun E => some fun v => (E .x).mem (v - c))]⟩,
   ⟨fun E => ∀ v, (E .x).mem v → ¬(E .y).mem (v + c), toB 0⟩,
   ⟨fun E => (E .x).lo + c = (E .y).hi ∧ (E .x).hi + c = (E .y).lo, toB 1⟩]

/-- pl_truth_x_neq_c (fd_bool_fd.fd:435-450). -/
def tNeqC (c : Int) : List Case :=
  [⟨fun E => (E .b).hi = 0, same fun v => v = c⟩,
   ⟨fun E => (E .b).lo = 1, same fun v => v ≠ c⟩,
   ⟨fun E => (E .x).lo = c ∧ (E .x).hi = c, toB 0⟩,
   ⟨fun E => (E .x).lo > c ∨ (E .x).hi < c, toB 1⟩]

/-- pl_truth_x_plus_c_neq_y (fd_bool_fd.fd:477-494); pl_truth_x_neq_y (fd_bool_fd.fd:455-472) is the one for 0. -/
def tPlusNeqY (c : Int) : List Case :=
  [⟨fun E => (E .b).hi = 0, [(.x, fun E => some (itv ((E .y).lo - c) ((E .y).hi - c))),
      (.y, fun E => some (itv ((E .x).lo + c) ((E .x).hi + c)))]⟩,
   ⟨fun E => (E .b).lo = 1, [(.x, compl1 (· - c) .y), (.y, compl1 (· + c) .x)]⟩,
   ⟨fun E => (E .x).lo + c = (E .y).hi ∧ (E .x).hi + c = (E .y).lo, toB 0⟩,
   ⟨fun E => (E .x).lo + c > (E .y).hi ∨ (E .x).hi + c < (E .y).lo, toB 1⟩]

/-- pl_truth_x_neq_c_F (fd_bool_fd.fd:503-518). -/
def tNeqCF (c : Int) : List Case :=
  [⟨fun E => (E .b).hi = 0, same fun v => v = c⟩,
   ⟨fun E => (E .b).lo = 1, same fun v => v ≠ c⟩,
   ⟨fun E => (E .x).lo = c ∧ (E .x).hi = c, toB 0⟩,
   ⟨fun E => ¬(E .x).mem c, toB 1⟩]

/-- pl_truth_x_plus_c_neq_y_F (fd_bool_fd.fd:544-561); pl_truth_x_neq_y_F (fd_bool_fd.fd:523-540) is the one for 0. -/
def tPlusNeqYF (c : Int) : List Case :=
  [⟨fun E => (E .b).hi = 0, [(.x, fun E => some fun v => (E .y).mem (v + c)), (.y, fun E => some fun v => (E .x).mem (v - c))]⟩,
   ⟨fun E => (E .b).lo = 1, [(.x, compl1 (· - c) .y), (.y, compl1 (· + c) .x)]⟩,
   ⟨fun E => (E .x).lo + c = (E .y).hi ∧ (E .x).hi + c = (E .y).lo, toB 0⟩,
   ⟨fun E => ∀ v, (E .x).mem v → ¬(E .y).mem (v + c), toB 1⟩]

/-- pl_truth_x_lt_y (fd_bool_fd.fd:578-595). -/
def tLtY : List Case :=
  [⟨fun E => (E .b).hi = 0, [(.x, fun E => some (itv (E .y).lo maxInt)), (.y, fun E => some (itv 0 (E .x).hi))]⟩,
   ⟨fun E => (E .b).lo = 1, [(.x, fun E => some (itv 0 ((E .y).hi - 1))), (.y, fun E => some (itv ((E .x).lo + 1) maxInt))]⟩,
   ⟨fun E => (E .x).lo ≥ (E .y).hi, toB 0⟩,
   ⟨fun E => (E .x).hi < (E .y).lo, toB 1⟩]

/-- pl_truth_x_lte_c (fd_bool_fd.fd:611-626). -/
def tLteC (c : Int) : List Case :=
  [⟨fun E => (E .b).hi = 0, same (itv (c + 1) maxInt)⟩,
   ⟨fun E => (E .b).lo = 1, same (itv 0 c)⟩,
   ⟨fun E => (E .x).lo > c, toB 0⟩,
   ⟨fun E => (E .x).hi ≤ c, toB 1⟩]

/-- pl_truth_x_plus_c_lte_y (fd_bool_fd.fd:653-670); pl_truth_x_lte_y (fd_bool_fd.fd:631-648) is the one for 0. -/
def tPlusLteY (c : Int) : List Case :=
  [⟨fun E => (E .b).hi = 0, [(.x, fun E => some (itv ((E .y).lo - c + 1) maxInt)), (.y, fun E => some (itv 0 ((E .x).hi + c - 1)))]⟩,
   ⟨fun E => (E .b).lo = 1, [(.x, fun E => some (itv 0 ((E .y).hi - c))), (.y, fun E => some (itv ((E .x).lo + c) maxInt))]⟩,
   ⟨fun E => (E .x).lo + c > (E .y).hi, toB 0⟩,
   ⟨fun E => (E .x).hi + c ≤ (E .y).lo, toB 1⟩]

/-- pl_truth_x_gte_c (fd_bool_fd.fd:686-701). -/
def tGteC (c : Int) : List Case :=
  [⟨fun E => (E .b).hi = 0, same (itv 0 (c - 1))⟩,
   ⟨fun E => (E .b).lo = 1, same (itv c maxInt)⟩,
   ⟨fun E => (E .x).hi < c, toB 0⟩,
   ⟨fun E => (E .x).lo ≥ c, toB 1⟩]

/-- pl_truth_x_plus_c_gte_y (fd_bool_fd.fd:706-723). -/
def tPlusGteY (c : Int) : List Case :=
  [⟨fun E => (E .b).hi = 0, [(.x, fun E => some (itv 0 ((E .y).hi - c - 1))), (.y, fun E => some (itv ((E .x).lo + c + 1) maxInt))]⟩,
   ⟨fun E => (E .b).lo = 1, [(.x, fun E => some (itv ((E .y).lo - c) maxInt)), (.y, fun E => some (itv 0 ((E .x).hi + c)))]⟩,
   ⟨fun E => (E .x).hi + c < (E .y).lo, toB 0⟩,
   ⟨fun E => (E .x).lo + c ≥ (E .y).hi, toB 1⟩]

/-- pl_truth_x_in_l_u (fd_bool_fd.fd:730-745). -/
def tInLU (l u : Int) : List Case :=
  [⟨fun E => (E .b).hi = 0, same fun v => ¬itv l u v⟩,
   ⟨fun E => (E .b).lo = 1, same (itv l u)⟩,
   ⟨fun E => (E .x).lo > u ∨ (E .x).hi < l, toB 0⟩,
   ⟨fun E => (E .x).lo ≥ l ∧ (E .x).hi ≤ u, toB 1⟩]

/-- What fd_reified_in does. -/
inductive Reif where
  | unifyB (k : Int)
  | notDomain (l u : Int)
  | domain (l u : Int)
  | fail
  | switch (l u : Int)

/-- Pl_Fd_Prolog_To_Value (EngineFD/fd_inst.c:500-512). -/
def toValue (v : Int) : Int := if v < -maxInt then -maxInt else if v > maxInt then maxInt else v

/-- Pl_Fd_Reified_In (fd_bool_c.c:1570-1660); `x` and `b` are integers or variables, the domain of a new variable is
0..maxInt.  Types are correct.  The bounds given to pl_fd_not_domain and pl_truth_x_in_l_u are converted again
(EngineFD/fd_to_c.h, fd_int_in_a_frame), without the test for negative ones. -/
def reifiedIn (x : Int ⊕ Dm) (l u : Int) (b : Option Int) : Reif :=
  let mn := if toValue l < 0 then 0 else toValue l
  let mx := toValue u
  match x with
  | .inl v => .unifyB (if v ≥ mn ∧ v ≤ mx then 1 else 0)
  | .inr d =>
    match b with
    | some b => if b = 0 then .notDomain (toValue l) mx else if b = 1 then .domain mn mx else .fail
    | none =>
      if d.lo ≥ mn ∧ d.hi ≤ mx then .unifyB 1
      else if mn > mx ∨ d.hi < mn ∨ d.lo > mx then .unifyB 0
      else .switch (toValue l) mx

end Gp.FdBool
