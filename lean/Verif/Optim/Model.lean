import Verif.Label.Model
import Verif.Fd.Cstr
/-
Model of fd_minimize/2 and fd_maximize/2 (BipsFD/fd_optim.pl:46-83) where the goal is a labeling, above `Verif.Label.Model`.

The variable is a finite domain variable (instantiated or not). A call is the list of the answers which are obtained if the user
asks for all of them. `g_assign`, `g_read` (the value survives the failure, see C30) are the parameter `b` of the loop: the loop reads the value
right after having written it. The random generator keeps its state across the calls of the goal: `seeds k` is the number of random
numbers used before the k-th call, it is arbitrary.
-/
namespace Gp.Optim

open Gp.FdRange Gp.Fd Gp.Label

/-- Minimize or maximize. -/
inductive Dir where
  | min | max
deriving DecidableEq

/-- `Pl_Fd_Domain_Interval` on an integer or a finite domain variable (fd_values_c.c:185-218). -/
def domInterval (c : Cfg) (fuel : Nat) (q : QSt) (x : Nat) (a b : Int) : Option (Bool × QSt) :=
  if (q.dom x).ground then some (decide ((q.dom x).r.min ≥ a ∧ (q.dom x).r.min ≤ b), q)
  else tellOp c fuel q x (.interval a b)

/-- `Pl_Fd_Domain_Var_3` (fd_values_c.c:228-240). -/
def fdDomain (c : Cfg) (fuel : Nat) (q : QSt) (x : Nat) (l u : Int) : Option (Bool × QSt) :=
  domInterval c fuel q x (if toValue l < 0 then 0 else toValue l) (toValue u)

/-- `X = B` on an integer or a finite domain variable (`Pl_Fd_Unify_With_Integer0`, fd_inst.c:1516-1523). -/
def unifyInt (c : Cfg) (fuel : Nat) (q : QSt) (x : Nat) (b : Int) : Option (Bool × QSt) :=
  if (q.dom x).ground then some (decide ((q.dom x).r.min = b), q)
  else tellOp c fuel q x (.value b)

/-- The restoration of what is trailed when the execution comes back to a choice point (as in `Gp.Label.back`). -/
def restore (q t : QSt) : QSt := { t with dom := q.dom, date := q.date, chains := q.chains, frames := q.frames }

/-- The first bound (fd_optim.pl:47-48, 69-70). -/
def Dir.start : Dir → Int
  | .min => imax
  | .max => 0

/-- The constraint for a better value (fd_optim.pl:50-53, 72-75). -/
def Dir.restrict (d : Dir) (c : Cfg) (fuel : Nat) (q : QSt) (x : Nat) (b : Int) : Option (Bool × QSt) :=
  match d with
  | .min => fdDomain c fuel q x 0 (b - 1)
  | .max => fdDomain c fuel q x (b + 1) imax

/-- The value which is found: `fd_min`, `fd_max` (fd_optim.pl:55, 77; fd_infos_c.c:115-149). -/
def Dir.read (d : Dir) (a : QSt) (x : Nat) : Int :=
  match d with
  | .min => (a.dom x).r.min
  | .max => (a.dom x).r.max

/-- A constraint followed by the goal, here a labeling of the list `xs`: the answers and the last state. -/
def callGoal (c : Cfg) (o : Label.Opt) (std : Bool) (fuel : Nat) (xs : List Nat) (seed : Nat) : Option (Bool × QSt) → Option (List QSt × QSt)
  | none => none
  | some (false, q) => some ([], q)
  | some (true, q) => match labeling c o std fuel q xs seed with
    | none => none
    | some (l, t) => some (l, t.q)

/-- The result of the loop: `more` if it is not over after the given number of turns. -/
inductive Out where
  | more
  | answers (l : List QSt)

/-- The loop (fd_optim.pl:49-61, 71-83). The if-then-else cuts the choice points of the goal after its first answer; then the failure
goes back to `repeat`. -/
def loop (c : Cfg) (o : Label.Opt) (std : Bool) (xs : List Nat) (seeds : Nat → Nat) (d : Dir) (x : Nat) (fuel : Nat) : Nat → Nat → QSt → Int → Option Out
  | 0, _, _, _ => some .more
  | turns + 1, k, q, b =>
    match callGoal c o std fuel xs (seeds k) (d.restrict c fuel q x b) with
    | none => none
    | some (a :: _, _) => loop c o std xs seeds d x fuel turns (k + 1) (restore q a) (d.read a x)
    | some ([], t) =>
      match callGoal c o std fuel xs (seeds (k + 1)) (unifyInt c fuel (restore q t) x b) with
      | none => none
      | some (l, _) => some (.answers l)

/-- fd_minimize/2, fd_maximize/2 (fd_optim.pl:46-83). -/
def optimize (c : Cfg) (o : Label.Opt) (std : Bool) (xs : List Nat) (seeds : Nat → Nat) (d : Dir) (x : Nat) (fuel turns : Nat) (q : QSt) : Option Out :=
  loop c o std xs seeds d x fuel turns 0 q d.start

end Gp.Optim
