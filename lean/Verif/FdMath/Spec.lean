import Verif.FdMath.Model

/-!
# What an arithmetic constraint means

Written from the manual (`doc/fd-cstr.tex`, table of the FD arithmetic expressions), without
reference to the translation.
-/

namespace Gp.FdMath

/-- A non-negative operand, as the operators other than `+`, `-` and `*` need. -/
def natOpd : Option Int → Option Int
  | some n => if 0 ≤ n then some n else none
  | none => none

/-- The value of an expression when variable `n` has the value `σ n`; `none` if it has none:
division by zero, `/` that is not exact, a remainder that is not the third argument of
`quot_rem`, or a negative operand of an operator other than `+`, `-`, `*`. -/
def eval (σ : Nat → Int) : Tm → Option Int
  | .var n => some (σ n)
  | .int n => some n
  | .atom => none
  | .bad => none
  | .pos a => eval σ a
  | .neg a => (eval σ a).map fun x => -x
  | .add a b => (eval σ a).bind fun x => (eval σ b).map fun y => x + y
  | .sub a b => (eval σ a).bind fun x => (eval σ b).map fun y => x - y
  | .mul a b => (eval σ a).bind fun x => (eval σ b).map fun y => x * y
  | .pow a b => (natOpd (eval σ a)).bind fun x => (natOpd (eval σ b)).map fun y => x ^ y.toNat
  | .min a b => (natOpd (eval σ a)).bind fun x => (natOpd (eval σ b)).map fun y => Min.min x y
  | .max a b => (natOpd (eval σ a)).bind fun x => (natOpd (eval σ b)).map fun y => Max.max x y
  | .dist a b =>
    (natOpd (eval σ a)).bind fun x => (natOpd (eval σ b)).map fun y => ((x - y).natAbs : Int)
  | .quot a b =>
    (natOpd (eval σ a)).bind fun x => (natOpd (eval σ b)).bind fun y =>
      if y = 0 then none else some (x / y)
  | .rem a b =>
    (natOpd (eval σ a)).bind fun x => (natOpd (eval σ b)).bind fun y =>
      if y = 0 then none else some (x % y)
  | .quotRem a b r =>
    (natOpd (eval σ a)).bind fun x => (natOpd (eval σ b)).bind fun y =>
      (natOpd (eval σ r)).bind fun z =>
        if y ≠ 0 ∧ z = x % y then some (x / y) else none
  | .div a b =>
    (natOpd (eval σ a)).bind fun x => (natOpd (eval σ b)).bind fun y =>
      if y ≠ 0 ∧ x % y = 0 then some (x / y) else none

/-- The relation of an operator. -/
def Op.holds : Op → Int → Int → Prop
  | .eq, x, y => x = y
  | .neq, x, y => x ≠ y
  | .lt, x, y => x < y
  | .lte, x, y => x ≤ y
  | .gt, x, y => x > y
  | .gte, x, y => x ≥ y

/-- The constraint holds when variable `n` has the value `σ n`. -/
def holds (σ : Nat → Int) (op : Op) (le re : Tm) : Prop :=
  ∃ x y, eval σ le = some x ∧ eval σ re = some y ∧ op.holds x y

/-- How large an expression can get: its value with the variables at `w` and all signs positive,
an operator other than `+`, `-`, `*` counting for at least 1. -/
def mag (w : Nat → Nat) : Tm → Nat
  | .var n => w n
  | .int n => n.natAbs
  | .atom => 0
  | .bad => 0
  | .pos a => mag w a
  | .neg a => mag w a
  | .add a b => mag w a + mag w b
  | .sub a b => mag w a + mag w b
  | .mul a b => mag w a * mag w b
  | .pow a b => Max.max 1 (mag w a ^ mag w b)
  | .min a b => Max.max 1 (Max.max (mag w a) (mag w b))
  | .max a b => Max.max 1 (Max.max (mag w a) (mag w b))
  | .dist a b => Max.max 1 (Max.max (mag w a) (mag w b))
  | .quot a _ => Max.max 1 (mag w a)
  | .rem a _ => Max.max 1 (mag w a)
  | .quotRem a _ _ => Max.max 1 (mag w a)
  | .div a _ => Max.max 1 (mag w a)

/-- No subexpression exceeds the largest FD integer when the variables are at `w`. -/
def fits (w : Nat → Nat) : Tm → Prop
  | .pos a => fits w a ∧ (mag w a : Int) ≤ MAX
  | .neg a => fits w a ∧ (mag w a : Int) ≤ MAX
  | .add a b | .sub a b | .mul a b | .min a b | .max a b | .dist a b
  | .quot a b | .rem a b | .div a b =>
    fits w a ∧ fits w b ∧ (mag w a : Int) ≤ MAX ∧ (mag w b : Int) ≤ MAX
  | .pow a b =>
    fits w a ∧ fits w b ∧ (mag w a : Int) ≤ MAX ∧ (mag w b : Int) ≤ MAX ∧
      ((mag w a ^ mag w b : Nat) : Int) ≤ MAX
  | .quotRem a b r =>
    fits w a ∧ fits w b ∧ fits w r ∧
      (mag w a : Int) ≤ MAX ∧ (mag w b : Int) ≤ MAX ∧ (mag w r : Int) ≤ MAX
  | .var _ | .int _ | .atom | .bad => True

/-- Neither side, nor their sum plus one, exceeds the largest FD integer. -/
def fits2 (w : Nat → Nat) (le re : Tm) : Prop :=
  fits w le ∧ fits w re ∧ (mag w le + mag w re : Int) < MAX

/-- The posted constraints are all satisfied. -/
def satAll (τ : Var → Int) (l : List Cstr) : Prop := ∀ c ∈ l, c.sat τ

/-- Every variable has an FD integer as value. -/
def Dom (τ : Var → Int) : Prop := ∀ v, 0 ≤ τ v ∧ τ v ≤ MAX

/-- `qsort` is a sort: the result is a permutation, in the order of `Compar_Monom`. -/
def SortOk (E : Env) : Prop :=
  ∀ m, (E.qs m).Perm m ∧ (E.qs m).Pairwise fun a b => comparMonom a b ≤ 0

/-- Variables are only known to be integers that the weights `w` allow for. -/
def InstOk (E : Env) (w : Nat → Nat) : Prop :=
  ∀ cs n k, E.inst cs n = some k → 0 ≤ k ∧ k ≤ (w n : Int)

/-- A variable known to be an integer has that value in every solution of the constraints posted
so far, among the assignments of the store. -/
def InstSound (E : Env) (store : (Nat → Int) → Prop) : Prop :=
  ∀ cs n k, E.inst cs n = some k → ∀ τ, Dom τ → store (fun m => τ (.orig m)) → satAll τ cs →
    τ (.orig n) = k

end Gp.FdMath
