/-
Specification of the boolean constraints: their truth for given values.
-/
import Verif.FdBool.Model

namespace Gp.FdBool

/-- The relation of a comparison. -/
def COp.rel : COp → Int → Int → Prop
  | .eq, x, y => x = y
  | .neq, x, y => x ≠ y
  | .lt, x, y => x < y
  | .gte, x, y => x ≥ y
  | .gt, x, y => x > y
  | .lte, x, y => x ≤ y

/-- The meaning of a boolean operator. -/
def BOp.rel : BOp → Prop → Prop → Prop
  | .equiv, p, q => p ↔ q
  | .nequiv, p, q => ¬(p ↔ q)
  | .imply, p, q => p → q
  | .nimply, p, q => ¬(p → q)
  | .and, p, q => p ∧ q
  | .nand, p, q => ¬(p ∧ q)
  | .or, p, q => p ∨ q
  | .nor, p, q => ¬(p ∨ q)

/-- The truth of a constraint: `σ` gives the values of the boolean variables and `val` those of the arithmetic
expressions. -/
def Tr {α : Type} (σ : Nat → Int) (val : α → Int) : Ex α → Prop
  | .var n => σ n = 1
  | .int k => k = 1
  | .bad => False
  | .not e => ¬Tr σ val e
  | .bin op l r => op.rel (Tr σ val l) (Tr σ val r)
  | .cmp op _ a b => op.rel (val a) (val b)

/-- A constraint as described by the manual: the only integers are 0 and 1. -/
def Ex.wf {α : Type} : Ex α → Prop
  | .var _ | .cmp _ _ _ _ => True
  | .int k => k = 0 ∨ k = 1
  | .bad => False
  | .not e => e.wf
  | .bin _ l r => l.wf ∧ r.wf

/-- The boolean variables of a constraint. -/
def Ex.vars {α : Type} : Ex α → List Nat
  | .var n => [n]
  | .int _ | .bad | .cmp _ _ _ _ => []
  | .not e => e.vars
  | .bin _ l r => l.vars ++ r.vars

/-- A boolean value. -/
def isBool (x : Int) : Prop := x = 0 ∨ x = 1

/-- The difference of two expressions is the one of the words into which they are loaded. -/
def LR.holds {ω : Type} (w : LR ω) (wv : ω → Int) (d : Int) : Prop :=
  d = (match w.l with | some x => wv x | none => 0) + w.c - (match w.r with | some x => wv x | none => 0)

/-- `b` is the truth value of `p`. -/
def truth (b : Int) (p : Prop) : Prop := (b = 1 ∧ p) ∨ (b = 0 ∧ ¬p)

/-- The relation of a primitive constraint: `τ` are the values of the words, `wv` those of the words of the loaded
expressions. -/
def Prim.sat {α ω : Type} (τ : W → Int) (val : α → Int) (wv : ω → Int) : Prim α ω → Prop
  | .bool x => isBool (τ x)
  | .int x k => τ x = k
  | .same x y => τ x = τ y
  | .notEq x b => τ b = 1 - τ x
  | .tri op x y b => truth (τ b) (op.rel (τ x = 1) (τ y = 1))
  | .imply1 x y => τ x = 1 → τ y = 1
  | .and0 x y => ¬(τ x = 1 ∧ τ y = 1)
  | .or1 x y => τ x = 1 ∨ τ y = 1
  | .cmp .eq _ a b => val a = val b
  | .cmp .neq _ a b => val a ≠ val b
  | .cmp .lt _ a b => val a < val b
  | .cmp .lte _ a b => val a ≤ val b
  | .load a b w => w.holds wv (val a - val b)
  | .eqC _ x c b => truth (τ b) (wv x = c)
  | .eqY _ x y b => truth (τ b) (wv x = wv y)
  | .plusEqY _ x c y b => truth (τ b) (wv x + c = wv y)
  | .neqC _ x c b => truth (τ b) (wv x ≠ c)
  | .neqY _ x y b => truth (τ b) (wv x ≠ wv y)
  | .plusNeqY _ x c y b => truth (τ b) (wv x + c ≠ wv y)
  | .ltY x y b => truth (τ b) (wv x < wv y)
  | .lteC x c b => truth (τ b) (wv x ≤ c)
  | .lteY x y b => truth (τ b) (wv x ≤ wv y)
  | .plusLteY x c y b => truth (τ b) (wv x + c ≤ wv y)
  | .gteC x c b => truth (τ b) (wv x ≥ c)
  | .plusGteY x c y b => truth (τ b) (wv x + c ≥ wv y)

def satAll {α ω : Type} (τ : W → Int) (val : α → Int) (wv : ω → Int) (l : List (Prim α ω)) : Prop :=
  ∀ p ∈ l, p.sat τ val wv

end Gp.FdBool
