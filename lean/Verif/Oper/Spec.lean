/-!
Specification of the operators: a map from an atom and a kind to a priority and a specifier. Nothing here depends on the model.
-/
namespace Gp.Oper

/-- The kind of an operator. -/
inductive Kind where
  | pre
  | post
  | inf
deriving DecidableEq

/-- The specifiers. -/
inductive Specif where
  | fx | fy | xf | yf | xfx | xfy | yfx
deriving DecidableEq

def Specif.kind : Specif → Kind
  | .fx | .fy => .pre
  | .xf | .yf => .post
  | .xfx | .xfy | .yfx => .inf

/-- Greatest priority of the left argument of an operator of priority `p`: an `x` is below `p`, a `y` may be equal to `p`
(0 if there is no left argument). -/
def Specif.left : Specif → Int → Int
  | .fx, _ | .fy, _ => 0
  | .xf, p | .xfx, p | .xfy, p => p - 1
  | .yf, p | .yfx, p => p

/-- Greatest priority of the right argument. -/
def Specif.right : Specif → Int → Int
  | .xf, _ | .yf, _ => 0
  | .fx, p | .xfx, p | .yfx, p => p - 1
  | .fy, p | .xfy, p => p

def Specif.name : Specif → String
  | .fx => "fx" | .fy => "fy" | .xf => "xf" | .yf => "yf" | .xfx => "xfx" | .xfy => "xfy" | .yfx => "yfx"

def Specif.all : List Specif := [.fx, .fy, .xf, .yf, .xfx, .xfy, .yfx]

/-- A table of operators. -/
abbrev Defs := Nat → Kind → Option (Int × Specif)

/-- The table where the definition of an atom for a kind is replaced. -/
def Defs.set (D : Defs) (a : Nat) (k : Kind) (d : Option (Int × Specif)) : Defs :=
  fun b k' => if b = a ∧ k' = k then d else D b k'

/-- op(p, s, a) is refused: infix and postfix at the same time; a bar which is not infix or which has a priority of 1000 or less;
the empty list and the empty block. -/
def NoCreate (D : Defs) (bar nil curly : Nat) (p : Int) (s : Specif) (a : Nat) : Prop :=
  (s.kind = .inf ∧ D a .post ≠ none) ∨ (s.kind = .post ∧ D a .inf ≠ none) ∨
  (a = bar ∧ (s.kind ≠ .inf ∨ (0 < p ∧ p ≤ 1000))) ∨ a = nil ∨ a = curly

/-- The definition installed by op(p, s, a): none if the priority is 0. -/
def newDef (p : Int) (s : Specif) : Option (Int × Specif) := if p = 0 then none else some (p, s)

end Gp.Oper
