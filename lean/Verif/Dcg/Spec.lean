/-
Specification of grammar rules: the relation between the streams before and after
a body, without any translation, and the reading of a clause.
-/
import Verif.Dcg.Model

namespace Gp.Dcg

/-- The meaning of the terms of the user, for one instance of the variables of the
rule: `L` are the streams, `cons ts` puts terminals in front of a stream, `nt` and
`ph` are the relations of the non terminals and of `phrase/3` on the value of a
variable, `ext` the truth of the goals of `{}`. -/
structure Interp (ν τ γ L : Type) where
  cons : List τ → L → L
  nt : ν → L → L → Prop
  ph : ν → L → L → Prop
  ext : γ → Prop

/-- The relation of a body, read logically (`!` is true, `->` and `*->` are `,`). -/
def Der {ν τ γ L : Type} (I : Interp ν τ γ L) : Body ν τ γ → L → L → Prop
  | .var x, a, b => I.ph x a b
  | .nil, a, b => a = b
  | .terms t ts, a, b => a = I.cons (t :: ts) b
  | .conj p q, a, b => ∃ c, Der I p a c ∧ Der I q c b
  | .ifThen _ p q, a, b => ∃ c, Der I p a c ∧ Der I q c b
  | .alt p q, a, b => Der I p a b ∨ Der I q a b
  | .neg p, a, b => (¬∃ c, Der I p a c) ∧ a = b
  | .cut, a, b => a = b
  | .curly g, a, b => I.ext g ∧ a = b
  | .nt n, a, b => I.nt n a b

/-- An equation holds for the values `ρ` of the stream variables. -/
def Eqn.holds {ν τ γ L : Type} (I : Interp ν τ γ L) (ρ : Nat → L) : Eqn τ → Prop
  | .vv a b => ρ a = ρ b
  | .vl a ts b => ρ a = I.cons ts (ρ b)

/-- The values satisfy the unifications done by the translation. -/
def Sat {ν τ γ L : Type} (I : Interp ν τ γ L) (ρ : Nat → L) (es : List (Eqn τ)) : Prop :=
  ∀ e ∈ es, e.holds I ρ

/-- The logical reading of a goal: its own variables are free in a `\+`. -/
def Holds {ν τ γ L : Type} (I : Interp ν τ γ L) : Goal ν τ γ → (Nat → L) → Prop
  | .true, _ => True
  | .eqn e, ρ => e.holds I ρ
  | .call n a b, ρ => I.nt n (ρ a) (ρ b)
  | .phrase x a b, ρ => I.ph x (ρ a) (ρ b)
  | .ext g, _ => I.ext g
  | .cut, _ => True
  | .conj p q, ρ => Holds I p ρ ∧ Holds I q ρ
  | .ifThen _ p q, ρ => Holds I p ρ ∧ Holds I q ρ
  | .alt p q, ρ => Holds I p ρ ∨ Holds I q ρ
  | .neg lo hi es p, ρ =>
    ¬∃ ρ', (∀ v, v < lo ∨ hi ≤ v → ρ' v = ρ v) ∧ Sat I ρ' es ∧ Holds I p ρ'

/-- The relation defined by a clause between the last two arguments of its head. -/
def Clause.rel {ν τ γ L : Type} (I : Interp ν τ γ L) (c : Clause ν τ γ) (a b : L) : Prop :=
  ∃ ρ : Nat → L, ρ 0 = a ∧ ρ 1 = b ∧ Sat I ρ c.eqs ∧ Holds I c.body ρ

end Gp.Dcg
