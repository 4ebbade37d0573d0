import Verif.Catch.Model
/-
Specification of the control constructs: the sequence of answers of a goal and how it ends, as in the
standard (ISO 7.8), with no stack, no address and no global variable.
-/
namespace Gp.Catch.Spec

open Gp.Catch

/-- How a sequence of answers ends: no more answers, an exception, or the enumeration was not asked
further. -/
inductive End (τ : Type) where
  | fail
  | throws (b : Ball τ)
  | more
deriving DecidableEq

/-- A ball of the user, not one of the two terms reserved by the implementation. -/
def Plain {τ : Type} : Ball τ → Prop
  | .term _ => True
  | _ => False

variable {S τ : Type}

mutual
/-- `Ev lib P g s as e`: with the predicates `P`, the goal `g` called in the store `s` gives the answers
`as`, in this order, and then ends with `e`.  The rules are the usual ones; the two marked `lib` are used
only if `lib` is true. -/
inductive Ev (lib : Bool) (P : Nat → Goal S τ) : Goal S τ → S → List S → End τ → Prop
  | stop {g s} : Ev lib P g s [] .more
  | actSome {f s s'} : f s = some s' → Ev lib P (.act f) s [s'] .fail
  | actNone {f s} : f s = none → Ev lib P (.act f) s [] .fail
  -- any ball if `lib`, otherwise a ball of the user
  | throw {f s} : (lib = true ∨ Plain (f s)) → Ev lib P (.throw f) s [] (.throws (f s))
  | conj {g₁ g₂ s bs e₁ as e} : Ev lib P g₁ s bs e₁ → EvAll lib P g₂ bs e₁ as e →
      Ev lib P (.conj g₁ g₂) s as e
  | disjBoth {g₁ g₂ s as as' e} : Ev lib P g₁ s as .fail → Ev lib P g₂ s as' e →
      Ev lib P (.disj g₁ g₂) s (as ++ as') e
  | disjLeft {g₁ g₂ s as e} : Ev lib P g₁ s as e → e ≠ .fail → Ev lib P (.disj g₁ g₂) s as e
  | onceSome {g s a as e} : Ev lib P g s (a :: as) e → Ev lib P (.once g) s [a] .fail
  | onceNone {g s e} : Ev lib P g s [] e → Ev lib P (.once g) s [] e
  | iteThen {c t f s a as e as' e'} : Ev lib P c s (a :: as) e → Ev lib P t a as' e' →
      Ev lib P (.ite c t f) s as' e'
  | iteElse {c t f s as e} : Ev lib P c s [] .fail → Ev lib P f s as e → Ev lib P (.ite c t f) s as e
  | iteEnd {c t f s e} : Ev lib P c s [] e → e ≠ .fail → Ev lib P (.ite c t f) s [] e
  | softThen {c t f s b bs e₁ as e} : Ev lib P c s (b :: bs) e₁ → EvAll lib P t (b :: bs) e₁ as e →
      Ev lib P (.soft c t f) s as e
  | softElse {c t f s as e} : Ev lib P c s [] .fail → Ev lib P f s as e → Ev lib P (.soft c t f) s as e
  | softEnd {c t f s e} : Ev lib P c s [] e → e ≠ .fail → Ev lib P (.soft c t f) s [] e
  | call {p s as e} : Ev lib P (P p) s as e → Ev lib P (.call p) s as e
  -- no exception: catch/3 is transparent, also when it is re-entered by backtracking
  | catchNone {g m r s as e} : Ev lib P g s as e → (∀ b, e ≠ .throws b) →
      Ev lib P (.catch g m r) s as e
  -- the ball unifies with the catcher in the store of the call of catch/3: recovery
  | catchSome {g m r s as b s' as' e} : Ev lib P g s as (.throws b) → m b s = some s' →
      Ev lib P r s' as' e → Ev lib P (.catch g m r) s (as ++ as') e
  -- it does not: the exception goes on
  | catchPass {g m r s as b} : Ev lib P g s as (.throws b) → m b s = none →
      Ev lib P (.catch g m r) s as (.throws b)
  | querySome {g x s a as e} : Ev lib P g s (a :: as) e → Ev lib P (.query g x) s [a] .fail
  | queryNone {g x s e} : Ev lib P g s [] e → (∀ b, e ≠ .throws b) → Ev lib P (.query g x) s [] e
  -- the exception is handled by the C code; only if `lib`
  | queryThrow {g x s b as e} : lib = true → Ev lib P g s [] (.throws b) → Ev lib P x s as e →
      Ev lib P (.query g x) s as e

/-- The goal `g` called on each answer of a sequence which ends with `e₁`. -/
inductive EvAll (lib : Bool) (P : Nat → Goal S τ) : Goal S τ → List S → End τ → List S → End τ → Prop
  | nil {g e₁} : EvAll lib P g [] e₁ [] e₁
  | next {g b bs e₁ as as' e} : Ev lib P g b as .fail → EvAll lib P g bs e₁ as' e →
      EvAll lib P g (b :: bs) e₁ (as ++ as') e
  | ends {g b bs e₁ as e} : Ev lib P g b as e → e ≠ .fail → EvAll lib P g (b :: bs) e₁ as e
end

/-- What a user of the machine sees: the answers one after the other, then the failure, or the report of
the exception when there is no catch/3 around it. -/
inductive Shows [DecidableEq τ] (P : Nat → Goal S τ) : St S τ → List S → End τ → Prop
  | more {st} : Shows P st [] .more
  | no {st st'} : Reaches P st st' → st'.mode = .fail → st'.cs = [] → st'.out = [] → Shows P st [] .fail
  | exc {st st' b} : Reaches P st st' → st'.out = [b] → Shows P st [] (.throws b)
  | answer {st st' as e} : Reaches P st st' → st'.mode = .run → st'.k = [] → st'.out = [] →
      Shows P (again st') as e → Shows P st (st'.store :: as) e

end Gp.Catch.Spec
