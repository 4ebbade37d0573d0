import Verif.Control.Model
/-
What the control constructs of Prolog mean (ISO 7.8; `*->` as in the manual of GNU Prolog): the answers of a body on
a store, in order. This does not use the compiler nor the machine.
-/
namespace Gp.Control

/-- How the answers of a body end: there are no others; the clause has been cut (`!`): moreover the next clauses are not
tried; there is an error, or no end. -/
inductive End where
  | fail
  | cut
  | err
deriving DecidableEq

/-- `f` on every answer, in order. A cut or an error of `f` ends everything. -/
def andThen {σ : Type} (f : σ → List σ × End) (e : End) : List σ → List σ × End
  | [] => ([], e)
  | s :: l =>
    match f s with
    | (l1, .fail) => let r := andThen f e l; (l1 ++ r.1, r.2)
    | (l1, e1) => (l1, e1)

/-- The answers `a`, then the answers `b`. -/
def orElse {σ : Type} (a b : List σ × End) : List σ × End :=
  match a with
  | (l, .fail) => (l ++ b.1, b.2)
  | (l, e) => (l, e)

/-- A condition is opaque: a cut in it is local. -/
def End.opaque : End → End
  | .err => .err
  | _ => .fail

/-- The end of the answers of an atom: the choice points are not visible. -/
def AEnd.toEnd : AEnd → End
  | .err => .err
  | _ => .fail

/-- The answers of a body on a store. -/
def sem {α σ : Type} (I : α → σ → List σ × AEnd) : Goal α → σ → List σ × End
  | .atom a, s => ((I a s).1, (I a s).2.toEnd)
  | .fail, _ => ([], .fail)
  | .cut, s => ([s], .cut)
  | .conj p q, s => andThen (sem I q) (sem I p s).2 (sem I p s).1
  | .disj p q, s => orElse (sem I p s) (sem I q s)
  | .ite p q r, s =>
    match sem I p s with
    | (s1 :: _, _) => sem I q s1
    | ([], .err) => ([], .err)
    | ([], _) => sem I r s
  | .softIte p q r, s =>
    match sem I p s with
    | (s1 :: l, e) => andThen (sem I q) e.opaque (s1 :: l)
    | ([], .err) => ([], .err)
    | ([], _) => sem I r s
  | .ifThen p q, s =>
    match sem I p s with
    | (s1 :: _, _) => sem I q s1
    | ([], e) => ([], e.opaque)
  | .softThen p q, s => andThen (sem I q) (sem I p s).2.opaque (sem I p s).1

/-- The answers of a predicate: those of its clauses, up to the first cut. The second component: an error. -/
def semPred {α σ : Type} (I : α → σ → List σ × AEnd) : List (Goal α) → σ → List σ × Bool
  | [], _ => ([], false)
  | g :: gs, s =>
    match sem I g s with
    | (l, .fail) => let r := semPred I gs s; (l ++ r.1, r.2)
    | (l, .cut) => (l, false)
    | (l, .err) => (l, true)

/-! ## The bodies for which the code is right -/

/-- There is no cut in the goal, other than in a condition. -/
def NoCut {α : Type} : Goal α → Prop
  | .atom _ | .fail => True
  | .cut => False
  | .conj p q | .disj p q => NoCut p ∧ NoCut q
  | .ite _ q r | .softIte _ q r => NoCut q ∧ NoCut r
  | .ifThen _ q | .softThen _ q => NoCut q

/-- The goal is `fail`, or a disjunction of such goals. -/
def Fails {α : Type} : Goal α → Prop
  | .fail => True
  | .disj p q => Fails p ∧ Fails q
  | _ => False

mutual
/-- The conditions of `(P *-> Q ; R)` satisfy `Plain` and have no cut. -/
def Ok {α : Type} : Goal α → Prop
  | .atom _ | .fail | .cut => True
  | .conj p q | .disj p q => Ok p ∧ Ok q
  | .ite p q r => Ok p ∧ Ok q ∧ Ok r
  | .softIte p q r => (Ok p ∧ NoCut p ∧ Plain p) ∧ Ok q ∧ Ok r
  | .ifThen p q | .softThen p q => Ok p ∧ Ok q

/-- There is no `(P -> Q ; R)` in an alternative which is not the first one of a disjunction (other than `R` itself). -/
def Plain {α : Type} : Goal α → Prop
  | .atom _ | .fail | .cut => True
  | .conj p q => Plain p ∧ Plain q
  | .disj p q => (Fails q → Plain p) ∧ PlainAlt q
  | .ite _ q r => Plain q ∧ Plain r
  | .softIte _ q r => Plain q ∧ Plain r
  | .ifThen _ q => Plain q
  | .softThen p q => NoCut p ∧ Plain p ∧ Plain q

/-- The same for an alternative which is not the first one. -/
def PlainAlt {α : Type} : Goal α → Prop
  | .atom _ | .fail | .cut => True
  | .conj p q => Plain p ∧ Plain q
  | .disj p q => (Fails q → PlainAlt p) ∧ PlainAlt q
  | .ite _ q r => Fails r ∧ Plain q
  | .softIte _ q r => Plain q ∧ PlainAlt r
  | .ifThen _ q => Plain q
  | .softThen p q => NoCut p ∧ Plain p ∧ Plain q
end

end Gp.Control
