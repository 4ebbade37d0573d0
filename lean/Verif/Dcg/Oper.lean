/-
The execution of grammar rules, used to show on concrete rules where the clauses
of the translation behave differently from the rules: both the rules and the
clauses are given to the same semantics of the control constructs (Verif/Control/Spec.lean).
-/
import Verif.Dcg.Spec
import Verif.Control.Spec

namespace Gp.Dcg

/-! ### The rules -/

/-- A step on the characters to be read: the character `c` (a non terminal `c` is defined by
`c --> [c]`), or nothing. -/
inductive Step where
  | chr (c : Nat)
  | ok
deriving DecidableEq

/-- The store is the list of the characters which are still to be read. -/
def step : Step → List Nat → List (List Nat) × Control.AEnd
  | .ok, s => ([s], .fail)
  | .chr c, x :: s => (if x = c then [s] else [], .fail)
  | .chr _, [] => ([], .fail)

/-- The reading of a body: the control constructs are those of Prolog, `[]` and `{}` read nothing. -/
def direct : Body Nat Nat Unit → Control.Goal Step
  | .var n | .nt n => .atom (.chr n)
  | .nil | .curly _ => .atom .ok
  | .terms t ts => ts.foldl (fun g c => .conj g (.atom (.chr c))) (.atom (.chr t))
  | .conj a b => .conj (direct a) (direct b)
  | .ifThen false a b => .ifThen (direct a) (direct b)
  | .ifThen true a b => .softThen (direct a) (direct b)
  | .alt (.ifThen false a b) c => .ite (direct a) (direct b) (direct c)
  | .alt (.ifThen true a b) c => .softIte (direct a) (direct b) (direct c)
  | .alt a b => .disj (direct a) (direct b)
  | .neg a => .ite (direct a) .fail (.atom .ok)
  | .cut => .cut

/-- What remains of `l` after the non terminal of these rules, for each of its answers. -/
def rests (rules : List (Body Nat Nat Unit)) (l : List Nat) : List (List Nat) :=
  (Control.semPred step (rules.map direct) l).1

/-! ### The clauses -/

/-- The terms of the streams. -/
inductive Strm where
  | var (n : Nat)
  | nil
  | cons (c : Nat) (t : Strm)
deriving DecidableEq, Repr

def Strm.ofList (l : List Nat) (t : Strm) : Strm := l.foldr .cons t

/-- The value of a stream for some bindings. -/
def walk : Nat → List (Nat × Strm) → Strm → Strm
  | 0, _, t => t
  | k + 1, e, .var n => match e.lookup n with
    | some t => walk k e t
    | none => .var n
  | _, _, t => t

/-- Unification (the variables are bound at most once: 20 steps are enough below). -/
def unifyS : Nat → List (Nat × Strm) → Strm → Strm → Option (List (Nat × Strm))
  | 0, _, _, _ => none
  | k + 1, e, a, b =>
    match walk 20 e a, walk 20 e b with
    | .var x, .var y => some (if x = y then e else (x, .var y) :: e)
    | .var x, t | t, .var x => some ((x, t) :: e)
    | .nil, .nil => some e
    | .cons c s, .cons d t => if c = d then unifyS k e s t else none
    | _, _ => none

/-- The unification of two streams. -/
structure UStep where
  a : Strm
  b : Strm

def ustep (u : UStep) (e : List (Nat × Strm)) : List (List (Nat × Strm)) × Control.AEnd :=
  ((unifyS 20 e u.a u.b).toList, .fail)

def eqnStep : Eqn Nat → UStep
  | .vv a b => ⟨.var a, .var b⟩
  | .vl a ts b => ⟨.var a, Strm.ofList ts (.var b)⟩

/-- The goals of a clause, as Prolog reads them: `;` of a `->` is an if-then-else. -/
def clauseGoal : Goal Nat Nat Unit → Control.Goal UStep
  | .true | .ext _ => .atom ⟨.nil, .nil⟩
  | .eqn e => .atom (eqnStep e)
  | .call n a b | .phrase n a b => .atom ⟨.var a, .cons n (.var b)⟩
  | .cut => .cut
  | .conj p q => .conj (clauseGoal p) (clauseGoal q)
  | .ifThen false p q => .ifThen (clauseGoal p) (clauseGoal q)
  | .ifThen true p q => .softThen (clauseGoal p) (clauseGoal q)
  | .alt (.ifThen false p q) r => .ite (clauseGoal p) (clauseGoal q) (clauseGoal r)
  | .alt (.ifThen true p q) r => .softIte (clauseGoal p) (clauseGoal q) (clauseGoal r)
  | .alt p q => .disj (clauseGoal p) (clauseGoal q)
  | .neg _ _ _ p => .ite (clauseGoal p) .fail (.atom ⟨.nil, .nil⟩)

/-- A clause: the unifications of the translation come with those of the head. -/
def clauseCtl (c : Clause Nat Nat Unit) : Control.Goal UStep :=
  c.eqs.foldr (fun e g => .conj (.atom (eqnStep e)) g) (clauseGoal c.body)

/-- The number of answers of `phrase(h, l, r)` where `h` has these clauses. -/
def phraseAnswers (cs : List (Clause Nat Nat Unit)) (l r : List Nat) : Nat :=
  (Control.semPred ustep (cs.map clauseCtl) [(0, Strm.ofList l .nil), (1, Strm.ofList r .nil)]).1.length

/-- The answers of `phrase(h, l, R)` for a variable `R` (the number of the variable is 1). -/
def phraseRests (cs : List (Clause Nat Nat Unit)) (l : List Nat) : List Strm :=
  (Control.semPred ustep (cs.map clauseCtl) [(0, Strm.ofList l .nil)]).1.map
    (fun e => deep 20 e (.var 1))
where
  deep : Nat → List (Nat × Strm) → Strm → Strm
    | 0, _, t => t
    | k + 1, e, t => match walk 20 e t with
      | .cons c s => .cons c (deep k e s)
      | s => s

end Gp.Dcg
