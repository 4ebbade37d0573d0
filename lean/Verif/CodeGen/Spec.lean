import Verif.CodeGen.Model
import Verif.ListBip.Spec
/-
Specification: what it means for an argument of a clause to be equal to a term, given the values of the
variables of the clause.
-/
namespace Gp.CodeGen
open Gp.Heap Gp.Unify Gp.ListBip
open Gp.Term (isNaN fkey)

/-- The term f(T1, …, Tn); '.'(H, T) is the list [H|T]. -/
def mk (f : Nat) (ts : List T) : T :=
  match ts with
  | [h, t] => if f = 46 then .lst h t else .app f [h, t]
  | ts => .app f ts

/-- The argument, in which the variables have the values `β`, is equal to the term `t`; an anonymous variable
is equal to any term. -/
def Den (β : Var → T) : Arg → T → Prop
  | .void, _ => True
  | .var v, t => t = β v
  | .atm i, t => t = .atm i
  | .int z, t => t = .int z
  | .flt b, t => t = .flt (fkey b)
  | .nil, t => t = .atm 256
  | .stc f as, t => ∃ ts, DenList as ts ∧ t = mk f ts
where
  DenList : List Arg → List T → Prop
    | [], [] => True
    | a :: l, t :: ts => Den β a t ∧ DenList l ts
    | _, _ => False

abbrev DenList (β : Var → T) := Den.DenList β

/-- An argument in the internal format (internal.pl:38-72): its variables are temporaries x(N) or permanent
variables y(N), `nY` is their number; the structures have at least one argument; a NaN is not a constant of
the syntax. -/
def Src (nY : Nat) : Arg → Prop
  | .var (.x _) => True
  | .var (.y i) => i < nY
  | .var _ => False
  | .flt b => isNaN b = false
  | .stc _ as => as ≠ [] ∧ SrcList as
  | _ => True
where
  SrcList : List Arg → Prop
    | [] => True
    | a :: l => Src nY a ∧ SrcList l

abbrev SrcList (nY : Nat) := Src.SrcList nY

/-- The variable occurs in the argument. -/
def Occ (v : Var) : Arg → Prop
  | .var u => u = v
  | .stc _ as => OccList as
  | _ => False
where
  OccList : List Arg → Prop
    | [] => False
    | a :: l => Occ v a ∨ OccList l

abbrev OccList (v : Var) := Occ.OccList v

/-- The arguments are equal to the terms of the argument registers in the machine `m`. -/
def Match (N : Nat) (m : M) (args : List Arg) (β : Var → T) (ρ : Adr → T) : Prop :=
  Model N m.s.mem ρ ∧ DenList β args ((List.range args.length).map fun i => eval m.s.mem ρ (m.X (.arg i)))

/-- The value of a variable of the clause in the machine `m`. -/
def M.value (m : M) (ρ : Adr → T) (v : Var) : T := eval m.s.mem ρ (m.get v)

/-- The machine at the beginning of a clause, after allocate: the memory is well formed, the argument
registers hold valid words, the permanent variables are unused words of the local stack. -/
structure Start (N nY arity : Nat) (m : M) : Prop where
  ok : Ok N m.s
  args : ∀ i, i < arity → ValidWord N m.s.lssa m.s.mem (m.X (.arg i))
  env : ∀ i, i < nY → m.s.lssa ≤ yadr m.e i ∧ yadr m.e i < N ∧ m.s.mem (yadr m.e i) = .fn 0 0
  size : nY + 3 ≤ m.e

/-- The code generator at the beginning of a clause: no variable is known, the argument registers are given. -/
def atStart (arity : Nat) : G where
  info := fun v => match v with
    | .arg i => if i < arity then some .notInCurEnv else none
    | _ => none
  tmp := 0

/-- The terms in the first `n` argument registers. -/
def M.terms (m : M) (ρ : Adr → T) (n : Nat) : List T := (List.range n).map fun i => eval m.s.mem ρ (m.X (.arg i))

/-- What a call with `n` arguments may do, when it succeeds, to the machine `m`: anything to the registers; it
returns to the same environment; the memory is well formed and grows; the words which are bound are kept; the
unused words of the environments below E (in particular the permanent variables of the clause which have not
been initialised) are kept; a new reference is to an older word or to the global stack. `Sol` is the set of
the instances of the answer: the terms for which the memory after the call has a valuation. -/
structure Called (N : Nat) (m : M) (n : Nat) (Sol : List T → Prop) (m' : M) : Prop where
  e : m'.e = m.e
  ee : m'.ee = m.ee
  lssa : m'.s.lssa = m.s.lssa
  ok : Ok N m'.s
  term : ∀ a, isTerm (m.s.mem a) = true → isTerm (m'.s.mem a) = true
  keep : ∀ a, m.s.mem a ≠ .ref a → m.s.mem a ≠ .fn 0 0 → m'.s.mem a = m.s.mem a
  unused : ∀ a, m.s.lssa ≤ a → a < m.e → m.s.mem a = .fn 0 0 → m'.s.mem a = .fn 0 0
  refs : ∀ a b, m'.s.mem a = .ref b → m'.s.mem a ≠ m.s.mem a → b < a ∨ b < m.s.lssa
  sound : ∀ ρ, Model N m'.s.mem ρ → Model N m.s.mem ρ ∧ Sol (m.terms ρ n)
  complete : ∀ ρ, Model N m.s.mem ρ → Sol (m.terms ρ n) → ∃ ρ', Model N m'.s.mem ρ' ∧ Agree m.s.mem ρ ρ'

/-- The execution of the calls of a clause but the last one, in the machine `m`, the state of the code
generator being `g`: the arguments of every goal are loaded, the goal is called; a goal is given with the set
of the instances of its answer. -/
inductive Calls (E : Env) (O : Opts) (reorder : Bool) (N : Nat) : M → G → List (List Arg × (List T → Prop)) → M → G → Prop
  | nil (m : M) (g : G) : Calls E O reorder N m g [] m g
  | cons {m m1 m2 m' : M} {g g' : G} {args : List Arg} {Sol : List T → Prop} {goals : List (List Arg × (List T → Prop))} :
    exec E (genCall { O with body := true, lastPred := false } reorder args g).1 m = some (some m1) →
    Called N m1 args.length Sol m2 →
    Calls E O reorder N m2 (genCall { O with body := true, lastPred := false } reorder args g).2.forget goals m' g' →
    Calls E O reorder N m g ((args, Sol) :: goals) m' g'

/-- The execution of a clause up to the loading of the arguments of its last goal: the head, then the calls of
the first goals. -/
def Clause (E : Env) (O : Opts) (reorder : Bool) (N : Nat) (m : M) (head : List Arg) (goals : List (List Arg × (List T → Prop)))
    (m' : M) (g' : G) : Prop :=
  ∃ m0 : M, exec E (genHead { O with body := false } reorder head (atStart head.length)).1 m = some (some m0) ∧
    Calls E O reorder N m0 (genHead { O with body := false } reorder head (atStart head.length)).2.toBody goals m' g'

/-- The code of the arguments of the last goal. -/
def lastCode (O : Opts) (reorder : Bool) (last : List Arg) (g : G) : List Ins :=
  (genCall { O with body := true, lastPred := true } reorder last g).1

/-- The chunks of a clause: the head with the first goal, every other goal. -/
def chunks (head : List Arg) : List (List Arg) → List (List Arg)
  | [] => [head]
  | a :: l => (head ++ a) :: l

/-- A temporary occurs in one chunk only (internal.pl:249-257: a variable which occurs in two chunks is
permanent). -/
def Separate (l : List (List Arg)) : Prop :=
  l.Pairwise fun a b => ∀ n, OccList (.x n) a → ¬ OccList (.x n) b

/-- The goals are true for the values `β` of the variables of the clause. -/
def Solved (β : Var → T) (goals : List (List Arg × (List T → Prop))) : Prop :=
  ∀ q ∈ goals, ∃ ts, DenList β q.1 ts ∧ q.2 ts

/-- A clause in the internal format: `goals` are its goals but the last one, with the instances of their
answers. -/
structure WellFormed (nY : Nat) (head : List Arg) (goals : List (List Arg × (List T → Prop))) (last : List Arg) : Prop where
  srcHead : SrcList nY head
  srcGoals : ∀ q ∈ goals, SrcList nY q.1
  srcLast : SrcList nY last
  sep : Separate (chunks head (goals.map (·.1) ++ [last]))

end Gp.CodeGen
