import Verif.CodeGen.Equal
/-
Specification of the clauses with unifications =/2 in the body: a chunk is a list of unifications followed by
a call.
-/
namespace Gp.CodeGen
open Gp.Heap Gp.Unify Gp.ListBip

/-- A chunk of the body: unifications, the arguments of the call, the instances of its answer. -/
structure Chunk where
  eqs : List (Arg × Arg)
  args : List Arg
  Sol : List T → Prop

/-- The arguments of the unifications and of the call. -/
def allArgs (eqs : List (Arg × Arg)) (args : List Arg) : List Arg := eqs.flatMap (fun p => [p.1, p.2]) ++ args

/-- The unifications are true for the values `β` of the variables of the clause: both sides are equal to a same term. -/
def Unified (β : Var → T) (eqs : List (Arg × Arg)) : Prop := ∀ p ∈ eqs, ∃ t, Den β p.1 t ∧ Den β p.2 t

/-- The execution of the chunks of a clause but the last one: in every chunk the code of the unifications is
executed, the arguments of the goal are loaded, the goal is called. -/
inductive CallsE (E : Env) (O : Opts) (reorder : Bool) (N : Nat) : M → G → List Chunk → M → G → Prop
  | nil (m : M) (g : G) : CallsE E O reorder N m g [] m g
  | cons {m m1 m2 m3 m' : M} {g g1 g' : G} {q : Chunk} {code : List Ins} {goals : List Chunk} :
    genEqs { O with body := true, lastPred := false } q.eqs g = some (code, g1, true) →
    exec E code m = some (some m1) →
    exec E (genCall { O with body := true, lastPred := false } reorder q.args g1).1 m1 = some (some m2) →
    Called N m2 q.args.length q.Sol m3 →
    CallsE E O reorder N m3 (genCall { O with body := true, lastPred := false } reorder q.args g1).2.forget goals m' g' →
    CallsE E O reorder N m g (q :: goals) m' g'

/-- The execution of a clause up to the last chunk. -/
def ClauseE (E : Env) (O : Opts) (reorder : Bool) (N : Nat) (m : M) (head : List Arg) (goals : List Chunk) (m' : M) (g' : G) : Prop :=
  ∃ m0 : M, exec E (genHead { O with body := false } reorder head (atStart head.length)).1 m = some (some m0) ∧
    CallsE E O reorder N m0 (genHead { O with body := false } reorder head (atStart head.length)).2.toBody goals m' g'

/-- The chunks are true for the values `β` of the variables of the clause. -/
def SolvedE (β : Var → T) (goals : List Chunk) : Prop :=
  ∀ q ∈ goals, Unified β q.eqs ∧ ∃ ts, DenList β q.args ts ∧ q.Sol ts

/-- A clause in the internal format: `goals` are its chunks but the last one, `leqs` the unifications of the last
chunk, `last` the arguments of its last goal (none if the clause ends with a unification). -/
structure WellFormedE (nY : Nat) (head : List Arg) (goals : List Chunk) (leqs : List (Arg × Arg)) (last : List Arg) : Prop where
  srcHead : SrcList nY head
  srcGoals : ∀ q ∈ goals, SrcList nY (allArgs q.eqs q.args)
  srcLast : SrcList nY (allArgs leqs last)
  sep : Separate (chunks head (goals.map (fun q => allArgs q.eqs q.args) ++ [allArgs leqs last]))

end Gp.CodeGen
