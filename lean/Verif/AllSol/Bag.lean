import Verif.Sort.Props
/-
Model of bagof/3 and setof/3 on terms: free variables of the goal, linking of the key variables, grouping.
/repo/src/BipsPl/all_solut_c.c and /repo/src/BipsPl/all_solut.pl. The stack of solutions (copies) is in Model.lean; here a
solution is the term recovered. FD variables in the keys are not modelled (all_solut_c.c:476 copies the word of the
variable, which is not allowed for the tag FDV).
-/
namespace Gp.AllSol
open Gp.Term Gp.Sort

/-- The variables in the order of `Pl_Treat_Vars_Of_Term` (term_supp.c:189-237): from left to right, with repetitions. -/
def tvars : Tree → List Nat
  | .var a => [a]
  | .app _ l => l.flatMap fun t => tvars t
  | _ => []

/-- The term under bindings of variables to variables. -/
def trename (φ : Nat → Nat) : Tree → Tree
  | .var a => .var (φ a)
  | .app f l => .app f (l.map fun t => trename φ t)
  | .fdv a => .fdv a
  | .flt b => .flt b
  | .int z => .int z
  | .atm s => .atm s

/-! ## Free variables -/

/-- `Bound_Var` (all_solut_c.c:217-231): `none` is the representation error (`max` is MAX_VAR_IN_TERM). -/
def boundVar (max : Nat) (l : List Nat) (v : Nat) : Option (List Nat) :=
  if v ∈ l then some l
  else if max ≤ l.length then none
  else some (l ++ [v])

/-- `Pl_Treat_Vars_Of_Term(.., Bound_Var)`. -/
def boundVars (max : Nat) (l : List Nat) : List Nat → Option (List Nat)
  | [] => some l
  | v :: vs =>
    match boundVar max l v with
    | none => none
    | some l' => boundVars max l' vs

/-- The name `^`. -/
def caret : Name := [94]

/-- `Existential_Variables` (all_solut_c.c:240-259): the goal without `V^` and the bound variables. -/
def existVars (max : Nat) (l : List Nat) : Tree → Option (Tree × List Nat)
  | .app f [v, g] =>
    if f = caret then
      match boundVars max l (tvars v) with
      | none => none
      | some l' => existVars max l' g
    else some (.app f [v, g], l)
  | t => some (t, l)

/-- `Free_Var` (all_solut_c.c:268-286). -/
def freeVar (bound : List Nat) (l : List Nat) (v : Nat) : List Nat :=
  if v ∈ bound then l
  else if v ∈ l then l
  else l ++ [v]

/-- MAX_ARITY (EnginePl/pl_params.h). -/
notation "maxArity" => (255 : Nat)

/-- `Pl_Free_Variables_4` (all_solut_c.c:159-195): `none` is a representation error; the goal without `V^` and, if there
are free variables, the key. -/
def freeVariables (max : Nat) (templ gen : Tree) : Option (Tree × Option Tree) :=
  match boundVars max [] (tvars templ) with
  | none => none
  | some l =>
    match existVars max l gen with
    | none => none
    | some (g, bound) =>
      let fv := (tvars g).foldl (freeVar bound) []
      if fv.length = 0 then some (g, none)
      else if fv.length ≤ maxArity then some (g, some (.app dot (fv.map .var)))
      else some (g, some (.ofList (fv.map .var)))

/-! ## Linking of the key variables -/

/-- The stack of the key variables `pl_glob_dico_var` to `key_var_ptr`, the index of `next_key_var_ptr`, and the bindings
done (`*adr = ..`). -/
structure KS where
  stack : List Nat
  next : Nat
  bind : List (Nat × Nat)

/-- DEREF of a variable of the key. -/
def lookup : List (Nat × Nat) → Nat → Nat
  | [], v => v
  | (a, x) :: l, v => if a = v then x else lookup l v

/-- `Link_Key_Var` (all_solut_c.c:465-486), `save` is the index of `save_key_var_ptr`, `v` the (not dereferenced) variable.
The representation error is not modelled. -/
def linkVar (save : Nat) (s : KS) (v : Nat) : KS :=
  let a := lookup s.bind v
  if a ∈ s.stack then s
  else if s.next < save then
    match s.stack[s.next]? with
    | some x => { s with bind := (a, x) :: s.bind, next := s.next + 1 }
    | none => s
  else { s with stack := s.stack ++ [a] }

/-- `Handle_Key_Variables` (all_solut_c.c:444-456): the new stack and the bindings. -/
def linkKey (stack : List Nat) (sol : Tree) : List Nat × List (Nat × Nat) :=
  let r := (tvars (arg0 sol)).foldl (linkVar stack.length) ⟨stack, 0, []⟩
  (r.stack, r.bind)

/-- The loop of `Pl_Recover_Solutions_4` (all_solut_c.c:417-431) with handle_key: the solutions from the last to the first;
the list is built from its end. -/
def linkLoop : List Tree → List Nat → List Tree → List Tree
  | [], _, acc => acc
  | t :: ts, stack, acc =>
    let r := linkKey stack t
    linkLoop ts r.1 (trename (lookup r.2) t :: acc)

/-- The list AllInstances (all_solut.pl:84), from the solutions in the order of the execution. -/
def linkAll (sols : List Tree) : List Tree := linkLoop sols.reverse [] []

/-! ## Groups -/

/-- Second argument of a compound: `Arg(adr, 1)`. -/
def arg1 : Tree → Tree
  | .app _ [_, v] => v
  | t => t

/-- `Group` (all_solut_c.c:569-607) after the first pair: the values with the same key, and the rest of the list (NIL is
`NOT_A_WAM_WORD`). -/
def groupLoop (key : Tree) (adr : Tree) : List Tree → List Tree × List Tree
  | [] => ([arg1 adr], [])
  | x :: l =>
    if compare key (arg0 x) ≠ 0 then ([arg1 adr], x :: l)
    else
      let r := groupLoop key x l
      (arg1 adr :: r.1, r.2)

theorem groupLoop_length (key adr : Tree) (l : List Tree) : (groupLoop key adr l).2.length ≤ l.length := by
  induction l generalizing adr with
  | nil => simp [groupLoop]
  | cons x l ih =>
    rw [groupLoop]
    split
    · simp
    · have := ih x; simp only [List.length_cons]; omega

/-- `Pl_Group_Solutions_3` and `Pl_Group_Solutions_Alt_0` (all_solut_c.c:503-560) on backtracking: the successive pairs
key, list of values unified with Key and Instances. -/
def groups : List Tree → List (Tree × List Tree)
  | [] => []
  | x :: l =>
    let r := groupLoop (arg0 x) x l
    (arg0 x, r.1) :: groups r.2
termination_by l => l.length
decreasing_by
  have := groupLoop_length (arg0 x) x l
  simp only [List.length_cons]; omega

/-- `'$bagof'` with free variables (all_solut.pl:80-89) from the solutions `Key - Template` in the order of the execution;
keysort/1 and sort/1 sort the list in place (sort_c.c:174-210, the same sort as keysort/2 and sort/2), `m` and `h` are the
heap where the array is. -/
def bagofGroups (setof : Bool) (m : Sort.Mem Tree) (h : Nat) (sols : List Tree) : List (Tree × List Tree) :=
  groups (sortArray (if setof then .sort else .keysort) m h (linkAll sols))

/-- `'$bagof'` without free variables (all_solut.pl:91-98), for solutions `sols` without variables: `inst` is the term
Instances before the call, `res` after it. The unification of Instances with the list of solutions is done before sort/1. -/
def bagofNoFree (setof : Bool) (m : Sort.Mem Tree) (h : Nat) (sols : List Tree) (inst res : Tree) : Prop :=
  ((∃ v, inst = .var v) ∨ inst = .ofList sols) ∧ sols ≠ [] ∧
  res = .ofList (if setof then sortArray .sort m h sols else sols)

end Gp.AllSol
