/-
Model of the translation of grammar rules (DCG): BipsPl/expand_c.c, called by
`expand_term/2`, `phrase/2,3` and the compiler (BipsPl/expand.pl:48-116).

The variables of the streams (`in_word`, `out_word` and those made by
`Pl_Mk_Variable`) are natural numbers.  The terms of the rule written by the user
(arguments of non terminals, terminals, goals) are kept as they are (types `ν`,
`τ`, `γ`).  The unifications done by the translation itself are recorded:
`St.rep` is the variable to which a stream variable dereferences, and the list of
the equations is returned: the clause produced is the instance of the goals by
the unifier of these equations.  Not modelled: the errors (instantiation and type
errors for an ill-formed body, partial lists of terminals).
-/
namespace Gp.Dcg

/-- The body of a rule, as dispatched by `Dcg_Body_On_Stack` (expand_c.c:345-448):
`var` a variable `X` (translated to `phrase(X, In, Out)`), `nil` `[]`, `terms` a
non empty list of terminals, `conj` `,`, `ifThen` `->` (`soft`: `*->`), `alt` `;`
or `|`, `neg` `\+`, `cut` `!`, `curly` `{G}`, `nt` any other callable term. -/
inductive Body (ν τ γ : Type) where
  | var (x : ν)
  | nil
  | terms (t : τ) (ts : List τ)
  | conj (a b : Body ν τ γ)
  | ifThen (soft : Bool) (a b : Body ν τ γ)
  | alt (a b : Body ν τ γ)
  | neg (a : Body ν τ γ)
  | cut
  | curly (g : γ)
  | nt (n : ν)
deriving DecidableEq, Repr

/-- An equation between stream variables, or between a stream variable and a list
of terminals ended by another one. -/
inductive Eqn (τ : Type) where
  | vv (a b : Nat)
  | vl (a : Nat) (ts : List τ) (b : Nat)
deriving DecidableEq, Repr

/-- The goals of the clause.  `neg` also records (for the semantics only) the
variables `[lo, hi)` made while translating its argument and the unifications
done meanwhile. -/
inductive Goal (ν τ γ : Type) where
  | true
  | eqn (e : Eqn τ)
  | call (n : ν) (a b : Nat)
  | phrase (x : ν) (a b : Nat)
  | ext (g : γ)
  | cut
  | conj (p q : Goal ν τ γ)
  | ifThen (soft : Bool) (p q : Goal ν τ γ)
  | alt (p q : Goal ν τ γ)
  | neg (lo hi : Nat) (es : List (Eqn τ)) (p : Goal ν τ γ)
deriving DecidableEq, Repr

/-- The state of the translation: the next new variable, the bindings between
stream variables, and `opt_term_unif` (expand_c.c:66). -/
structure St where
  next : Nat
  rep : Nat → Nat
  flag : Bool

/-- `Pl_Unify` of two stream variables. -/
def St.merge (st : St) (a b : Nat) : St :=
  { st with rep := fun v => if st.rep v = st.rep a then st.rep b else st.rep v }

/-- What is pushed on the stack, and the unifications done. -/
structure Res (ν τ γ : Type) where
  goals : List (Goal ν τ γ)
  eqs : List (Eqn τ)
  st : St

/-- `in_is_out` (expand_c.c:367-374), after the goals `gs`. -/
def inIsOut {ν τ γ : Type} (gs : List (Goal ν τ γ)) (opt : Bool) (i o : Nat) (st : St) :
    Res ν τ γ :=
  if opt then ⟨gs, [.vv i o], st.merge i o⟩ else ⟨gs ++ [.eqn (.vv i o)], [], st⟩

/-- `Dcg_Term_List_On_Stack` (expand_c.c:457-495). -/
def termList {ν τ γ : Type} (ts : List τ) (i o : Nat) (st : St) : Res ν τ γ :=
  if st.flag then ⟨[], [.vl i ts o], st⟩
  else ⟨[.eqn (.vl i ts o)], [], { st with flag := true }⟩

/-- The goals of the stack as a right nested conjunction (expand_c.c:314-329). -/
def seqGoals {ν τ γ : Type} : List (Goal ν τ γ) → Goal ν τ γ
  | [] => .true
  | [g] => g
  | g :: gs => .conj g (seqGoals gs)

/-- `Dcg_Body` with `in_alt` false and no `end_lst_adr` (expand_c.c:264-336), on the
result of `Dcg_Body_On_Stack`; `opt_term_unif` is restored. -/
def bodyPlain {ν τ γ : Type} (r : Res ν τ γ) (flag : Bool) : Goal ν τ γ × List (Eqn τ) × St :=
  (seqGoals r.goals, r.eqs, { r.st with flag := flag })

/-- `Dcg_Body` with `in_alt` true: `new_out` is the new variable given to
`Dcg_Body_On_Stack` (expand_c.c:279-284, 306-312). -/
def bodyAlt {ν τ γ : Type} (r : Res ν τ γ) (i newOut o : Nat) (flag : Bool) :
    Goal ν τ γ × List (Eqn τ) × St :=
  if r.st.rep i = r.st.rep newOut then
    (seqGoals (.eqn (.vv newOut o) :: r.goals), r.eqs, { r.st with flag := flag })
  else
    (seqGoals r.goals, r.eqs ++ [.vv newOut o], { r.st.merge newOut o with flag := flag })

/-- `Dcg_Body_On_Stack` (expand_c.c:345-448), with
`OPT_EQUAL_BETWEEN_IN_OUT_VARS` = 2: `opt` is true on the left of a `,`. -/
def onStack {ν τ γ : Type} : Body ν τ γ → Bool → Nat → Nat → St → Res ν τ γ
  | .var x, _, i, o, st => ⟨[.phrase x i o], [], st⟩
  | .nil, _, i, o, st => inIsOut [] true i o st
  | .terms t ts, _, i, o, st => termList (t :: ts) i o st
  | .conj a b, opt, i, o, st =>
    let w := st.next
    let ra := onStack a true i w { st with next := w + 1 }
    let rb := onStack b opt w o ra.st
    ⟨ra.goals ++ rb.goals, ra.eqs ++ rb.eqs, rb.st⟩
  | .ifThen soft a b, _, i, o, st =>
    let w := st.next
    let (g1, e1, st1) := bodyPlain (onStack a false i w ⟨w + 1, st.rep, false⟩) false
    let (g2, e2, st2) := bodyPlain (onStack b false w o st1) false
    ⟨[.ifThen soft g1 g2], e1 ++ e2, st2⟩
  | .alt a b, _, i, o, st =>
    let w1 := st.next
    let (g1, e1, st1) := bodyAlt (onStack a false i w1 ⟨w1 + 1, st.rep, false⟩) i w1 o false
    let w2 := st1.next
    let (g2, e2, st2) := bodyAlt (onStack b false i w2 { st1 with next := w2 + 1 }) i w2 o false
    ⟨[.alt g1 g2], e1 ++ e2, st2⟩
  | .neg a, opt, i, o, st =>
    let w := st.next
    let (g1, e1, st1) := bodyPlain (onStack a false i w ⟨w + 1, st.rep, false⟩) false
    let r := inIsOut [.neg w st1.next e1 g1] opt i o st1
    { r with eqs := e1 ++ r.eqs }
  | .cut, opt, i, o, st => inIsOut [.cut] opt i o { st with flag := false }
  | .curly g, opt, i, o, st => inIsOut [.ext g] opt i o { st with flag := false }
  | .nt n, _, i, o, st => ⟨[.call n i o], [], { st with flag := false }⟩

/-- A translated clause: its head has the stream variables 0 and 1, its goals are
`body`, and it is the instance of these by the unifier of `eqs`. -/
structure Clause (ν τ γ : Type) where
  body : Goal ν τ γ
  eqs : List (Eqn τ)

/-- `Pl_Dcg_Trans_Rule_2` (expand_c.c:156-180) for a rule without pushback, and
`Pl_Dcg_Trans_Body_4` (expand_c.c:189-200): `Dcg_Body` without `end_lst_adr`. -/
def transRule {ν τ γ : Type} (b : Body ν τ γ) : Clause ν τ γ :=
  let r := onStack b false 0 1 ⟨2, id, true⟩
  ⟨seqGoals r.goals, r.eqs⟩

/-- `Pl_Dcg_Trans_Rule_2` for a rule `H, [t|ts] --> b` (expand_c.c:225-242,
276-283, 302-305): a new variable for the output of the body, then the terminals
of the pushback from `out_word` to it. -/
def transPushback {ν τ γ : Type} (t : τ) (ts : List τ) (b : Body ν τ γ) : Clause ν τ γ :=
  let r := onStack b true 0 2 ⟨3, id, true⟩
  let r2 : Res ν τ γ := termList (t :: ts) 1 2 r.st
  ⟨seqGoals (r.goals ++ r2.goals), r.eqs ++ r2.eqs⟩

end Gp.Dcg
