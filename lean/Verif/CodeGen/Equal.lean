import Verif.CodeGen.Spec
/-
Model of the code generated for the unification =/2 in the body of a clause, which is inlined
(src/Pl2Wam/code_gen.pl:513-596, src/Pl2Wam/internal.pl:297-330).

Simplifications:
* the register IReg, an unbound Prolog variable, which is loaded with a permanent variable before the unification
  (code_gen.pl:546, 561), is the register `.arg 0` of the model: the argument registers hold nothing known
  between the head and the loading of the arguments of a call (`G.toBody`);
* the unification of two temporaries without any occurrence before (clause 4 of equal/4, code_gen.pl:534) makes one
  variable of the two; this is `none` here: the clause considered is the one in which they are already the same;
* the third component of the result is not in the code: it is false when the code is one of those for which the
  theorems do not hold (see Props4.lean for the reason).
-/
namespace Gp.CodeGen
open Gp.Term (isNaN fkey)

/-- `Arg1 == Arg2` (code_gen.pl:523): two anonymous variables are different Prolog variables; the floats are
compared by value. The atom [], number 256, is always written `nil` by internal.pl:166: its two notations in the
model are the same argument. -/
def sameArg : Arg → Arg → Bool
  | .var u, .var v => decide (u = v)
  | .atm i, .atm j => decide (i = j)
  | .int i, .int j => decide (i = j)
  | .flt b, .flt b' => decide (fkey b = fkey b')
  | .nil, .nil => true
  | .nil, .atm j => decide (j = 256)
  | .atm i, .nil => decide (i = 256)
  | .stc f as, .stc f' bs => decide (f = f') && sameList as bs
  | _, _ => false
where
  sameList : List Arg → List Arg → Bool
    | [], [] => true
    | a :: l, b :: l' => sameArg a b && sameList l l'
    | _, _ => false

/-- The variable is in the argument: its Info is bound by gen_load_arg (code_gen.pl:587). -/
def occursIn (v : Var) : Arg → Bool
  | .var u => decide (u = v)
  | .stc _ as => occursList as
  | _ => false
where
  occursList : List Arg → Bool
    | [] => false
    | a :: l => occursIn v a || occursList l

/-- The code which cannot be executed with success (code_gen.pl:568-569, 592). -/
def eqFail (g : G) : Option (List Ins × G × Bool) := some ([.fail], g, true)

/-- inline_unif_reg_term (code_gen.pl:583-596), for a temporary `v`. -/
def eqReg (O : Opts) (v : Var) (a : Arg) (g : G) : Option (List Ins × G × Bool) :=
  match g.info v with
  | some _ => let u := genUnif O a v g; some (u.1, u.2.toBody, true)
  | none =>
    match a with
    | .var w =>
      if w.isY = false ∧ g.info w = none then none
      else
        let q := genLoadVar O w v g
        some (q.1, (q.2.setInfo v .inHeap).toBody, decide (g.info w = some .inHeap))
    | a =>
      if occursIn v a then eqFail g
      else let q := genLoad O a v g; some (q.1, q.2.toBody, true)

/-- The argument is not a temporary without any occurrence before. -/
def knownVar (O : Opts) (g : G) : Arg → Bool
  | .var w => (g.info w).isSome || (O.body && w.isY)
  | _ => true

/-- The clauses 5 and 6 of equal/4 (code_gen.pl:537-565): one of the arguments is the variable `v`. -/
def eqVar (O : Opts) (v : Var) (a : Arg) (g : G) : Option (List Ins × G × Bool) :=
  if v.isY then
    let q := genLoad O (.var v) (.arg 0) g
    let u := genUnif O a (.arg 0) q.2
    some (q.1 ++ u.1, u.2.toBody, knownVar O q.2 a)
  else eqReg O v a g

/-- equal/4 (code_gen.pl:523-569) and equal_lst/4 (code_gen.pl:574-578). -/
def equal (O : Opts) : Arg → Arg → G → Option (List Ins × G × Bool)
  | .void, _, g => some ([], g, true)
  | .var v, b, g =>
    if sameArg (.var v) b then some ([], g, true)
    else match b with
      | .void => some ([], g, true)
      | b => eqVar O v b g
  | .stc f as, b, g =>
    if sameArg (.stc f as) b then some ([], g, true)
    else match b with
      | .void => some ([], g, true)
      | .var v => eqVar O v (.stc f as) g
      | .stc f' bs => if f = f' ∧ as.length = bs.length then equalList as bs g else eqFail g
      | _ => eqFail g
  | a, b, g =>
    if sameArg a b then some ([], g, true)
    else match b with
      | .void => some ([], g, true)
      | .var v => eqVar O v a g
      | _ => eqFail g
where
  equalList : List Arg → List Arg → G → Option (List Ins × G × Bool)
    | a :: l, b :: l', g =>
      match equal O a b g with
      | none => none
      | some (c, g1, k) =>
        match equalList l l' g1 with
        | none => none
        | some (c', g2, k') => some (c ++ c', g2, k && k')
    | _, _, g => some ([], g, true)

/-- The unifications of a chunk, in order (code_gen.pl:81-88, 129-141). -/
def genEqs (O : Opts) : List (Arg × Arg) → G → Option (List Ins × G × Bool)
  | [], g => some ([], g, true)
  | p :: l, g =>
    match equal O p.1 p.2 g with
    | none => none
    | some (c, g1, k) =>
      match genEqs O l g1 with
      | none => none
      | some (c', g2, k') => some (c ++ c', g2, k && k')

end Gp.CodeGen
