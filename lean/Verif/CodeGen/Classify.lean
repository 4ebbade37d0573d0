import Verif.CodeGen.Model
/-
Model of the classification of the variables of a clause (/repo/src/Pl2Wam/internal.pl:74-290): a variable which
occurs once is void, a variable which occurs in two chunks is permanent, another one is temporary.

Simplifications: the goals are not inline ones (every goal begins a chunk, internal.pl:105-114); the terms have
no no_internal_transf marker; a variable of the clause is a number. In the code the name of a variable is a
Prolog variable shared by its occurrences, bound when the class is known: here the dictionary is made first, the
arguments are then put in the internal format.
-/
namespace Gp.CodeGen

/-- A term of the source; '.'(H, T) is the list [H|T], the atom '.' is 46. -/
inductive Tm where
  | var (v : Nat)
  | nil
  | atm (i : Nat)
  | int (z : Int)
  | flt (b : BitVec 64)
  | stc (f : Nat) (args : List Tm)

/-- The occurrences of the variables of a term, in the order of `format_arg` (internal.pl:146-180). -/
def Tm.vars : Tm → List Nat
  | .var v => [v]
  | .stc _ as => varsList as
  | _ => []
where
  varsList : List Tm → List Nat
    | [] => []
    | a :: l => a.vars ++ varsList l

abbrev varsList := Tm.vars.varsList

/-- An entry v(Var, NoPred1stOcc, Singleton, V) of the dictionary (internal.pl:234-239): `multi` when Singleton
is f, `perm` when the name has been bound to y(_). -/
structure Entry where
  var : Nat
  first : Nat
  multi : Bool
  perm : Bool

/-- `add_var_to_dico` (internal.pl:241-258). -/
def addVar : List Entry → Nat → Nat → List Entry
  | [], v, k => [⟨v, k, false, false⟩]
  | d :: l, v, k =>
    if d.var = v then
      { d with multi := true, perm := d.perm || (d.first != k && decide (1 < k)) } :: l
    else d :: addVar l v k

/-- The occurrences of the variables of the goals with the number of the goal, from `k` (`format_body1`,
internal.pl:97-114). -/
def goalOccs : Nat → List (List Tm) → List (Nat × Nat)
  | _, [] => []
  | k, a :: l => (varsList a).map (fun v => (v, k)) ++ goalOccs (k + 1) l

/-- The occurrences of the variables of a clause: the head is number 0 (internal.pl:87-89), the goals are
numbered from 1 (94-95). -/
def clauseOccs (head : List Tm) (body : List (List Tm)) : List (Nat × Nat) :=
  (varsList head).map (fun v => (v, 0)) ++ goalOccs 1 body

/-- The dictionary of a clause. -/
def dico (head : List Tm) (body : List (List Tm)) : List Entry :=
  (clauseOccs head body).foldl (fun d p => addVar d p.1 p.2) []

/-- `classif_vars` (internal.pl:263-276): the names of the variables, the number of the permanent ones. A name
x(_) is a new one for every variable: here x(v). -/
def classif : List Entry → Nat → List (Nat × Arg) × Nat
  | [], y => ([], y)
  | d :: l, y =>
    if d.perm then
      let r := classif l (y + 1)
      ((d.var, .var (.y y)) :: r.1, r.2)
    else
      let r := classif l y
      ((d.var, if d.multi then .var (.x d.var) else .void) :: r.1, r.2)

/-- The name of a variable. -/
def nameOf : List (Nat × Arg) → Nat → Arg
  | [], _ => .void
  | p :: l, v => if p.1 = v then p.2 else nameOf l v

/-- `format_arg` (internal.pl:155-180), the names being known. -/
def fmt (name : Nat → Arg) : Tm → Arg
  | .var v => name v
  | .nil => .nil
  | .atm i => .atm i
  | .int z => .int z
  | .flt b => .flt b
  | .stc f as => .stc f (fmtList as)
where
  fmtList : List Tm → List Arg
    | [] => []
    | a :: l => fmt name a :: fmtList l

abbrev fmtList (name : Nat → Arg) := fmt.fmtList name

/-- The names of the variables of a clause (`internal_format`, internal.pl:74-82; native code: StartY is 0). -/
def names (head : List Tm) (body : List (List Tm)) : Nat → Arg := nameOf (classif (dico head body) 0).1

/-- The number of the permanent variables of a clause. -/
def nbY (head : List Tm) (body : List (List Tm)) : Nat := (classif (dico head body) 0).2

end Gp.CodeGen
