import Verif.TermInl.Model
/-
Model of bind_variables/2 and numbervars/1-3 (/repo/src/BipsPl/pretty_c.c:545-781): the numbers excluded, and the
traversal of the term which binds its variables while it visits them (term_supp.c:190-237).

Simplifications: the loops and the recursions are bounded by a fuel; `none` means that the fuel is exhausted, that the
global stack overflows, that the behaviour of the C code is undefined (overflow of an int in the name of a variable) or
that the memory is not well formed. The test that the terms are acyclic (pretty_c.c:583, 597) is the one of the part
Acyclic (C40): only finite terms are considered here. The integers are not bounded.
-/
namespace Gp.NumVars
open Gp.Heap Gp.Unify Gp.ListBip Gp.TermInl

/-- What does not depend on the memory: the atoms '$VAR' and '$VARNAME' (pretty_c.c:137-138), the atom '=', the names of the
atoms (`pl_atom_tbl[atom].name`, codes), the atom of a name (`Pl_Create_Allocate_Atom`), and `BIND_WITH_NUMBERVAR`
(pretty_c.c:542). -/
structure Ctx where
  dvar : Nat
  dname : Nat
  eq : Nat
  name : Nat → List Nat
  atom : List Nat → Nat
  number : Bool

/-- isspace in the locale C. -/
def isSpace (c : Nat) : Bool := c = 32 || (9 ≤ c && c ≤ 13)

def isDigit (c : Nat) : Bool := 48 ≤ c && c ≤ 57

/-- The digits of strtol: the value and what remains. -/
def digits : List Nat → Nat → Nat × List Nat
  | [], v => (v, [])
  | c :: l, v => if isDigit c then digits l (v * 10 + (c - 48)) else (v, c :: l)

/-- The sign of strtol. -/
def sign : List Nat → Int × List Nat
  | 45 :: l => (-1, l)
  | 43 :: l => (1, l)
  | l => (1, l)

/-- `strtol(p, &q, 10)`: the value (clamped to a long of 64 bits), and whether `*q` is the end of the string. Without any
digit `q` is `p`. -/
def strtol (p : List Nat) : Int × Bool :=
  let (sg, l) := sign (p.dropWhile isSpace)
  match l with
  | c :: _ =>
    if isDigit c then
      let (v, r) := digits l 0
      (max (-2 ^ 63) (min (2 ^ 63 - 1) (sg * v)), r.isEmpty)
    else (0, p.isEmpty)
  | [] => (0, p.isEmpty)

/-- Conversion of a long to an int. -/
def toInt (z : Int) : Int := (z + 2 ^ 31) % 2 ^ 32 - 2 ^ 31

/-- `Var_Name_To_Var_Number` (pretty_c.c:610-628); `none` if the multiplication or the addition overflows. -/
def varNumber (nm : List Nat) : Option Int :=
  match nm with
  | [] => some (-1)
  | c :: p =>
    if c < 65 ∨ c > 90 then some (-1)
    else
      match strtol p with
      | (_, false) => some (-1)
      | (v, true) =>
        let n := toInt v * 26 + (c - 65)
        if toInt v * 26 < -2 ^ 31 ∨ 2 ^ 31 ≤ toInt v * 26 + c ∨ n < -2 ^ 31 then none else some n

/-- The array `pl_glob_dico_var` and `nb_excl_var_tabled`. -/
structure Tab where
  dico : Nat → Nat
  nb : Nat

/-- `Exclude_A_Var_Number` (pretty_c.c:636-678): the part of the array below the number is first cleared. -/
def exclude (t : Tab) (n : Int) : Tab :=
  if n < 0 ∨ n ≥ MAX_VAR then t
  else
    { dico := fun i => if i = n.toNat then 1 else if t.nb ≤ i ∧ i < n.toNat then 0 else t.dico i,
      nb := if t.nb ≤ n.toNat then n.toNat + 1 else t.nb }

/-- The exclusion of the number of a name. -/
def excludeName (C : Ctx) (t : Tab) (a : Nat) : Option Tab :=
  match varNumber (C.name a) with
  | none => none
  | some n => some (exclude t n)

/-- The loop on the arguments (pretty_c.c:733-738). -/
def exclArgs (rec : Tab → Cell → Option Tab) (m : Mem) : Nat → Tab → Adr → Option Tab
  | 0, _, _ => none
  | 1, t, a => rec t (m a)
  | k + 2, t, a =>
    match rec t (m a) with
    | none => none
    | some t' => exclArgs rec m (k + 1) t' (a + 1)

/-- `Collect_Excluded_Rec`, a structure (pretty_c.c:713-738). -/
def exclStc (C : Ctx) (rec : Tab → Cell → Option Tab) (m : Mem) (f k : Nat) (t : Tab) (a : Adr) : Option Tab :=
  if f = C.dvar ∧ k = 1 then
    match deref m (m a) with
    | some (.int z) => some (exclude t z)
    | _ => exclArgs rec m k t a
  else if f = C.dname ∧ k = 1 then
    match deref m (m a) with
    | some (.atm i) => excludeName C t i
    | _ => exclArgs rec m k t a
  else exclArgs rec m k t a

/-- `Collect_Excluded_Rec` (pretty_c.c:688-739). -/
def collectExcl (C : Ctx) (m : Mem) : Nat → Tab → Cell → Option Tab
  | 0, _, _ => none
  | n + 1, t, w =>
    match deref m w with
    | none => none
    | some (.lst a) =>
      match collectExcl C m n t (m a) with
      | none => none
      | some t' => collectExcl C m n t' (m (a + 1))
    | some (.stc a) =>
      match m a with
      | .fn f k => exclStc C (collectExcl C m n) m f k t (a + 1)
      | _ => none
    | some _ => some t

/-- `Pl_Bind_Variables_4`, an element of the list of exclusions which is `Name=Value` (pretty_c.c:586-592). -/
def exclEq (C : Ctx) (m : Mem) (t : Tab) (w : Cell) : Option Tab :=
  match deref m w with
  | some (.stc a) =>
    match m a with
    | .fn f k =>
      if f = C.eq ∧ k = 2 then
        match deref m (m (a + 1)) with
        | some (.atm i) => excludeName C t i
        | some _ => some t
        | none => none
      else some t
    | _ => none
  | some _ => some t
  | none => none

/-- `Pl_Bind_Variables_4`, the list of exclusions (pretty_c.c:565-595); `fuel` is the fuel of each element. -/
def exclList (C : Ctx) (m : Mem) (fuel : Nat) : Nat → Tab → Cell → Option (Except TermInl.Err Tab)
  | 0, _, _ => none
  | n + 1, t, w =>
    match deref m w with
    | none => none
    | some (.ref _) => some (.error .instantiation)
    | some (.lst a) =>
      match collectExcl C m fuel t (m a) with
      | none => none
      | some t1 =>
        match exclEq C m t1 (m a) with
        | none => none
        | some t2 => exclList C m fuel n t2 (m (a + 1))
    | some v => if v = NIL_WORD then some (.ok t) else some (.error .typeList)

/-- `Bind_Variable`, the loop (pretty_c.c:756-757). -/
def skip (t : Tab) (k : Nat) : Nat :=
  if h : k < t.nb ∧ t.dico k ≠ 0 then skip t (k + 1) else k
termination_by t.nb - k

/-- The decimal digits of a number (`sprintf`). -/
def decimal (n : Nat) : List Nat := (Nat.toDigits 10 n).map Char.toNat

/-- `Bind_Variable`, the name of a number (pretty_c.c:766-775). -/
def varName (n : Nat) : List Nat := (65 + n % 26) :: (if n / 26 = 0 then [] else decimal (n / 26))

/-- `Bind_Variable`, the functor and the argument (pretty_c.c:759-778). -/
def binding (C : Ctx) (n : Nat) : Nat × Cell :=
  if C.number then (C.dvar, .int n) else (C.dname, .atm (C.atom (varName n)))

/-- `Bind_Variable` (pretty_c.c:749-781): `Pl_Get_Structure` (wam_inst.c:364-379) on the variable `a`, then the argument in
write mode; the number is `nb_to_try`. -/
def bindVar (C : Ctx) (t : Tab) (s : St) (k : Nat) (a : Adr) : Option (St × Nat) :=
  let n := skip t k
  match push s (.fn (binding C n).1 1) with
  | none => none
  | some s1 =>
    match push (s1.bindUV a (.stc s.h)) (binding C n).2 with
    | none => none
    | some s2 => some (s2, n + 1)

/-- The loop on the arguments (term_supp.c:222-233): the words are read after the bindings made so far. -/
def bindArgs (rec : St × Nat → Cell → Option (St × Nat)) : Nat → St × Nat → Adr → Option (St × Nat)
  | 0, _, _ => none
  | 1, st, a => rec st (st.1.mem a)
  | k + 2, st, a =>
    match rec st (st.1.mem a) with
    | none => none
    | some st' => bindArgs rec (k + 1) st' (a + 1)

/-- `Pl_Treat_Vars_Of_Term(term_word, FALSE, Bind_Variable)` (pretty_c.c:598, term_supp.c:190-237). -/
def bindAll (C : Ctx) (t : Tab) : Nat → St × Nat → Cell → Option (St × Nat)
  | 0, _, _ => none
  | n + 1, st, w =>
    match deref st.1.mem w with
    | none => none
    | some (.ref a) => bindVar C t st.1 st.2 a
    | some (.lst a) =>
      match bindAll C t n st (st.1.mem a) with
      | none => none
      | some st' => bindAll C t n st' (st'.1.mem (a + 1))
    | some (.stc a) =>
      match st.1.mem a with
      | .fn _ k => bindArgs (bindAll C t n) k st (a + 1)
      | _ => none
    | some _ => some st

/-- `Pl_Bind_Variables_4` (pretty_c.c:549-601); `dico` is the content of the array at the call. -/
def bindVariables (C : Ctx) (dico : Nat → Nat) (fuel : Nat) (s : St) (tw xw fw nw : Cell) : Option TermInl.Out :=
  match rdPositive s.mem fw with
  | none => none
  | some (.error e) => some (.err e)
  | some (.ok z) =>
    match exclList C s.mem fuel fuel ⟨dico, 0⟩ xw with
    | none => none
    | some (.error e) => some (.err e)
    | some (.ok t) =>
      match bindAll C t fuel (s, z.toNat) tw with
      | none => none
      | some (s', k) => unInteger s' k nw

/-- The atoms of the options of bind_variables/2. -/
structure OptCtx where
  exclude : Nat
  «from» : Nat
  next : Nat
  numbervars : Nat
  namevars : Nat

/-- The options read so far: '$bind_exclude', '$bind_from', '$bind_next', sys_var[0]. -/
structure Opts where
  exclude : Cell
  «from» : Cell
  next : Cell
  number : Bool

inductive OptErr
  | instantiation
  | domainOption
deriving DecidableEq

/-- '$check_nonvar'(X), integer(X), or the next clause (pretty.pl:144-150, 158-159). -/
def optInt (m : Mem) (w : Cell) (ok : Cell → Opts) : Option (Except OptErr Opts) :=
  match deref m w with
  | none => none
  | some (.ref _) => some (.error .instantiation)
  | some (.int z) => some (.ok (ok (.int z)))
  | some _ => some (.error .domainOption)

/-- '$get_bind_variables_options2' (pretty.pl:137-159). -/
def optStep (K : OptCtx) (m : Mem) (o : Opts) (w : Cell) : Option (Except OptErr Opts) :=
  match deref m w with
  | none => none
  | some (.ref _) => some (.error .instantiation)
  | some (.stc a) =>
    if m a = .fn K.exclude 1 then some (.ok { o with exclude := m (a + 1) })
    else if m a = .fn K.from 1 then optInt m (m (a + 1)) fun c => { o with «from» := c }
    else if m a = .fn K.next 1 then optInt m (m (a + 1)) fun c => { o with next := c }
    else some (.error .domainOption)
  | some (.atm i) =>
    if i = K.numbervars then some (.ok { o with number := true })
    else if i = K.namevars then some (.ok { o with number := false })
    else some (.error .domainOption)
  | some _ => some (.error .domainOption)

end Gp.NumVars
