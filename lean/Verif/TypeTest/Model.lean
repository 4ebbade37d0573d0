import Verif.TermInl.Model
/-
Model of the type tests (/repo/src/BipsPl/type_inl_c.c:65-307): var/1, nonvar/1, atom/1, integer/1, float/1, number/1, atomic/1,
compound/1, callable/1, fd_var/1, non_fd_var/1, generic_var/1, non_generic_var/1, ground/1, is_list/1 and list/1,
partial_list/1 and list_or_partial_list/1 (the last one is `ListBip.listOrPartial`).

Simplifications: the loops and the recursions are bounded by a fuel (`none` if it is exhausted): the theorems show that some
fuel is enough. The word of a cell which is not a term has no tag: the tests are false on it.
-/
namespace Gp.TypeTest
open Gp.Heap Gp.Unify Gp.ListBip Gp.TermInl

/-- `Tag_Is_Var` (type_inl_c.c:65). -/
def isVar : Cell → Bool
  | .ref _ => true
  | _ => false

/-- `Tag_Is_Nonvar` (type_inl_c.c:67). -/
def isNonvar (w : Cell) : Bool := !isVar w

/-- `Tag_Is_Atom` (type_inl_c.c:69). -/
def isAtom : Cell → Bool
  | .atm _ => true
  | _ => false

/-- `Tag_Is_Integer` (type_inl_c.c:71). -/
def isInteger : Cell → Bool
  | .int _ => true
  | _ => false

/-- `Tag_Is_Float` (type_inl_c.c:73). -/
def isFloat : Cell → Bool
  | .flt _ => true
  | _ => false

/-- `Tag_Is_Number` (type_inl_c.c:75). -/
def isNumber (w : Cell) : Bool := isInteger w || isFloat w

/-- `Tag_Is_Atomic` (type_inl_c.c:77). -/
def isAtomic (w : Cell) : Bool := isAtom w || isNumber w

/-- `Tag_Is_Compound` (type_inl_c.c:79). -/
def isCompound : Cell → Bool
  | .stc _ => true
  | .lst _ => true
  | _ => false

/-- `Tag_Is_Callable` (type_inl_c.c:81). -/
def isCallable (w : Cell) : Bool := isAtom w || isCompound w

/-- `Tag_Is_Fd_Var` (type_inl_c.c:84). -/
def isFdVar : Cell → Bool
  | .fdv _ => true
  | _ => false

/-- `Tag_Is_Non_Fd_Var` (type_inl_c.c:89). -/
def isNonFdVar (w : Cell) : Bool := !isFdVar w

/-- `Tag_Is_Generic_Var` (type_inl_c.c:91). -/
def isGenericVar (w : Cell) : Bool := isVar w || isFdVar w

/-- `Tag_Is_Non_Generic_Var` (type_inl_c.c:93). -/
def isNonGenericVar (w : Cell) : Bool := !isGenericVar w

/-- `Type_Test` (type_inl_c.c:96-99), the body of the tests (type_inl_c.c:103-179). -/
def typeTest (test : Cell → Bool) (m : Mem) (w : Cell) : Option Bool := (deref m w).map test

/-- `Pl_Blt_Ground`, the loop on the arguments (type_inl_c.c:216-225). -/
def groundArgs (rec : Cell → Option Bool) (m : Mem) : Nat → Adr → Option Bool
  | 0, a => rec (m a)
  | 1, a => rec (m a)
  | k + 2, a =>
    match rec (m a) with
    | some true => groundArgs rec m (k + 1) (a + 1)
    | r => r

/-- `Pl_Blt_Ground` (type_inl_c.c:188-229). -/
def ground (m : Mem) : Nat → Cell → Option Bool
  | 0, _ => none
  | n + 1, w =>
    match deref m w with
    | none => none
    | some v =>
      if isGenericVar v then some false
      else
        match v with
        | .lst a =>
          match ground m n (m a) with
          | some true => ground m n (m (a + 1))
          | r => r
        | .stc a =>
          match m a with
          | .fn _ k => groundArgs (ground m n) m k (a + 1)
          | _ => none
        | _ => some true

/-- `Pl_Blt_List` (type_inl_c.c:238-255). -/
def isList (m : Mem) : Nat → Cell → Option Bool
  | 0, _ => none
  | n + 1, w =>
    match deref m w with
    | none => none
    | some v =>
      if v = NIL_WORD then some true
      else
        match v with
        | .lst a => isList m n (m (a + 1))
        | _ => some false

/-- `Pl_Blt_Partial_List` (type_inl_c.c:264-281). -/
def isPartialList (m : Mem) : Nat → Cell → Option Bool
  | 0, _ => none
  | n + 1, w =>
    match deref m w with
    | none => none
    | some v =>
      match v with
      | .ref _ => some true
      | .lst a => isPartialList m n (m (a + 1))
      | _ => some false

end Gp.TypeTest
