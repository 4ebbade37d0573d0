import Verif.TermInl.Model
/-
Model of name_singleton_vars/1 (/repo/src/BipsPl/pretty_c.c:417-475, pretty.pl:84-86), on the memory of the part TermInl.

Simplifications: the recursion of the traversal is bounded by a fuel; `none` means that the fuel is exhausted, that the
global stack overflows or that the memory is not well formed. The test that the term is acyclic (pretty_c.c:422) is the one of
the part Acyclic (C40): only finite terms are considered here. The mark of an entry of the array (the bit 0 of the
address) is a boolean beside the address.
-/
namespace Gp.Singl
open Gp.Heap Gp.Unify Gp.ListBip Gp.TermInl

/-- The array `pl_glob_dico_var` up to `singl_var_ptr` (address, marked), and `nb_singl_var`. -/
structure Sg where
  dico : List (Adr × Bool)
  nb : Int

/-- `Collect_Singleton`, the loop (pretty_c.c:458-467): the entry of the variable is marked; the boolean says that it was not
marked yet. `none` if the variable has no entry. -/
def mark (a : Adr) : List (Adr × Bool) → Option (List (Adr × Bool) × Bool)
  | [] => none
  | (b, m) :: l =>
    if b = a then some ((b, true) :: l, !m)
    else
      match mark a l with
      | none => none
      | some (l', f) => some ((b, m) :: l', f)

/-- `Collect_Singleton` (pretty_c.c:453-475); it is not called on the FD variables (`generic_var` = FALSE,
pretty_c.c:429, term_supp.c:209). -/
def collectSingl (x : Sg) : Cell → Tr Sg
  | .ref a =>
    match mark a x.dico with
    | some (l, f) => .go ⟨l, if f then x.nb - 1 else x.nb⟩
    | none =>
      if x.dico.length ≥ MAX_VAR then .err .reprTooManyVariables
      else .go ⟨x.dico ++ [(a, false)], x.nb + 1⟩
  | _ => .go x

/-- The loop which binds the singletons (pretty_c.c:437-443), on the array from its last entry. -/
def bindSingl (w : Cell) : List (Adr × Bool) → St → St
  | [], s => s
  | (a, m) :: l, s => bindSingl w l (if m then s else s.bindUV a w)

/-- `Pl_Name_Singleton_Vars_1` (pretty_c.c:417-444); `dname` is the atom '$VARNAME' and `under` the atom '_'.
`Pl_Put_Structure` (wam_inst.c:583-605) then `Pl_Unify_Atom` in write mode. -/
def nameSingletons (dname under : Nat) (fuel : Nat) (s : St) (tw : Cell) : Option TermInl.Out :=
  match treat collectSingl s.mem fuel ⟨[], 0⟩ tw with
  | none => none
  | some (.err e) => some (.err e)
  | some (.stop x) | some (.go x) =>
    if x.nb = 0 then some (.ret true s)
    else
      match push s (.fn dname 1) with
      | none => none
      | some s1 =>
        match push s1 (.atm under) with
        | none => none
        | some s2 => some (.ret true (bindSingl (.stc s.h) x.dico.reverse s2))

end Gp.Singl
