import Verif.Term.Compare
/-
Model of the string dictionary of the compiler tools: /repo/src/Tools/bt_string.c.

Simplifications: a pointer to a node is the node; the `info` buffer (zeroed at creation, then written by
the caller) is not modelled; `malloc` does not fail.
-/
namespace Gp.BtString
open Gp.Term

/-- `BTNode` (bt_string.h:49-62): NULL, or a node with its string, number and sons. -/
inductive BT where
  | null
  | node (left : BT) (str : Name) (no : Nat) (right : BT)

/-- `BTString` (bt_string.h:67-72). -/
structure Dico where
  tree : BT
  nbElem : Nat

/-- `BT_String_Init` (bt_string.c:66-71). -/
def init : Dico := ⟨.null, 0⟩

/-- The loop and the creation of `BT_String_Add` (bt_string.c:80-110): the new tree, the number of the node
returned and the new `nb_elem`. -/
def addTree (nb : Nat) (s : Name) : BT → BT × Nat × Nat
  | .null => (.node .null s nb .null, nb, nb + 1)
  | .node l str no r =>
    let cmp := strcmp s str
    if cmp = 0 then (.node l str no r, no, nb)
    else if cmp < 0 then
      let x := addTree nb s l
      (.node x.1 str no r, x.2)
    else
      let x := addTree nb s r
      (.node l str no x.1, x.2)

/-- `BT_String_Add` (bt_string.c:80-110): new dictionary and number of the node. -/
def add (d : Dico) (s : Name) : Dico × Nat :=
  let x := addTree d.nbElem s d.tree
  (⟨x.1, x.2.2⟩, x.2.1)

/-- `BT_String_Lookup` (bt_string.c:119-133). -/
def lookupTree (s : Name) : BT → Option Nat
  | .null => none
  | .node l str no r =>
    let cmp := strcmp s str
    if cmp = 0 then some no
    else if cmp < 0 then lookupTree s l else lookupTree s r

def lookup (d : Dico) (s : Name) : Option Nat := lookupTree s d.tree

/-- `BT_String_List_Rec` (bt_string.c:155-164): the sequence of calls `fct(no, str)`. -/
def listTree : BT → List (Nat × Name)
  | .null => []
  | .node l str no r => listTree l ++ (no, str) :: listTree r

def list (d : Dico) : List (Nat × Name) := listTree d.tree

end Gp.BtString
