/-
Model of the switch instructions of the compiled code:
  the hash tables of switch_on_atom and switch_on_structure (/repo/src/EnginePl/wam_inst.c:101-198, 1211-1279),
  the binary search of switch_on_integer (/repo/src/Wam2Ma/wam2ma.c:1398-1451, /repo/src/Ma2Asm/ma2asm.c:645-732),
  the selection on the type of the first argument (wam_inst.c:1074-1197, wam2ma.c:1274-1329).
The type `Code` is the type of the code addresses (never NULL).
-/
namespace Gp.Switch

variable {Code : Type}

/-- A table of switch elements (wam_inst.h `SwtInf`): `none` when `codep` is NULL. -/
abbrev Tbl (Code : Type) := Nat → Option (Int × Code)

/-- `Pl_Create_Swt_Table` (wam_inst.c:101-113): all the cells are free (calloc). The allocated size is `size + 1`. -/
def create : Tbl Code := fun _ => none

/-- The loop of `Locate_Swt_Element` (wam_inst.c:190-195) from the cell `p` of a table of `N` cells. It turns forever if
all the cells have been tried without success: `none`. -/
def probe (t : Tbl Code) (N : Nat) (key : Int) : Nat → Nat → Option Nat
  | _, 0 => none
  | p, fuel + 1 =>
    match t p with
    | none => some p
    | some (k, _) => if k = key then some p else probe t N key (if p + 1 = N then 0 else p + 1) fuel

/-- `Locate_Swt_Element` (wam_inst.c:173-198): `none` if it does not stop or if the first cell is before the table (the C
remainder of a negative key is negative). -/
def locate (t : Tbl Code) (size : Nat) (key : Int) : Option Nat :=
  let n := key.tmod ((size : Int) + 1)
  if n < 0 then none else probe t (size + 1) key n.toNat (size + 1)

/-- `Pl_Create_Swt_Atm_Element`, `Pl_Create_Swt_Int_Element`, `Pl_Create_Swt_Stc_Element` (wam_inst.c:123-165): the key is the
atom number, the integer or `Functor_Arity(func, arity)`. -/
def addElt (t : Tbl Code) (size : Nat) (key : Int) (c : Code) : Option (Tbl Code) :=
  match locate t size key with
  | none => none
  | some p => some (fun x => if x = p then some (key, c) else t x)

/-- The initialisation of a table by the code emitted at wam2ma.c:2083-2124. -/
def addAll (size : Nat) : Tbl Code → List (Int × Code) → Option (Tbl Code)
  | t, [] => some t
  | t, (k, c) :: l =>
    match addElt t size k c with
    | none => none
    | some t' => addAll size t' l

/-- The table of `l` (wam2ma.c:2083-2124). -/
def build (l : List (Int × Code)) : Option (Tbl Code) := addAll l.length create l

/-- `Pl_Switch_On_Atom`, `Pl_Switch_On_Integer`, `Pl_Switch_On_Structure` (wam_inst.c:1211-1219, 1241-1249, 1271-1279):
`some none` for the last alternative (fail). -/
def switchTbl (t : Tbl Code) (size : Nat) (key : Int) : Option (Option Code) :=
  match locate t size key with
  | none => none
  | some p => some ((t p).map (·.2))

/-! Integers -/

/-- `(int) n` for a `PlLong` n: the 32 low bits. -/
def toInt32 (n : Int) : Int := (n + 2147483648) % 4294967296 - 2147483648

/-- `LOAD_C_INT(n)` in `F_switch_on_integer` (wam2ma.c:1435, wam_parser.h:94): the key is read as an `int`. -/
def loadKeys (l : List (Int × Code)) : List (Int × Code) := l.map (fun e => (toInt32 e.1, e.2))

/-- `Switch_Cmp_Int` (ma2asm.c:727-732). -/
def cmpInt (a b : Int × Code) : Int := toInt32 (a.1 - b.1)

/-- The code emitted by `Switch_Rec`: tests in sequence then fail, or a test followed by a jump if greater. The emitted
instructions (compare, jump if equal, jump if greater, label) are represented by the tree they form. -/
inductive Tree (Code : Type) where
  | tests (l : List (Int × Code))
  | node (e : Int × Code) (le gt : Tree Code)

/-- `Switch_Rec` (ma2asm.c:665-704) on the elements `start..stop`; `mid = (start + stop) / 2`. -/
def switchRec (l : List (Int × Code)) : Tree Code :=
  if _h : l.length ≤ 3 then .tests l
  else
    let mid := (l.length - 1) / 2
    .node (l[mid]'(by grind)) (switchRec (l.take mid)) (switchRec (l.drop (mid + 1)))
termination_by l.length
decreasing_by
  · simp only [List.length_take]; omega
  · simp only [List.length_drop]; omega

/-- Execution of the tests (`Switch_Equal`, ma2asm.c:713-718). -/
def runTests : List (Int × Code) → Int → Option Code
  | [], _ => none
  | (k, c) :: l, n => if n = k then some c else runTests l n

/-- Execution of the emitted code on the integer `n`; `none`: fail. -/
def Tree.run : Tree Code → Int → Option Code
  | .tests l, n => runTests l n
  | .node e le gt, n => if n = e.1 then some e.2 else if n > e.1 then gt.run n else le.run n

/-! Type of the first argument -/

/-- The tags of a dereferenced word (wam_inst.h). -/
inductive Tag where
  | ref | atm | int | flt | lst | stc | fdv
  deriving DecidableEq

/-- `Pl_Switch_On_Term` (wam_inst.c:1073-1096): a label is `none` for fail; `none`: the last alternative. -/
def switchOnTerm (cv ca ci cl cs : Option Code) : Tag → Option Code
  | .int => ci
  | .atm => ca
  | .lst => cl
  | .stc => cs
  | _ => cv

/-- `Pl_Switch_On_Term_Var_Atm` (wam_inst.c:1101-1120). -/
def switchVarAtm (cv ca : Option Code) : Tag → Option Code
  | .atm => ca
  | .ref => cv
  | .fdv => cv
  | _ => none

/-- `Pl_Switch_On_Term_Var_Stc` (wam_inst.c:1125-1144). -/
def switchVarStc (cv cs : Option Code) : Tag → Option Code
  | .stc => cs
  | .ref => cv
  | .fdv => cv
  | _ => none

/-- `Pl_Switch_On_Term_Var_Atm_Lst` (wam_inst.c:1149-1171). -/
def switchVarAtmLst (cv ca cl : Option Code) : Tag → Option Code
  | .lst => cl
  | .atm => ca
  | .ref => cv
  | .fdv => cv
  | _ => none

/-- `Pl_Switch_On_Term_Var_Atm_Stc` (wam_inst.c:1176-1197). -/
def switchVarAtmStc (cv ca cs : Option Code) : Tag → Option Code
  | .stc => cs
  | .atm => ca
  | .ref => cv
  | .fdv => cv
  | _ => none

/-- `F_switch_on_term` (wam2ma.c:1274-1329): the function called depends on which labels are not fail. -/
def emitSwitchOnTerm (cv ca ci cl cs : Option Code) : Tag → Option Code :=
  match cv.isSome, ca.isSome, ci.isSome, cl.isSome, cs.isSome with
  | true, true, false, false, false => switchVarAtm cv ca
  | true, false, false, false, true => switchVarStc cv cs
  | true, true, false, true, false => switchVarAtmLst cv ca cl
  | true, true, false, false, true => switchVarAtmStc cv ca cs
  | _, _, _, _, _ => switchOnTerm cv ca ci cl cs

end Gp.Switch
