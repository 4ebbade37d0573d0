import Verif.Switch.Model
import Verif.Tag.Model
/-
Model of the first argument indexing of the compiler (/repo/src/Pl2Wam/indexing.pl) and of the execution of the code it produces
(try/retry/trust instructions, see Verif/Wam; switch instructions, see Verif/Switch).

Simplifications: the labels of the Prolog program are fresh variables (numbered at the end by allocate_labels,
indexing.pl:365-377): here they have names, built from the number of a clause; that names are not used twice is proved. The nested
lists of instructions are flat. The code of a clause is an instruction `clause i`.
-/
namespace Gp.Index
open Gp.Switch

/-- The first argument of a clause (first_arg.pl:77-87): a float or an argument which is not found is `var`. -/
inductive FA where
  | var
  | atm (a : Nat)
  | int (n : Int)
  | lst
  | stc (f n : Nat)
  deriving DecidableEq

/-- cl(Ad, FirstArg, WamCl) (indexing.pl:106-112): the number of the clause stands for Ad and WamCl. -/
structure Cl where
  id : Nat
  arg : FA

/-- The four parts of a group (split, indexing.pl:234-254). -/
inductive Ty where
  | atm | int | lst | stc
  deriving DecidableEq

/-- The labels: `ad` of the clause; `lv` of its try_me_else, retry_me_else, trust_me_else_fail in a group; `l1` of a block of the
level 1 beginning with the clause; `sw` of a switch of a group beginning with the clause; `trt` of a list try, retry, trust
beginning with the clause. -/
inductive Lab where
  | ad (i : Nat)
  | lv (i : Nat)
  | l1 (i : Nat)
  | sw (t : Ty) (i : Nat)
  | trt (t : Ty) (i : Nat)
  deriving DecidableEq

/-- The instructions. -/
inductive Ins where
  | label (l : Lab)
  | tryMe (l : Lab)
  | retryMe (l : Lab)
  | trustMe
  | try_ (l : Lab)
  | retry (l : Lab)
  | trust (l : Lab)
  | switchTerm (v a i l s : Option Lab)
  | switchAtm (t : List (Nat × Lab))
  | switchInt (t : List (Int × Lab))
  | switchStc (t : List ((Nat × Nat) × Lab))
  | clause (i : Nat)

/-- look_for_var (indexing.pl:161-177): the clauses before the first variable, and this clause with the clauses after. -/
def lookForVar : List Cl → List Cl × Option (Cl × List Cl)
  | [] => ([], none)
  | c :: l =>
    if c.arg = .var then ([], some (c, l))
    else
      let r := lookForVar l
      (c :: r.1, r.2)

/-- A group of clauses with the same key: `[Ad|LAd]=K`. -/
structure Grp (κ : Type) where
  key : κ
  hd : Nat
  tl : List Nat

/-- group_by_keys2 (indexing.pl:285-289): the numbers with the key `k` at the beginning of the list, the rest. -/
def sameKey {κ : Type} [DecidableEq κ] (k : κ) : List (κ × Nat) → List Nat × List (κ × Nat)
  | [] => ([], [])
  | (k', i) :: l =>
    if k' = k then
      let r := sameKey k l
      (i :: r.1, r.2)
    else ([], (k', i) :: l)

theorem sameKey_length {κ : Type} [DecidableEq κ] (k : κ) (l : List (κ × Nat)) : (sameKey k l).2.length ≤ l.length := by
  induction l with
  | nil => exact Nat.le_refl _
  | cons e l ih =>
    obtain ⟨k', i⟩ := e
    rw [sameKey]
    by_cases h : k' = k
    · rw [if_pos h]; simp only [List.length_cons]; omega
    · rw [if_neg h]; exact Nat.le_refl _

/-- group_by_keys1 (indexing.pl:278-282). -/
def groups {κ : Type} [DecidableEq κ] : List (κ × Nat) → List (Grp κ)
  | [] => []
  | (k, i) :: l =>
    let r := sameKey k l
    ⟨k, i, r.1⟩ :: groups r.2
termination_by l => l.length
decreasing_by
  have := sameKey_length k l
  simp only [List.length_cons]; omega

/-- group_by_keys (indexing.pl:268-274): keysort, then grouping, then the groups are sorted by their first clause. `le` is the
standard order of terms on the keys. -/
def groupByKeys {κ : Type} [DecidableEq κ] (le : κ → κ → Bool) (l : List (κ × Nat)) : List (Grp κ) :=
  (groups (l.mergeSort (fun a b => le a.1 b.1))).mergeSort (fun a b => decide (a.hd ≤ b.hd))

/-- gen_list1 (indexing.pl:337-341). -/
def genList1 : List Nat → List Ins
  | [] => []
  | [i] => [.trust (.ad i)]
  | i :: l => .retry (.ad i) :: genList1 l

/-- gen_list (indexing.pl:327-334) on a list which is not empty: the label and the code. -/
def genList (t : Ty) (i : Nat) (l : List Nat) : Lab × List Ins :=
  match l with
  | [] => (.ad i, [])
  | _ => (.trt t i, .label (.trt t i) :: .try_ (.ad i) :: genList1 l)

/-- create_switch_list (indexing.pl:317-322): the elements of the switch and the code. -/
def createSwitch {κ : Type} (t : Ty) : List (Grp κ) → List (κ × Lab) × List Ins
  | [] => ([], [])
  | g :: gs =>
    let r := genList t g.hd g.tl
    let r' := createSwitch t gs
    ((g.key, r.1) :: r'.1, r.2 ++ r'.2)

/-- gen_switch (indexing.pl:294-312); `i` is the first clause of the group of clauses, `mk` the instruction. -/
def genSwitch {κ : Type} (t : Ty) (i : Nat) (mk : List (κ × Lab) → Ins) (gs : List (Grp κ)) : Option Lab × List Ins :=
  match gs with
  | [] => (none, [])
  | [⟨_, j, []⟩] => (some (.ad j), [])
  | _ =>
    let r := createSwitch t gs
    (some (.sw t i), .label (.sw t i) :: mk r.1 :: r.2)

/-- gen_list for the lists (indexing.pl:327-334). -/
def genLst : List Nat → Option Lab × List Ins
  | [] => (none, [])
  | i :: l =>
    let r := genList .lst i l
    (some r.1, r.2)

/-- gen_insts1 (indexing.pl:355-360). -/
def genInsts1 : List Cl → List Ins
  | [] => []
  | [c] => [.label (.lv c.id), .trustMe, .label (.ad c.id), .clause c.id]
  | c :: c' :: l => .label (.lv c.id) :: .retryMe (.lv c'.id) :: .label (.ad c.id) :: .clause c.id :: genInsts1 (c' :: l)

/-- gen_insts (indexing.pl:346-351): the label for a variable and the code. -/
def genInsts : List Cl → Option Lab × List Ins
  | [] => (none, [])
  | [c] => (some (.ad c.id), [.label (.ad c.id), .clause c.id])
  | c :: c' :: l =>
    (some (.lv c.id), .label (.lv c.id) :: .tryMe (.lv c'.id) :: .label (.ad c.id) :: .clause c.id :: genInsts1 (c' :: l))

/-- split1, split2 (indexing.pl:241-254). -/
def atmPart (l : List Cl) : List (Nat × Nat) := l.filterMap fun c => match c.arg with | .atm a => some (a, c.id) | _ => none
/-- split1, split2 (indexing.pl:241-254). -/
def intPart (l : List Cl) : List (Int × Nat) := l.filterMap fun c => match c.arg with | .int n => some (n, c.id) | _ => none
/-- split1, split2 (indexing.pl:241-254). -/
def lstPart (l : List Cl) : List Nat := l.filterMap fun c => match c.arg with | .lst => some c.id | _ => none
/-- split1, split2 (indexing.pl:241-254). -/
def stcPart (l : List Cl) : List ((Nat × Nat) × Nat) :=
  l.filterMap fun c => match c.arg with | .stc f n => some ((f, n), c.id) | _ => none

/-- The order used by keysort on the keys. -/
structure Orders where
  atm : Nat → Nat → Bool
  int : Int → Int → Bool
  stc : Nat × Nat → Nat × Nat → Bool

/-- The first clause of a list (any number if there is none). -/
def firstId : List Cl → Nat
  | [] => 0
  | c :: _ => c.id

/-- mk_indexing(2, …) (indexing.pl:213-229) without the trust_me_else_fail. -/
def mk2 (o : Orders) (lcc : List Cl) : List Ins :=
  let a := genSwitch .atm (firstId lcc) Ins.switchAtm (groupByKeys o.atm (atmPart lcc))
  let i := genSwitch .int (firstId lcc) Ins.switchInt (groupByKeys o.int (intPart lcc))
  let l := genLst (lstPart lcc)
  let s := genSwitch .stc (firstId lcc) Ins.switchStc (groupByKeys o.stc (stcPart lcc))
  let v := genInsts lcc
  let code := a.2 ++ i.2 ++ l.2 ++ s.2 ++ v.2
  match lcc with
  | [_] => code.tail                                            -- 218-220
  | _ => .switchTerm v.1 a.1 i.1 l.1 s.1 :: code

/-- try_me_else at the level 1 for the first block, retry_me_else for the others (indexing.pl:183-186). -/
def me (lev1 : Bool) (l : Lab) : Ins := if lev1 then .retryMe l else .tryMe l

/-- trust_me_else_fail if there are blocks before (indexing.pl:208-211, 214-217). -/
def tm (lev1 : Bool) : List Ins := if lev1 then [.trustMe] else []

theorem lookForVar_length (l : List Cl) (v : Cl) (after : List Cl) (h : (lookForVar l).2 = some (v, after)) :
    after.length < l.length := by
  induction l with
  | nil => simp [lookForVar] at h
  | cons c l ih =>
    rw [lookForVar] at h
    by_cases hc : c.arg = .var
    · rw [if_pos hc] at h
      simp only [Option.some.injEq, Prod.mk.injEq] at h
      rw [← h.2]; simp
    · rw [if_neg hc] at h
      have := ih h
      simp only [List.length_cons]; omega

/-- indexing1, mk_indexing (indexing.pl:147-229), without the first label. -/
def indexing1 (o : Orders) (lcc : List Cl) (lev1 : Bool) : List Ins :=
  match h : lookForVar lcc with
  | (_, none) => tm lev1 ++ mk2 o lcc                                              -- 2
  | ([], some (v, [])) => tm lev1 ++ [.clause v.id]                                -- 14
  | ([], some (v, a :: l)) =>                                                      -- 13
    me lev1 (.l1 a.id) :: .clause v.id :: .label (.l1 a.id) :: indexing1 o (a :: l) true
  | (b :: bs, some (v, [])) =>                                                     -- 12
    me lev1 (.l1 v.id) :: (mk2 o (b :: bs) ++ [.label (.l1 v.id), .trustMe, .clause v.id])
  | (b :: bs, some (v, a :: l)) =>                                                 -- 11
    me lev1 (.l1 v.id) :: (mk2 o (b :: bs) ++
      .label (.l1 v.id) :: .retryMe (.l1 a.id) :: .clause v.id :: .label (.l1 a.id) :: indexing1 o (a :: l) true)
termination_by lcc.length
decreasing_by
  · exact lookForVar_length _ v (a :: l) (by rw [h])
  · exact lookForVar_length _ v (a :: l) (by rw [h])

/-- indexing (indexing.pl:134-142). -/
def indexing (o : Orders) (lcc : List Cl) : List Ins := indexing1 o lcc false

/-! Execution -/

/-- The first argument of a call, dereferenced: `var` for a variable or an FD variable. -/
inductive Q where
  | var
  | fdv
  | atm (a : Nat)
  | int (n : Int)
  | flt
  | lst
  | stc (f n : Nat)

/-- The tag of the word. -/
def Q.tag : Q → Switch.Tag
  | .var => .ref
  | .fdv => .fdv
  | .atm _ => .atm
  | .int _ => .int
  | .flt => .flt
  | .lst => .lst
  | .stc _ _ => .stc

/-- The code which follows a label. -/
def goto (l : Lab) : List Ins → Option (List Ins)
  | [] => none
  | .label l' :: c => if l' = l then some c else goto l c
  | _ :: c => goto l c

/-- The key of a structure: `Functor_Arity` (wam_inst.h:118). -/
def skey (k : Nat × Nat) : Int := (Gp.Tag.functorArity k.1 k.2).toInt

/-- The switch on constants and functors; `qs` is the function qsort of the C library called with `Switch_Cmp_Int`. `none`: undefined
behaviour. -/
def doSwitch (qs : List (Int × Lab) → List (Int × Lab)) (q : Q) : Ins → Option (Option Lab)
  | .switchAtm t =>
    match q with
    | .atm a => (build (t.map fun e => ((e.1 : Int), e.2))).bind fun tb => switchTbl tb t.length a
    | _ => none
  | .switchInt t =>
    match q with
    | .int n => some ((switchRec (qs (loadKeys t))).run n)
    | _ => none
  | .switchStc t =>
    match q with
    | .stc f n => (build (t.map fun e => (skey e.1, e.2))).bind fun tb => switchTbl tb t.length (skey (f, n))
    | _ => none
  | _ => none

/-- Execution of the code `c` of a predicate from `pc` with the alternatives `st` of its choice points (see Verif/Wam for the
choice points), when all the clauses fail: the clauses tried (added to `tr`) with the number of choice points of the predicate
during their execution. `none`: it does not stop or there is an undefined label. -/
def run (qs : List (Int × Lab) → List (Int × Lab)) (c : List Ins) (q : Q) (pc : List Ins) (st : List (List Ins))
    (tr : List (Nat × Nat)) : Option (List (Nat × Nat)) :=
  match pc with
  | [] => none
  | .label _ :: pc => run qs c q pc st tr
  | .tryMe l :: pc =>
    match goto l c with
    | none => none
    | some a => run qs c q pc (a :: st) tr
  | .retryMe l :: pc =>
    match goto l c, st with
    | some a, _ :: st => run qs c q pc (a :: st) tr
    | _, _ => none
  | .trustMe :: pc =>
    match st with
    | _ :: st => run qs c q pc st tr
    | [] => none
  | .try_ l :: pc =>
    match goto l c with
    | none => none
    | some a => run qs c q a (pc :: st) tr
  | .retry l :: pc =>
    match goto l c, st with
    | some a, _ :: st => run qs c q a (pc :: st) tr
    | _, _ => none
  | .trust l :: _ =>
    match goto l c, st with
    | some a, _ :: st => run qs c q a st tr
    | _, _ => none
  | .switchTerm v a i l s :: _ =>
    match emitSwitchOnTerm v a i l s q.tag with
    | some l =>
      match goto l c with
      | none => none
      | some a => run qs c q a st tr
    | none =>
      match st with
      | [] => some tr
      | a :: _ => run qs c q a st tr
  | .clause i :: _ =>
    match st with
    | [] => some (tr ++ [(i, 0)])
    | a :: _ => run qs c q a st (tr ++ [(i, st.length)])
  | ins :: _ =>
    match doSwitch qs q ins with
    | none => none
    | some (some l) =>
      match goto l c with
      | none => none
      | some a => run qs c q a st tr
    | some none =>
      match st with
      | [] => some tr
      | a :: _ => run qs c q a st tr
partial_fixpoint

end Gp.Index
