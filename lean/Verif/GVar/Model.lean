/-
Model of the global variables (BipsPl/g_var_inl_c.c): elements, arrays, undo records, the trail and the choice points.

Simplifications. A term (a linked word, or a copy in memory obtained by malloc) is coded by an integer; the copy of terms is
`Verif.CopyTerm`. A block of elements is named by a number which is not used again; `realloc` keeps the name but changes the
generation of the block, and a pointer with an old generation is invalid. A failed check (freed block, old pointer, index outside the
block, freed undo record) is undefined behaviour: the functions return `none`. Sub-term selectors (`Gvar - Arg`) and indirect indexes are
not modelled. The elements of the definition of an array are terms (an array inside is assigned by another operation).
-/
namespace Gp.GVar

/-- An element (`GVarElt`): that of an atom, which is never freed (g_var_inl_c.c:849-858), or the element `i` of the block `b`. -/
inductive Addr where
  | root (k : Nat)
  | cell (b i : Nat)
deriving DecidableEq

/-- A pointer to an element: with the generation of its block (0 for an atom). -/
abbrev Ptr := Addr × Nat

/-- The fields `size` and `val` of an element (g_var_inl_c.c:69-75, 483-498): a term, the mark `G_IMPOSSIBLE_SIZE` of the last element of an
array which is not automatic, or an array: a pointer to a block and its size. -/
inductive Val where
  | term (x : Int)
  | imp
  | arr (b g n : Nat)
deriving DecidableEq

/-- An undo record (g_var_inl_c.c:80-87). -/
structure Rec where
  elem : Option Ptr
  save : Val
  next : Option Nat
  prev : Option Nat

/-- The memory: the fields of the elements and of the undo records, the generation, the number of elements and the state of the blocks, the
first unused names; the trail (undo records, newest first) and the trail heights of the choice points (newest first). -/
structure St where
  val : Addr → Val
  undo : Addr → Option Nat
  rcd : Nat → Rec
  gen : Nat → Nat
  len : Nat → Nat
  live : Nat → Bool
  nb : Nat
  nu : Nat
  trail : List Nat
  cps : List Nat

/-- A function changed at one point. -/
def upd {α : Type} [DecidableEq α] {β : Type} (f : α → β) (a : α) (b : β) : α → β := fun x => if x = a then b else f x

/-- A pointer can be followed. -/
def St.ok (st : St) : Ptr → Bool
  | (.root _, _) => true
  | (.cell b i, g) => st.live b && (g == st.gen b) && decide (i < st.len b)

/-- `for (i = ...; ...; i++)`, `k` times. -/
def iter (f : St → Nat → Option St) : Nat → Nat → St → Option St
  | _, 0, st => some st
  | i, k + 1, st => match f st i with
    | none => none
    | some st => iter f (i + 1) k st

/-- The undo records from `u` by `next`. -/
def chain (rcd : Nat → Rec) : Nat → Option Nat → List Nat
  | 0, _ => []
  | _, none => []
  | f + 1, some u => u :: chain rcd f (rcd u).next

/-- Write `g_elem` in all undo records of the element (g_var_inl_c.c:630-632, 1068-1070, 808-809). -/
def St.setElems (st : St) (a : Addr) (e : Option Ptr) : St :=
  let l := chain st.rcd st.nu (st.undo a)
  { st with rcd := fun u => if l.contains u then { st.rcd u with elem := e } else st.rcd u }

/-- `Free` of a block. -/
def St.freeBlk (st : St) (b : Nat) : Option St := if st.live b then some { st with live := upd st.live b false } else none

/-- `G_Free_Element` (g_var_inl_c.c:1059-1092). -/
def freeElt : Nat → Bool → St → Ptr → Option St
  | 0, _, _, _ => none
  | f + 1, reinit, st, p =>
    if st.ok p = false then none
    else
      let st1 := if reinit then { st.setElems p.1 none with undo := upd st.undo p.1 none } else st
      match st1.val p.1 with
      | .arr b g n =>
        match iter (fun st i => freeElt f reinit st (.cell b i, g)) 0 n st1 with
        | none => none
        | some st2 =>
          if st2.ok (.cell b n, g) = false then none
          else
            match (if st2.val (.cell b n) = .imp then some st2 else freeElt f reinit st2 (.cell b n, g)) with
            | none => none
            | some st3 => st3.freeBlk b
      | _ => some st1

/-- `Malloc` of a block of `n` elements. -/
def St.malloc (st : St) (n : Nat) : St :=
  { st with live := upd st.live st.nb true, gen := upd st.gen st.nb 0, len := upd st.len st.nb n, nb := st.nb + 1 }

/-- Write an element, with `undo = NULL`. -/
def St.wr (st : St) (p : Ptr) (v : Val) : Option St :=
  if st.ok p then some { st with val := upd st.val p.1 v, undo := upd st.undo p.1 none } else none

/-- `G_Copy_Element` (g_var_inl_c.c:1101-1146). -/
def copyElt : Nat → St → Ptr → Ptr → Option St
  | 0, _, _, _ => none
  | f + 1, st, dst, src =>
    if st.ok dst = false ∨ st.ok src = false then none
    else match st.val src.1 with
      | .arr b g n =>
        let b' := st.nb
        let st1 := st.malloc (n + 1)
        match st1.wr dst (.arr b' 0 n) with
        | none => none
        | some st2 =>
          match iter (fun st i => copyElt f st (.cell b' i, 0) (.cell b i, g)) 0 n st2 with
          | none => none
          | some st3 => if st3.val (.cell b n) = .imp then st3.wr (.cell b' n, 0) .imp else copyElt f st3 (.cell b' n, 0) (.cell b n, g)
      | v => st.wr dst v

/-- `G_Alloc_Array` (g_var_inl_c.c:766-820): the new state and the pointer to the first element. -/
def allocArray (st : St) (p : Ptr) (n : Nat) (bt : Bool) : Option (St × Nat × Nat) :=
  match st.val p.1 with
  | .arr b g old =>
    if bt then
      let b' := st.nb
      match iter (fun st i => copyElt (st.nb + 1) st (.cell b' i, 0) (.cell b i, g)) 0 old (st.malloc (n + 1)) with
      | none => none
      | some st2 =>
        match (if st2.val (.cell b old) ≠ .imp then copyElt (st2.nb + 1) st2 (.cell b' n, 0) (.cell b old, g)
          else st2.wr (.cell b' n, 0) .imp) with
        | none => none
        | some st3 => some ({ st3 with val := upd st3.val p.1 (.arr b' 0 n) }, b', 0)
    else if st.live b && g == st.gen b then
      let g' := g + 1
      let st1 := { st with gen := upd st.gen b g', len := upd st.len b (n + 1) }
      match iter (fun st i => if st.ok (.cell b i, g') then some (st.setElems (.cell b i) (some (.cell b i, g'))) else none) 0 old st1 with
      | none => none
      | some st2 =>
        if st2.ok (.cell b old, g') then
          some ({ st2 with val := upd (upd st2.val (.cell b n) (st2.val (.cell b old))) p.1 (.arr b g' n),
                           undo := upd st2.undo (.cell b n) (st2.undo (.cell b old)) }, b, g')
        else none
    else none
  | _ =>
    let b := st.nb
    match (st.malloc (n + 1)).wr (.cell b n, 0) .imp with
    | none => none
    | some st1 => some ({ st1 with val := upd st1.val p.1 (.arr b 0 n) }, b, 0)

/-- `G_ARRAY`, `G_ARRAY_AUTO`, `G_ARRAY_EXTEND` (g_var_inl_c.c:54-56). -/
inductive Kind where
  | fixed | auto | extend
deriving DecidableEq

/-- The second argument of an assignment: a term, or the definition of an array of `n` elements whose values are `ini`; `d` is the value of
the elements made by an automatic extension. -/
inductive New where
  | term (x : Int)
  | arr (kind : Kind) (n : Nat) (ini : Nat → Int) (d : Int)

/-- `size = -g_elem->size` for an array (g_var_inl_c.c:702). -/
def Val.size : Val → Nat
  | .arr _ _ n => n
  | _ => 0

/-- `g_elem->size < 0`. -/
def Val.isArr : Val → Bool
  | .arr _ _ _ => true
  | _ => false

/-- The end of `G_Assign_Array` (g_var_inl_c.c:704-746): the array is allocated, the elements from `start` are written, then the last one. -/
def fillArray (st : St) (p : Ptr) (kind : Kind) (n : Nat) (ini : Nat → Int) (d : Int) (bt : Bool) (start : Nat) : Option St :=
  match allocArray st p n bt with
  | none => none
  | some (st2, b, g) =>
    match iter (fun st i => st.wr (.cell b i, g) (.term (ini i))) start (n - start) st2 with
    | none => none
    | some st3 => if kind = .auto then st3.wr (.cell b n, g) (.term d) else some st3

/-- `G_Assign_Array` (g_var_inl_c.c:661-746), `n > 0`. -/
def assignArray (st : St) (p : Ptr) (kind : Kind) (n : Nat) (ini : Nat → Int) (d : Int) (bt : Bool) : Option St :=
  let kind := if kind = .extend ∧ (st.val p.1).isArr = false then .fixed else kind
  match (if kind ≠ .extend ∧ bt = false then (freeElt (st.nb + 1) true st p).map (fun s : St => { s with val := upd s.val p.1 (.term 0) })
    else some st) with
  | none => none
  | some st1 =>
    fillArray st1 p kind n ini d bt (if kind = .extend then (st1.val p.1).size else 0)

/-- `G_Trail_For_Backtrack` (g_var_inl_c.c:1155-1174). -/
def trailElt (st : St) (p : Ptr) (save : Val) : St :=
  let u := st.nu
  let next := st.undo p.1
  let rcd := upd st.rcd u ⟨some p, save, next, none⟩
  let rcd := match next with
    | some w => upd rcd w { rcd w with prev := some u }
    | none => rcd
  { st with rcd := rcd, undo := upd st.undo p.1 (some u), trail := u :: st.trail, nu := u + 1 }

/-- `G_Assign_Element` (g_var_inl_c.c:545-610). -/
def assignElt (st : St) (p : Ptr) (v : New) (bt : Bool) : Option St :=
  if st.ok p = false then none
  else
    let save := st.val p.1
    match (match v with
      | .term x =>
        (if bt then some st else freeElt (st.nb + 1) true st p).map (fun s : St => { s with val := upd s.val p.1 (.term x) })
      | .arr kind n ini d => assignArray st p kind n ini d bt) with
    | none => none
    | some st1 => some (if bt then trailElt st1 p save else st1)

/-- The smallest power of 2 above `i` from `n` (g_var_inl_c.c:892-893). -/
def pow2 (i : Nat) : Nat → Nat → Nat
  | 0, n => n
  | f + 1, n => if n ≤ i then pow2 i f (2 * n) else n

/-- `MAX_AUTO_SIZE` (g_var_inl_c.c:59). -/
def maxAuto : Nat := 1048576

/-- `Get_Target_From_Gvar` (g_var_inl_c.c:829-911) from the element `p` with the indexes `path`: the state (an automatic array may be
extended) and the target, `none` if an error is raised. -/
def getTarget (st : St) (p : Ptr) : List Nat → Option (St × Option Ptr)
  | [] => some (st, some p)
  | i :: path =>
    if st.ok p = false then none
    else match st.val p.1 with
      | .arr b g n =>
        if i ≥ n then
          if st.ok (.cell b n, g) = false then none
          else if st.val (.cell b n) = .imp ∨ i > maxAuto then some (st, none)
          else
            let n' := pow2 i 22 1
            match allocArray st p n' false with
            | none => none
            | some (st1, b', g') =>
              match iter (fun st j => copyElt (st.nb + 1) st (.cell b' j, g') (.cell b' n', g')) n (n' - n) st1 with
              | none => none
              | some st2 => getTarget st2 (.cell b' i, g') path
        else getTarget st (.cell b i, g) path
      | _ => some (st, none)

/-- `G_Inc_Dec` (g_var_inl_c.c:1313-1340) on a variable which stores an integer, without its overflow. -/
def incElt (st : St) (p : Ptr) (inc : Int) : Option St :=
  if st.ok p = false then none
  else match st.val p.1 with
    | .term x => some { st with val := upd st.val p.1 (.term (x + inc)) }
    | _ => some st

/-- A value read by `g_read/2`: a term or `g_array([...])`. -/
inductive Tree where
  | leaf (x : Int)
  | node (l : List Tree)

/-- The elements of an array, for `G_Read_Element`. -/
def mapM (f : Nat → Option Tree) : Nat → Nat → Option (List Tree)
  | _, 0 => some []
  | i, k + 1 => match f i, mapM f (i + 1) k with
    | some t, some l => some (t :: l)
    | _, _ => none

/-- `G_Read_Element` (g_var_inl_c.c:1241-1282): the term to unify with. -/
def readElt : Nat → St → Ptr → Option Tree
  | 0, _, _ => none
  | f + 1, st, p =>
    if st.ok p = false then none
    else match st.val p.1 with
      | .term x => some (.leaf x)
      | .imp => none
      | .arr b g n => (mapM (fun i => readElt f st (.cell b i, g)) 0 n).map .node

/-- `G_Untrail` (g_var_inl_c.c:1183-1206) on the newest entry of the trail. -/
def untrail (st : St) : Option St :=
  match st.trail with
  | [] => some st
  | u :: t =>
    let r := st.rcd u
    match (match r.elem with
      | some p => (freeElt (st.nb + 1) false st p).map (fun s : St => { s with val := upd s.val p.1 r.save })
      | none => some st) with
    | none => none
    | some st1 =>
      match (match r.next with
        | some w => if t.contains w then some { st1 with rcd := upd st1.rcd w { st1.rcd w with prev := r.prev } } else none
        | none => some st1) with
      | none => none
      | some st2 =>
        match (match r.prev, r.elem with
          | some w, _ => if t.contains w then some { st2 with rcd := upd st2.rcd w { st2.rcd w with next := r.next } } else none
          | none, some p => some { st2 with undo := upd st2.undo p.1 r.next }
          | none, none => some st2) with
        | none => none
        | some st3 => some { st3 with trail := t }

/-- `k` entries (`Pl_Untrail`, wam_inst.c:1725-1759). -/
def untrailN : Nat → St → Option St
  | 0, st => some st
  | k + 1, st => match untrail st with
    | none => none
    | some st => untrailN k st

/-- The operations: `g_assign`, `g_assignb` or `g_link`, `g_read` (which may extend an array), `g_inc`; the creation of a choice point,
a failure which keeps or deletes it, the cut of the `n` newest choice points (wam_inst.c:1304-1307, 1404-1446). -/
inductive Op where
  | assign (k : Nat) (path : List Nat) (v : New)
  | assignb (k : Nat) (path : List Nat) (v : New)
  | read (k : Nat) (path : List Nat)
  | inc (k : Nat) (path : List Nat) (x : Int)
  | create | retry | trust | cut (n : Nat)

/-- `Get_Target_From_Gvar` then `f` on the target; nothing more if an error is raised. -/
def withTarget (st : St) (k : Nat) (path : List Nat) (f : St → Ptr → Option St) : Option St :=
  match getTarget st (.root k, 0) path with
  | none => none
  | some (st1, none) => some st1
  | some (st1, some p) => f st1 p

/-- The test `new_size > 0` (g_var_inl_c.c:678-680): a domain error. -/
def New.good : New → Bool
  | .term _ => true
  | .arr _ n _ _ => decide (0 < n)

/-- One operation; `none` is undefined behaviour. -/
def step (st : St) : Op → Option St
  | .assign k path v => withTarget st k path fun s p => if v.good then assignElt s p v false else some s
  | .assignb k path v => withTarget st k path fun s p => if v.good then assignElt s p v true else some s
  | .read k path => withTarget st k path fun s _ => some s
  | .inc k path x => withTarget st k path fun s p => incElt s p x
  | .create => some { st with cps := st.trail.length :: st.cps }
  | .retry => match st.cps with
    | [] => some st
    | trb :: _ => untrailN (st.trail.length - trb) st
  | .trust => match st.cps with
    | [] => some st
    | trb :: cps => (untrailN (st.trail.length - trb) st).map (fun s : St => { s with cps := cps })
  | .cut n => some { st with cps := st.cps.drop n }

/-- The initial state: the value of each atom is the integer 0 (g_var_inl_c.c:51, 849-858). -/
def init : St :=
  ⟨fun _ => .term 0, fun _ => none, fun _ => ⟨none, .imp, none, none⟩, fun _ => 0, fun _ => 0, fun _ => false, 0, 0, [], []⟩

end Gp.GVar
