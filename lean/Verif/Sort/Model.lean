import Verif.Term.Compare
/-
Model of the sorting built-ins: /repo/src/BipsPl/sort_c.c, and the list readers of
/repo/src/BipsPl/c_supp.c they use.

The arrays are in word-addressed memory (`Mem`), as in C: `base` and `aux` are addresses, every copy
loop is a loop on the memory. Simplifications: an array cell holds a term (tree) instead of a tagged
word; `int` counters do not overflow; the heap is large enough.
-/
namespace Gp.Sort
open Gp.Term

/-- Word-addressed memory. -/
abbrev Mem (α : Type) := Nat → α

def upd {α : Type} (m : Mem α) (a : Nat) (x : α) : Mem α := fun b => if b = a then x else m b

/-- State of the merge loop. -/
structure MSt (α : Type) where
  m : Mem α
  l1 : Nat
  n1 : Nat
  l2 : Nat
  n2 : Nat
  p : Nat

/-- `while (n1 > 0 && n2 > 0)` of `Merge_Sort` (sort_c.c:259-272). -/
def mergeLoop {α : Type} (cmp : α → α → Int) (s : MSt α) : MSt α :=
  match h1 : s.n1, h2 : s.n2 with
  | k1 + 1, k2 + 1 =>
    if cmp (s.m s.l1) (s.m s.l2) ≤ 0 then
      mergeLoop cmp { s with m := upd s.m s.p (s.m s.l1), p := s.p + 1, l1 := s.l1 + 1, n1 := k1 }
    else
      mergeLoop cmp { s with m := upd s.m s.p (s.m s.l2), p := s.p + 1, l2 := s.l2 + 1, n2 := k2 }
  | _, _ => s
termination_by s.n1 + s.n2
decreasing_by all_goals omega

/-- `while (n-- > 0) *dst++ = *src++` (sort_c.c:274-275, 281-282, 287-288). -/
def copyLoop {α : Type} (m : Mem α) (src dst : Nat) : Nat → Mem α
  | 0 => m
  | n + 1 => copyLoop (upd m dst (m src)) (src + 1) (dst + 1) n

/-- Loop removing duplicates (sort_c.c:293-302); `n` is the number of elements kept. -/
def dedupLoop {α : Type} (cmp : α → α → Int) (m : Mem α) (base p n : Nat) : Nat → Mem α × Nat
  | 0 => (m, n)
  | k + 1 =>
    if cmp (m base) (m p) < 0 then
      dedupLoop cmp (upd m (base + 1) (m p)) (base + 1) (p + 1) n k
    else dedupLoop cmp m base (p + 1) (n - 1) k

/-- `Merge_Sort` (sort_c.c:239-305). -/
def mergeSort {α : Type} (cmp : α → α → Int) (keepDup : Bool) (m : Mem α) (base aux n : Nat) : Mem α × Nat :=
  if hn : n ≤ 1 then (m, n)                                       -- 246-247
  else
    let n1 := n / 2
    let n2 := n - n1
    let r1 := mergeSort cmp keepDup m base aux n1                 -- 254
    let r2 := mergeSort cmp keepDup r1.1 (base + n1) aux n2       -- 255
    let tot := r1.2 + r2.2
    let s := mergeLoop cmp ⟨r2.1, base, r1.2, base + n1, r2.2, aux⟩
    let m := copyLoop s.m s.l1 s.p s.n1                           -- 274-275
    let p := s.p + s.n1
    if keepDup then
      (copyLoop m aux base (tot - s.n2), tot)                     -- 279-284
    else
      let m := copyLoop m s.l2 p s.n2                             -- 287-288
      let m := upd m base (m aux)                                 -- 290-291
      dedupLoop cmp m base (aux + 1) tot (tot - 1)                -- 292-304
termination_by n
decreasing_by all_goals omega

/-- Errors raised by the built-ins. -/
inductive SErr where
  | instantiation
  | typeList (culprit : Tree)
  | typePair (culprit : Tree)

/-- `Pl_Rd_Proper_List_Check` / `Pl_Rd_Proper_List_Check2` (c_supp.c:1235-1313) reading the elements
with `elt`. `start` is the whole list, the culprit of a type error. -/
def rdProperList (elt : Tree → Except SErr Tree) (start : Tree) : Tree → Except SErr (List Tree)
  | .var _ => .error .instantiation
  | .app f [h, t] =>
    if f = dot then do
      let x ← elt h
      let l ← rdProperList elt start t
      .ok (x :: l)
    else .error (.typeList start)
  | .atm s => if s = nilName then .ok [] else .error (.typeList start)
  | _ => .error (.typeList start)

/-- Pl_Check_For_Un_List (c_supp.c:1769-1773) / Pl_Check_For_Un_List2 (1784-1808): a list or a
partial list. -/
def checkForUnList (elt : Tree → Except SErr Unit) (start : Tree) : Tree → Except SErr Unit
  | .var _ => .ok ()
  | .app f [h, t] =>
    if f = dot then do
      elt h
      checkForUnList elt start t
    else .error (.typeList start)
  | .atm s => if s = nilName then .ok () else .error (.typeList start)
  | _ => .error (.typeList start)

/-- The name '-'. -/
def minus : Name := [45]

/-- `Chk_Pair` (sort_c.c:88-98). -/
def chkPair : Tree → Except SErr Unit
  | .var _ => .ok ()
  | .app f [k, v] => if f = minus then .ok () else .error (.typePair (.app f [k, v]))
  | t => .error (.typePair t)

/-- `Get_Pair` (sort_c.c:107-121). -/
def getPair : Tree → Except SErr Tree
  | .var _ => .error .instantiation
  | .app f [k, v] => if f = minus then .ok (.app f [k, v]) else .error (.typePair (.app f [k, v]))
  | t => .error (.typePair t)

/-- First argument of a compound: `Arg(adr, 0)`. -/
def arg0 : Tree → Tree
  | .app _ (k :: _) => k
  | t => t

/-- `Keysort_Cmp` (sort_c.c:219-228): both words are checked pairs. -/
def keysortCmp (u v : Tree) : Int := compare (arg0 u) (arg0 v)

/-- The sort_type value: 0 = sort/2, 1 = msort/2, 2 = keysort/2 (sort.pl:43-62). -/
inductive SortType where
  | sort | msort | keysort
deriving DecidableEq

/-- Store a list of terms in memory (the array filled by the readers). -/
def store {α : Type} (m : Mem α) (a : Nat) : List α → Mem α
  | [] => m
  | x :: l => store (upd m a x) (a + 1) l

/-- Contents of an array. -/
def seg {α : Type} (m : Mem α) (a : Nat) : Nat → List α
  | 0 => []
  | n + 1 => m a :: seg m (a + 1) n

/-- The comparison function chosen at sort_c.c:159. -/
def SortType.cmp : SortType → Tree → Tree → Int
  | .keysort => keysortCmp
  | _ => compare

/-- The array part of `Pl_Sort_List_2` (sort_c.c:145-163): the array is at the top `h` of the heap `m`;
the result is read back by Pl_Mk_Proper_List (c_supp.c:2780-2804, which copies it in order). -/
def sortArray (ty : SortType) (m : Mem Tree) (h : Nat) (l : List Tree) : List Tree :=
  let n := l.length
  let r := mergeSort ty.cmp (decide (ty ≠ .sort)) (store m h l) h (h + n) n     -- 159
  seg r.1 h r.2

/-- Checks and reading of the arguments in `Pl_Sort_List_2` (sort_c.c:142-151). -/
def readArgs (ty : SortType) (list1 list2 : Tree) : Except SErr (List Tree) :=
  if ty = .keysort then do
    checkForUnList chkPair list2 list2
    rdProperList getPair list1 list1
  else do
    checkForUnList (fun _ => .ok ()) list2 list2
    rdProperList .ok list1 list1

/-- `Pl_Sort_List_2` (sort_c.c:132-164): the term which is unified with `list2`, or an error. -/
def sortList2 (ty : SortType) (m : Mem Tree) (h : Nat) (list1 list2 : Tree) : Except SErr Tree := do
  let l ← readArgs ty list1 list2
  match l with
  | [] => .ok .nil                                               -- 153-154
  | [_] => .ok list1                                             -- 156-157
  | _ => .ok (.ofList (sortArray ty m h l))

end Gp.Sort
