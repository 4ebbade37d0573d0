import Verif.GVar.Model
/-
The meaning of the global variables, without undo records: a store, and one copy of the store for each choice point. An assignment which is
not backtrackable is made in the store and in all copies, a backtrackable one in the store only; a failure takes the copy.
-/
namespace Gp.GVar

/-- A value of the store: a term or an array. -/
inductive SV where
  | term (x : Int)
  | arr (b : Nat)
deriving DecidableEq

/-- The store, its copies (one per choice point), the sizes of the arrays, the value of new elements of an automatic array, the first unused
name of array. -/
structure Spec where
  cur : Addr → SV
  sh : List (Addr → SV)
  len : Nat → Nat
  dflt : Nat → Option Int
  next : Nat

/-- A change made in the store and in all copies. -/
def Spec.all (sp : Spec) (f : (Addr → SV) → Addr → SV) : Spec := { sp with cur := f sp.cur, sh := sp.sh.map f }

/-- New elements of the array `b`. -/
def fill (b i n : Nat) (ini : Nat → Int) (s : Addr → SV) : Addr → SV
  | .cell b' j => if b' = b ∧ i ≤ j ∧ j < n then .term (ini j) else s (.cell b' j)
  | a => s a

/-- The array `b` gets `n` elements, the new ones are `ini`. -/
def Spec.grow (sp : Spec) (b n : Nat) (ini : Nat → Int) : Spec :=
  { sp.all (fill b (sp.len b) n ini) with len := upd sp.len b n }

/-- A new array. -/
def Spec.new (sp : Spec) (n : Nat) (ini : Nat → Int) (d : Option Int) : Spec :=
  { sp.all (fill sp.next 0 n ini) with len := upd sp.len sp.next n, dflt := upd sp.dflt sp.next d, next := sp.next + 1 }

/-- The smallest power of two above `i`. -/
def powAbove (i : Nat) : Nat := if i = 0 then 1 else 2 ^ (Nat.log2 i + 1)

/-- The element of a name; an automatic array is extended to the next power of two. -/
def Spec.target (sp : Spec) (a : Addr) : List Nat → Spec × Option Addr
  | [] => (sp, some a)
  | i :: path => match sp.cur a with
    | .term _ => (sp, none)
    | .arr b =>
      if i < sp.len b then sp.target (.cell b i) path
      else match sp.dflt b with
        | none => (sp, none)
        | some d => if i > maxAuto then (sp, none) else (sp.grow b (powAbove i) (fun _ => d)).target (.cell b i) path

/-- Store the value `x` in the element `a`: in the store only if it is backtrackable. -/
def Spec.put (sp : Spec) (a : Addr) (x : SV) (bt : Bool) : Spec :=
  if bt then { sp with cur := upd sp.cur a x } else sp.all (fun s => upd s a x)

/-- An assignment to the element `a`. `g_array_extend` on an array changes this array. -/
def Spec.assign (sp : Spec) (a : Addr) (bt : Bool) : New → Spec
  | .term x => sp.put a (.term x) bt
  | .arr kind n ini d => match kind, sp.cur a with
    | .extend, .arr b => sp.grow b n ini
    | _, _ => (sp.new n ini (if kind = .auto then some d else none)).put a (.arr sp.next) bt

/-- The target, then `f`. -/
def Spec.withTarget (sp : Spec) (k : Nat) (path : List Nat) (f : Spec → Addr → Spec) : Spec :=
  match sp.target (.root k) path with
  | (sp', none) => sp'
  | (sp', some a) => f sp' a

/-- An increment. -/
def Spec.inc (sp : Spec) (a : Addr) (x : Int) : Spec :=
  match sp.cur a with
  | .term y => sp.all (fun s => upd s a (.term (y + x)))
  | .arr _ => sp

/-- The operations. -/
def Spec.step (sp : Spec) : Op → Spec
  | .assign k path v => sp.withTarget k path fun s a => if v.good then s.assign a false v else s
  | .assignb k path v => sp.withTarget k path fun s a => if v.good then s.assign a true v else s
  | .read k path => sp.withTarget k path fun s _ => s
  | .inc k path x => sp.withTarget k path fun s a => s.inc a x
  | .create => { sp with sh := sp.cur :: sp.sh }
  | .retry => match sp.sh with
    | [] => sp
    | c :: _ => { sp with cur := c }
  | .trust => match sp.sh with
    | [] => sp
    | c :: l => { sp with cur := c, sh := l }
  | .cut n => { sp with sh := sp.sh.drop n }

/-- The initial store. -/
def Spec.init : Spec := ⟨fun _ => .term 0, [], fun _ => 0, fun _ => none, 0⟩

mutual
/-- The value of an element is the tree `t`. -/
inductive Reads (s : Addr → SV) (len : Nat → Nat) : SV → Tree → Prop where
  | term {x} : Reads s len (.term x) (.leaf x)
  | arr {b l} : ReadsL s len b 0 (len b) l → Reads s len (.arr b) (.node l)

/-- The values of `k` elements of an array from the element `i`. -/
inductive ReadsL (s : Addr → SV) (len : Nat → Nat) : Nat → Nat → Nat → List Tree → Prop where
  | nil {b i} : ReadsL s len b i 0 []
  | cons {b i k t l} : Reads s len (s (.cell b i)) t → ReadsL s len b (i + 1) k l → ReadsL s len b i (k + 1) (t :: l)
end

/-- The target of the operation `op` (after the automatic extensions) has no pending backtrackable assignment, if it is an increment. It is not an
array if an array is assigned in a backtrackable way. An array is not shortened by `g_array_extend`. See the witnesses for these cases. -/
def OpOk (st : St) : Op → Prop
  | .inc k path _ => ∀ s p, getTarget st (.root k, 0) path = some (s, some p) → s.undo p.1 = none
  | .assignb k path (.arr _ _ _ _) => ∀ s p, getTarget st (.root k, 0) path = some (s, some p) → (s.val p.1).isArr = false
  | .assign k path (.arr .extend n _ _) => ∀ s p, getTarget st (.root k, 0) path = some (s, some p) → (s.val p.1).size ≤ n
  | _ => True

/-- The states of all histories, with the store. -/
inductive Reach : St → Spec → Prop where
  | init : Reach init Spec.init
  | step {st sp st'} (op : Op) : Reach st sp → OpOk st op → step st op = some st' → Reach st' (sp.step op)

end Gp.GVar
