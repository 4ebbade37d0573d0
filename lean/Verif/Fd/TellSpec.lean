import Verif.Fd.Tell
import Verif.FdRange.Props
/- What a tell must do. -/
namespace Gp.Fd

open Gp.FdRange

/-- A variable between two tells: its range is well formed, not empty, with elements ≥ 0; `Nb_Elem` is the number of elements; the tag
is an integer iff there is one element (and then the range is an interval). -/
structure VarOk (c : Cfg) (v : Fdv) : Prop where
  wf : WF c v.r
  ne : v.r.min ≤ v.r.max
  nonneg : 0 ≤ v.r.min
  nb : ∀ l, Listing v.r l → v.nb = l.length
  int : ∀ n, v.tag = some n → v.r.vec = none ∧ v.r.min = n ∧ v.r.max = n
  fdv : v.tag = none → v.r.min < v.r.max

/-- Only the flag `extra_cstr` changes. -/
def FlagOnly (v v' : Fdv) : Prop :=
  (∀ n, Mem v.r n ↔ Mem v'.r n) ∧ v'.r.extra ≠ v.r.extra ∧ (v.r.vec = none → v'.r.vec = none)

/-- The events of the change of a variable from `v` to `v'`; `flag` holds if only `extra_cstr` changes. -/
structure EvOk (v v' : Fdv) (flag : Prop) (ev : Ev) : Prop where
  min : ev.min = true ↔ v'.r.min ≠ v.r.min
  max : ev.max = true ↔ v'.r.max ≠ v.r.max
  minMax : ev.minMax = true ↔ v'.r.min ≠ v.r.min ∨ v'.r.max ≠ v.r.max
  dom : ev.dom = true ↔ (∃ n, ¬ (Mem v.r n ↔ Mem v'.r n)) ∨ flag
  val : ev.val = true ↔ v.tag = none ∧ v'.tag ≠ none

/-- The variable represents a set of naturals: nothing is added; what is lost is greater than the maximum of the vectors and is recorded
(`extra_cstr`), and it is lost only by a sparse range or when the variable is instantiated. -/
def VRepr (c : Cfg) (v : Fdv) (T : Nat → Prop) : Prop :=
  (∀ n : Nat, Mem v.r n → T n) ∧
    ∀ n : Nat, T n → Mem v.r n ∨ (c.vmax < n ∧ v.r.extra = true ∧ (v.r.vec ≠ none ∨ v.ground = true))

/-- The result of telling the set `P` to a variable which represents the set `T`: a failure iff there is no value left, otherwise the
values left. Only values greater than the maximum of the vectors can be lost, and then there is a warning or it is recorded. -/
structure ToldOk (c : Cfg) (v : Fdv) (T P : Nat → Prop) (flag : Prop) (res : Res) : Prop where
  fail : res.ok = false → ∀ n, T n → P n → c.vmax < n ∧ (res.warn = true ∨ (v.ground = true ∧ v.r.extra = true))
  ok : res.ok = true → VarOk c res.v
  sound : res.ok = true → ∀ n : Nat, Mem res.v.r n → Mem v.r n ∧ T n ∧ P n
  complete : res.ok = true → ∀ n : Nat, T n → P n → Mem res.v.r n ∨ c.vmax < n
  repr : res.ok = true → res.warn = false → VRepr c res.v (fun n => T n ∧ P n)
  ev : res.ok = true → EvOk v res.v flag res.ev

/-- The told set of an operation. -/
def Op.set (T1 : Nat → Prop) : Op → Nat → Prop
  | .value m, n => (n : Int) = m
  | .notValue m, n => (n : Int) ≠ m
  | .interval a b, n => a ≤ n ∧ n ≤ b
  | .range _, n => T1 n

end Gp.Fd
