import Verif.Fd.Queue
import Verif.Fd.TellProps
/-
What the propagation must do: hypotheses on the constraints (`FOk`, `SwtOk`) and stability.
-/
namespace Gp.Fd

open Gp.FdRange

/-- The naturals allowed by a told operation. -/
def opMem : Op → Nat → Prop
  | .value m, n => (n : Int) = m
  | .notValue m, n => (n : Int) ≠ m
  | .interval a b, n => a ≤ n ∧ n ≤ b
  | .range r, n => Mem r n

/-- A told range is well formed. -/
def OpWf (c : Cfg) : Op → Prop
  | .interval a _ => -2147483648 < a
  | .range r => WF c r
  | _ => True

/-- The store `s'` has smaller domains. -/
def Sub (s' s : Store) : Prop := ∀ v n, Mem (s' v).r n → Mem (s v).r n

/-- An event of the chain `i` happened between `v` and `v'`. -/
def evAt (i : Fin 5) (v v' : Fdv) : Prop :=
  match i with
  | 0 => v'.r.min ≠ v.r.min
  | 1 => v'.r.max ≠ v.r.max
  | 2 => v'.r.min ≠ v.r.min ∨ v'.r.max ≠ v.r.max
  | 3 => ∃ n, ¬ (Mem v.r n ↔ Mem v'.r n)
  | 4 => v.tag = none ∧ v'.tag ≠ none

/-- Two results of the function of a block have the same meaning. -/
def ActEq : Act → Act → Prop
  | .exit, .exit => True
  | .fail, .fail => True
  | .tell op, .tell op' => ∀ n, opMem op n ↔ opMem op' n
  | _, _ => False

/-- No value is lost by the truncation of a vector (see C25). -/
def NoLoss (c : Cfg) (v : Fdv) (op : Op) : Prop :=
  OpWf c op ∧ (tell c v op).warn = false ∧ ((tell c v op).ok = true → (tell c v op).v.r.extra = false)

/-- The stores considered: all the domains are well formed with no value lost. -/
def StoreOk (c : Cfg) (G : Store → Prop) : Prop := ∀ s, G s → ∀ v, VarOk c (s v) ∧ (s v).r.extra = false

/-- A block: it tells (with no loss) a variable of `vs`; its function is determined by what it watches. -/
structure FOk (c : Cfg) (G : Store → Prop) (vs : List Nat) (x : Nat) (f : Store → Act) (deps : List (Nat × Fin 5)) : Prop where
  closed : ∀ s op, G s → f s = .tell op → NoLoss c (s x) op ∧ ((tell c (s x) op).ok = true → G (upd s x (tell c (s x) op).v))
  watch : ∀ s s', G s → G s' → Sub s' s → (∀ d ∈ deps, ¬ evAt d.2 (s d.1) (s' d.1)) → ActEq (f s) (f s')
  told : x ∈ vs

/-- The blocks of a case. -/
def CaseOk (c : Cfg) (G : Store → Prop) (vs : List Nat) (k : Case) : Prop := ∀ b ∈ k.blks, FOk c G vs b.x b.f b.deps

/-- A switch: no case is triggered if nothing watched changes. -/
structure SwtOk (c : Cfg) (G : Store → Prop) (vs : List Nat) (f : Store → Option Case) (deps : List (Nat × Fin 5)) : Prop where
  watch : ∀ s s', G s → G s' → Sub s' s → (∀ d ∈ deps, ¬ evAt d.2 (s d.1) (s' d.1)) → f s = none → f s' = none
  cases : ∀ s k, f s = some k → CaseOk c G vs k

def FctOk (c : Cfg) (G : Store → Prop) (vs : List Nat) (fct : Fct) (deps : List (Nat × Fin 5)) : Prop :=
  match fct with
  | .blk x f => FOk c G vs x f deps
  | .swt f => SwtOk c G vs f deps

/-- A constraint is stable: it would not change the domains, no case is triggered. -/
def Stable (s : Store) : Fct → Prop
  | .blk x f =>
    match f s with
    | .exit => True
    | .fail => False
    | .tell op => ∀ n : Nat, Mem (s x).r n → opMem op n
  | .swt f => f s = none

/-- A family of sets of values which a block keeps: in particular the values of a solution. -/
def KeepBlk (G : Store → Prop) (D : Nat → Nat → Prop) (x : Nat) (f : Store → Act) : Prop :=
  ∀ s, G s → (∀ v n, D v n → Mem (s v).r n) → f s ≠ .fail ∧ ∀ op, f s = .tell op → ∀ n, D x n → opMem op n

def KeepFct (G : Store → Prop) (D : Nat → Nat → Prop) : Fct → Prop
  | .blk x f => KeepBlk G D x f
  | .swt f => ∀ s k, G s → (∀ v n, D v n → Mem (s v).r n) → f s = some k → ∀ b ∈ k.blks, KeepBlk G D b.x b.f

/-- The constraint is stopped, or is not executed any more because its variable is instantiated before (`g0`). -/
def Off (g0 : Nat → Prop) (fr : Frame) : Prop := fr.opt = .never ∨ ∃ x, fr.opt = .date x ∧ g0 x

/-- The constraint `id` will be executed: it is in a chain whose bit is set. -/
def Pend (st : QSt) (id : Nat) : Prop := ∃ x i, (st.mask x).bit i = true ∧ id ∈ st.chains x i

/-- The queue is the list `q`: TP is the last one, the variables are linked, they are those which are marked. -/
structure Q (st : QSt) (q : List Nat) : Prop where
  nodup : q.Nodup
  tp : st.tp = q.getLast?
  links : ∀ a b l1 l2, q = l1 ++ a :: b :: l2 → st.next a = b
  mem : ∀ x, st.inQ x = true ↔ x ∈ q

/-- The state is consistent. -/
structure Inv (c : Cfg) (G : Store → Prop) (vs : List Nat) (g0 : Nat → Prop) (st : QSt) : Prop where
  good : G st.dom
  frames : ∀ (id : Nat) (fr : Frame), st.frames[id]? = some fr → FctOk c G vs fr.fct fr.deps
  ids : ∀ x i id, id ∈ st.chains x i → id < st.frames.length
  wired : ∀ (id : Nat) (fr : Frame), st.frames[id]? = some fr → ∀ d ∈ fr.deps, id ∈ st.chains d.1 d.2 ∨ (st.dom d.1).ground = true
  date : ∀ x, st.date x = 1#64 ∨ (st.dom x).ground = true ∧ (g0 x ∨ st.date x = st.now)
  ground : ∀ x, g0 x → (st.dom x).ground = true
  now : st.now ≠ 0#64

/-- Every constraint is stable, off, will be executed, or is in `R`. -/
def Wake (g0 : Nat → Prop) (st : QSt) (R : Nat → Prop) : Prop :=
  ∀ (id : Nat) (fr : Frame), st.frames[id]? = some fr → Stable st.dom fr.fct ∨ Off g0 fr ∨ Pend st id ∨ R id

/-- The values `D` are in the domains and kept by every constraint. -/
structure KeepSt (G : Store → Prop) (D : Nat → Nat → Prop) (st : QSt) : Prop where
  inh : ∀ x, ∃ n, D x n
  below : ∀ v n, D v n → Mem (st.dom v).r n
  frames : ∀ (id : Nat) (fr : Frame), st.frames[id]? = some fr → KeepFct G D fr.fct

/-- The number of values of the variables of `vs`. -/
def size (vs : List Nat) (s : Store) : Nat := (vs.map (fun x => (s x).nb.toNat)).sum

/-- The switches which are not stopped. -/
def liveSwt (frs : List Frame) : Nat := frs.countP (fun fr => (match fr.fct with | .swt _ => true | .blk _ _ => false) && decide (fr.opt ≠ .never))

/-- The measure of the termination. -/
def meas (vs : List Nat) (st : QSt) : Nat := size vs st.dom + liveSwt st.frames

end Gp.Fd
