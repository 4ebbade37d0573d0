/-
What the WAM instructions do to the registers, and what it means for a clause to read the same
values after the registers have been assigned.  Nothing here refers to the allocator: the
effects of the instructions are those of the code `wam2ma` generates for them.
-/
import Verif.RegAlloc.Model

namespace Gp.RegAlloc

/-- The registers a `call_c` argument reads: `x(R)` by value, `&(x(R))` through its address
    (Wam2Ma/wam2ma.c:1753-1759). -/
def CArg.reads : CArg → List Reg
  | .x r => [r]
  | .adr r => [r]
  | .other => []

/-- The registers a `call_c` argument may change. -/
def CArg.writes : CArg → List Reg
  | .adr r => [r]
  | _ => []

/-- The instruction moves a register into another one: `get_variable(x(T), A)` does
    `X(T) = X(A)` and `put_value(x(T), A)` does `X(A) = X(T)`. -/
def copyOf : WInst → Option (Reg × Reg)
  | .getVariable (.x t) a => some (a, t)
  | .putValue (.x t) a => some (t, a)
  | _ => none

/-- The registers whose values the instruction uses. -/
def reads : WInst → List Reg
  | .getVariable _ a => [a]
  | .getValue (.x t) a => [t, a]
  | .getValue (.y _) a => [a]
  | .getAtom a => [a]
  | .getInteger a => [a]
  | .getFloat a => [a]
  | .getNil a => [a]
  | .getList r => [r]
  | .getStructure r => [r]
  | .putValue (.x t) _ => [t]
  | .putMetaTerm r1 _ => [r1]
  | .mathLoadValue (.x r) _ => [r]
  | .mathFastLoadValue (.x r) _ => [r]
  | .unifyValue (.x t) => [t]
  | .unifyLocalValue (.x t) => [t]
  | .call n => (List.range n).map .arg
  | .execute n => (List.range n).map .arg
  | .cut (.x t) => [t]
  | .softCut (.x t) => [t]
  | .callC _ _ _ args => args.flatMap CArg.reads
  | _ => []

/-- The registers the instruction sets. -/
def writes : WInst → List Reg
  | .getVariable (.x t) _ => [t]
  | .putVariable (.x t) a => [t, a]
  | .putVariable (.y _) a => [a]
  | .putVoid a => [a]
  | .putValue _ a => [a]
  | .putUnsafeValue a => [a]
  | .putAtom a => [a]
  | .putInteger a => [a]
  | .putFloat a => [a]
  | .putNil a => [a]
  | .putList r => [r]
  | .putStructure r => [r]
  | .putMetaTerm _ r => [r]
  | .mathLoadValue _ t => [t]
  | .mathFastLoadValue _ t => [t]
  | .unifyVariable (.x t) => [t]
  | .getCurrentChoice (.x t) => [t]
  | .callC _ _ res args => args.flatMap CArg.writes ++ res.toList
  | _ => []

/-- The instruction gives control to a predicate, or to C code working on the argument
    registers: no register keeps its value. -/
def clobbers : WInst → Bool
  | .call _ => true
  | .execute _ => true
  | .callC jump useX _ _ => jump || useX
  | _ => false

/-- A register file. -/
abbrev File (V : Type) := Reg → V

def File.set {V : Type} (ρ : File V) (r : Reg) (v : V) : File V :=
  fun x => if x = r then v else ρ x

/-- Sets the registers of a list one after the other, the `j`-th to `val j`. -/
def File.sets {V : Type} (ρ : File V) (val : Nat → V) : List Reg → Nat → File V
  | [], _ => ρ
  | r :: rs, j => File.sets (ρ.set r (val j)) val rs (j + 1)

/-- The environment of an execution: what the instructions compute and what is left in the
    registers by the called predicates.  Both may depend on everything read so far (one list of
    values for each executed instruction), hence on the whole history of the execution. -/
structure World (V : Type) where
  /-- value of the `j`-th register set by the instruction -/
  val : List (List V) → Nat → V
  /-- the registers after a call -/
  left : List (List V) → File V

/-- One instruction: the history of the values read, and the registers. -/
def exec {V : Type} (w : World V) (i : WInst) (st : List (List V) × File V) :
    List (List V) × File V :=
  let h := (reads i).map st.2 :: st.1
  (h,
    match copyOf i with
    | some (a, b) => st.2.set b (st.2 a)
    | none => (if clobbers i then w.left h else st.2).sets (w.val h) (writes i) 0)

/-- A clause: straight line code. -/
def execs {V : Type} (w : World V) : List WInst → List (List V) × File V →
    List (List V) × File V
  | [], st => st
  | i :: is, st => execs w is (exec w i st)

/-- The values read by each instruction of a clause (most recent first) when it is entered with
    the registers `ρ`. -/
def trace {V : Type} (w : World V) (p : List WInst) (ρ : File V) : List (List V) :=
  (execs w p ([], ρ)).1

/-- Each register read has been set before, and since the last call; `d` is the set of the
    registers which are set at the entry. -/
def WellDef : (Reg → Prop) → List WInst → Prop
  | _, [] => True
  | d, i :: is =>
    (∀ r ∈ reads i, d r) ∧ WellDef (fun r => r ∈ writes i ∨ (clobbers i = false ∧ d r)) is

/-- At the entry of a clause the argument registers are set, the temporaries are not. -/
def atEntry (r : Reg) : Prop := r.isVar = false

/-- The value of `r` is used later: read before being set again and before any call. -/
def Live (r : Reg) : List WInst → Prop
  | [] => False
  | i :: is => r ∈ reads i ∨ (r ∉ writes i ∧ clobbers i = false ∧ Live r is)

/-- The registers of an instruction. -/
def regs (i : WInst) : List Reg := reads i ++ writes i

/-- No C function gets the address of a register. -/
def NoAddress (p : List WInst) : Prop :=
  ∀ j u res args, WInst.callC j u res args ∈ p → ∀ r, CArg.adr r ∉ args

/-- No instruction copies a register into itself. -/
def NoSelfCopy (p : List WInst) : Prop :=
  ∀ i ∈ p, ∀ a b, copyOf i = some (a, b) → a ≠ b

/-- A register set without being used later is a temporary (`c = true`: which has not been
    involved in a copy before). -/
def UselessWrites (c : Bool) (p : List WInst) : Prop :=
  ∀ pre i post, p = pre ++ i :: post → ∀ x ∈ writes i, ¬ Live x post →
    x.isVar = true ∧
      (c = true → ∀ j ∈ pre, ∀ a b, copyOf j = some (a, b) → x ≠ a ∧ x ≠ b)

end Gp.RegAlloc
