/-
Specification of the byte code: the execution of the list of WAM instructions of
a clause, without any encoding.
-/
import Verif.ByteCode.Model

namespace Gp.ByteCode

/-- Registers which fit in 16 bits. -/
def Reg.ok1 : Reg → Prop
  | .x n => n < 65536
  | .y n => n < 65536

/-- Registers which fit in 24 bits. -/
def Reg.ok2 : Reg → Prop
  | .x n => n < 16777216
  | .y n => n < 16777216

/-- An integer of the machine. -/
def okInt (w64 : Bool) (l : Int) : Prop :=
  if w64 then -9223372036854775808 ≤ l ∧ l < 9223372036854775808
  else -2147483648 ≤ l ∧ l < 2147483648

/-- An atom: an index which is a positive `int`. -/
def okAtom (f : Nat) : Prop := f < 2147483648

/-- The operands which an instruction may have: registers of arguments below 256
(`NB_OF_X_REGS`), variables below 65536 (below 2^24 for the `unify` instructions
and the cuts), arities below 65536 or 2^24, atoms, integers and floats of the
machine; `put_unsafe_value` is only for permanent variables. -/
def Valid (w64 : Bool) : Inst → Prop
  | .getVariable r a | .getValue r a | .putVariable r a | .putValue r a
  | .mathLoadValue r a => r.ok1 ∧ a < 256
  | .putUnsafeValue (.y n) a => n < 65536 ∧ a < 256
  | .putUnsafeValue (.x _) _ => False
  | .getAtom f a | .putAtom f a => okAtom f ∧ a < 256
  | .getInteger l a | .putInteger l a => okInt w64 l ∧ a < 256
  | .getFloat d a | .putFloat d a => d < 18446744073709551616 ∧ a < 256
  | .getNil a | .getList a | .putNil a | .putList a | .putVoid a => a < 256
  | .getStructure f n a | .putStructure f n a => okAtom f ∧ n < 65536 ∧ a < 256
  | .unifyVariable r | .unifyValue r | .unifyLocalValue r | .getCurrentChoice r
  | .cut r | .softCut r => r.ok2
  | .unifyVoid n | .allocate n => n < 16777216
  | .unifyAtom f => okAtom f
  | .unifyInteger l => okInt w64 l
  | .unifyStructure f n | .call f n | .execute f n => okAtom f ∧ n < 16777216
  | .unifyNil | .unifyList | .deallocate | .proceed | .fail => True

/-- The code addresses of the native predicates are addresses of the machine. -/
def Env.ok (w64 : Bool) (e : Env) : Prop :=
  (∀ f n p, e.db f n = some (.native p) → p < wordVals w64)

/-- A call to `f/n`: the code of a native predicate, the clauses of another one,
the existence error with the context `ctx` when there is none. -/
def callTo {σ : Type} (db : Nat → Nat → Option Pred) (ctx : Nat × Nat) (f n : Nat) (s : σ) :
    Out σ :=
  match db f n with
  | none => .unknown f n ctx.1 ctx.2 s
  | some (.native p) => .native f n p s
  | some .dyn => .pred f n s

/-- The execution of the instructions of a clause from the one of index `k`
(`rest` are the instructions from there); before a call the place of the next
instruction is saved, `place k` being the word which represents it. -/
def run {σ : Type} (M : Mach σ) (db : Nat → Nat → Option Pred) (ctx : Nat × Nat)
    (place : Nat → Nat) : List Inst → Nat → σ → Out σ
  | [], _, _ => .outside
  | .proceed :: _, _, s => .proceed s
  | .fail :: _, _, _ => .failed
  | .call f n :: _, k, s => callTo db ctx f n (M.save (place (k + 1)) s)
  | .execute f n :: _, _, s => callTo db ctx f n s
  | i :: rest, k, s =>
    match M.exec i s with
    | none => .failed
    | some s' => run M db ctx place rest (k + 1) s'

end Gp.ByteCode
