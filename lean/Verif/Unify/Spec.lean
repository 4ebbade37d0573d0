import Verif.Unify.Model
/-
Specification of the unification, independent of the algorithm: finite terms, the valuations of memory
(`Model`), well-formed heaps.
-/
namespace Gp.Unify
open Gp.Heap
open Gp.Term (isNaN fkey)

/-- Finite terms. Two doubles which compare equal are the same `flt` (0.0 and -0.0); a NaN is only equal to
itself at the same address. -/
inductive T where
  | var (n : Nat)
  | atm (i : Nat)
  | int (z : Int)
  | flt (key : Int)
  | nan (a : Adr)
  | lst (h t : T)
  | app (f : Nat) (args : List T)

/-- The term of a word, given the term `ρ a` at each address `a`. -/
def eval (m : Mem) (ρ : Adr → T) : Cell → T
  | .ref a => ρ a
  | .lst a => .lst (ρ a) (ρ (a + 1))
  | .stc a =>
    match m a with
    | .fn f n => .app f ((List.range n).map fun i => ρ (a + 1 + i))
    | _ => .var 0
  | .atm i => .atm i
  | .int z => .int z
  | .flt a =>
    match m a with
    | .raw x => if isNaN x then .nan a else .flt (fkey x)
    | _ => .var 0
  | _ => .var 0

/-- Tagged words (not the functor words nor the bits of floats). -/
def isTerm : Cell → Bool
  | .fn _ _ => false
  | .raw _ => false
  | _ => true

/-- A valuation of the memory below `N`: a finite term for each address such that the bindings of the
memory hold. An unbound variable (a reference to itself) may have any value: the valuations are the
instances of the current substitution. -/
def Model (N : Adr) (m : Mem) (ρ : Adr → T) : Prop := ∀ a < N, isTerm (m a) = true → ρ a = eval m ρ (m a)

/-- A valid word: what it designates is allocated (below `N`); lists, structures and floats are in the
global stack (below `lssa`); no FD variables (they are treated in the part Fd). -/
def ValidWord (N lssa : Adr) (m : Mem) : Cell → Prop
  | .ref b => b < N ∧ isTerm (m b) = true
  | .lst b => b + 1 < N ∧ b + 1 < lssa ∧ isTerm (m b) = true ∧ isTerm (m (b + 1)) = true
  | .stc b => ∃ f n, m b = .fn f n ∧ 0 < n ∧ b + n < N ∧ b + n < lssa ∧
      ∀ i, i < n → isTerm (m (b + 1 + i)) = true
  | .atm _ => True
  | .int _ => True
  | .flt b => ∃ x, m b = .raw x
  | _ => False

/-- The cell at `a` is a reference to another cell `b`. -/
def RefTo (m : Mem) (b a : Adr) : Prop := m a = .ref b ∧ b ≠ a

/-- A well-formed memory: valid words, no reference from the global stack to the local stack, and every chain
of references ends (a reference to itself is an unbound variable). References may go upwards: copy_term/2
creates such references (f(g(X), X)). -/
def WF (N lssa : Adr) (m : Mem) : Prop :=
  ∀ a < N, isTerm (m a) = true → ValidWord N lssa m (m a) ∧
    (∀ b, m a = .ref b → a < lssa → b < lssa) ∧ Acc (RefTo m) a

/-- `t` is the (finite) term represented by the word `w`; an unbound variable is named by its address. -/
inductive Reads (m : Mem) : Cell → T → Prop
  | var {a : Adr} : m a = .ref a → Reads m (.ref a) (.var a)
  | bound {a : Adr} {t : T} : m a ≠ .ref a → Reads m (m a) t → Reads m (.ref a) t
  | atm {i : Nat} : Reads m (.atm i) (.atm i)
  | int {z : Int} : Reads m (.int z) (.int z)
  | flt {a : Adr} {x : BitVec 64} : m a = .raw x → isNaN x = false → Reads m (.flt a) (.flt (fkey x))
  | nan {a : Adr} {x : BitVec 64} : m a = .raw x → isNaN x = true → Reads m (.flt a) (.nan a)
  | lst {a : Adr} {t1 t2 : T} : Reads m (m a) t1 → Reads m (m (a + 1)) t2 → Reads m (.lst a) (.lst t1 t2)
  | stc {a : Adr} {f n : Nat} {g : Nat → T} : m a = .fn f n → (∀ i, i < n → Reads m (m (a + 1 + i)) (g i)) →
      Reads m (.stc a) (.app f ((List.range n).map g))

/-- No cyclic terms: each cell represents a finite term. -/
def Finite (N : Adr) (m : Mem) : Prop := ∀ a < N, isTerm (m a) = true → ∃ t, Reads m (m a) t

/-- Application of a substitution. -/
def T.subst (σ : Nat → T) : T → T
  | .var n => σ n
  | .atm i => .atm i
  | .int z => .int z
  | .flt k => .flt k
  | .nan a => .nan a
  | .lst h t => .lst (h.subst σ) (t.subst σ)
  | .app f l => .app f (l.map fun t => t.subst σ)

/-- The addresses designated by a word. -/
def Kid (m : Mem) (w : Cell) (b : Adr) : Prop :=
  match w with
  | .ref a => b = a
  | .lst a => b = a ∨ b = a + 1
  | .stc a => ∃ f n, m a = .fn f n ∧ a + 1 ≤ b ∧ b < a + 1 + n
  | _ => False

/-- `b` is the address of a direct sub-term of what is at `a`. -/
def Child (m : Mem) (b a : Adr) : Prop := m a ≠ .ref a ∧ Kid m (m a) b

/-- No cyclic terms, on the graph of the memory. -/
def Acyclic (N : Adr) (m : Mem) : Prop := ∀ a < N, isTerm (m a) = true → Acc (Child m) a

end Gp.Unify
