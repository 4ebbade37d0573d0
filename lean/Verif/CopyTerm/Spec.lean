import Verif.CopyTerm.Model
/-
Specification of the copy of terms, independent of the algorithm: terms with variables and FD variables,
the term read at a word of memory, renaming.
-/
namespace Gp.CopyTerm
open Gp.Heap

/-- The domain of a FD variable: number of elements, the words of the range (flag and bounds), vector. -/
structure Dom where
  nb : BitVec 64
  r0 : BitVec 64
  r1 : BitVec 64
  vec : Option (List (BitVec 64))

/-- The number of words of the vector. -/
def Dom.vecWords (vs : Nat) (d : Dom) : Nat :=
  match d.vec with
  | none => 0
  | some _ => vs

/-- Terms. Variables are named by an address. -/
inductive CT where
  | var (a : Adr)
  | fd (a : Adr) (d : Dom)
  | atm (i : Nat)
  | int (z : Int)
  | flt (x : BitVec 64)
  | lst (h t : CT)
  | app (f : Nat) (args : List CT)

/-- Rename the variables. -/
def CT.rename (φ : Adr → Adr) : CT → CT
  | .var a => .var (φ a)
  | .fd a d => .fd (φ a) d
  | .atm i => .atm i
  | .int z => .int z
  | .flt x => .flt x
  | .lst h t => .lst (h.rename φ) (t.rename φ)
  | .app f l => .app f (l.map fun t => t.rename φ)

/-- The occurrences of variables (plain and FD). -/
def CT.vars : CT → List Adr
  | .var a => [a]
  | .fd a _ => [a]
  | .lst h t => h.vars ++ t.vars
  | .app _ l => l.flatMap fun t => t.vars
  | _ => []

/-- The plain variables. -/
def CT.plain : CT → List Adr
  | .var a => [a]
  | .lst h t => h.plain ++ t.plain
  | .app _ l => l.flatMap fun t => t.plain
  | _ => []

/-- The number of words of a term: one for each node, one more for a functor and for a float, and for each
occurrence of a FD variable its frame (`vs` words for a vector). -/
def CT.size (vs : Nat) : CT → Nat
  | .fd _ d => 1 + 17 + d.vecWords vs
  | .flt _ => 2
  | .lst h t => 1 + h.size vs + t.size vs
  | .app _ l => 2 + (l.map fun t => t.size vs).sum
  | _ => 1

/-- At `a` there is the frame of a FD variable with the domain `d`; all its words used satisfy `ok`. -/
structure FdAt (vs : Nat) (ok : Adr → Prop) (m : Mem) (a : Adr) (d : Dom) : Prop where
  tag : m a = .fdv a
  nb : m (a + 5) = .raw d.nb
  r0 : m (a + 6) = .raw d.r0
  r1 : m (a + 7) = .raw d.r1
  oks : ok a ∧ ok (a + 5) ∧ ok (a + 6) ∧ ok (a + 7) ∧ ok (a + 8)
  vec : match d.vec with
    | none => m (a + 8) = .raw 0
    | some l => ∃ v : Nat, m (a + 8) = .int v ∧ l.length = vs ∧
        ∀ i, (hi : i < l.length) → m (v + i) = .raw l[i] ∧ ok (v + i)

/-- A FD variable without constraints: the number of constraints, the mask and the chains are null. -/
def NoCstr (ok : Adr → Prop) (m : Mem) (a : Adr) : Prop :=
  ∀ i, 10 ≤ i → i < 17 → m (a + i) = .raw 0 ∧ ok (a + i)

/-- `<FDV, a>` is only at the address `a` ("Dont_Separate_Tag", wam_inst.h:130). -/
def OwnFd (m : Mem) (x : Adr) : Prop := ∀ a, m x = .fdv a → a = x

/-- `t` is the (finite) term represented by the word `w`, all the cells read satisfy `ok`. -/
inductive Rd (vs : Nat) (ok : Adr → Prop) (m : Mem) : Cell → CT → Prop
  | var {a : Adr} : ok a → m a = .ref a → Rd vs ok m (.ref a) (.var a)
  | bound {a : Adr} {t : CT} : ok a → m a ≠ .ref a → OwnFd m a → Rd vs ok m (m a) t → Rd vs ok m (.ref a) t
  | fd {a : Adr} {d : Dom} : FdAt vs ok m a d → Rd vs ok m (.fdv a) (.fd a d)
  | atm {i : Nat} : Rd vs ok m (.atm i) (.atm i)
  | int {z : Int} : Rd vs ok m (.int z) (.int z)
  | flt {a : Adr} {x : BitVec 64} : ok a → m a = .raw x → Rd vs ok m (.flt a) (.flt x)
  | lst {a : Adr} {t1 t2 : CT} : ok a → ok (a + 1) → OwnFd m a → OwnFd m (a + 1) → Rd vs ok m (m a) t1 →
      Rd vs ok m (m (a + 1)) t2 → Rd vs ok m (.lst a) (.lst t1 t2)
  | stc {a : Adr} {f n : Nat} {g : Nat → CT} : ok a → m a = .fn f n → 0 < n →
      (∀ i, i < n → ok (a + 1 + i)) → (∀ i, i < n → OwnFd m (a + 1 + i)) →
      (∀ i, i < n → Rd vs ok m (m (a + 1 + i)) (g i)) →
      Rd vs ok m (.stc a) (.app f ((List.range n).map g))

/-- The addresses `x` with `lo ≤ x < hi`. -/
def Seg (lo hi : Adr) (x : Adr) : Prop := lo ≤ x ∧ x < hi

/-- The addresses outside of a segment. -/
def Out' (lo hi : Adr) (x : Adr) : Prop := ¬ Seg lo hi x

/-- `y'` is a cell of the term at the cell `y`: a component of the list cell or structure, or the cell referenced if it is after. -/
inductive Sub (m : Mem) : Adr → Adr → Prop
  | car {y a : Adr} : m y = .lst a → Sub m y a
  | cdr {y a : Adr} : m y = .lst a → Sub m y (a + 1)
  | arg {y a f n i : Nat} : m y = .stc a → m a = .fn f n → i < n → Sub m y (a + 1 + i)
  | fwd {y a : Adr} : m y = .ref a → y < a → Sub m y a

/-- The cells of the term at the cell `y`. -/
inductive TC (m : Mem) : Adr → Adr → Prop
  | self {y : Adr} : TC m y y
  | step {y y' z : Adr} : Sub m y y' → TC m y' z → TC m y z

/-- The number of words of the frame of a FD variable with the domain `d`. -/
def Dom.len (vs : Nat) (d : Dom) : Nat := 17 + d.vecWords vs

/-- The cells from `src` to `hi` (excluded) are a contiguous term `t` (the first cell is at `src`): all its cells are
in this block, a reference leads to a variable which is itself a cell of the term, and the words of the frames of its
FD variables are in the block and are not used for other cells. -/
structure Contig (vs : Nat) (m : Mem) (src hi : Adr) (t : CT) : Prop where
  lt : src < hi
  rd : Rd vs (Seg src hi) m (m src) t
  home : ∀ y a, TC m src y → m y = .ref a → TC m src a ∧ (m a = .ref a ∨ m a = .fdv a)
  fd : ∀ y a, TC m src y → m y = .fdv a → a = y ∧ ∀ d, FdAt vs (Seg src hi) m a d → a + d.len vs ≤ hi
  disj : ∀ y d, TC m src y → FdAt vs (Seg src hi) m y d → ∀ x, y < x → x < y + d.len vs →
    ¬ TC m src x ∧ ∀ z, TC m src z → m z ≠ .stc x ∧ m z ≠ .flt x

/-- `t'` is a variant of `t`: the same term up to a one-to-one renaming of the variables; FD variables keep
their domains. -/
def Variant (t t' : CT) : Prop :=
  ∃ φ : Adr → Adr, (∀ a ∈ t.vars, ∀ b ∈ t.vars, φ a = φ b → a = b) ∧ t' = t.rename φ

end Gp.CopyTerm
