import Verif.TermInl.Model
/-
Model of term_hash/2,4: `Term_Hash`, `Term_Hash_Rec`, `Pl_Term_Hash_4`, `Pl_Term_Hash_2` (/repo/src/BipsPl/term_supp.c:774-786, 795-873,
882-900, 909-913).

Simplifications: the incremental hash function (/repo/src/Tools/hash_fct.c) is a parameter: a state fed with 32-bit integers, 64-bit
integers and doubles. The recursion is bounded by a fuel (`none` if it is exhausted or if the memory is not well formed): the
theorems show that some fuel is enough. The depth (a PlLong) does not underflow. The reading of the depth and of the range and the
unification of the result with the last argument are not modelled.
-/
namespace Gp.THash
open Gp.Heap Gp.Unify Gp.ListBip Gp.TermInl

/-- The functions `Pl_Hash_Incr_...` (hash_fct.c:289-458), the hash codes of the atoms (`pl_atom_tbl[i].hash`) and the atom '.'. -/
structure Hasher (σ : Type) where
  init : σ
  int32 : σ → Nat → σ
  int64 : σ → Int → σ
  dbl : σ → BitVec 64 → σ
  term : σ → Nat
  atomHash : Nat → Nat
  dot : Nat

variable {σ : Type}

/-- The functor of a structure (term_supp.c:856-857), and of a list which is cut (term_supp.c:839-840). -/
def hashFn (H : Hasher σ) (f k : Nat) (h : σ) : σ := H.int32 (H.int32 h (H.atomHash f)) k

/-- The loop on the arguments, the last one being the terminal recursion (term_supp.c:862-869). -/
def hashArgs (rec : Cell → σ → Option (Option σ)) (m : Mem) : Nat → Adr → σ → Option (Option σ)
  | 0, _, _ => none
  | 1, a, h => rec (m a) h
  | k + 2, a, h =>
    match rec (m a) h with
    | some (some h') => hashArgs rec m (k + 1) (a + 1) h'
    | r => r

/-- `Term_Hash_Rec` (term_supp.c:795-873); `some none` is FALSE. -/
def hashRec (H : Hasher σ) (m : Mem) : Nat → Int → Cell → σ → Option (Option σ)
  | 0, _, _, _ => none
  | n + 1, d, w, h =>
    match deref m w with
    | none => none
    | some v =>
      match v with
      | .ref _ => some none
      | .fdv _ => some none
      | .atm i => some (some (H.int32 h (H.atomHash i)))
      | .int z => some (some (H.int64 h z))
      | .flt a =>
        match m a with
        | .raw x => some (some (H.dbl h x))
        | _ => none
      | .lst a =>
        if d - 1 = 0 then some (some (hashFn H H.dot 2 h))
        else
          match hashRec H m n (d - 1) (m a) h with
          | some (some h') => hashRec H m n (d - 1) (m (a + 1)) h'
          | r => r
      | .stc a =>
        match m a with
        | .fn f k =>
          if d - 1 = 0 then some (some (hashFn H f k h))
          else hashArgs (hashRec H m n (d - 1)) m k (a + 1) (hashFn H f k h)
        | _ => none
      | _ => none

/-- `Term_Hash` (term_supp.c:774-786). -/
def termHash (H : Hasher σ) (m : Mem) (n : Nat) (d : Int) (w : Cell) : Option (Option Nat) :=
  if d = 0 then some (some (H.term H.init))
  else (hashRec H m n d w H.init).map fun r => r.map H.term

/-- `HASH_MOD_VALUE` (b_params.h:48), `TAG_SIZE` being 3. -/
abbrev HASH_MOD : Nat := 2 ^ 28

/-- `Pl_Term_Hash_4` (term_supp.c:882-900): the integer given, or `none` when the last argument is left as it is. -/
def termHash4 (H : Hasher σ) (m : Mem) (n : Nat) (w : Cell) (d range : Int) : Option (Option Nat) :=
  let range := if range ≤ 0 ∨ range > HASH_MOD then HASH_MOD else range.toNat
  (termHash H m n d w).map fun r => r.map (· % range)

/-- `Pl_Term_Hash_2` (term_supp.c:909-913). -/
def termHash2 (H : Hasher σ) (m : Mem) (n : Nat) (w : Cell) : Option (Option Nat) := termHash4 H m n w (-1) 0

end Gp.THash
