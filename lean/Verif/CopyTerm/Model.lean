import Verif.Heap.Model
/-
Model of the copy of terms: /repo/src/BipsPl/term_supp.c (Pl_Term_Size, Pl_Copy_Term, Copy_Term_Rec,
Pl_Copy_Contiguous_Term) with the copy of FD variables (/repo/src/EngineFD/fd_inst.c:1656-1693).

Recursion and the `goto terminal_rec` loops are bounded by a fuel; `div` means that the fuel is exhausted or
that the behaviour is undefined (badly formed heap). 64 bits: a float takes one word.
In a FD variable frame, a pointer to a vector is written `.int v`, NULL is `.raw 0`.
-/
namespace Gp.CopyTerm
open Gp.Heap

/-- Outcome of a C function which may raise an error. -/
inductive Out (σ : Type) where
  | div
  | err (s : σ)
  | ok (s : σ)

/-- Sequence. -/
def Out.bind {σ : Type} (o : Out σ) (f : σ → Out σ) : Out σ :=
  match o with
  | .div => .div
  | .err s => .err s
  | .ok s => f s

/-- Constants and globals: MAX_VAR_IN_TERM (BipsPl/b_params.h:41, term_supp.c:66-68), `pl_vec_size` (fd_range.h) and the
register STAMP (fd_inst.h). -/
structure Cfg where
  maxVars : Nat
  vs : Nat
  stamp : BitVec 64

/-- FD_VARIABLE_FRAME_SIZE (fd_inst.h:45-52) with 64 bits words: 4 + 5 + 8. -/
notation "frameSize" => (17 : Nat)

/-- `Pl_Fd_Variable_Size0` (fd_inst.c:1656-1665). -/
def fdSize (c : Cfg) (m : Mem) (a : Adr) : Nat :=
  if m (a + 8) = .raw 0 then frameSize else frameSize + c.vs

/-- `Pl_Fd_New_Variable` (fd_inst.c:835-876): a frame at `q` with the default domain and no constraint.
Word 1 is the date, 4 and 9 the stamps, 5 the number of elements, 6 and 7 the flag and bounds of the range,
8 the vector, 10 the number of constraints, 11 the mask, 12-16 the chains. -/
def fdNew (c : Cfg) (m : Mem) (q : Adr) : Mem := fun x =>
  if x = q then .fdv q
  else if q < x ∧ x < q + frameSize then
    match x - q with
    | 1 => .raw (-1)
    | 4 => .raw c.stamp
    | 5 => .raw (2 ^ 28)
    | 7 => .raw (2 ^ 28 - 1)
    | 9 => .raw c.stamp
    | _ => .raw 0
  else m x

/-- `Pl_Vector_Copy` (fd_range.c:381-389). -/
def vecCopy (m : Mem) (n : Nat) (dst src : Adr) : Mem := fun x =>
  if dst ≤ x ∧ x < dst + n then m (src + (x - dst)) else m x

/-- `Pl_Range_Copy` (fd_range.c:869-875), `w` is the vector of the range copied. -/
def rangeVec (c : Cfg) (m : Mem) (q : Adr) (w : Cell) : Mem :=
  match w with
  | .int v => vecCopy (m.set (q + 8) (.int (q + frameSize : Nat))) c.vs (q + frameSize) v.toNat
  | _ => m.set (q + 8) (.raw 0)

/-- `Pl_Range_Copy` (fd_range.c:862-876) from the range of the frame `a` to the one of the frame `q`. -/
def rangeCopy (c : Cfg) (m : Mem) (q a : Adr) : Mem :=
  let m := (m.set (q + 6) (m (a + 6))).set (q + 7) (m (a + 7))
  rangeVec c m q (m (a + 8))

/-- `Pl_Fd_Copy_Variable0` (fd_inst.c:1675-1693): memory after the copy of the variable `a` at `q` and size. -/
def fdCopy (c : Cfg) (m : Mem) (q a : Adr) : Mem × Nat :=
  let m1 := fdNew c m q
  let m2 := m1.set (q + 5) (m1 (a + 5))
  (rangeCopy c m2 q a, fdSize c m2 a)

/-! `Pl_Term_Size` -/

/-- `Pl_Term_Size` (term_supp.c:280-328), loop on the arguments (317-323). -/
def sizeArgs (rec : Cell → Option Nat) (m : Mem) : Nat → Adr → Option Nat
  | 0, _ => none
  | 1, a => rec (m a)
  | k + 2, a =>
    match rec (m a), sizeArgs rec m (k + 1) (a + 1) with
    | some x, some y => some (x + y)
    | _, _ => none

/-- `Pl_Term_Size` (term_supp.c:280-328). -/
def termSize (c : Cfg) (m : Mem) : Nat → Cell → Option Nat
  | 0, _ => none
  | n + 1, w =>
    match deref m w with
    | none => none
    | some (.fdv a) => some (1 + fdSize c m a)
    | some (.flt _) => some (1 + 1)
    | some (.lst a) =>
      match termSize c m n (m a), termSize c m n (m (a + 1)) with
      | some x, some y => some (1 + x + y)
      | _, _ => none
    | some (.stc a) =>
      match m a with
      | .fn _ k => (sizeArgs (termSize c m n) m k (a + 1)).map (2 + ·)
      | _ => none
    | some _ => some 1

/-! `Pl_Copy_Term` -/

/-- The state of the copy: memory, next free address `p`, and the variables to restore (`vars`, the head is
the top: address and word). -/
structure CS where
  mem : Mem
  p : Adr
  vars : List (Adr × Cell)

/-- Loop on the arguments (term_supp.c:461-468). -/
def copyArgs (rec : CS → Adr → Adr → Out CS) : Nat → CS → Adr → Adr → Out CS
  | 0, _, _, _ => .div
  | 1, s, q, a => rec s q a
  | k + 2, s, q, a => (rec s q a).bind fun s => copyArgs rec (k + 1) s (q + 1) (a + 1)

/-- `Copy_Term_Rec` (term_supp.c:372-474), `base` is `base_copy`. -/
def copyRec (c : Cfg) (base : Adr) : Nat → CS → Adr → Adr → Out CS
  | 0, _, _, _ => .div
  | n + 1, s, dst, src =>
    match deref s.mem (s.mem src) with
    | none => .div
    | some (.ref a) =>                                           -- 386-401
      if a < s.p ∧ base ≤ a then .ok { s with mem := s.mem.set dst (.ref a) }
      else if c.maxVars ≤ s.vars.length then .err s
      else .ok { s with mem := (s.mem.set dst (.ref dst)).set a (.ref dst), vars := (a, .ref a) :: s.vars }
    | some (.fdv a) =>                                           -- 404-421
      if a < s.p ∧ base ≤ a then .ok { s with mem := s.mem.set dst (.ref a) }
      else if c.maxVars ≤ s.vars.length then .err s
      else
        .ok { mem := ((fdCopy c s.mem s.p a).1.set dst (.ref s.p)).set a (.ref s.p),
              p := s.p + (fdCopy c s.mem s.p a).2, vars := (a, .fdv a) :: s.vars }
    | some (.flt a) =>                                           -- 424-435
      .ok { s with mem := (s.mem.set s.p (s.mem a)).set dst (.flt s.p), p := s.p + 1 }
    | some (.lst a) =>                                           -- 437-449
      (copyRec c base n { s with mem := s.mem.set dst (.lst s.p), p := s.p + 2 } s.p a).bind fun s' =>
        copyRec c base n s' (s.p + 1) (a + 1)
    | some (.stc a) =>                                           -- 451-468
      match s.mem a with
      | .fn f k =>
        copyArgs (copyRec c base n) k
          { s with mem := (s.mem.set dst (.stc s.p)).set s.p (.fn f k), p := s.p + 1 + k } (s.p + 1) (a + 1)
      | _ => .div
    | some w => .ok { s with mem := s.mem.set dst w }            -- 470-472

/-- "restore original self references" (term_supp.c:355-361). -/
def restore (m : Mem) : List (Adr × Cell) → Mem
  | [] => m
  | (a, w) :: l => restore (m.set a w) l

/-- `Pl_Copy_Term` (term_supp.c:338-362). -/
def copyTerm (c : Cfg) (n : Nat) (m : Mem) (dst src : Adr) : Out CS :=
  match copyRec c dst n { mem := m, p := dst + 1, vars := [] } dst src with
  | .ok s => .ok { s with mem := restore s.mem s.vars }
  | o => o

/-! `Pl_Copy_Contiguous_Term` -/

/-- Loop on the arguments (term_supp.c:543-550). -/
def contigArgs (rec : Mem → Adr → Adr → Option Mem) : Nat → Mem → Adr → Adr → Option Mem
  | 0, _, _, _ => none
  | 1, m, q, a => rec m q a
  | k + 2, m, q, a =>
    match rec m q a with
    | some m => contigArgs rec (k + 1) m (q + 1) (a + 1)
    | none => none

/-- `Pl_Copy_Contiguous_Term` (term_supp.c:484-556); `Old_Adr_To_New_Adr(adr)` is `dst + adr - src`. -/
def contig (c : Cfg) : Nat → Mem → Adr → Adr → Option Mem
  | 0, _, _, _ => none
  | n + 1, m, dst, src =>
    match m src with
    | .ref a =>                                                  -- 498-504
      if a > src then contig c n (m.set dst (.ref (dst + a - src))) (dst + a - src) a
      else some (m.set dst (.ref (dst + a - src)))
    | .fdv a => some (fdCopy c m dst a).1                        -- 507-510
    | .flt a => some ((m.set (dst + a - src) (m a)).set dst (.flt (dst + a - src)))  -- 513-521
    | .lst a =>                                                  -- 523-532
      match contig c n (m.set dst (.lst (dst + a - src))) (dst + a - src) a with
      | some m => contig c n m (dst + a - src + 1) (a + 1)
      | none => none
    | .stc a =>                                                  -- 534-550
      match m a with
      | .fn f k =>
        contigArgs (contig c n) k ((m.set dst (.stc (dst + a - src))).set (dst + a - src) (.fn f k))
          (dst + a - src + 1) (a + 1)
      | _ => none
    | w => some (m.set dst w)                                    -- 552-554

end Gp.CopyTerm
