import Verif.Heap.Model
/-
Model of acyclic_term/1: `Pl_Acyclic_Term_1` (/repo/src/BipsPl/term_supp.c:626-760, the version compiled).

Simplification: the stack of records is a list (in the C code it is above H, over the free space of the global stack).
The C local variable `start_word` is a cell of memory at the address `sw`, as its address is used.
-/
namespace Gp.Acyclic
open Gp.Heap

/-- A record of the stack (term_supp.c:637-648): a cell to restore with its value, or `k` cells to check from `a`. -/
inductive Rec where
  | restore (a : Adr) (w : Cell)
  | check (a : Adr) (k : Nat)

/-- CYCLIC_MARK (term_supp.c:664). -/
notation "mark" => Cell.lst 0

/-- term_supp.c:723-737: the first argument and the arity of a compound term; `some none` for other terms, `none` if there is
no functor at the address of a structure (undefined behaviour). -/
def comp (m : Mem) : Cell → Option (Option (Adr × Nat))
  | .lst a => some (some (a, 2))
  | .stc a =>
    match m a with
    | .fn _ n => some (some (a + 1, n))
    | _ => none
  | _ => some none

/-- The loop of `Pl_Acyclic_Term_1` (term_supp.c:684-754): final memory and result; `none` if it does not stop. -/
def run (sw : Adr) (m : Mem) (st : List Rec) (ok : Bool) : Option (Mem × Bool) :=
  match st with
  | [] => some (m, ok)
  | .restore a w :: st => run sw (m.set a w) st ok               -- 688-703
  | .check a k :: st =>
    if ok = false then run sw m st ok                            -- 705-706
    else
      let m1 := m.set sw (m a)                                   -- 709: start_word = *adr
      let st1 := if k - 1 = 0 then st else .check (a + 1) (k - 1) :: st  -- 715-718
      match deref m1 (m a) with                                  -- 720
      | none => none
      | some v =>
        if v = mark then run sw m1 st1 false                     -- 721-728
        else
          match comp m1 v with
          | none => none
          | some none => run sw m1 st1 true
          | some (some (b, n)) =>                                -- 744-753
            run sw (m1.set a mark) (.check b n :: .restore a (m a) :: st1) true
partial_fixpoint

/-- `Pl_Acyclic_Term_1` (term_supp.c:660-760). -/
def acyclic (sw : Adr) (m : Mem) (w : Cell) : Option (Mem × Bool) :=
  run sw (m.set sw w) [.check sw 1] true

end Gp.Acyclic
