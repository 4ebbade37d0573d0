import Verif.CopyTerm.Props
/-
Model of the stack of solutions of findall/3, findall/4, bagof/3 and setof/3: /repo/src/BipsPl/all_solut_c.c
(Pl_Stop_Mark_1, Pl_Store_Solution_1, Pl_Recover_Solutions_4 without keys) and /repo/src/BipsPl/all_solut.pl.

A block returned by malloc is given by its address (chosen by the allocator, an argument of the model); the limit of the
heap (all_solut_c.c:412-413) is not modelled. The keys of bagof/3 and setof/3 are in Bag.lean.
-/
namespace Gp.AllSol
open Gp.Heap Gp.CopyTerm

/-- `OneSol` (all_solut_c.c:61-70): `adr` is the address of the field `term_word` (the first word of the stored term). The
field `prev` is the rest of the list of the blocks. -/
structure Sol where
  adr : Adr
  no : Nat
  size : Nat

/-- The memory (heap, stacks and malloc area), the top `H` of the heap, and the stack of solutions from `sol` (top first).
The block `dummy` at the bottom (all_solut_c.c:90-91) is not in the list. -/
structure S where
  mem : Mem
  h : Adr
  sols : List Sol

/-- `sol->sol_no`; `dummy` has the number 0 (all_solut_c.c:90-91). -/
def topNo : List Sol → Nat
  | [] => 0
  | s :: _ => s.no

/-- `Pl_Stop_Mark_1` (all_solut_c.c:344-348): the integer given to Stop. -/
def stopMark (s : S) : Nat := topNo s.sols

/-- `Pl_Store_Solution_1` (all_solut_c.c:357-376). `fix` is the address of the static `fix_bug`, `blk` the term_word of the
block returned by Malloc. When the copy raises a representation error the block is not on the stack. -/
def storeSolution (c : Cfg) (n : Nat) (s : S) (fix blk : Adr) (w : Cell) : Out S :=
  match termSize c s.mem n w with
  | none => .div
  | some size =>
    match copyTerm c n (s.mem.set fix w) blk fix with
    | .ok cs => .ok { s with mem := cs.mem, sols := ⟨blk, topNo s.sols + 1, size⟩ :: s.sols }
    | .err cs => .err { s with mem := cs.mem }
    | .div => .div

/-- The loop `while (nb_sol--)` of `Pl_Recover_Solutions_4` with handle_key 0 (all_solut_c.c:417-431). Freeing `dummy` is
undefined. -/
def recoverLoop (c : Cfg) (n : Nat) : Nat → S → Adr → Option (S × Adr)
  | 0, s, p => some (s, p)
  | k + 1, s, p =>
    match s.sols with
    | [] => none
    | t :: rest =>
      match contig c n ((s.mem.set (p - 1) (.lst p)).set (p - 2) (.ref s.h)) s.h t.adr with
      | none => none
      | some m => recoverLoop c n k { mem := m, h := s.h + t.size, sols := rest } (p - 2)

/-- `Pl_Recover_Solutions_4` (all_solut_c.c:385-435) with handle_key 0: the word unified with the argument `List`. A negative
number of solutions is undefined. -/
def recover (c : Cfg) (n : Nat) (s : S) (stop : Nat) (tail : Cell) : Option (S × Cell) :=
  if topNo s.sols = stop then some (s, tail)
  else if topNo s.sols < stop then none
  else
    let nb := topNo s.sols - stop
    let q := s.h + 2 * nb
    match recoverLoop c n nb { s with h := q } q with
    | none => none
    | some (s', p) => some ({ s' with mem := s'.mem.set (q - 1) tail }, .lst p)

end Gp.AllSol
