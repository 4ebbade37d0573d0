import Verif.AllSol.Model
/-
Executions of programs with (nested) findall, and what is expected.
-/
namespace Gp.AllSol
open Gp.Heap Gp.CopyTerm

/-- The words of a block of the stack of solutions. -/
def Sol.Has (b : Sol) (x : Adr) : Prop := Seg b.adr (b.adr + b.size) x

/-- Two blocks have no common word. -/
def Disj (b b' : Sol) : Prop := b.adr + b.size ≤ b'.adr ∨ b'.adr + b'.size ≤ b.adr

/-- The stack holds the terms `ts` (top first), in disjoint blocks over the address `lim` (the heap is below), and is numbered
from 1. -/
def Holds (vs : Nat) (lim : Adr) (m : Mem) : List Sol → List CT → Prop
  | [], [] => True
  | b :: l, t :: ts => b.no = l.length + 1 ∧ lim ≤ b.adr ∧ b.size = t.size vs ∧
      (∃ hi t', hi ≤ b.adr + b.size ∧ Variant t t' ∧ Contig vs m b.adr hi t') ∧
      (∀ b' ∈ l, Disj b b') ∧ Holds vs lim m l ts
  | _, _ => False

/-- The list of `us` ended by `tl`. -/
def listOf : List CT → CT → CT
  | [], tl => tl
  | u :: us, tl => .lst u (listOf us tl)

/-- The total size of the terms. -/
def sizes (vs : Nat) (ts : List CT) : Nat := (ts.map fun t => t.size vs).sum

/-- An execution (of the goal of a findall, from `s` to `s'`) in which the solutions of the goal are `spec`.

- `user`: any step of the program: it modifies what it wants but the blocks of the solutions stack;
- `store`: a solution `t` (the word `w`), Malloc gives a new block;
- `nested`: a complete inner findall (all_solut.pl:54-58 and 103-109): mark, solutions `ts`, recover;
- `abort`: an inner findall whose goal raises, after the solutions `ts`, an exception which is caught inside the outer goal:
  `'$recover_solutions'` is not called (only if `ab`).

`all` are the terms which are still on the stack at the end, `spec` those which should be. -/
inductive Exec (c : Cfg) (n : Nat) (lim : Adr) (ab : Prop) : S → List CT → List CT → S → Prop
  | nil (s : S) : Exec c n lim ab s [] [] s
  | user {s s1 s2 : S} {spec all : List CT} : s1.sols = s.sols →
      (∀ b ∈ s.sols, ∀ x, b.Has x → s1.mem x = s.mem x) →
      Exec c n lim ab s1 spec all s2 → Exec c n lim ab s spec all s2
  | store {s s1 s2 : S} {fix blk : Adr} {w : Cell} {t : CT} {spec all : List CT} :
      lim ≤ blk → (∀ b ∈ s.sols, Disj ⟨blk, 0, t.size c.vs⟩ b) →
      Out' blk (blk + t.size c.vs) fix → (∀ b ∈ s.sols, ¬ b.Has fix) →
      Rd c.vs (fun x => x ≠ fix ∧ Out' blk (blk + t.size c.vs) x) s.mem w t → t.size c.vs < n →
      storeSolution c n s fix blk w = .ok s1 →
      Exec c n lim ab s1 spec all s2 → Exec c n lim ab s (t :: spec) (t :: all) s2
  | nested {s s1 s2 s3 : S} {spec all spec' all' : List CT} {tail w : Cell} : Exec c n lim ab s spec all s1 →
      s1.h + 2 * all.length + sizes c.vs all ≤ lim →
      recover c n s1 (stopMark s) tail = some (s2, w) →
      Exec c n lim ab s2 spec' all' s3 → Exec c n lim ab s spec' all' s3
  | abort {s s1 s2 : S} {spec all spec' all' : List CT} : ab → Exec c n lim ab s spec all s1 →
      Exec c n lim ab s1 spec' all' s2 → Exec c n lim ab s spec' (all ++ all') s2

end Gp.AllSol
