import Verif.ListBip.Model
import Verif.Unify.Spec
/-
Specification of the list predicates: the clauses of their usual definitions (given as comments in
/repo/src/BipsPl/list.pl:43-48, 60-65, 89-100, 197-219, 234-258), and what it means to enumerate the answers
of these clauses in the order of Prolog.

A derivation uses the recursive clause `k` times, then the other one: Prolog tries these derivations by
increasing `k` (append, reverse, length: the first clause is the base case; member: X = H is tried first).
-/
namespace Gp.ListBip
open Gp.Heap Gp.Unify

/-- The constant `[]`. -/
abbrev nil : T := .atm 256

/-- append/3 with the recursive clause used `k` times (list.pl:44-47). -/
inductive App : Nat → T → T → T → Prop
  | base {l : T} : App 0 nil l l
  | step {k : Nat} {h t1 l t2 : T} : App k t1 l t2 → App (k + 1) (.lst h t1) l (.lst h t2)

/-- member/2 with the recursive call used `k` times (list.pl:61-64). -/
inductive Mem : Nat → T → T → Prop
  | base {x t : T} : Mem 0 x (.lst x t)
  | step {k : Nat} {x h t : T} : Mem k x t → Mem (k + 1) x (.lst h t)

/-- '$reverse1'(L1, L2, Acc) with the recursive clause used `k` times (list.pl:96-99); reverse(L1, L2) is
'$reverse1'(L1, L2, []) (list.pl:90-93). -/
inductive Rev : Nat → T → T → T → Prop
  | base {l : T} : Rev 0 nil l l
  | step {k : Nat} {h t l a : T} : Rev k t l (.lst h a) → Rev (k + 1) (.lst h t) l a

/-- '$length'(L, M, N) with the recursive clause used `k` times (list.pl:207-211). -/
inductive Len : Nat → T → Int → T → Prop
  | base {n : Int} : Len 0 nil n (.int n)
  | step {k : Nat} {h t n : T} {m : Int} : Len k t (m + 1) n → Len (k + 1) (.lst h t) m n

/-- The element of rank `k` (from 0) of a list is `x` (list.pl:245-250). -/
inductive Nth : Nat → T → T → Prop
  | base {x t : T} : Nth 0 (.lst x t) x
  | step {k : Nat} {h t x : T} : Nth k t x → Nth (k + 1) (.lst h t) x

/-- `w` is a partial list: the addresses of its elements, and the variable at its end. -/
inductive Partial (m : Heap.Mem) : Cell → List Adr → Adr → Prop
  | var {w : Cell} {v : Adr} : deref m w = some (.ref v) → Partial m w [] v
  | cons {w : Cell} {a v : Adr} {l : List Adr} :
    deref m w = some (.lst a) → Partial m (m (a + 1)) l v → Partial m w (a :: l) v

/-- The address `b` is reached from `a` by following the words of the memory. -/
inductive From (m : Heap.Mem) (b : Adr) : Adr → Prop
  | self : From m b b
  | step {a c : Adr} : Child m c a → From m b c → From m b a

/-- The variable at the end of the list `l`, if any, occurs neither in `x` nor in the elements of the list. -/
def TailFree (m : Heap.Mem) (x l : Cell) : Prop :=
  ∀ as v, Partial m l as v → (∀ b, Kid m x b → ¬ From m v b) ∧ ∀ a ∈ as, ¬ From m v a

/-- The memory is well formed, and what is above H in the global stack is free (the word `fn 0 0` stands for
an unused word: no word designates it). -/
structure Ok (N : Adr) (s : St) : Prop where
  wf : WF N s.lssa s.mem
  free : ∀ a, s.h ≤ a → a < s.lssa → s.mem a = .fn 0 0
  top : s.lssa ≤ N

/-- The two valuations are the same on the terms of the memory `m`. -/
def Agree (m : Heap.Mem) (ρ ρ' : Adr → T) : Prop := ∀ a, isTerm (m a) = true → ρ' a = ρ a

/-- The state `s'` is an answer of `P` in the state `s`: it is well formed, its valuations satisfy the
bindings of `s` and `P`, and all the valuations of `s` which satisfy `P` are (the restriction to the terms of
`s` of) valuations of `s'`. -/
structure Answer (N : Adr) (s : St) (P : (Adr → T) → Prop) (s' : St) : Prop where
  ok : Ok N s'
  sound : ∀ ρ, Model N s'.mem ρ → Model N s.mem ρ ∧ P ρ
  complete : ∀ ρ, Model N s.mem ρ → P ρ → ∃ ρ', Model N s'.mem ρ' ∧ Agree s.mem ρ ρ'

/-- `P` has no answer in the state `s`. -/
def NoAnswer (N : Adr) (s : St) (P : (Adr → T) → Prop) : Prop := ∀ ρ, Model N s.mem ρ → ¬ P ρ

/-- The results of a call and of the retries enumerate the answers of the derivations `A k`, `lo ≤ k`: each
result is about one `k`, the `k` which are skipped have no answer, a success is the answer of `A k`, a failure
means that it has none; when no choice point is left the next ones have none; an error is raised only when
there are no answers. -/
def Follows (N : Adr) (s : St) (A : Nat → (Adr → T) → Prop) : Nat → List Out → Prop
  | _, [] => True
  | lo, .err _ :: os => os = [] ∧ ∀ j, lo ≤ j → NoAnswer N s (A j)
  | lo, .ret r s' cp :: os =>
    ∃ k, lo ≤ k ∧ (∀ j, lo ≤ j → j < k → NoAnswer N s (A j)) ∧
      (r = true → Answer N s (A k) s') ∧ (r = false → NoAnswer N s (A k)) ∧
      (cp = none → os = [] ∧ ∀ j, k < j → NoAnswer N s (A j)) ∧ (cp ≠ none → Follows N s A (k + 1) os)

end Gp.ListBip
