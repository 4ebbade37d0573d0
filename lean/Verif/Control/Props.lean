import Verif.Control.Lemmas5
/-
C54: the control constructs `,` `;` `->` `*->` `!` of compiled clauses have the answers which Prolog defines, in order.
The specification is `sem` and `semPred` (Spec.lean); the restriction `Ok` is there too.
-/
namespace Gp.Control

variable {α σ : Type}

/-- C54. A predicate whose clauses have the bodies `gs`: its compiled code, run by the machine with its choice points in the
local stack, gives exactly the answers of the bodies, in order, and ends in the same way.
Partial: for the clauses in `Ok` only. A condition of `(P *-> Q ; R)` must have no cut of its own, and must have no
`(P -> Q ; R)` in an alternative which is not the first one; the answers are wrong otherwise, see `C54_soft_cut_then_cut`,
`C54_soft_cut_then_if`. What the code calls is only known by its answers. -/
theorem C54_control_partial (I : α → σ → List σ × AEnd) (gs : List (Goal α)) (hg : ∀ g ∈ gs, Ok g) (s : σ) :
    Run I (query gs s) (semPred I gs s).1 (semPred I gs s).2 :=
  query_run hg s

/-- C54. There are no other answers. -/
theorem C54_only_partial (I : α → σ → List σ × AEnd) (gs : List (Goal α)) (hg : ∀ g ∈ gs, Ok g) (s : σ) (l : List σ) (e : Bool)
    (h : Run I (query gs s) l e) : semPred I gs s = (l, e) := by
  obtain ⟨h1, h2⟩ := run_unique (query_run hg s) h
  exact Prod.ext h1 h2

/-- There is no `*->` with an else in the body. -/
def NoSoft {α : Type} : Goal α → Prop
  | .atom _ | .fail | .cut => True
  | .conj p q | .disj p q => NoSoft p ∧ NoSoft q
  | .ite p q r => NoSoft p ∧ NoSoft q ∧ NoSoft r
  | .softIte _ _ _ => False
  | .ifThen p q | .softThen p q => NoSoft p ∧ NoSoft q

theorem NoSoft.ok : ∀ {g : Goal α}, NoSoft g → Ok g
  | .atom _, _ => by simp [Ok]
  | .fail, _ => by simp [Ok]
  | .cut, _ => by simp [Ok]
  | .conj p q, h => by rw [Ok]; exact ⟨NoSoft.ok h.1, NoSoft.ok h.2⟩
  | .disj p q, h => by rw [Ok]; exact ⟨NoSoft.ok h.1, NoSoft.ok h.2⟩
  | .ite p q r, h => by rw [Ok]; exact ⟨NoSoft.ok h.1, NoSoft.ok h.2.1, NoSoft.ok h.2.2⟩
  | .ifThen p q, h => by rw [Ok]; exact ⟨NoSoft.ok h.1, NoSoft.ok h.2⟩
  | .softThen p q, h => by rw [Ok]; exact ⟨NoSoft.ok h.1, NoSoft.ok h.2⟩

/-- C54, for all the clauses of standard Prolog (there is no restriction without `*->`). -/
theorem C54_standard (I : α → σ → List σ × AEnd) (gs : List (Goal α)) (hg : ∀ g ∈ gs, NoSoft g) (s : σ) (l : List σ) (e : Bool) :
    Run I (query gs s) l e ↔ semPred I gs s = (l, e) := by
  have hg' : ∀ g ∈ gs, Ok g := fun g h => (hg g h).ok
  constructor
  · exact C54_only_partial I gs hg' s l e
  · intro h
    have := query_run (I := I) hg' s
    rw [h] at this
    exact this

/-! ## The laws of the manual, from the specification -/

/-- C54. A cut in a clause: the next clauses are not tried. -/
theorem C54_cut (I : α → σ → List σ × AEnd) (p q : Goal α) (gs : List (Goal α)) (hp : NoSoft p) (hq : NoSoft q) (hgs : ∀ g ∈ gs, NoSoft g) (s s1 : σ) (l1 : List σ) (e1 : End)
    (l : List σ) (hs : sem I p s = (s1 :: l1, e1)) (hl : sem I q s1 = (l, .fail)) :
    Run I (query (.conj p (.conj .cut q) :: gs) s) l false := by
  refine (C54_standard I _ ?_ s l false).mpr ?_
  · intro g hg
    rcases List.mem_cons.mp hg with rfl | hg
    · exact ⟨hp, trivial, hq⟩
    · exact hgs g hg
  · simp [semPred, sem, hs, hl, andThen]

/-! ## Examples -/

section examples

/-- The store is a number. -/
def exI : List Nat → Nat → List Nat × AEnd := fun a _ => (a, if a.length ≤ 1 then .done else .fail)

/-- Two clauses with a soft cut, an if-then-else in it, a cut in a condition, and a cut of the clause. -/
def exG : List (Goal (List Nat)) :=
  [.conj (.softIte (.disj (.atom [1]) (.atom [2, 3])) (.ite (.conj (.atom [4]) .cut) (.atom [5, 6]) (.atom [])) (.atom [7])) (.disj (.atom [8]) (.conj .cut .fail)),
   .atom [9]]

example : ∀ g ∈ exG, Ok g := by simp [exG, Ok, Plain, PlainAlt, NoCut, Fails]

example : semPred exI exG 0 = ([8], false) := by decide

example : ∀ g ∈ [Goal.disj (.ite (.atom [1, 2]) (.atom [3, 4]) .fail) (.conj (.atom [5, 6]) .cut), .atom [7]], NoSoft g := by simp [NoSoft]

example : semPred exI [Goal.disj (.ite (.atom [1, 2]) (.atom [3, 4]) .fail) (.conj (.atom [5, 6]) .cut), .atom [7]] 0 = ([3, 4, 5], false) := by decide

example : sem exI (.atom [1, 2]) 0 = ([1, 2], .fail) ∧ sem exI (.atom [3, 4]) 1 = ([3, 4], .fail) := by decide

end examples

/-! ## Where the code is wrong -/

/-- The machine for `n` steps at most. -/
def exec (I : α → σ → List σ × AEnd) : Nat → Cfg α σ → Option (List σ × Bool)
  | 0, _ => none
  | n + 1, c =>
    match step I c with
    | .go c' => exec I n c'
    | .answer s c' => (exec I n c').map fun o => (s :: o.1, o.2)
    | .stop => some ([], false)
    | .err => some ([], true)
    | .stuck => none

theorem exec_run {I : α → σ → List σ × AEnd} : ∀ {n : Nat} {c : Cfg α σ} {o : List σ × Bool}, exec I n c = some o → Run I c o.1 o.2
  | 0, _, _, h => by cases h
  | n + 1, c, o, h => by
    rw [exec] at h
    split at h
    · next h1 => exact .go h1 (exec_run h)
    · next h1 =>
      simp only [Option.map_eq_some_iff] at h
      obtain ⟨o', h2, rfl⟩ := h
      exact .answer h1 (exec_run h2)
    · next h1 => cases h; exact .stop h1
    · next h1 => cases h; exact .err h1
    · cases h

/-- `p :- ((X = 1 ; X = 2, !, fail) *-> fail ; X = 9).` -/
def softCutG : Goal (List Nat) := .softIte (.disj (.atom [1]) (.conj (.atom [2]) (.conj .cut .fail))) .fail (.atom [9])

/-- C54, violation: a cut in the condition of `(P *-> Q ; R)`, after the soft cut has been done for a first answer of `P`. It
puts in B the choice point of the else, although the soft cut has removed it: `R` is run although `P` has an answer. -/
theorem C54_soft_cut_then_cut : semPred exI [softCutG] 0 = ([], false) ∧ Run exI (query [softCutG] 0) [9] false := by
  refine ⟨by decide, ?_⟩
  have h : query [softCutG] 0 = .run 0 [⟨[.aux [] [clause softCutG]], fun _ => none, 0, 0⟩] ⟨fun _ => none, 0⟩ := rfl
  rw [h]
  simp [clause, softCutG, norm, withLevel, alts, linearize, Norm.isFail, Norm.vars]
  exact exec_run (n := 100) (o := ([9], false)) (by rfl)

/-- `p :- ((X = 1 ; (X = 2 -> fail ; X = 3)) *-> fail ; X = 9).` -/
def softIfG : Goal (List Nat) := .softIte (.disj (.atom [1]) (.ite (.atom [2]) .fail (.atom [3]))) .fail (.atom [9])

/-- C54, violation: the same with an if-then-else in an alternative of the condition. The cut of `->` goes back to the level
at the entry of the auxiliary predicate, which is the choice point of the else, removed before. -/
theorem C54_soft_cut_then_if : semPred exI [softIfG] 0 = ([], false) ∧ Run exI (query [softIfG] 0) [9] false := by
  refine ⟨by decide, ?_⟩
  have h : query [softIfG] 0 = .run 0 [⟨[.aux [] [clause softIfG]], fun _ => none, 0, 0⟩] ⟨fun _ => none, 0⟩ := rfl
  rw [h]
  simp [clause, softIfG, norm, withLevel, alts, linearize, Norm.isFail, Norm.vars]
  exact exec_run (n := 100) (o := ([9], false)) (by rfl)

end Gp.Control
