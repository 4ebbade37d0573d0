import Verif.Catch.Sim
/-
C37: exceptions.
-/
namespace Gp.Catch

open Spec

variable {S τ : Type} [DecidableEq τ] {P : Nat → Goal S τ}

/-- From the outcome in the initial context to what the user sees. -/
theorem shows_of_outcome {cs : List (Cp S τ)} {as : List S} {e : End τ} {st : St S τ} (hcs : cs = [])
    (ho : Outcome P [] 0 [] [] cs as e st) : Shows P st as e := by
  induction as generalizing st with
  | nil =>
    subst hcs
    cases e with
    | fail => obtain ⟨x, y, hr⟩ := ho; exact .no hr rfl rfl rfl
    | throws b =>
      obtain ⟨-, x, y, seg, -, hr⟩ := ho
      refine .exc (hr.trans (Reaches.one (b := ⟨.fail, x, y, seg ++ [], 0, b, [], [b]⟩) ?_)) rfl
      simp [step, unwind]
    | more => exact .more
  | cons a as ih =>
    subst hcs
    obtain ⟨seg, -, -, hr, -, hrest⟩ := ho
    exact .answer (st' := mkR a [] (seg ++ []) 0 [] []) hr rfl rfl rfl
      (ih (hrest [] (List.Sublist.refl _) a []))

/-- C37.  Whatever the program, the goal and the store: the machine gives exactly the sequence of answers
of the specification, in the same order, asked one by one, and then fails, or reports the exception, as
the specification says.  catch/3 may be nested, left by an answer and re-entered by backtracking, cut by
once/1, `->` or `*->` in any way.
Partial: the balls `'$no_ball$'` and `'$catch_sync'(_)` are excluded, as are the exceptions which reach a
query opened by C code (`lib = false`): see C37_no_ball, C37_sync_ball and C37_query_stale_ball. -/
theorem C37_answers_partial (g : Goal S τ) (s : S) (as : List S) (e : End τ) (h : Ev false P g s as e) :
    Shows P (init g s) as e := by
  have := good h [] [] 0 [] [] List.Pairwise.nil (Nat.le_refl _) (fun q hq => by cases hq)
  exact shows_of_outcome rfl this

/-- The machine is deterministic: what it shows is the only thing it can show.  Answers of the same length
are the same answers. -/
theorem Reaches.linear {a b c : St S τ} (h1 : Reaches P a b) (h2 : Reaches P a c) :
    Reaches P b c ∨ Reaches P c b := by
  induction h1 with
  | refl => exact .inl h2
  | head hs hr ih =>
    cases h2 with
    | refl => exact .inr (.head hs hr)
    | head hs' hr' =>
      rw [hs] at hs'
      cases hs'
      exact ih hr'

theorem Reaches.stop {a b : St S τ} (h : Reaches P a b) (hs : step P a = none) : b = a := by
  cases h with
  | refl => rfl
  | head hs' _ => rw [hs] at hs'; cases hs'

theorem answer_unique {a b c : St S τ} (h1 : Reaches P a b) (h2 : Reaches P a c)
    (hb : step P b = none) (hc : step P c = none) : b = c := by
  rcases h1.linear h2 with h | h
  · exact (h.stop hb).symm
  · exact h.stop hc

theorem step_answer {st : St S τ} (hm : st.mode = .run) (hk : st.k = []) : step P st = none := by
  simp [step, hm, hk]

/-- C37.  The first answer of a goal is determined: a specification derivation which gives the first
answer `a` excludes that the machine shows another first answer, or no answer. -/
theorem C37_first_answer (g : Goal S τ) (s a : S) (as : List S) (e : End τ)
    (h : Ev false P g s (a :: as) e) (as' : List S) (e' : End τ) (h' : Shows P (init g s) as' e')
    (hm : e' = .fail ∨ as' ≠ []) : as'.head? = some a := by
  have h1 := C37_answers_partial g s _ _ h
  cases h1 with
  | answer r1 m1 k1 _ _ =>
    cases h' with
    | more => simp at hm
    | no r2 m2 c2 _ =>
      have := answer_unique r1 r2 (step_answer m1 k1) (by simp [step, m2, c2])
      rw [this, m2] at m1; cases m1
    | exc _ _ => simp at hm
    | answer r2 m2 k2 _ _ =>
      have := answer_unique r1 r2 (step_answer m1 k1) (step_answer m2 k2)
      simp [this]

/-- C37.  After an answer of catch/3, of its recovery, after its failure, and when an exception leaves it,
the active handler is the one which was active before the call, and no ball is pending except when an
exception is under way: in every context (`k`, `cs`), every handler `h` and every stack of queries. -/
theorem C37_handler_restored_partial (g r : Goal S τ) (m : Ball τ → S → Option S) (s : S) (e : End τ)
    (k : List (Frame S τ)) (cs : List (Cp S τ)) (h : Nat) (qs : List Nat) (o : List (Ball τ))
    (hs : cs.Pairwise (fun a b => b.adr < a.adr)) (hh : h ≤ envTop k) (hq : ∀ q ∈ qs, q ≤ envTop k) :
    (∀ a as, Ev false P (.catch g m r) s (a :: as) e →
      ∃ st, Reaches P ⟨.run, s, .goal (.catch g m r) :: k, cs, h, .noBall, qs, o⟩ st ∧
        st.mode = .run ∧ st.store = a ∧ st.k = k ∧ st.hnd = h ∧ st.ball = .noBall ∧ st.qs = qs ∧ st.out = o) ∧
    (Ev false P (.catch g m r) s [] .fail →
      ∃ st, Reaches P ⟨.run, s, .goal (.catch g m r) :: k, cs, h, .noBall, qs, o⟩ st ∧
        st.mode = .fail ∧ st.cs = cs ∧ st.hnd = h ∧ st.ball = .noBall ∧ st.qs = qs ∧ st.out = o) ∧
    (∀ b, Ev false P (.catch g m r) s [] (.throws b) →
      ∃ st, Reaches P ⟨.run, s, .goal (.catch g m r) :: k, cs, h, .noBall, qs, o⟩ st ∧
        st.mode = .unwind b ∧ st.hnd = h ∧ st.ball = b ∧ st.qs = qs ∧ st.out = o) := by
  refine ⟨?_, ?_, ?_⟩
  · intro a as hev
    obtain ⟨seg, -, -, hr, -, -⟩ := good hev k cs h qs o hs hh hq
    exact ⟨_, hr, rfl, rfl, rfl, rfl, rfl, rfl, rfl⟩
  · intro hev
    obtain ⟨x, y, hr⟩ := good hev k cs h qs o hs hh hq
    exact ⟨_, hr, rfl, rfl, rfl, rfl, rfl, rfl⟩
  · intro b hev
    obtain ⟨-, x, y, seg, -, hr⟩ := good hev k cs h qs o hs hh hq
    exact ⟨_, hr, rfl, rfl, rfl, rfl, rfl⟩

/-- C37.  An exception raised after an answer of catch/3, outside of its goal, is not caught by it, even
if its goal has other answers. -/
theorem C37_not_after_exit (g r : Goal S τ) (m : Ball τ → S → Option S) (s a : S) (as : List S) (e : End τ)
    (f : S → Ball τ) (hf : Plain (f a)) (h : Ev false P g s (a :: as) e) :
    Shows P (init (.conj (.catch g m r) (.throw f)) s) [] (.throws (f a)) := by
  apply C37_answers_partial
  have hall : ∀ {bs e}, EvAll false P (.throw f) (a :: bs) e [] (.throws (f a)) :=
    .ends (.throw (.inr hf)) (by simp)
  by_cases he : ∃ b, e = .throws b
  · obtain ⟨b, rfl⟩ := he
    cases hm : m b s with
    | none => exact .conj (.catchPass h hm) hall
    | some s' => exact .conj (.catchSome h hm .stop) hall
  · exact .conj (.catchNone h (fun b hb => he ⟨b, hb⟩)) hall

/-- C37.  The recovery is not protected by its own catch: an exception raised by it leaves the catch. -/
theorem C37_recovery_not_protected (g : Goal S τ) (m : Ball τ → S → Option S) (s s' : S) (as : List S)
    (b : Ball τ) (f : S → Ball τ) (hf : Plain (f s')) (h : Ev false P g s as (.throws b))
    (hm : m b s = some s') :
    Shows P (init (.catch g m (.throw f)) s) as (.throws (f s')) := by
  apply C37_answers_partial
  have := Ev.catchSome (r := .throw f) h hm (.throw (.inr hf))
  simpa using this

/-- C37.  The innermost catch which unifies handles the exception. -/
theorem C37_innermost (g r r' : Goal S τ) (m m' : Ball τ → S → Option S) (s s' : S) (as as' : List S)
    (e : End τ) (b : Ball τ) (h : Ev false P g s as (.throws b)) :
    (m b s = some s' → Ev false P r s' as' e → (∀ b, e ≠ .throws b) →
      Shows P (init (.catch (.catch g m r) m' r') s) (as ++ as') e) ∧
    (m b s = none → m' b s = some s' → Ev false P r' s' as' e →
      Shows P (init (.catch (.catch g m r) m' r') s) (as ++ as') e) := by
  refine ⟨fun hm hr he => ?_, fun hm hm' hr => ?_⟩
  · exact C37_answers_partial _ _ _ _ (.catchNone (.catchSome h hm hr) he)
  · exact C37_answers_partial _ _ _ _ (.catchSome (.catchPass h hm) hm' hr)

/-! ### Non-vacuity: a store is a list of numbers, balls are numbers -/

section examples

/-- `member(X, [1,2,3])`, then throw if X is 3; the store is the list of the values taken. -/
def put (n : Nat) : Goal (List Nat) Nat := .act fun s => some (s ++ [n])

def thr (n : Nat) : Goal (List Nat) Nat := .throw fun _ => .term n

/-- catcher: a given number. -/
def pat (n : Nat) : Ball Nat → List Nat → Option (List Nat)
  | .term t, s => if t = n then some (s ++ [100 + n]) else none
  | _, _ => none

/-- catcher: a variable. -/
def anyP : Ball Nat → List Nat → Option (List Nat)
  | _, s => some s

def noPreds : Nat → Goal (List Nat) Nat := fun _ => .act fun _ => none

/-- Two answers, then an exception, which is caught on re-entry by backtracking. -/
def ex1 : Goal (List Nat) Nat := .catch (.disj (put 1) (.disj (put 2) (thr 7))) (pat 7) (put 9)

theorem ex1_ev : Ev false noPreds ex1 [] [[1], [2], [107, 9]] .fail :=
  .catchSome (as := [[1], [2]]) (as' := [[107, 9]])
    (.disjBoth (as := [[1]]) (as' := [[2]]) (.actSome rfl)
      (.disjBoth (as := [[2]]) (as' := []) (.actSome rfl) (.throw (.inr trivial))))
    (b := .term 7) rfl (.actSome rfl)

example : Shows noPreds (init ex1 []) [[1], [2], [107, 9]] .fail := C37_answers_partial _ _ _ _ ex1_ev

example : Shows noPreds (init (.conj ex1 (thr 4)) []) [] (.throws (.term 4)) :=
  C37_not_after_exit _ _ _ _ [1] [[2]] (.throws (.term 7)) _ trivial
    (.disjBoth (as := [[1]]) (as' := [[2]]) (.actSome rfl)
      (.disjBoth (as := [[2]]) (as' := []) (.actSome rfl) (.throw (.inr trivial))))

example : Shows noPreds (init (.catch (thr 7) (pat 7) (thr 8)) []) [] (.throws (.term 8)) :=
  C37_recovery_not_protected _ _ _ [107] [] (.term 7) _ trivial (.throw (.inr trivial)) rfl

example : Shows noPreds (init (.catch (.catch (thr 7) (pat 7) (put 1)) (pat 7) (put 2)) [])
    [[107, 1]] .fail :=
  (C37_innermost (thr 7) (put 1) (put 2) (pat 7) (pat 7) [] [107] [] [[107, 1]] .fail (.term 7)
    (.throw (.inr trivial))).1 rfl (.actSome rfl) (by simp)

example : Shows noPreds (init (.catch (.catch (thr 7) (pat 6) (put 1)) (pat 7) (put 2)) [])
    [[107, 2]] .fail :=
  (C37_innermost (thr 7) (put 1) (put 2) (pat 6) (pat 7) [] [107] [] [[107, 2]] .fail (.term 7)
    (.throw (.inr trivial))).2 rfl rfl (.actSome rfl)

/-- A soft cut between two answers of a catch. -/
example : Shows noPreds (init (.soft ex1 (put 5) (put 6)) []) [[1, 5], [2, 5], [107, 9, 5]] .fail :=
  C37_answers_partial _ _ _ _ (.softThen ex1_ev
    (.next (as := [[1, 5]]) (.actSome rfl) (.next (as := [[2, 5]]) (.actSome rfl)
      (.next (as := [[107, 9, 5]]) (.actSome rfl) .nil))))

example (as' : List (List Nat)) (h : Shows noPreds (init ex1 []) as' .fail) : as'.head? = some [1] :=
  C37_first_answer _ _ _ _ _ ex1_ev as' .fail h (.inl rfl)

example : ∃ st, Reaches noPreds ⟨.run, [], [.goal ex1, .goal (thr 3)], [], 0, .noBall, [], []⟩ st ∧
    st.mode = .run ∧ st.store = [1] ∧ st.k = [.goal (thr 3)] ∧ st.hnd = 0 ∧ st.ball = .noBall ∧
    st.qs = [] ∧ st.out = [] :=
  (C37_handler_restored_partial (P := noPreds) _ _ _ [] .fail [.goal (thr 3)] [] 0 [] [] List.Pairwise.nil
    (Nat.zero_le _) (fun q hq => by cases hq)).1 [1] _ ex1_ev

/-! ### What is false of the code -/

/-- Number of steps the machine makes, with a bound, and where it stops. -/
def runN (P : Nat → Goal (List Nat) Nat) : Nat → St (List Nat) Nat → St (List Nat) Nat
  | 0, st => st
  | n + 1, st => match step P st with
    | some st' => runN P n st'
    | none => st

theorem runN_reaches {P : Nat → Goal (List Nat) Nat} {n : Nat} {st : St (List Nat) Nat} :
    Reaches P st (runN P n st) := by
  induction n generalizing st with
  | zero => exact .refl _
  | succ n ih =>
    simp only [runN]
    split
    · next h => exact .head h ih
    · exact .refl _

/-- A goal which the specification makes succeed once but whose call fails: no answer can be shown. -/
theorem not_shows {P : Nat → Goal (List Nat) Nat} {st : St (List Nat) Nat} {a : List Nat} {as e} (n : Nat)
    (h1 : step P (runN P n st) = none) (h2 : (runN P n st).store ≠ a ∨ (runN P n st).k ≠ [] ∨
      ∃ m, (runN P n st).mode = m ∧ m ≠ .run) : ¬ Shows P st (a :: as) e := by
  intro h
  cases h with
  | answer r m k _ _ =>
    have := answer_unique r (runN_reaches (n := n)) (step_answer m k) h1
    rw [← this] at h2
    rcases h2 with h2 | h2 | ⟨m', h2, h3⟩
    · exact h2 rfl
    · exact h2 k
    · exact h3 (h2 ▸ m)

/-- C37, violation.  `catch(throw('$no_ball$'), _, true)` fails: the marker of the implementation is
not caught although the catcher is a variable. -/
theorem C37_no_ball :
    Ev true noPreds (.catch (.throw fun _ => .noBall) anyP (put 1)) [] [[1]] .fail ∧
    ¬ ∃ e, Shows noPreds (init (.catch (.throw fun _ => .noBall) anyP (put 1)) []) [[1]] e := by
  constructor
  · exact .catchSome (as := []) (.throw (.inl rfl)) (b := .noBall) rfl (.actSome rfl)
  · rintro ⟨e, h⟩
    exact not_shows 10 rfl (.inr (.inr ⟨.fail, rfl, by simp⟩)) h

/-- C37, violation.  `catch(throw('$catch_sync'(0)), _, true) ; put(2)`: the exception is not caught and
all the choice points of the program are removed, so the other branch is lost too. -/
theorem C37_sync_ball :
    Ev true noPreds (.disj (.catch (.throw fun _ => .sync 0) anyP (put 1)) (put 2)) [] [[1], [2]] .fail ∧
    ∃ st, Reaches noPreds
        (init (.disj (.catch (.throw fun _ => .sync 0) anyP (put 1)) (put 2)) []) st ∧
      st.mode = .fail ∧ st.cs = [] ∧ st.out = [] := by
  constructor
  · exact .disjBoth (as := [[1]]) (as' := [[2]])
      (.catchSome (as := []) (.throw (.inl rfl)) (b := .sync 0) rfl (.actSome rfl)) (.actSome rfl)
  · exact ⟨_, runN_reaches (n := 20), rfl, rfl, rfl⟩

/-- C37, violation.  A foreign predicate opens a query which raises an exception, handles it and
succeeds; later the goal of the enclosing catch fails: the exception, already handled, is caught again and
the recovery is called, although no exception is under way.  The specification says that the goal fails. -/
theorem C37_query_stale_ball :
    Ev true noPreds (.catch (.conj (.query (thr 7) (put 1)) (.act fun _ => none)) (pat 7) (put 9)) [] [] .fail ∧
    Shows noPreds (init (.catch (.conj (.query (thr 7) (put 1)) (.act fun _ => none)) (pat 7) (put 9)) [])
      [[107, 9]] .fail := by
  constructor
  · exact .catchNone (.conj (bs := [[1]]) (e₁ := .fail)
      (.queryThrow rfl (.throw (.inl rfl)) (.actSome rfl))
      (.next (as := []) (as' := []) (.actNone rfl) .nil)) (by simp)
  · refine .answer (st' := runN noPreds 100 _) runN_reaches rfl rfl
      rfl (.no (runN_reaches (n := 100)) rfl rfl
      rfl)

/-- C37, violation.  With no catch/3 active (a directive, a compiled `main`), an exception is reported but
the execution goes on with the last choice point: the answer of the other branch is given. -/
theorem C37_uncaught_continues :
    Ev false noPreds (.disj (thr 7) (put 2)) [] [] (.throws (.term 7)) ∧
    ∃ st, Reaches noPreds (init (.disj (thr 7) (put 2)) []) st ∧ st.mode = .run ∧ st.k = [] ∧
      st.store = [2] ∧ st.out = [.term 7] := by
  constructor
  · exact .disjLeft (.throw (.inr trivial)) (by simp)
  · exact ⟨runN noPreds 100 _, runN_reaches, rfl, rfl, rfl,
      rfl⟩

end examples

end Gp.Catch
