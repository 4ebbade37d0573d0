/-
C56: the clauses of grammar rules.
-/
import Verif.Dcg.Lemmas3
import Verif.Dcg.Oper

namespace Gp.Dcg

variable {ν τ γ L : Type}

/-- C56 (rules).  Read logically, the clause of a rule `h --> b` relates exactly the
streams between which the body `b` derives: whatever the meaning of the non
terminals, of the goals and of the terminals, and whatever the unifications done
by the translation. -/
theorem C56_rule_partial (I : Interp ν τ γ L) (b : Body ν τ γ) (x y : L) :
    (transRule b).rel I x y ↔ Der I b x y := by
  unfold Clause.rel transRule
  simp only [holds_seq]
  constructor
  · rintro ⟨ρ, rfl, rfl, h1, h2⟩
    exact (meaning I b).1 false 0 1 ⟨2, id, true⟩ (by simp) (by simp) ρ h1 h2
  · intro hd
    obtain ⟨ρ', h1, h2, h3⟩ := (meaning I b).2 false 0 1 ⟨2, id, true⟩ (by simp) (by simp)
      (fun v => if v = 0 then x else y) hd
    exact ⟨ρ', h1 0 (by simp), h1 1 (by simp), h2, h3⟩

/-- C56 (pushback).  The clause of a rule `h, [t|ts] --> b` relates the streams `x`
and `y` if `y` is what remains of `x` after the body with the terminals in front. -/
theorem C56_pushback_partial (I : Interp ν τ γ L) (t : τ) (ts : List τ) (b : Body ν τ γ) (x y : L) :
    (transPushback t ts b).rel I x y ↔ ∃ z, Der I b x z ∧ y = I.cons (t :: ts) z := by
  have hb := onStack_bounds b true 0 2 ⟨3, id, true⟩ (by simp) (by simp)
  unfold Clause.rel transPushback
  simp only [holds_seq, HoldsAll.append, Sat.append]
  constructor
  · rintro ⟨ρ, rfl, rfl, h1, h2⟩
    exact ⟨ρ 2, (meaning I b).1 true 0 2 ⟨3, id, true⟩ (by simp) (by simp) ρ h1.1 h2.1,
      (termList_iff I (t :: ts) 1 2 _ ρ).1 ⟨h1.2, h2.2⟩⟩
  · rintro ⟨z, hd, hy⟩
    obtain ⟨ρ', h1, h2, h3⟩ := (meaning I b).2 true 0 2 ⟨3, id, true⟩ (by simp) (by simp)
      (fun v => if v = 0 then x else if v = 1 then y else z) hd
    have e0 : ρ' 0 = x := h1 0 (by simp)
    have e1 : ρ' 1 = y := h1 1 (by simp)
    have e2 : ρ' 2 = z := h1 2 (by simp)
    have h := (termList_iff I (t :: ts) 1 2 (onStack b true 0 2 ⟨3, id, true⟩).st ρ').2
      (by rw [e1, e2]; exact hy)
    exact ⟨ρ', e0, e1, ⟨h2, h.1⟩, h3, h.2⟩

/-- A grammar of the digits and letters on lists of characters. -/
def exI : Interp Nat Nat Unit (List Nat) where
  cons ts l := ts ++ l
  nt n x y := x = n :: y
  ph n x y := x = n :: y
  ext _ := True

/-- `a --> \+ b, ( "x", ! -> c ; [], {true} ), X, "z".` derives "xcqz" -/
example : (transRule (.conj (.neg (.nt 98)) (.conj
    (.alt (.ifThen false (.conj (.terms 120 []) .cut) (.nt 99)) (.conj .nil (.curly ())))
    (.conj (.var 113) (.terms 122 []))))).rel exI [120, 99, 113, 122] [] :=
  (C56_rule_partial exI _ _ _).2 ⟨_, ⟨fun ⟨_, h⟩ => (by cases h), rfl⟩,
    _, .inl ⟨_, ⟨_, rfl, rfl⟩, rfl⟩, _, rfl, rfl⟩

/-- and the second alternative derives "qz", but nothing derives "bqz" -/
example : (transRule (.conj (.neg (.nt 98)) (.conj
    (.alt (.ifThen false (.conj (.terms 120 []) .cut) (.nt 99)) (.conj .nil (.curly ())))
    (.conj (.var 113) (.terms 122 []))))).rel exI [113, 122] [] :=
  (C56_rule_partial exI _ _ _).2 ⟨_, ⟨fun ⟨_, h⟩ => (by cases h), rfl⟩,
    _, .inr ⟨_, rfl, trivial, rfl⟩, _, rfl, rfl⟩

example : ¬(transRule (.conj (.neg (.nt 98)) (.conj
    (.alt (.ifThen false (.conj (.terms 120 []) .cut) (.nt 99)) (.conj .nil (.curly ())))
    (.conj (.var 113) (.terms 122 []))))).rel exI [98, 113, 122] [] := by
  rw [C56_rule_partial]
  rintro ⟨_, ⟨h, _⟩, _⟩
  exact h ⟨_, rfl⟩

/-- `h, "pq" --> "a", b.` on "ab" gives "pq". -/
example : (transPushback 112 [113] (.conj (.terms 97 []) (.nt 98))).rel exI [97, 98] [112, 113] :=
  (C56_pushback_partial exI _ _ _ _ _).2 ⟨[], ⟨_, rfl, rfl⟩, rfl⟩

/-! ### Where the clauses do not execute like the rules -/

/-- C56 (steadfastness, violated): for `a --> !, [].  a --> [x].` the rest after `a` on
"x" can only be "x", but `phrase(a, "x", [])` is true: the clause is `a(S, S) :- !.`,
the streams are unified before the cut. -/
theorem C56_cut_not_steadfast :
    rests [.conj .cut .nil, .terms 120 []] [120] = [[120]] ∧
    phraseAnswers [transRule (.conj .cut .nil), transRule (.terms 120 [])] [120] [] = 1 := by
  decide +kernel

/-- The same in a disjunction, `a --> (!, [] ; [x]).`: the equation is put before the cut. -/
theorem C56_alt_cut_not_steadfast :
    rests [.alt (.conj .cut .nil) (.terms 120 [])] [120] = [[120]] ∧
    phraseAnswers [transRule (.alt (.conj .cut .nil) (.terms 120 []))] [120] [] = 1 := by
  decide +kernel

/-- For a condition, `a --> (b -> [] ; c).` with `b --> [x]` and `c --> "xy"` : after `b`
the rest of "xy" is "y", but `phrase(a, "xy", [])` is true: the condition is called with the
stream after `a`. -/
theorem C56_condition_not_steadfast :
    rests [.alt (.ifThen false (.nt 120) .nil) (.terms 120 [121])] [120, 121] = [[121]] ∧
    phraseAnswers [transRule (.alt (.ifThen false (.nt 120) .nil) (.terms 120 [121]))] [120, 121] [] = 1 := by
  decide +kernel

/-- C56 (if-then-else, violated): `a --> ([] -> [] ; [x]).` always takes the `then` branch, but
its clause has the equation in front of the `->`, so that the `;` is a disjunction: on "x" it
also gives the answer of the `else` branch. -/
theorem C56_if_then_else_lost :
    rests [.alt (.ifThen false .nil .nil) (.terms 120 [])] [120] = [[120]] ∧
    phraseRests [transRule (.alt (.ifThen false .nil .nil) (.terms 120 []))] [120]
      = [.cons 120 .nil, .nil] := by
  decide +kernel

/-- C56 (disjunction, violated): in `a --> ([], ([x] -> y) ; [x]).` the `;` is a disjunction of two
alternatives, but the `[]` leaves no goal and the clause has an if-then-else: the
second alternative is lost when the `then` branch fails. -/
theorem C56_disjunction_lost :
    rests [.alt (.conj .nil (.ifThen false (.terms 120 []) (.nt 121))) (.terms 120 [])] [120] = [[]] ∧
    phraseRests [transRule (.alt (.conj .nil (.ifThen false (.terms 120 []) (.nt 121))) (.terms 120 []))]
      [120] = [] := by
  decide +kernel

/-- C56 (steadfastness of the pushback, violated): for `h, [a] --> !, [b].  h, [c] --> [b].` the
only answer of `h` on "b" is that of the first rule, with the rest "a", but `phrase(h, "b", "c")` is
true: the pushback is unified in the head, before the cut. -/
theorem C56_pushback_not_steadfast :
    rests [.conj .cut (.terms 98 []), .terms 98 []] [98] = [[]] ∧
    phraseAnswers [transPushback 97 [] (.conj .cut (.terms 98 [])), transPushback 99 [] (.terms 98 [])]
      [98] [99] = 1 := by
  decide +kernel

end Gp.Dcg
