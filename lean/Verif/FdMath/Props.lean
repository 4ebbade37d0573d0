import Verif.FdMath.Safe

/-!
# C48: arithmetic constraints are translated into primitive constraints with the same solutions

The meaning of an expression is in `Spec.lean`.  An assignment `τ` gives a value to the user's
variables (`.orig n`) and to the variables the translation makes.
-/

namespace Gp.FdMath

variable {E : Env} {w : Nat → Nat} {store : (Nat → Int) → Prop} {op : Op} {le re : Tm}

theorem fits2_symm (h : fits2 w le re) : fits2 w re le := ⟨h.2.1, h.1, by have := h.2.2; omega⟩

/-- **Soundness.**  Whatever the user's variables and the variables of the translation are, if they
satisfy the posted primitive constraints, the user's constraint holds.  `w` bounds the sizes of the
expressions (all variables at 1 or more; a variable known to be an integer at that integer or
more). -/
theorem C48_solutions_satisfy_the_constraint (sort : SortOk E) (inst : InstOk E w)
    (known : InstSound E store) (w1 : ∀ n, 1 ≤ w n) (fit : fits2 w le re) {st}
    (h : post E op le re = .ok () st) (τ : Var → Int) (dom : Dom τ)
    (hs : store fun n => τ (.orig n)) (sat : satAll τ st.posted) :
    holds (fun n => τ (.orig n)) op le re := by
  have c : Ctx E w store := ⟨sort, inst, known, w1⟩
  have fit' := fits2_symm fit
  cases op <;> simp only [post] at h
  case gt | gte =>
    obtain ⟨x, y, h1, h2, h3⟩ := translate_sound c fit' h dom hs sat
    refine ⟨y, x, h2, h1, ?_⟩
    simp only [Rel.zero] at h3
    simp only [Op.holds]; omega
  all_goals
    obtain ⟨x, y, h1, h2, h3⟩ := translate_sound c fit h dom hs sat
    refine ⟨x, y, h1, h2, ?_⟩
    simp only [Rel.zero] at h3
    simp only [Op.holds]; omega

/-- **Completeness.**  If the constraint holds for values of the user's variables that the store
allows, posting it does not fail, and the values extend to a solution of the posted primitive
constraints. -/
theorem C48_no_solution_is_lost (sort : SortOk E) (inst : InstOk E w)
    (known : InstSound E store) (w1 : ∀ n, 1 ≤ w n) (fit : fits2 w le re) (σ : Nat → Int)
    (hs : store σ) (dom : ∀ n, 0 ≤ σ n ∧ σ n ≤ MAX) (hw : ∀ n, σ n ≤ (w n : Int))
    (hh : holds σ op le re) :
    post E op le re ≠ .fail ∧
    ∀ st, post E op le re = .ok () st →
      ∃ τ : Var → Int, (∀ n, τ (.orig n) = σ n) ∧ Dom τ ∧ satAll τ st.posted := by
  have c : Ctx E w store := ⟨sort, inst, known, w1⟩
  have fit' := fits2_symm fit
  have b : ∀ n, 0 ≤ σ n ∧ σ n ≤ (w n : Int) ∧ σ n ≤ MAX := fun n => ⟨(dom n).1, hw n, (dom n).2⟩
  obtain ⟨x, y, h1, h2, h3⟩ := hh
  have fin : ∀ {rel le re x y}, fits2 w le re → eval σ le = some x → eval σ re = some y →
      Rel.zero rel (x - y) → translate E rel le re ≠ .fail ∧
      ∀ st, translate E rel le re = .ok () st →
        ∃ τ : Var → Int, (∀ n, τ (.orig n) = σ n) ∧ Dom τ ∧ satAll τ st.posted := by
    intro rel le re x y f e1 e2 z
    obtain ⟨k1, k2⟩ := translate_ext c f hs b e1 e2 z
    refine ⟨k1, fun st h => ?_⟩
    obtain ⟨τ, t1, t2, t3⟩ := k2 st h
    exact ⟨τ, fun n => congrFun t1 n, t2, t3⟩
  cases op <;> simp only [post, Op.holds] at *
  case gt | gte => exact fin fit' h2 h1 (by simp only [Rel.zero]; omega)
  all_goals exact fin fit h1 h2 (by simp only [Rel.zero]; omega)

/-- Posting a constraint that fails: it holds for no values within the bounds. -/
theorem C48_failure_means_no_solution (sort : SortOk E) (inst : InstOk E w)
    (known : InstSound E store) (w1 : ∀ n, 1 ≤ w n) (fit : fits2 w le re)
    (h : post E op le re = .fail) (σ : Nat → Int)
    (hs : store σ) (dom : ∀ n, 0 ≤ σ n ∧ σ n ≤ MAX) (hw : ∀ n, σ n ≤ (w n : Int)) :
    ¬ holds σ op le re := fun hh =>
  (C48_no_solution_is_lost sort inst known w1 fit σ hs dom hw hh).1 h

/-- **Exactness** (in the manual the operands and the sizes are not limited): for values within the
bounds, the posted primitive constraints are satisfiable if and only if the constraint holds. -/
theorem C48_posted_constraints_are_exact_partial (sort : SortOk E) (inst : InstOk E w)
    (known : InstSound E store) (w1 : ∀ n, 1 ≤ w n) (fit : fits2 w le re) {st}
    (h : post E op le re = .ok () st) (σ : Nat → Int)
    (hs : store σ) (dom : ∀ n, 0 ≤ σ n ∧ σ n ≤ MAX) (hw : ∀ n, σ n ≤ (w n : Int)) :
    (∃ τ : Var → Int, (∀ n, τ (.orig n) = σ n) ∧ Dom τ ∧ satAll τ st.posted) ↔
      holds σ op le re := by
  constructor
  · rintro ⟨τ, t1, t2, t3⟩
    have e : (fun n => τ (.orig n)) = σ := funext t1
    have := C48_solutions_satisfy_the_constraint sort inst known w1 fit h τ t2 (by rw [e]; exact hs) t3
    rwa [e] at this
  · intro hh
    exact (C48_no_solution_is_lost sort inst known w1 fit σ hs dom hw hh).2 st h

/-- A linear constraint with at most 2000 occurrences of variables is posted, or fails: it raises no
error and has a defined behaviour. -/
theorem C48_linear_constraints_are_posted (h1 : Linear le) (h2 : Linear re)
    (hv : vars le + vars re ≤ 2000) :
    post E op le re = .fail ∨ ∃ st, post E op le re = .ok () st := by
  cases op <;> simp only [post] <;> refine translate_linear ?_ ?_ ?_ <;>
    first | assumption | (rw [Nat.add_comm]; assumption)

/-- The behaviour is defined when the operands of `//` are linear. -/
theorem C48_defined_behaviour_partial (h1 : QuotLinear le) (h2 : QuotLinear re) :
    post E op le re ≠ .ub := by
  cases op <;> simp only [post] <;> exact translate_ub (by assumption) (by assumption)

/-! ## Non-vacuity -/

/-- Insertion of a monomial term in a sorted list. -/
def ins (q : Int × Var) : List (Int × Var) → List (Int × Var)
  | [] => [q]
  | a :: l => if comparMonom q a ≤ 0 then q :: a :: l else a :: ins q l

/-- Insertion sort, for the examples. -/
def isort : List (Int × Var) → List (Int × Var)
  | [] => []
  | a :: l => ins a (isort l)

theorem compar_le {a b : Int × Var} : comparMonom a b ≤ 0 ↔
    (0 < a.1 ∧ (b.1 ≤ 0 ∨ b.1 ≤ a.1)) ∨ (a.1 ≤ 0 ∧ b.1 ≤ 0 ∧ a.1 ≤ b.1) := by
  unfold comparMonom
  simp only
  repeat' split
  all_goals omega

theorem ins_perm (q l) : (ins q l).Perm (q :: l) := by
  induction l with
  | nil => exact List.Perm.refl _
  | cons a l ih =>
    simp only [ins]
    split
    · exact List.Perm.refl _
    · exact (ih.cons a).trans (List.Perm.swap q a l)

theorem ins_sorted {q l} (h : l.Pairwise fun a b => comparMonom a b ≤ 0) :
    (ins q l).Pairwise fun a b => comparMonom a b ≤ 0 := by
  induction l with
  | nil => simp [ins]
  | cons a l ih =>
    obtain ⟨h1, h2⟩ := List.pairwise_cons.mp h
    simp only [ins]
    split
    · rename_i hq
      refine List.pairwise_cons.mpr ⟨fun x hx => ?_, h⟩
      rcases List.mem_cons.mp hx with rfl | hx
      · exact hq
      · have := h1 x hx
        rw [compar_le] at *; omega
    · rename_i hq
      refine List.pairwise_cons.mpr ⟨fun x hx => ?_, ih h2⟩
      rcases List.mem_cons.mp ((ins_perm q l).mem_iff.mp hx) with rfl | hx
      · rw [compar_le] at *; omega
      · exact h1 x hx

theorem isort_ok (m) : (isort m).Perm m ∧ (isort m).Pairwise fun a b => comparMonom a b ≤ 0 := by
  induction m with
  | nil => exact ⟨List.Perm.refl _, List.Pairwise.nil⟩
  | cons a l ih => exact ⟨(ins_perm a _).trans (ih.1.cons a), ins_sorted ih.2⟩

/-- No variable is known. -/
def E0 : Env := ⟨fun _ _ => none, isort⟩

/-- Variable 5 is known to be 4. -/
def E5 : Env := ⟨fun _ n => if n = 5 then some 4 else none, isort⟩

theorem E0_sort : SortOk E0 := isort_ok
theorem E5_sort : SortOk E5 := isort_ok
theorem E0_inst (w) : InstOk E0 w := fun _ _ _ h => by cases h
theorem E0_known (store) : InstSound E0 store := fun _ _ _ h => by cases h
theorem E5_inst : InstOk E5 (fun _ => 100) := by
  intro _ n k h
  simp only [E5] at h
  split at h
  · cases h; exact ⟨by decide, (by decide : (4 : Int) ≤ 100)⟩
  · cases h
theorem E5_known : InstSound E5 (fun σ => σ 5 = 4) := by
  intro _ n k h τ _ hs _
  simp only [E5] at h
  split at h
  · cases h; subst n; exact hs
  · cases h

/-- `X0 + 2*X1 + X2*X3 #= 7 + X4 // 3 + X5*X0`, with `X5 = 4`. -/
def exL : Tm := .add (.add (.var 0) (.mul (.int 2) (.var 1))) (.mul (.var 2) (.var 3))
def exR : Tm := .add (.add (.int 7) (.quot (.var 4) (.int 3))) (.mul (.var 5) (.var 0))

theorem ex_fits : fits2 (fun _ => 100) exL exR := by
  simp [fits2, exL, exR, fits, mag, MAX]

theorem ex_post : ∃ st, post E5 .eq exL exR = .ok () st ∧ st.posted.length = 5 := ⟨_, rfl, rfl⟩

/-- The hypotheses of the theorems are met, and there is a solution: `1 + 2*6 + 1*4 = 7 + 18//3 + 4*1`. -/
example : (∃ st, post E5 .eq exL exR = .ok () st ∧
    ∃ τ : Var → Int, τ (.orig 4) = 18 ∧ Dom τ ∧ satAll τ st.posted) := by
  obtain ⟨st, h, _⟩ := ex_post
  let σ : Nat → Int := fun n => match n with
    | 0 => 1
    | 1 => 6
    | 2 => 1
    | 3 => 4
    | 4 => 18
    | 5 => 4
    | _ => 0
  have hb : ∀ n, 0 ≤ σ n ∧ σ n ≤ 100 := by
    intro n
    simp only [σ]
    split <;> decide
  have hM : MAX = 268435455 := rfl
  obtain ⟨τ, t1, t2, t3⟩ := (C48_posted_constraints_are_exact_partial E5_sort E5_inst E5_known (by simp)
    ex_fits h σ rfl (fun n => by have := hb n; omega) (fun n => by have := hb n; simp; omega)).mpr
      ⟨17, 17, rfl, rfl, rfl⟩
  exact ⟨st, h, τ, t1 4, t2, t3⟩

/-- A constraint that fails: `X0 + 1 #= X0`. -/
example : post E0 .eq (.add (.var 0) (.int 1)) (.var 0) = .fail := rfl
example : fits2 (fun _ => 100) (.add (.var 0) (.int 1)) (.var 0) := by simp [fits2, fits, mag, MAX]

example : Linear (.sub (.mul (.int 3) (.var 0)) (.neg (.add (.var 1) (.int 2)))) := by simp [Linear]
example : QuotLinear (.mul (.quot (.add (.var 0) (.var 1)) (.int 3)) (.var 0)) := by
  simp [QuotLinear, Linear, vars]

/-! ## Where the code disagrees with the manual -/

/-- Both variables at given values, the others at 0. -/
def two (a b : Int) : Var → Int
  | .orig 0 => a
  | .orig 1 => b
  | _ => 0

theorem two_dom {a b : Int} (ha : 0 ≤ a ∧ a ≤ MAX) (hb : 0 ≤ b ∧ b ≤ MAX) : Dom (two a b) := by
  intro v
  unfold two
  split
  · exact ha
  · exact hb
  · decide

/-- A coefficient above the largest FD integer is clamped: `300000000*X #= Y` has the solution
`X = 1`, `Y = 268435455`. -/
theorem C48_clamped_coefficient_violated :
    ∃ st, post E0 .eq (.mul (.int 300000000) (.var 0)) (.var 1) = .ok () st ∧
      ∃ τ, Dom τ ∧ satAll τ st.posted ∧
        ¬ holds (fun n => τ (.orig n)) .eq (.mul (.int 300000000) (.var 0)) (.var 1) := by
  refine ⟨_, rfl, two 1 268435455, two_dom (by decide) (by decide), ?_, ?_⟩
  · intro c hc
    rcases List.mem_singleton.mp hc with rfl
    exact (by decide : clamp 300000000 * 1 = 268435455)
  · rintro ⟨x, y, h1, h2, h3⟩
    cases h1; cases h2
    simp [Op.holds, two] at h3

/-- `X #>= 300000000` has the solution `X = 268435455`. -/
theorem C48_clamped_bound_violated :
    ∃ st, post E0 .gte (.var 0) (.int 300000000) = .ok () st ∧
      ∃ τ, Dom τ ∧ satAll τ st.posted ∧
        ¬ holds (fun n => τ (.orig n)) .gte (.var 0) (.int 300000000) := by
  refine ⟨_, rfl, two 268435455 0, two_dom (by decide) (by decide), ?_, ?_⟩
  · intro c hc
    rcases List.mem_singleton.mp hc with rfl
    exact (by decide : (268435455 : Int) ≥ clamp 300000000)
  · rintro ⟨x, y, h1, h2, h3⟩
    cases h1; cases h2
    simp [Op.holds, two] at h3

/-- `X #\= 300000000` excludes `X = 268435455`. -/
theorem C48_clamped_disequality_violated :
    ∃ st, post E0 .neq (.var 0) (.int 300000000) = .ok () st ∧
      holds (fun _ => 268435455) .neq (.var 0) (.int 300000000) ∧
      ∀ τ : Var → Int, τ (.orig 0) = 268435455 → ¬ satAll τ st.posted := by
  refine ⟨_, rfl, ⟨268435455, 300000000, rfl, rfl, (by decide : (268435455 : Int) ≠ 300000000)⟩, fun τ h hs => ?_⟩
  have := hs (.xNeqC (.var (.orig 0)) 300000000) (List.mem_singleton.mpr rfl)
  exact this h

/-- Powers are computed modulo 2^32: `X #= 6**13` is `X = 175792128`. -/
theorem C48_power_overflow_violated :
    (∃ st, post E0 .eq (.var 0) (.pow (.int 6) (.int 13)) = .ok () st ∧
      st.posted = [.xEqC (.var (.orig 0)) 175792128]) ∧
    (∃ st, post E0 .eq (.var 0) (.pow (.int 10) (.int 10)) = .ok () st ∧
      st.posted = [.xEqC (.var (.orig 0)) 268435455]) ∧
    (6 : Int) ^ 13 ≠ 175792128 ∧ (10 : Int) ^ 10 ≠ 268435455 := by
  refine ⟨⟨_, rfl, rfl⟩, ⟨_, rfl, rfl⟩, by decide, by decide⟩

/-- The operands of the operators other than `+`, `-`, `*` are forced to be non-negative:
`X #= max(Y - 5, 0)` has no solution with `Y = 3` (the maximum is 0). -/
theorem C48_negative_operand_violated :
    ∃ st, post E0 .eq (.var 0) (.max (.sub (.var 1) (.int 5)) (.int 0)) = .ok () st ∧
      ∀ τ : Var → Int, Dom τ → τ (.orig 1) = 3 → ¬ satAll τ st.posted := by
  refine ⟨_, rfl, fun τ d h hs => ?_⟩
  have h1 := hs (.xPlusCEqY (.var (.fd 0)) 5 (.var (.orig 1))) (List.mem_cons_self ..)
  have e : τ (.fd 0) + 5 = τ (.orig 1) := h1
  have := (d (.fd 0)).1
  omega

/-- Sums are FD variables: `X + Y #\= 3` excludes `X = Y = 200000000`. -/
theorem C48_large_sum_violated :
    ∃ st, post E0 .neq (.add (.var 0) (.var 1)) (.int 3) = .ok () st ∧
      holds (fun _ => 200000000) .neq (.add (.var 0) (.var 1)) (.int 3) ∧
      ∀ τ : Var → Int, Dom τ → τ (.orig 0) = 200000000 → τ (.orig 1) = 200000000 →
        ¬ satAll τ st.posted := by
  refine ⟨_, rfl, ⟨400000000, 3, rfl, rfl, (by decide : (400000000 : Int) ≠ 3)⟩, fun τ d h0 h1 hs => ?_⟩
  have e1 := hs (.xPlusYEqZ (.var (.orig 0)) (.var (.orig 1)) (.var (.fd 0))) (List.mem_cons_self ..)
  have e : τ (.orig 0) + τ (.orig 1) = τ (.fd 0) := e1
  have := (d (.fd 0)).2
  have hM : MAX = 268435455 := rfl
  omega

/-- `//` with operands that are constants but make cells on the heap: the cell released is not the
one of the remainder but one in use. -/
theorem C48_released_cell_violated :
    post E0 .eq (.var 0) (.add (.mul (.var 1) (.var 2))
      (.quot (.mul (.int 0) (.mul (.var 3) (.var 4))) (.int 3))) = .ub ∧
    post E0 .eq (.var 0) (.quot (.pow (.int 1) (.mul (.var 3) (.var 4))) (.int 3)) = .ub :=
  ⟨rfl, rfl⟩

end Gp.FdMath
