import Verif.FdRange.RangeOps
/-
C23, C24: the operations on the finite domain ranges.
A range is specified by `Mem` (Spec.lean): the values between the bounds of an interval, the bits set of a vector. `Repr c r T`
says that `r` represents the set of naturals `T`. `Win c n` is 0 <= n <= fd_vector_max.
-/
namespace Gp.FdRange

/-- A configuration for the examples: vectors of two words (fd_vector_max = 127), the memory around them is not null. -/
def exCfg : Cfg := ⟨2, [0xdeadbeef#64, 0x5#64], 0x10#64, -7⟩

theorem exCfg_ok : exCfg.Ok := ⟨by decide, rfl, by decide⟩

theorem iv_wf (c : Cfg) (a b : Int) (h : -2147483648 < a) : WF c (initInterval a b) := wf_none rfl h

/-! ## C23: set operations -/

/-- C23: the membership test. -/
theorem C23_test_value (c : Cfg) (r : Range) (hw : WF c r) (n : Int) : testValue r n = true ↔ Mem r n := testValue_mem c r hw n

/-- C23: the bounds are the least and the greatest elements, the emptiness test is exact. -/
theorem C23_bounds (c : Cfg) (r : Range) (hw : WF c r) :
    (r.isEmpty = true ↔ ∀ n, ¬ Mem r n) ∧
    (r.isEmpty = false → Mem r r.min ∧ Mem r r.max ∧ ∀ n, Mem r n → r.min ≤ n ∧ n ≤ r.max) := by
  refine ⟨⟨fun h => not_mem_empty ((isEmpty_iff r).1 h), fun h => ?_⟩, fun h => bounds_mem c r hw ((isEmpty_false r).1 h)⟩
  cases he : r.isEmpty with
  | true => rfl
  | false => exact absurd (bounds_mem c r hw ((isEmpty_false r).1 he)).1 (h _)

/-- C23: the test of the emptiness of an intersection (without computing it), for two ranges which are not empty. -/
theorem C23_test_null_inter (c : Cfg) (r r1 : Range) (hw : WF c r) (hw1 : WF c r1) (hne : r.isEmpty = false)
    (hne1 : r1.isEmpty = false) : testNullInter r r1 = true ↔ ∀ n, ¬ (Mem r n ∧ Mem r1 n) :=
  testNullInter_iff c r r1 hw hw1 ((isEmpty_false r).1 hne) ((isEmpty_false r1).1 hne1)

/-- With an empty interval the test is not exact: 3..2 and 2..3 are said to have a common element. -/
theorem C23_test_null_inter_empty_witness :
    testNullInter (initInterval 3 2) (initInterval 2 3) = false ∧ ∀ n, ¬ Mem (initInterval 3 2) n :=
  ⟨by decide, fun n => not_mem_empty (by decide) n⟩

theorem compl_vec (c : Cfg) (hc : c.Ok) (r : Range) (hw : WF c r) (h : r.vec ≠ none) : (compl c r).vec ≠ none := by
  cases hr : r.vec with
  | none => exact absurd hr h
  | some v =>
    have := (complSparse_spec c hc r v hr hw).2.1
    unfold compl; rw [hr]; exact this

/-- C23: union. -/
theorem C23_union (c : Cfg) (hc : c.Ok) (r r1 : Range) (T T1 : Nat → Prop) (h : Repr c r T) (h1 : Repr c r1 T1) :
    Repr c (union c r r1) (fun n => T n ∨ T1 n) := by
  refine ⟨union_wf c hc r r1 h.1 h1.1, ?_, ?_⟩
  · intro n hn
    rw [union_mem c hc r r1 h.1 h1.1 n hn]
    dsimp only
    rcases hn with hn | hn
    · rcases union_eq c r r1 with ⟨e1, e2, _⟩ | e
      · rw [h.2.1 n (Or.inl e1), h1.2.1 n (Or.inl e2)]
      · rw [e] at hn
        obtain ⟨s1, ⟨v, s2, _⟩, _⟩ := sparseArg_spec c hc r h.1
        obtain ⟨t1, ⟨v1, t2, _⟩, _⟩ := sparseArg_spec c hc r1 h1.1
        exact absurd hn (unionSS_spec c _ _ v v1 s2 t2 s1 t1).2.1
    · rw [h.2.1 n (Or.inr hn), h1.2.1 n (Or.inr hn)]
  · intro hv he n hT
    rcases union_eq c r r1 with ⟨e1, _, _, _, _, _, e⟩ | e
    · rw [e] at hv; exact absurd e1 hv
    · rw [e] at he
      obtain ⟨s1, ⟨v, s2, _⟩, _⟩ := sparseArg_spec c hc r h.1
      obtain ⟨t1, ⟨v1, t2, _⟩, _⟩ := sparseArg_spec c hc r1 h1.1
      rw [(unionSS_spec c _ _ v v1 s2 t2 s1 t1).2.2.1, Bool.or_eq_false_iff] at he
      rcases hT with hT | hT
      · exact sparseArg_extra c hc r T h he.1 n hT
      · exact sparseArg_extra c hc r1 T1 h1 he.2 n hT

/-- C23: intersection. -/
theorem C23_inter (c : Cfg) (hc : c.Ok) (r r1 : Range) (T T1 : Nat → Prop) (h : Repr c r T) (h1 : Repr c r1 T1) :
    Repr c (inter c r r1) (fun n => T n ∧ T1 n) := by
  refine ⟨inter_wf c hc r r1 h.1 h1.1, ?_, ?_⟩
  · intro n hn
    rw [inter_mem c hc r r1 h.1 h1.1]
    dsimp only
    rcases hn with hn | hn
    · rcases inter_eq c r r1 with ⟨e1, e2, _⟩ | ⟨_, e⟩
      · rw [h.2.1 n (Or.inl e1), h1.2.1 n (Or.inl e2)]
      · rw [e] at hn
        obtain ⟨s1, ⟨v, s2, _⟩, _⟩ := sparseArg_spec c hc r h.1
        obtain ⟨t1, ⟨v1, t2, _⟩, _⟩ := sparseArg_spec c hc r1 h1.1
        exact absurd hn (interSS_spec c hc _ _ v v1 s2 t2 s1 t1).2.1
    · rw [h.2.1 n (Or.inr hn), h1.2.1 n (Or.inr hn)]
  · intro hv he n hT
    rcases inter_eq c r r1 with ⟨e1, _, e⟩ | ⟨_, e⟩
    · rw [e] at hv; exact absurd e1 hv
    · rw [e] at he
      obtain ⟨s1, ⟨v, s2, _⟩, _⟩ := sparseArg_spec c hc r h.1
      obtain ⟨t1, ⟨v1, t2, _⟩, _⟩ := sparseArg_spec c hc r1 h1.1
      rw [(interSS_spec c hc _ _ v v1 s2 t2 s1 t1).2.2.1] at he
      cases hb : (sparseArg c r).extra with
      | false => exact sparseArg_extra c hc r T h hb n hT.1
      | true =>
        rw [hb, Bool.true_and] at he
        exact sparseArg_extra c hc r1 T1 h1 he n hT.2

/-- C23: complement in 0..fd_max_integer, for a range which is not an interval above fd_max_integer + 1. -/
theorem C23_compl (c : Cfg) (hc : c.Ok) (hv : c.vmax ≤ imax) (r : Range) (T : Nat → Prop) (h : Repr c r T)
    (hmin : r.vec = none → r.min ≤ imax + 1) :
    Repr c (compl c r) (fun n => (n : Int) ≤ imax ∧ ¬ T n) := by
  obtain ⟨s1, s2, s3⟩ := compl_spec c hc hv r h.1 hmin
  refine ⟨s1, ?_, ?_⟩
  · intro n hn
    rw [s3 n (by omega) hn]
    dsimp only
    have : r.vec = none ∨ Win c n := by
      rcases hn with hn | hn
      · by_cases hr : r.vec = none
        · exact Or.inl hr
        · exact absurd hn (compl_vec c hc r h.1 hr)
      · exact Or.inr hn
    rw [h.2.1 n this]
  · intro hv' he
    rw [s2 hv'] at he; cases he

/-- The complement of an interval which begins above fd_max_integer + 1 has elements above fd_max_integer. -/
theorem C23_compl_witness : Mem (compl exCfg (initInterval 268435460 268435470)) 268435458 := by
  refine ⟨by decide, ?_⟩
  exact ⟨by decide, by decide⟩

/-! Expressions -/

/-- The set expressions over intervals of 0..fd_max_integer. -/
inductive Expr
  | iv (a b : Nat)
  | union (e e1 : Expr)
  | inter (e e1 : Expr)
  | compl (e : Expr)

/-- Its bounds are at most fd_max_integer. -/
def Expr.ok : Expr → Prop
  | .iv a b => (a : Int) ≤ imax ∧ (b : Int) ≤ imax
  | .union e e1 => e.ok ∧ e1.ok
  | .inter e e1 => e.ok ∧ e1.ok
  | .compl e => e.ok

/-- The set of an expression. -/
def Expr.den : Expr → Nat → Prop
  | .iv a b, n => a ≤ n ∧ n ≤ b
  | .union e e1, n => e.den n ∨ e1.den n
  | .inter e e1, n => e.den n ∧ e1.den n
  | .compl e, n => (n : Int) ≤ imax ∧ ¬ e.den n

/-- The computation with the operations of the model. -/
def Expr.eval (c : Cfg) : Expr → Range
  | .iv a b => initInterval a b
  | .union e e1 => Gp.FdRange.union c (e.eval c) (e1.eval c)
  | .inter e e1 => Gp.FdRange.inter c (e.eval c) (e1.eval c)
  | .compl e => Gp.FdRange.compl c (e.eval c)

/-- C23: the computation of any expression represents its set: exactly if the result is an interval or is not flagged, on
0..fd_vector_max otherwise. -/
theorem C23_expressions (c : Cfg) (hc : c.Ok) (hv : c.vmax ≤ imax) (e : Expr) (he : e.ok) :
    Repr c (e.eval c) e.den ∧
    (∀ n : Nat, Win c n → (testValue (e.eval c) n = true ↔ e.den n)) ∧
    ((e.eval c).vec = none ∨ (e.eval c).extra = false → ∀ n : Nat, testValue (e.eval c) n = true ↔ e.den n) := by
  have hi : (imax : Int) = 268435455 := rfl
  have key : Repr c (e.eval c) e.den ∧ ((e.eval c).vec = none → (e.eval c).min ≤ imax + 1) := by
    induction e with
    | iv a b =>
      have h1 := he.1
      refine ⟨⟨iv_wf c a b (by omega), fun n _ => ?_, fun h => absurd rfl h⟩, fun _ => ?_⟩
      · unfold Expr.den Expr.eval initInterval
        rw [mem_iv rfl]; omega
      · simp only [Expr.eval, initInterval]; omega
    | union e e1 ih ih1 =>
      obtain ⟨a1, a2⟩ := ih he.1
      obtain ⟨b1, b2⟩ := ih1 he.2
      refine ⟨C23_union c hc _ _ _ _ a1 b1, fun h => ?_⟩
      unfold Expr.eval at h ⊢
      rcases union_eq c (e.eval c) (e1.eval c) with ⟨g1, g2, _, _, _, _, g⟩ | g
      · rw [g]
        have := a2 g1
        have := b2 g2
        simp only; split <;> omega
      · rw [g] at h
        obtain ⟨s1, ⟨v, s2, _⟩, _⟩ := sparseArg_spec c hc _ a1.1
        obtain ⟨t1, ⟨v1, t2, _⟩, _⟩ := sparseArg_spec c hc _ b1.1
        exact absurd h (unionSS_spec c _ _ v v1 s2 t2 s1 t1).2.1
    | inter e e1 ih ih1 =>
      obtain ⟨a1, a2⟩ := ih he.1
      obtain ⟨b1, b2⟩ := ih1 he.2
      refine ⟨C23_inter c hc _ _ _ _ a1 b1, fun h => ?_⟩
      unfold Expr.eval at h ⊢
      rcases inter_eq c (e.eval c) (e1.eval c) with ⟨g1, g2, g⟩ | ⟨_, g⟩
      · rw [g]
        have := a2 g1
        have := b2 g2
        simp only; split <;> omega
      · rw [g] at h
        obtain ⟨s1, ⟨v, s2, _⟩, _⟩ := sparseArg_spec c hc _ a1.1
        obtain ⟨t1, ⟨v1, t2, _⟩, _⟩ := sparseArg_spec c hc _ b1.1
        exact absurd h (interSS_spec c hc _ _ v v1 s2 t2 s1 t1).2.1
    | compl e ih =>
      obtain ⟨a1, a2⟩ := ih he
      refine ⟨C23_compl c hc hv _ _ a1 a2, fun h => ?_⟩
      unfold Expr.eval at h ⊢
      have hr : (e.eval c).vec = none := by
        cases hr : (e.eval c).vec with
        | none => rfl
        | some v => exact absurd h (compl_vec c hc _ a1.1 (by rw [hr]; simp))
      have := a2 hr
      unfold Gp.FdRange.compl at h ⊢
      rw [hr] at h ⊢
      simp only at h ⊢
      split
      · simp only; omega
      · split
        · split
          · exact this
          · simp only; omega
        · split
          · simp only; omega
          · rename_i g1 g2 g3
            rw [if_neg g1, if_neg g2, if_neg g3] at h
            obtain ⟨s1, ⟨v, s2, _⟩, _⟩ := becomesSparse_spec c hc _ hr
            exact absurd h (complSparse_spec c hc _ v s2 s1).2.1
  refine ⟨key.1, fun n hn => ?_, fun h n => ?_⟩
  · rw [C23_test_value c _ key.1.1, key.1.2.1 n (Or.inr hn)]
  · rw [C23_test_value c _ key.1.1]
    cases hr : (e.eval c).vec with
    | none => rw [key.1.2.1 n (Or.inl hr)]
    | some v =>
      have hx := h.resolve_left (by rw [hr]; simp)
      constructor
      · intro hm; exact (key.1.2.1 n (Or.inr (mem_win key.1.1 hr hm))).2 hm
      · intro hd; exact (key.1.2.1 n (Or.inr (key.1.2.2 (by rw [hr]; simp) hx n hd))).1 hd

/-- The expression \(3..10 \/ 20..300) /\ 5..70: the result is a vector, not flagged. -/
def exExpr : Expr := .inter (.compl (.union (.iv 3 10) (.iv 20 300))) (.iv 5 70)

example : exExpr.ok := by simp [exExpr, Expr.ok]; decide

example : (exExpr.eval exCfg).vec ≠ none ∧ (exExpr.eval exCfg).extra = false ∧ (exExpr.eval exCfg).min = 11 ∧
    (exExpr.eval exCfg).max = 19 := by decide

example : Win exCfg 64 := by unfold Win exCfg; decide

example : ¬ testValue (exExpr.eval exCfg) 64 = true ∧ testValue (exExpr.eval exCfg) 15 = true := by decide

example : testNullInter (exExpr.eval exCfg) (initInterval 0 12) = false ∧ testNullInter (exExpr.eval exCfg) (initInterval 0 10) = true := by
  decide

/-! Insertion and removal of a value -/

theorem setValue_vec (c : Cfg) (hc : c.Ok) (r r' : Range) (hw : WF c r) (n : Int) (hne : r.isEmpty = false) (hv : r.vec ≠ none)
    (h : setValue c r n = some r') : r'.vec ≠ none := by
  cases hr : r.vec with
  | none => exact absurd hr hv
  | some v =>
    obtain ⟨r'', s1, _, s3, _⟩ := setSparse_spec c hc r v hr hw ((isEmpty_false r).1 hne) n false
    unfold setValue at h
    rw [hne, hr] at h
    simp only [Bool.false_eq_true, if_false] at h
    rw [s1] at h
    cases h; exact s3

/-- C23: the insertion of a value. Missing (`_partial`): an interval without any value of 0..fd_vector_max which has to become a
vector (see the witness below), and a range which is empty although its set is not (a flagged one). -/
theorem C23_set_value_partial (c : Cfg) (hc : c.Ok) (r : Range) (T : Nat → Prop) (h : Repr c r T) (hf : Fits c r)
    (hlo : -2147483648 < r.min - 1) (hT : r.isEmpty = true → ∀ n, ¬ T n) (n : Nat) :
    ∃ r', setValue c r n = some r' ∧ Repr c r' (fun m => T m ∨ m = n) := by
  obtain ⟨r', s1, s2, s3, s4⟩ := setValue_spec c hc r h.1 hf n (by omega) hlo
  refine ⟨r', s1, s2, ?_, ?_⟩
  · intro m hm
    rw [s3 m hm]
    dsimp only
    have hmn : ((m : Int) = n) ↔ m = n := by omega
    rw [hmn]
    cases he : r.isEmpty with
    | true =>
      have e1 := hT he m
      have e2 := not_mem_empty ((isEmpty_iff r).1 he) m
      simp [e1, e2]
    | false =>
      have : r.vec = none ∨ Win c m := by
        rcases hm with hm | hm
        · by_cases hr : r.vec = none
          · exact Or.inl hr
          · exact absurd hm (setValue_vec c hc r r' h.1 n he hr s1)
        · exact Or.inr hm
      rw [h.2.1 m this]
  · intro hv he m hm
    rw [s4 hv, Bool.or_eq_false_iff, outside_false] at he
    rcases hm with hm | rfl
    · exact sparseArg_extra c hc r T h he.1 m hm
    · exact he.2

example : Fits exCfg (initInterval 100 130) ∧ (setValue exCfg (initInterval 100 130) 3).isSome ∧
    (setValue exCfg (initInterval 100 130) 3).map (fun r => (r.min, r.max, r.extra)) = some (3, 127, true) := by
  refine ⟨fun _ => by decide, by decide, by decide⟩

/-- An interval above fd_vector_max has no vector: the insertion of a value sets a bit in a memory which is not initialised, its other
bits become elements. -/
theorem C23_set_value_junk_witness : ∃ r', setValue exCfg (initInterval 200 300) 5 = some r' ∧ Mem r' 0 := by
  refine ⟨_, rfl, ?_⟩
  refine ⟨by decide, ?_⟩
  show (0 : Int) ≤ 0 ∧ bit _ (0 : Int).toNat = true
  decide

/-- The insertion of a value in a range which is empty on 0..fd_vector_max removes the flag: the elements above are lost. -/
theorem C23_set_value_flag_witness :
    ∃ r : Range, Repr exCfg r (fun n => n = 200) ∧ r.vec ≠ none ∧
      setValue exCfg r 5 = some (initInterval 5 5) ∧ ¬ Repr exCfg (initInterval 5 5) (fun m => m = 200 ∨ m = 5) := by
  refine ⟨⟨true, 0, -1, some [0#64, 0#64]⟩, ⟨⟨by decide, ?_⟩, ?_, ?_⟩, by simp, by decide, ?_⟩
  · intro v hv; cases hv; exact ⟨rfl, fun h => absurd h (by decide)⟩
  · intro n hn
    constructor
    · rintro rfl; rcases hn with hn | hn
      · cases hn
      · exact absurd hn.2 (by decide)
    · intro hm; exact absurd hm.1 (by decide)
  · intro _ h; cases h
  · intro h
    have := (h.2.1 200 (Or.inl rfl)).1 (Or.inl rfl)
    exact absurd this.2.2 (by decide)

theorem resetValue_vec (c : Cfg) (hc : c.Ok) (r r' : Range) (hw : WF c r) (n : Int) (hv : r.vec ≠ none)
    (h : resetValue c r n = some r') : r'.vec ≠ none := by
  cases hr : r.vec with
  | none => exact absurd hr hv
  | some v =>
    have hl := (hw.2 v hr).1
    have hlo := hw.1
    unfold resetValue at h
    rw [hr] at h
    simp only at h
    split at h
    · cases h; exact hv
    · split at h
      · cases h; exact hv
      · split at h
        · cases h; exact hv
        · split at h
          · cases h
            rw [(fromVector_spec c hc r hlo (resetV v n.toNat) (by rw [resetV_len]; exact hl)).2.1]; simp
          · cases h; simp

/-- C23: the removal of a value. Missing (`_partial`): the removal of 0 from an interval with a negative minimum, and of fd_vector_max
from an interval with a greater maximum (see the witness below). -/
theorem C23_reset_value_partial (c : Cfg) (hc : c.Ok) (r : Range) (T : Nat → Prop) (h : Repr c r T) (n : Nat) (hok : ResetOk c r n) :
    ∃ r', resetValue c r n = some r' ∧ Repr c r' (fun m => T m ∧ m ≠ n) := by
  obtain ⟨r', s1, s2, s3, s4⟩ := resetValue_spec c hc r h.1 n hok
  refine ⟨r', s1, s2, ?_, ?_⟩
  · intro m hm
    rw [s3 m hm]
    dsimp only
    have hmn : ((m : Int) ≠ n) ↔ m ≠ n := by omega
    rw [hmn]
    have : r.vec = none ∨ Win c m := by
      rcases hm with hm | hm
      · by_cases hr : r.vec = none
        · exact Or.inl hr
        · exact absurd hm (resetValue_vec c hc r r' h.1 n hr s1)
      · exact Or.inr hm
    rw [h.2.1 m this]
  · intro hv he m hm
    rw [s4 hv] at he
    exact sparseArg_extra c hc r T h he m hm.1

example : ResetOk exCfg (initInterval 60 130) 64 ∧
    (resetValue exCfg (initInterval 60 130) 64).map (fun r => (r.min, r.max, r.extra, testValue r 64, testValue r 65)) =
      some (60, 127, true, false, true) := by
  refine ⟨fun _ _ _ => by decide, by decide⟩

/-- The removal of fd_vector_max from an interval with a greater maximum: it remains the maximum, the test answers that it belongs to
the range, although its bit is null. -/
theorem C23_reset_value_witness :
    ∃ r', resetValue exCfg (initInterval 60 130) 127 = some r' ∧ testValue r' 127 = true ∧ r'.max = 127 ∧
      r'.vec = some [0xf000000000000000#64, 0x7fffffffffffffff#64] := ⟨_, rfl, by decide, by decide, by decide⟩

/-! Enumeration -/

/-- C23: the cardinality and the i-th element (from 1, -1 if there is none), for a range which is not empty: `l` is the increasing
list of the elements. -/
theorem C23_nb_ith (r : Range) (hne : r.isEmpty = false) (l : List Int) (hl : Listing r l) :
    nbElem r = l.length ∧ ∀ i : Int, ithElem r i = if 0 < i then (l[(i - 1).toNat]?).getD (-1) else -1 := by
  have hne := (isEmpty_false r).1 hne
  have hel := elems_listing r hne
  have : l = elems r := sorted_unique hl.1 hel.1 (fun n => by rw [hl.2, hel.2])
  subst this
  exact ⟨nbElem_elems r hne, ithElem_elems r hne⟩

/-- There is always such a list. -/
theorem C23_listing (r : Range) (hne : r.isEmpty = false) : ∃ l, Listing r l := ⟨_, elems_listing r ((isEmpty_false r).1 hne)⟩

example : nbElem (exExpr.eval exCfg) = 9 ∧ ithElem (exExpr.eval exCfg) 2 = 12 ∧ ithElem (exExpr.eval exCfg) 10 = -1 := by decide

/-- C23: the next element, -1 if there is none, for a range of naturals. -/
theorem C23_next_after (c : Cfg) (r : Range) (hw : WF c r) (h0 : 0 ≤ r.min) (n : Int) :
    (nextAfter c r n = -1 ∧ ∀ m, n < m → ¬ Mem r m) ∨
    (Mem r (nextAfter c r n) ∧ n < nextAfter c r n ∧ ∀ m, n < m → m < nextAfter c r n → ¬ Mem r m) := by
  unfold nextAfter
  cases he : r.isEmpty with
  | true =>
    rw [if_pos rfl]
    exact Or.inl ⟨rfl, fun m _ => not_mem_empty ((isEmpty_iff r).1 he) m⟩
  | false =>
    have hne := (isEmpty_false r).1 he
    simp only [Bool.false_eq_true, if_false]
    cases hr : r.vec with
    | none =>
      simp only [mem_none hr]
      split
      · exact Or.inl ⟨rfl, fun m _ _ => by omega⟩
      · right
        split
        · exact ⟨by omega, by omega, fun m _ _ _ => by omega⟩
        · exact ⟨by omega, by omega, fun m _ _ _ => by omega⟩
    | some v =>
      simp only [mem_some hr]
      rcases nextAfter_spec c v n (hw.2 v hr).1 with ⟨h1, h2⟩ | ⟨h1, h2, h3, h4⟩
      · refine Or.inl ⟨h1, fun m hm hmem => ?_⟩
        have := h2 m.toNat (by omega)
        rw [hmem.2.2] at this; cases this
      · refine Or.inr ⟨⟨hne, h1, h3⟩, h2, fun m hm1 hm2 hmem => ?_⟩
        have := h4 m.toNat (by omega) (by omega)
        rw [hmem.2.2] at this; cases this

/-- C23: the previous element, -1 if there is none, for a range of naturals. -/
theorem C23_next_before (c : Cfg) (r : Range) (hw : WF c r) (h0 : 0 ≤ r.min) (n : Int) :
    (nextBefore c r n = -1 ∧ ∀ m, m < n → ¬ Mem r m) ∨
    (Mem r (nextBefore c r n) ∧ nextBefore c r n < n ∧ ∀ m, m < n → nextBefore c r n < m → ¬ Mem r m) := by
  unfold nextBefore
  cases he : r.isEmpty with
  | true =>
    rw [if_pos rfl]
    exact Or.inl ⟨rfl, fun m _ => not_mem_empty ((isEmpty_iff r).1 he) m⟩
  | false =>
    have hne := (isEmpty_false r).1 he
    simp only [Bool.false_eq_true, if_false]
    cases hr : r.vec with
    | none =>
      simp only [mem_none hr]
      split
      · exact Or.inl ⟨rfl, fun m _ _ => by omega⟩
      · right
        split
        · exact ⟨by omega, by omega, fun m _ _ _ => by omega⟩
        · exact ⟨by omega, by omega, fun m _ _ _ => by omega⟩
    | some v =>
      simp only [mem_some hr]
      rcases nextBefore_spec c v n (hw.2 v hr).1 with ⟨h1, h2⟩ | ⟨h1, h2, h3, h4⟩
      · refine Or.inl ⟨h1, fun m hm hmem => ?_⟩
        have := h2 m.toNat (by omega)
        rw [hmem.2.2] at this; cases this
      · refine Or.inr ⟨⟨hne, h1, h3⟩, h2, fun m hm1 hm2 hmem => ?_⟩
        have := h4 m.toNat (by omega) (by omega)
        rw [hmem.2.2] at this; cases this

/-- 3..5 \/ 64 \/ 127 -/
def exSet : Range := ⟨false, 3, 127, some [0x38#64, 0x8000000000000001#64]⟩

example : (nextAfter exCfg exSet 5, nextAfter exCfg exSet 64, nextAfter exCfg exSet 127, nextBefore exCfg exSet 64,
    nextBefore exCfg exSet 1000, nextBefore exCfg exSet 3) = (64, 127, -1, 5, 127, -1) := by decide

/-! ## C24: arithmetic

`Clip c r x`: x is an element of 0..fd_vector_max. `Fits c r`: an interval has such an element. -/

/-- C24: an operation with an empty range gives an empty range. -/
theorem C24_empty (c : Cfg) (r r1 : Range) (hlo : -2147483648 < r.min) (h : r.isEmpty = true ∨ r1.isEmpty = true) :
    (∃ r', addRange c r r1 = some r' ∧ r'.isEmpty = true) ∧ (∃ r', subRange c r r1 = some r' ∧ r'.isEmpty = true) ∧
    (∃ r', mulRange c r r1 = some r' ∧ r'.isEmpty = true) ∧ (∃ r', divRange c r r1 = some r' ∧ r'.isEmpty = true) ∧
    (∃ r', modRange c r r1 = some r' ∧ r'.isEmpty = true) := by
  have hse : r.setEmpty.isEmpty = true := by simp [Range.setEmpty, Range.isEmpty]; omega
  unfold addRange subRange mulRange divRange modRange opRange
  cases he : r.isEmpty with
  | true => simp [he]
  | false =>
    have h1 : r1.isEmpty = true := by rw [he] at h; simpa using h
    simp [h1, hse]

/-- C24: the addition of two intervals. -/
theorem C24_add_intervals (c : Cfg) (a b a1 b1 : Int) (h : a ≤ b) (h1 : a1 ≤ b1) :
    ∃ r', addRange c (initInterval a b) (initInterval a1 b1) = some r' ∧
      ∀ n, Mem r' n ↔ ∃ x y, Mem (initInterval a b) x ∧ Mem (initInterval a1 b1) y ∧ n = x + y := by
  rcases addRange_eq c (initInterval a b) (initInterval a1 b1) h h1 with ⟨_, e⟩ | ⟨e, _⟩
  · refine ⟨_, e, fun n => ?_⟩
    refine Iff.trans (mem_iv rfl n) ?_
    unfold initInterval
    simp only [mem_iv]
    constructor
    · intro hn
      by_cases hx : n - a1 ≤ b
      · exact ⟨n - a1, a1, by omega, by omega, by omega⟩
      · exact ⟨b, n - b, by omega, by omega, by omega⟩
    · rintro ⟨x, y, hx, hy, hn⟩; omega
  · exact absurd ⟨rfl, rfl⟩ e

/-- C24: the subtraction of two intervals. -/
theorem C24_sub_intervals (c : Cfg) (a b a1 b1 : Int) (h : a ≤ b) (h1 : a1 ≤ b1) :
    ∃ r', subRange c (initInterval a b) (initInterval a1 b1) = some r' ∧
      ∀ n, Mem r' n ↔ ∃ x y, Mem (initInterval a b) x ∧ Mem (initInterval a1 b1) y ∧ n = x - y := by
  rcases subRange_eq c (initInterval a b) (initInterval a1 b1) h h1 with ⟨_, e⟩ | ⟨e, _⟩
  · refine ⟨_, e, fun n => ?_⟩
    refine Iff.trans (mem_iv rfl n) ?_
    unfold initInterval
    simp only [mem_iv]
    constructor
    · intro hn
      by_cases hx : n + b1 ≤ b
      · exact ⟨n + b1, b1, by omega, by omega, by omega⟩
      · exact ⟨b, b - n, by omega, by omega, by omega⟩
    · rintro ⟨x, y, hx, hy, hn⟩; omega
  · exact absurd ⟨rfl, rfl⟩ e

example : addRange exCfg (initInterval 3 9) (initInterval (-4) 7) = some (initInterval (-1) 16) ∧
    subRange exCfg (initInterval 3 9) (initInterval (-4) 7) = some (initInterval (-4) 13) := by decide

/-- C24: the addition when an argument is sparse: the sums of the elements of 0..fd_vector_max which are in 0..fd_vector_max; if the
result is not flagged no sum has been lost. -/
theorem C24_add_range (c : Cfg) (hc : c.Ok) (r r1 : Range) (hw : WF c r) (hw1 : WF c r1) (hne : r.isEmpty = false)
    (hne1 : r1.isEmpty = false) (hs : ¬ (r.vec = none ∧ r1.vec = none)) (hf : Fits c r) (hf1 : Fits c r1) :
    ∃ r', addRange c r r1 = some r' ∧ WF c r' ∧ (∀ n, Mem r' n ↔ Win c n ∧ ∃ x y, Clip c r x ∧ Clip c r1 y ∧ n = x + y) ∧
      (r'.extra = false → ∀ x y, Mem r x → Mem r1 y → 0 ≤ x → 0 ≤ y → Mem r' (x + y)) := by
  have hne := (isEmpty_false r).1 hne
  have hne1 := (isEmpty_false r1).1 hne1
  obtain ⟨r', s1, s2, s3, s4, s5⟩ := addSS_spec c hc r r1 hw hw1 hne hne1 hf hf1
  rcases addRange_eq c r r1 hne hne1 with ⟨e, _⟩ | ⟨_, e⟩
  · exact absurd e hs
  · refine ⟨r', e.trans s1, s2, s4, fun he x y hx hy h0 h1 => ?_⟩
    obtain ⟨e1, e2, e3⟩ := s5 he
    have n1 := sparseArg_noloss c hc r hw e1 x hx
    have n2 := sparseArg_noloss c hc r1 hw1 e2 y hy
    have hvm : c.vmax = (c.size : Int) * 64 - 1 := rfl
    have c1 : Clip c r x := ⟨hx, h0, by omega⟩
    have c2 : Clip c r1 y := ⟨hy, h1, by omega⟩
    have := e3 x y c1 c2
    exact (s4 _).2 ⟨⟨by omega, by omega⟩, x, y, c1, c2, rfl⟩

/-- C24: the subtraction when an argument is sparse. -/
theorem C24_sub_range (c : Cfg) (hc : c.Ok) (hv : c.vmax ≤ imax) (r r1 : Range) (hw : WF c r) (hw1 : WF c r1) (hne : r.isEmpty = false)
    (hne1 : r1.isEmpty = false) (hs : ¬ (r.vec = none ∧ r1.vec = none)) (hf : Fits c r) (hf1 : Fits c r1) :
    ∃ r', subRange c r r1 = some r' ∧ WF c r' ∧ (∀ n, Mem r' n ↔ Win c n ∧ ∃ x y, Clip c r x ∧ Clip c r1 y ∧ n = x - y) ∧
      (r'.extra = false → ∀ x y, Mem r x → Mem r1 y → 0 ≤ y → y ≤ x → Mem r' (x - y)) := by
  have hne := (isEmpty_false r).1 hne
  have hne1 := (isEmpty_false r1).1 hne1
  obtain ⟨r', s1, s2, s3, s4, s5⟩ := subSS_spec c hc hv r r1 hw hw1 hne hne1 hf hf1
  rcases subRange_eq c r r1 hne hne1 with ⟨e, _⟩ | ⟨_, e⟩
  · exact absurd e hs
  · refine ⟨r', e.trans s1, s2, s4, fun he x y hx hy h0 h1 => ?_⟩
    rw [s5, Bool.or_eq_false_iff] at he
    have n1 := sparseArg_noloss c hc r hw he.1 x hx
    have n2 := sparseArg_noloss c hc r1 hw1 he.2 y hy
    have hvm : c.vmax = (c.size : Int) * 64 - 1 := rfl
    exact (s4 _).2 ⟨⟨by omega, by omega⟩, x, y, ⟨hx, by omega, by omega⟩, ⟨hy, by omega, by omega⟩, rfl⟩

theorem exSet_wf : WF exCfg exSet := by
  refine ⟨by decide, fun v hv => ?_⟩
  cases hv
  refine ⟨rfl, fun _ => ⟨⟨by decide, by decide, by decide⟩, ⟨by decide, by decide, by decide⟩, fun n hn => ?_⟩⟩
  have hn' : 0 ≤ n ∧ bit [0x38#64, 0x8000000000000001#64] n.toNat = true := hn.2
  have hlt := bit_lt hn'.2
  have h3 : ∀ k : Fin 3, bit [0x38#64, 0x8000000000000001#64] k.val = false := by decide
  simp only [List.length_cons, List.length_nil] at hlt
  refine ⟨?_, by simp only [exSet]; omega⟩
  apply Classical.byContradiction
  intro hc
  simp only [exSet] at hc
  have := h3 ⟨n.toNat, by omega⟩
  simp only at this
  rw [hn'.2] at this; cases this

example : exSet.isEmpty = false ∧ Fits exCfg exSet ∧ Fits exCfg (initInterval (-2) 70) ∧
    ¬ (exSet.vec = none ∧ (initInterval (-2) 70).vec = none) ∧
    (addRange exCfg exSet (initInterval (-2) 70)).map (fun r => (r.min, r.max, r.extra)) = some (3, 127, true) ∧
    (subRange exCfg exSet (initInterval (-2) 70)).map (fun r => (r.min, r.max, r.extra)) = some (0, 127, false) := by
  refine ⟨by decide, (fun h => by cases h), (fun _ => by decide), by decide, by decide +kernel, by decide +kernel⟩

/-- C24: the multiplication of two ranges, when the greatest product fits in an `int`. The flag does not tell the products which have
been lost (see the witness). -/
theorem C24_mul_range (c : Cfg) (hc : c.Ok) (hm : MulOk c) (r r1 : Range) (hw : WF c r) (hw1 : WF c r1) (hne : r.isEmpty = false)
    (hne1 : r1.isEmpty = false) (hf : Fits c r) (hf1 : Fits c r1) :
    ∃ r', mulRange c r r1 = some r' ∧ WF c r' ∧ ∀ n, Mem r' n ↔ Win c n ∧ ∃ x y, Clip c r x ∧ Clip c r1 y ∧ n = x * y := by
  obtain ⟨r', s1, s2, s3, s4, s5⟩ := opRange_spec c hc vecMulVec
    (fun A B m => m < c.size * 64 ∧ ∃ a e, A a ∧ B e ∧ m = a * e) (fun v v1 h h1 => vecMulVec_spec c hm v v1 h h1)
    (fun A A' B B' m h h1 => by simp only [h, h1]) r r1 hw hw1 ((isEmpty_false r).1 hne) ((isEmpty_false r1).1 hne1) hf hf1
  refine ⟨r', s1, s2, fun n => ?_⟩
  cases hr : r'.vec with
  | none => exact absurd hr s3
  | some v' =>
    constructor
    · intro hmem
      have hwin := mem_win s2 hr hmem
      have h0 := hwin.1
      rw [show n = ((n.toNat : Nat) : Int) by omega, s4] at hmem
      obtain ⟨_, a, e, ha, he, h⟩ := hmem
      refine ⟨hwin, a, e, ha, he, ?_⟩
      have : ((n.toNat : Nat) : Int) = (a : Int) * e := by rw [h]; simp
      omega
    · rintro ⟨⟨h0, h1⟩, x, y, hx, hy, h⟩
      have x0 := hx.2.1
      have y0 := hy.2.1
      have ex : ((x.toNat : Nat) : Int) = x := by omega
      have ey : ((y.toNat : Nat) : Int) = y := by omega
      have en : ((n.toNat : Nat) : Int) = n := by omega
      rw [← en, s4]
      refine ⟨by omega, x.toNat, y.toNat, by show Clip c r _; rw [ex]; exact hx, by show Clip c r1 _; rw [ey]; exact hy, ?_⟩
      have : ((n.toNat : Nat) : Int) = ((x.toNat * y.toNat : Nat) : Int) := by rw [en, h]; simp [ex, ey]
      exact_mod_cast this

example : MulOk exCfg := by unfold MulOk exCfg Cfg.vmax; decide

/-- The products above fd_vector_max are lost without a flag: 100..100 * 2..2. -/
theorem C24_mul_range_flag_witness :
    ∃ r', mulRange exCfg (initInterval 100 100) (initInterval 2 2) = some r' ∧ r'.extra = false ∧ r'.isEmpty = true :=
  ⟨_, rfl, by decide, by decide⟩

/-- With larger vectors (fd_vector_max = 65535) a product overflows. -/
theorem C24_mul_overflow_witness : mul32 65535 65535 = none := by decide

/-- C24: the (exact) division of two ranges, when the second one has an element of 1..fd_vector_max. -/
theorem C24_div_range (c : Cfg) (hc : c.Ok) (r r1 : Range) (hw : WF c r) (hw1 : WF c r1) (hne : r.isEmpty = false)
    (hne1 : r1.isEmpty = false) (hf : Fits c r) (hf1 : Fits c r1) (hnz : ∃ y, Clip c r1 y ∧ y ≠ 0) :
    ∃ r', divRange c r r1 = some r' ∧ WF c r' ∧ ∀ n, Mem r' n ↔ 0 ≤ n ∧ ∃ x y, Clip c r x ∧ Clip c r1 y ∧ y ≠ 0 ∧ x = y * n := by
  obtain ⟨r', s1, s2, s3, s4, s5⟩ := opRange_spec c hc vecDivVec
    (fun A B m => ∃ a, A a ∧ ((a = 0 ∧ m = 0) ∨ (a ≠ 0 ∧ ∃ e, B e ∧ e ≠ 0 ∧ a = e * m))) (fun v v1 h _ => vecDivVec_spec c v v1 h)
    (fun A A' B B' m h h1 => by simp only [h, h1]) r r1 hw hw1 ((isEmpty_false r).1 hne) ((isEmpty_false r1).1 hne1) hf hf1
  refine ⟨r', s1, s2, fun n => ?_⟩
  cases hr : r'.vec with
  | none => exact absurd hr s3
  | some v' =>
    constructor
    · intro hmem
      have hwin := mem_win s2 hr hmem
      have h0 := hwin.1
      have en : ((n.toNat : Nat) : Int) = n := by omega
      rw [← en, s4] at hmem
      refine ⟨h0, ?_⟩
      obtain ⟨a, ha, ⟨h1, h2⟩ | ⟨h1, e, he, h2, h3⟩⟩ := hmem
      · obtain ⟨y, hy, hy0⟩ := hnz
        refine ⟨a, y, ha, hy, hy0, ?_⟩
        rw [show n = 0 by omega, h1]; simp
      · refine ⟨a, e, ha, he, by omega, ?_⟩
        have : (a : Int) = ((e * n.toNat : Nat) : Int) := by rw [← h3]
        rw [this]; simp [en]
    · rintro ⟨h0, x, y, hx, hy, hy0, h⟩
      have x0 := hx.2.1
      have y0 := hy.2.1
      have ex : ((x.toNat : Nat) : Int) = x := by omega
      have ey : ((y.toNat : Nat) : Int) = y := by omega
      have en : ((n.toNat : Nat) : Int) = n := by omega
      rw [← en, s4]
      refine ⟨x.toNat, by show Clip c r _; rw [ex]; exact hx, ?_⟩
      by_cases hz : x = 0
      · left
        refine ⟨by omega, ?_⟩
        rw [hz] at h
        rcases Int.mul_eq_zero.1 h.symm with h | h
        · exact absurd h hy0
        · omega
      · right
        refine ⟨by omega, y.toNat, by show Clip c r1 _; rw [ey]; exact hy, by omega, ?_⟩
        have : ((x.toNat : Nat) : Int) = ((y.toNat * n.toNat : Nat) : Int) := by rw [ex, h]; simp [ey, en]
        exact_mod_cast this

example : (divRange exCfg (initInterval 6 20) (initInterval 7 9)).map (fun r => (r.min, r.max, nbElem r)) = some (1, 2, 2) := by decide

/-- 0 divided by the range {0} gives {0}. -/
theorem C24_div_range_zero_witness : (divRange exCfg (initInterval 0 0) (initInterval 0 0)).map (fun r => (r.min, r.max)) = some (0, 0) := by
  decide

/-- C24: the remainders of the elements of a range by those of another. -/
theorem C24_mod_range (c : Cfg) (hc : c.Ok) (r r1 : Range) (hw : WF c r) (hw1 : WF c r1) (hne : r.isEmpty = false)
    (hne1 : r1.isEmpty = false) (hf : Fits c r) (hf1 : Fits c r1) :
    ∃ r', modRange c r r1 = some r' ∧ WF c r' ∧ ∀ n, Mem r' n ↔ ∃ x y, Clip c r x ∧ Clip c r1 y ∧ y ≠ 0 ∧ n = Int.tmod x y := by
  obtain ⟨r', s1, s2, s3, s4, s5⟩ := opRange_spec c hc vecModVec
    (fun A B m => ∃ a e, A a ∧ B e ∧ e ≠ 0 ∧ m = a % e) (fun v v1 h _ => vecModVec_spec c v v1 h)
    (fun A A' B B' m h h1 => by simp only [h, h1]) r r1 hw hw1 ((isEmpty_false r).1 hne) ((isEmpty_false r1).1 hne1) hf hf1
  refine ⟨r', s1, s2, fun n => ?_⟩
  cases hr : r'.vec with
  | none => exact absurd hr s3
  | some v' =>
    constructor
    · intro hmem
      have h0 := (mem_win s2 hr hmem).1
      have en : ((n.toNat : Nat) : Int) = n := by omega
      rw [← en, s4] at hmem
      obtain ⟨a, e, ha, he, h1, h2⟩ := hmem
      refine ⟨a, e, ha, he, by omega, ?_⟩
      rw [← en, h2, Int.tmod_eq_emod_of_nonneg (by omega)]; simp
    · rintro ⟨x, y, hx, hy, hy0, h⟩
      have x0 := hx.2.1
      have y0 := hy.2.1
      have ex : ((x.toNat : Nat) : Int) = x := by omega
      have ey : ((y.toNat : Nat) : Int) = y := by omega
      rw [Int.tmod_eq_emod_of_nonneg x0] at h
      have hn0 : 0 ≤ n := by rw [h]; exact Int.emod_nonneg _ hy0
      have en : ((n.toNat : Nat) : Int) = n := by omega
      rw [← en, s4]
      refine ⟨x.toNat, y.toNat, by show Clip c r _; rw [ex]; exact hx, by show Clip c r1 _; rw [ey]; exact hy, by omega, ?_⟩
      have : ((n.toNat : Nat) : Int) = ((x.toNat % y.toNat : Nat) : Int) := by rw [en, h]; simp [ex, ey]
      exact_mod_cast this

example : (modRange exCfg exSet (initInterval 0 4)).map (fun r => (r.min, r.max, nbElem r)) = some (0, 3, 4) := by decide

/-- C24: the translation by a value: exact for an interval, on 0..fd_vector_max for a sparse range, which is flagged if an element is
lost. -/
theorem C24_add_value (c : Cfg) (hc : c.Ok) (r : Range) (hw : WF c r) (n : Int) (hlo : -2147483648 < r.min + n) :
    WF c (addValue c r n) ∧ (∀ m, Mem (addValue c r n) m ↔ Mem r (m - n) ∧ (r.vec = none ∨ Win c m)) ∧
      (r.vec ≠ none → (addValue c r n).extra = false → r.extra = false ∧ ∀ m, Mem r m → m + n ≤ c.vmax) :=
  addValue_spec c hc r hw n hlo

example : (fun r : Range => (r.min, r.max, r.extra, nbElem r)) (addValue exCfg exSet 60) = (63, 124, true, 4) ∧
    (fun r : Range => (r.min, r.max, r.extra, nbElem r)) (addValue exCfg exSet (-4)) = (0, 123, false, 4) := by decide

/-- C24: the multiplication by a value. Missing (`_partial`): the negative values (see the witness) and the overflows. -/
theorem C24_mul_value_partial (c : Cfg) (hc : c.Ok) (r : Range) (hw : WF c r) (hne : r.isEmpty = false) (hf : Fits c r) (n : Int)
    (hn : 0 ≤ n) (hov : ∀ x, Clip c r x → x * n ≤ 2147483647) :
    ∃ r', mulValue c r n = some r' ∧ WF c r' ∧ (∀ m, Win c m → (Mem r' m ↔ ∃ x, Clip c r x ∧ m = x * n)) ∧
      (n ≠ 1 → r'.vec ≠ none ∧ (r'.extra = false → NoLoss c r ∧ ∀ x, Clip c r x → x * n ≤ c.vmax)) :=
  mulValue_spec c hc r hw ((isEmpty_false r).1 hne) hf n hn hov

example : ∀ x, Clip exCfg exSet x → x * 3 ≤ 2147483647 := by
  intro x hx
  have := hx.2.2
  simp only [exCfg] at this
  omega

example : (mulValue exCfg exSet 3).map (fun r => (r.min, r.max, r.extra, nbElem r)) = some (9, 15, true, 3) := by decide

/-- The multiplication of 0..5 by -1 is empty, its only element in 0..fd_vector_max is lost and there is no flag. -/
theorem C24_mul_value_neg_witness : ∃ r', mulValue exCfg (initInterval 0 5) (-1) = some r' ∧ r'.isEmpty = true ∧ r'.extra = false :=
  ⟨_, rfl, by decide, by decide⟩

/-- C24: the (exact) division by a value. Missing (`_partial`): the values which are not positive, and the ranges whose least or
greatest element is not a multiple of the value (see the witnesses). -/
theorem C24_div_value_partial (c : Cfg) (hc : c.Ok) (r : Range) (hw : WF c r) (hne : r.isEmpty = false) (hf : Fits c r) (n : Int)
    (hn : 0 < n) (hd : DivOk c r n) :
    ∃ r', divValue c r n = some r' ∧ WF c r' ∧ (∀ m, Win c m → (Mem r' m ↔ ∃ x, Clip c r x ∧ x = m * n)) ∧
      (n ≠ 1 → r'.vec ≠ none ∧ (r'.extra = false → NoLoss c r)) :=
  divValue_spec c hc r hw ((isEmpty_false r).1 hne) hf n hn hd

example : DivOk exCfg (initInterval 4 20) 4 := by
  right
  intro x hx h
  obtain ⟨h1, h2⟩ := hx
  unfold initInterval at *
  rw [mem_iv rfl] at h1
  rcases h with h | h
  · have := h 4 ⟨by rw [mem_iv rfl]; omega, by unfold Win exCfg; decide⟩
    exact ⟨1, by omega⟩
  · have := h 20 ⟨by rw [mem_iv rfl]; omega, by unfold Win exCfg; decide⟩
    exact ⟨5, by omega⟩

example : (divValue exCfg (initInterval 4 20) 4).map (fun r => (r.min, r.max, nbElem r)) = some (1, 5, 5) := by decide

/-- {3, 7} / 2: the vector of the result is empty but not its bounds, 2 and 3 are said to be elements. -/
theorem C24_div_value_bounds_witness :
    ∃ r', divValue exCfg ⟨false, 3, 7, some [0x88#64, 0#64]⟩ 2 = some r' ∧ r'.vec = some [0#64, 0#64] ∧ testValue r' 2 = true ∧
      testValue r' 3 = true := ⟨_, rfl, by decide, by decide, by decide⟩

/-- The division by 0 is a division by zero of the machine; a negative value is a write before the vector. -/
theorem C24_div_value_undefined_witness : divValue exCfg (initInterval 3 7) 0 = none ∧ divValue exCfg (initInterval 4 8) (-2) = none := by
  decide

/-- C24: the (C) remainders by a value, exact if the result is an interval, on 0..fd_vector_max otherwise; there are none by 0. -/
theorem C24_mod_value (c : Cfg) (hc : c.Ok) (r : Range) (hw : WF c r) (hne : r.isEmpty = false) (n : Int)
    (hn0 : -2147483648 < n) (hn1 : n ≤ 2147483647) :
    ∃ r', modValue c r n = some r' ∧ WF c r' ∧
      ∀ m, (r'.vec = none ∨ Win c m) → (Mem r' m ↔ n ≠ 0 ∧ ∃ x, Mem r x ∧ m = Int.tmod x n) :=
  modValue_spec c hc r hw ((isEmpty_false r).1 hne) n hn0 hn1

example : modValue exCfg (initInterval 12 14) 10 = some (initInterval 2 4) ∧
    (modValue exCfg (initInterval 8 12) 10).map (fun r => (r.min, r.max, nbElem r)) = some (0, 9, 5) ∧
    modValue exCfg (initInterval (-14) (-12)) (-10) = some (initInterval (-4) (-2)) := by decide

end Gp.FdRange
