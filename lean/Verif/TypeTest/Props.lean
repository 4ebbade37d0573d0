import Verif.TypeTest.Model
import Verif.NumVars.Props
/-
C65. The type tests decide the kind of the term denoted by their argument, ground/1 that it has no variables, the tests of
lists how it ends.
-/
namespace Gp.TypeTest
open Gp.Heap Gp.Unify Gp.ListBip Gp.TermInl

variable {N : Adr} {s : St}

/-! ## Specification, on terms -/

inductive Kind where
  | var | atom | integer | float | compound
deriving DecidableEq

def kind : T → Kind
  | .var _ => .var
  | .atm _ => .atom
  | .int _ => .integer
  | .flt _ => .float
  | .nan _ => .float
  | .lst _ _ => .compound
  | .app _ _ => .compound

/-- The term has no variables. -/
def NoVar (t : T) : Prop := ∀ v, v ∉ T.vars t

/-! ## Type tests -/

theorem test_eq {m : Heap.Mem} {w : Cell} {t : T} (h : Reads m w t) (test : Cell → Bool) {ks : List Kind}
    (h1 : ∀ a, test (.ref a) = decide (Kind.var ∈ ks)) (h2 : ∀ a, test (.atm a) = decide (Kind.atom ∈ ks))
    (h3 : ∀ a, test (.int a) = decide (Kind.integer ∈ ks)) (h4 : ∀ a, test (.flt a) = decide (Kind.float ∈ ks))
    (h5 : ∀ a, test (.lst a) = decide (Kind.compound ∈ ks)) (h6 : ∀ a, test (.stc a) = decide (Kind.compound ∈ ks)) :
    typeTest test m w = some (decide (kind t ∈ ks)) := by
  obtain ⟨v, d1, d2, d3⟩ := reads_deref h
  unfold typeTest
  rw [d1, Option.map_some]
  cases d2 with
  | var _ => rw [h1]; rfl
  | bound q _ => exact absurd (d3 _ rfl) q
  | atm => rw [h2]; rfl
  | int => rw [h3]; rfl
  | flt _ _ => rw [h4]; rfl
  | nan _ _ => rw [h4]; rfl
  | lst _ _ => rw [h5]; rfl
  | stc _ _ => rw [h6]; rfl

/-- Each test succeeds exactly on the terms of its kinds (in a memory without FD variables). -/
theorem C65_type_tests {m : Heap.Mem} {w : Cell} {t : T} (h : Reads m w t) :
    typeTest isVar m w = some (decide (kind t ∈ [.var])) ∧
    typeTest isNonvar m w = some (decide (kind t ∈ [.atom, .integer, .float, .compound])) ∧
    typeTest isAtom m w = some (decide (kind t ∈ [.atom])) ∧
    typeTest isInteger m w = some (decide (kind t ∈ [.integer])) ∧
    typeTest isFloat m w = some (decide (kind t ∈ [.float])) ∧
    typeTest isNumber m w = some (decide (kind t ∈ [.integer, .float])) ∧
    typeTest isAtomic m w = some (decide (kind t ∈ [.atom, .integer, .float])) ∧
    typeTest isCompound m w = some (decide (kind t ∈ [.compound])) ∧
    typeTest isCallable m w = some (decide (kind t ∈ [.atom, .compound])) ∧
    typeTest isFdVar m w = some false ∧ typeTest isNonFdVar m w = some true ∧
    typeTest isGenericVar m w = some (decide (kind t ∈ [.var])) ∧
    typeTest isNonGenericVar m w = some (decide (kind t ∈ [.atom, .integer, .float, .compound])) := by
  refine ⟨?_, ?_, ?_, ?_, ?_, ?_, ?_, ?_, ?_, ?_, ?_, ?_, ?_⟩
  case refine_10 =>
    have := test_eq h isFdVar (ks := []) (fun _ => rfl) (fun _ => rfl) (fun _ => rfl) (fun _ => rfl) (fun _ => rfl) (fun _ => rfl)
    simpa using this
  case refine_11 =>
    have := test_eq h isNonFdVar (ks := [.var, .atom, .integer, .float, .compound]) (fun _ => rfl) (fun _ => rfl) (fun _ => rfl)
      (fun _ => rfl) (fun _ => rfl) (fun _ => rfl)
    rw [this]
    cases kind t <;> rfl
  all_goals exact test_eq h _ (fun _ => rfl) (fun _ => rfl) (fun _ => rfl) (fun _ => rfl) (fun _ => rfl) (fun _ => rfl)

/-- A variable with a domain is not a variable for var/1 and nothing else for the other tests; it is one for fd_var/1,
generic_var/1 and ground/1. -/
theorem C65_fd_variable {m : Heap.Mem} {w : Cell} {a : Adr} (h : deref m w = some (.fdv a)) (n : Nat) :
    typeTest isVar m w = some false ∧ typeTest isNonvar m w = some true ∧ typeTest isAtomic m w = some false ∧
    typeTest isCompound m w = some false ∧ typeTest isFdVar m w = some true ∧ typeTest isNonFdVar m w = some false ∧
    typeTest isGenericVar m w = some true ∧ typeTest isNonGenericVar m w = some false ∧ ground m (n + 1) w = some false := by
  simp [typeTest, h, isVar, isNonvar, isAtomic, isAtom, isNumber, isInteger, isFloat, isCompound, isFdVar, isNonFdVar, isGenericVar,
    isNonGenericVar, ground]

/-! ## ground/1 -/

theorem groundArgs_eq {rec : Cell → Option Bool} {m : Heap.Mem} {k : Nat} : ∀ {a : Adr} {g : Nat → Bool},
    (∀ i, i < k + 1 → rec (m (a + i)) = some (g i)) → groundArgs rec m (k + 1) a = some ((List.range (k + 1)).all g) := by
  induction k with
  | zero => intro a g h; simp only [groundArgs]; rw [show m a = m (a + 0) from rfl, h 0 (by omega)]; simp
  | succ k ih =>
    intro a g h
    simp only [groundArgs]
    rw [show m a = m (a + 0) from rfl, h 0 (by omega), List.range_succ_eq_map, List.all_cons, List.all_map]
    cases hg : g 0 with
    | false => simp
    | true =>
      simp only [Bool.true_and]
      exact ih (g := g ∘ Nat.succ) fun i hi => by
        have := h (i + 1) (by omega)
        rw [show a + 1 + i = a + (i + 1) by omega]; exact this

theorem bound_all {P : Nat → Nat → Prop} {k : Nat} (h : ∀ i, i < k → ∃ n0, ∀ n, n0 ≤ n → P i n) :
    ∃ n0, ∀ n, n0 ≤ n → ∀ i, i < k → P i n := by
  induction k with
  | zero => exact ⟨0, fun _ _ i hi => absurd hi (by omega)⟩
  | succ k ih =>
    obtain ⟨n1, h1⟩ := ih fun i hi => h i (by omega)
    obtain ⟨n2, h2⟩ := h k (by omega)
    refine ⟨max n1 n2, fun n hn i hi => ?_⟩
    by_cases e : i = k
    · subst e; exact h2 n (by omega)
    · exact h1 n (by omega) i (by omega)

/-- ground(T) succeeds exactly when T has no variables; it ends on every finite term. -/
theorem C65_ground (hok : Ok N s) {w : Cell} {t : T} (hr : Reads s.mem w t) : ValidWord N s.lssa s.mem w →
    ∃ n0, ∀ n, n0 ≤ n → ∃ r, ground s.mem n w = some r ∧ (r = true ↔ NoVar t) := by
  have key : ValidWord N s.lssa s.mem w → ∃ n0, ∀ n, n0 ≤ n → ground s.mem n w = some (T.vars t).isEmpty := by
    induction hr with
    | @var a h =>
      intro _
      refine ⟨1, fun n hn => ?_⟩
      obtain ⟨n, rfl⟩ : ∃ k, n = k + 1 := ⟨n - 1, by omega⟩
      simp [ground, deref_ref, h, isGenericVar, isVar, T.vars]
    | @bound a t h hr ih =>
      intro hw
      obtain ⟨n0, h0⟩ := ih (hok.wf _ hw.1 hw.2).1
      refine ⟨n0 + 1, fun n hn => ?_⟩
      obtain ⟨n, rfl⟩ : ∃ k, n = k + 1 := ⟨n - 1, by omega⟩
      rw [← h0 (n + 1) (by omega)]
      simp only [ground]
      rw [deref_ref, if_neg h]
    | @lst a t1 t2 h1 h2 ih1 ih2 =>
      intro hw
      obtain ⟨c1, c2, c3, c4, c5, c6, c7, c8⟩ := lst_cells hok hw
      obtain ⟨n1, k1⟩ := ih1 c7
      obtain ⟨n2, k2⟩ := ih2 c5
      refine ⟨max n1 n2 + 1, fun n hn => ?_⟩
      obtain ⟨n, rfl⟩ : ∃ k, n = k + 1 := ⟨n - 1, by omega⟩
      simp only [ground, deref_nonref (show ∀ b, Cell.lst a ≠ .ref b by simp), isGenericVar, isVar, isFdVar]
      rw [k1 n (by omega), k2 n (by omega), T.vars]
      cases T.vars t1 <;> simp
    | @stc a f k g h1 h2 ih =>
      rintro ⟨f', n', h3, h4, h5, h6, h7⟩
      rw [h1] at h3
      cases h3
      obtain ⟨n0, h0⟩ := bound_all (P := fun i n => ground s.mem n (s.mem (a + 1 + i)) = some (T.vars (g i)).isEmpty)
        fun i hi => ih i hi (hok.wf _ (by omega) (h7 i hi)).1
      refine ⟨n0 + 1, fun n hn => ?_⟩
      obtain ⟨n, rfl⟩ : ∃ k, n = k + 1 := ⟨n - 1, by omega⟩
      obtain ⟨k, rfl⟩ : ∃ j, k = j + 1 := ⟨k - 1, by omega⟩
      simp only [ground, deref_nonref (show ∀ b, Cell.stc a ≠ .ref b by simp), isGenericVar, isVar, isFdVar, h1]
      rw [if_neg (by simp), groundArgs_eq (g := fun i => (T.vars (g i)).isEmpty) (fun i hi => h0 n (by omega) i hi), T.vars]
      congr 1
      rw [Bool.eq_iff_iff]
      simp [List.all_eq_true]
    | _ =>
      intro _
      refine ⟨1, fun n hn => ?_⟩
      obtain ⟨n, rfl⟩ : ∃ k, n = k + 1 := ⟨n - 1, by omega⟩
      simp [ground, deref_nonref, isGenericVar, isVar, isFdVar, T.vars]
  intro hw
  obtain ⟨n0, h0⟩ := key hw
  refine ⟨n0, fun n hn => ⟨_, h0 n hn, ?_⟩⟩
  unfold NoVar
  rw [List.isEmpty_iff]
  constructor
  · intro h v; rw [h]; simp
  · intro h; exact List.eq_nil_iff_forall_not_mem.mpr h

/-! ## Lists -/

def isNil : T → Bool
  | .atm i => i == 256
  | _ => false

theorem isNil_iff {e : T} : isNil e = true ↔ e = nil := by cases e <;> simp [isNil]

theorem lists_eq {m : Heap.Mem} {w : Cell} {t : T} (hr : Reads m w t) : ∃ (ts : List T) (e : T) (n0 : Nat),
    t = listT ts e ∧ (∀ x y, e ≠ .lst x y) ∧ ∀ n, n0 ≤ n → isList m n w = some (isNil e) ∧
      isPartialList m n w = some (decide (kind e = .var)) ∧
      listOrPartial m n w = some (isNil e || decide (kind e = .var)) := by
  induction hr with
  | @var a h =>
    refine ⟨[], .var a, 1, rfl, by simp, fun n hn => ?_⟩
    obtain ⟨n, rfl⟩ : ∃ k, n = k + 1 := ⟨n - 1, by omega⟩
    simp [isList, isPartialList, listOrPartial, deref_ref, h, kind, isNil]
  | @bound a t h hr ih =>
    obtain ⟨ts, e, n0, h1, h2, h3⟩ := ih
    refine ⟨ts, e, n0 + 1, h1, h2, fun n hn => ?_⟩
    obtain ⟨n, rfl⟩ : ∃ k, n = k + 1 := ⟨n - 1, by omega⟩
    have := h3 (n + 1) (by omega)
    simp only [isList, isPartialList, listOrPartial] at this ⊢
    rw [deref_ref, if_neg h]
    exact this
  | @lst a t1 t2 h1 h2 ih1 ih2 =>
    obtain ⟨ts, e, n0, k1, k2, k3⟩ := ih2
    refine ⟨t1 :: ts, e, n0 + 1, by rw [k1]; rfl, k2, fun n hn => ?_⟩
    obtain ⟨n, rfl⟩ : ∃ k, n = k + 1 := ⟨n - 1, by omega⟩
    have := k3 n (by omega)
    simp only [isList, isPartialList, listOrPartial, deref_nonref (show ∀ b, Cell.lst a ≠ .ref b by simp)]
    rw [if_neg (by simp)]
    exact this
  | @atm i =>
    refine ⟨[], .atm i, 1, rfl, by simp, fun n hn => ?_⟩
    obtain ⟨n, rfl⟩ : ∃ k, n = k + 1 := ⟨n - 1, by omega⟩
    by_cases q : i = 256 <;> simp [q, isList, isPartialList, listOrPartial, deref_nonref, kind, isNil]
  | @int i =>
    refine ⟨[], .int i, 1, rfl, by simp, fun n hn => ?_⟩
    obtain ⟨n, rfl⟩ : ∃ k, n = k + 1 := ⟨n - 1, by omega⟩
    simp [isList, isPartialList, listOrPartial, deref_nonref, kind, isNil]
  | @flt a x h1 h2 =>
    refine ⟨[], .flt _, 1, rfl, by simp, fun n hn => ?_⟩
    obtain ⟨n, rfl⟩ : ∃ k, n = k + 1 := ⟨n - 1, by omega⟩
    simp [isList, isPartialList, listOrPartial, deref_nonref, kind, isNil]
  | @nan a x h1 h2 =>
    refine ⟨[], .nan a, 1, rfl, by simp, fun n hn => ?_⟩
    obtain ⟨n, rfl⟩ : ∃ k, n = k + 1 := ⟨n - 1, by omega⟩
    simp [isList, isPartialList, listOrPartial, deref_nonref, kind, isNil]
  | @stc a f k g h1 h2 ih =>
    refine ⟨[], .app f ((List.range k).map g), 1, rfl, by simp, fun n hn => ?_⟩
    obtain ⟨n, rfl⟩ : ∃ k, n = k + 1 := ⟨n - 1, by omega⟩
    simp [isList, isPartialList, listOrPartial, deref_nonref, kind, isNil]

theorem listT_inj : ∀ {ts ts' : List T} {e e' : T}, (∀ x y, e ≠ .lst x y) → (∀ x y, e' ≠ .lst x y) →
    listT ts e = listT ts' e' → ts = ts' ∧ e = e'
  | [], [], _, _, _, _, h => ⟨rfl, h⟩
  | [], _ :: _, _, _, h1, _, h => absurd h (h1 _ _)
  | _ :: _, [], _, _, _, h2, h => absurd h.symm (h2 _ _)
  | x :: ts, y :: ts', e, e', h1, h2, h => by
    have h' : T.lst x (listT ts e) = T.lst y (listT ts' e') := h
    injection h' with a b
    obtain ⟨c, d⟩ := listT_inj h1 h2 b
    exact ⟨by rw [a, c], d⟩

/-- is_list/1 and list/1 succeed exactly on the terms [T1, ..., Tn], partial_list/1 on [T1, ..., Tn | V] where V is a variable,
list_or_partial_list/1 on both; they end on every finite term. -/
theorem C65_lists {m : Heap.Mem} {w : Cell} {t : T} (hr : Reads m w t) : ∃ n0, ∀ n, n0 ≤ n → ∃ r1 r2 r3,
    isList m n w = some r1 ∧ isPartialList m n w = some r2 ∧ listOrPartial m n w = some r3 ∧
    (r1 = true ↔ ∃ ts, t = listT ts nil) ∧ (r2 = true ↔ ∃ ts v, t = listT ts (.var v)) ∧
    (r3 = true ↔ ∃ ts, t = listT ts nil ∨ ∃ v, t = listT ts (.var v)) := by
  obtain ⟨ts, e, n0, h1, h2, h3⟩ := lists_eq hr
  have a1 : e = nil ↔ ∃ ts, t = listT ts nil := by
    constructor
    · rintro rfl; exact ⟨ts, h1⟩
    · rintro ⟨ts', h⟩; exact (listT_inj h2 (by simp) (h1.symm.trans h)).2
  have a2 : kind e = .var ↔ ∃ ts v, t = listT ts (.var v) := by
    constructor
    · intro h
      cases e <;> simp [kind] at h
      exact ⟨ts, _, h1⟩
    · rintro ⟨ts', v, h⟩; rw [(listT_inj h2 (by simp) (h1.symm.trans h)).2]; rfl
  refine ⟨n0, fun n hn => ?_⟩
  obtain ⟨b1, b2, b3⟩ := h3 n hn
  refine ⟨_, _, _, b1, b2, b3, by rw [isNil_iff, a1], by rw [decide_eq_true_iff, a2], ?_⟩
  rw [Bool.or_eq_true, isNil_iff, decide_eq_true_iff, a1, a2]
  constructor
  · rintro (⟨ts, h⟩ | ⟨ts, v, h⟩)
    · exact ⟨ts, .inl h⟩
    · exact ⟨ts, .inr ⟨v, h⟩⟩
  · rintro ⟨ts, h | ⟨v, h⟩⟩
    · exact .inl ⟨ts, h⟩
    · exact .inr ⟨ts, v, h⟩

/-! ## The hypotheses are met -/

/-- On the memory of the part NumVars: f(X, Y) is compound and not ground, ['$VAR'(3)] is a list and is ground, X is a variable and a
partial list. -/
example : typeTest isCallable (NumVars.exS 3).mem (.stc 2) = some true ∧
    (∃ n0, ∀ n, n0 ≤ n → ∃ r, ground (NumVars.exS 3).mem n (.stc 2) = some r ∧ (r = true ↔ NoVar (.app 7 [.var 0, .var 1]))) ∧
    ground (NumVars.exS 3).mem 3 (.stc 2) = some false ∧ ground (NumVars.exS 3).mem 3 (.lst 5) = some true ∧
    isList (NumVars.exS 3).mem 3 (.lst 5) = some true ∧ isPartialList (NumVars.exS 3).mem 3 (.ref 0) = some true := by
  refine ⟨(C65_type_tests (NumVars.exS_reads 3)).2.2.2.2.2.2.2.2.1, C65_ground (NumVars.exS_ok 3) (NumVars.exS_reads 3) (NumVars.exS_stc 3),
    ?_, ?_, ?_, ?_⟩
  all_goals simp [ground, groundArgs, isList, isPartialList, isGenericVar, isVar, isFdVar, NumVars.exS, NumVars.exM, memL, deref_ref,
    deref_nonref, NIL_WORD]

example : deref (memL [.fdv 0]) (.fdv 0) = some (.fdv 0) := deref_nonref (by simp)

end Gp.TypeTest
