/-
The kinds of primitive constraints with their relations, and the lemmas on their rules.
-/
import Verif.FdBool.Prims
import Verif.FdBool.Spec

namespace Gp.FdBool

/-- The boolean primitive constraints. -/
inductive BK where
  | not | tri (op : BOp) | imply1 | and0 | or1

def BK.rules : BK → List Rule
  | .not => rNot
  | .tri .equiv => rEquiv
  | .tri .nequiv => rNequiv
  | .tri .imply => rImply
  | .tri .nimply => rNimply
  | .tri .and => rAnd
  | .tri .nand => rNand
  | .tri .or => rOr
  | .tri .nor => rNor
  | .imply1 => rImply1
  | .and0 => rAnd0
  | .or1 => rOr1

/-- The relation between the values. -/
def BK.rel : BK → (Vr → Int) → Prop
  | .not, ρ => ρ .b = 1 - ρ .x
  | .tri op, ρ => truth (ρ .b) (op.rel (ρ .x = 1) (ρ .y = 1))
  | .imply1, ρ => ρ .x = 1 → ρ .y = 1
  | .and0, ρ => ¬(ρ .x = 1 ∧ ρ .y = 1)
  | .or1, ρ => ρ .x = 1 ∨ ρ .y = 1

/-- The primitive constraints with the truth value of a comparison. -/
inductive TK where
  | eqC (full : Bool) (c : Int)
  | plusEqY (full : Bool) (c : Int)
  | neqC (full : Bool) (c : Int)
  | plusNeqY (full : Bool) (c : Int)
  | ltY
  | lteC (c : Int)
  | plusLteY (c : Int)
  | gteC (c : Int)
  | plusGteY (c : Int)
  | inLU (l u : Int)

def TK.cases : TK → List Case
  | .eqC false c => tEqC c
  | .eqC true c => tEqCF c
  | .plusEqY false c => tPlusEqY c
  | .plusEqY true c => tPlusEqYF c
  | .neqC false c => tNeqC c
  | .neqC true c => tNeqCF c
  | .plusNeqY false c => tPlusNeqY c
  | .plusNeqY true c => tPlusNeqYF c
  | .ltY => tLtY
  | .lteC c => tLteC c
  | .plusLteY c => tPlusLteY c
  | .gteC c => tGteC c
  | .plusGteY c => tPlusGteY c
  | .inLU l u => tInLU l u

/-- The comparison. -/
def TK.rel : TK → (Vr → Int) → Prop
  | .eqC _ c, ρ => ρ .x = c
  | .plusEqY _ c, ρ => ρ .x + c = ρ .y
  | .neqC _ c, ρ => ρ .x ≠ c
  | .plusNeqY _ c, ρ => ρ .x + c ≠ ρ .y
  | .ltY, ρ => ρ .x < ρ .y
  | .lteC c, ρ => ρ .x ≤ c
  | .plusLteY c, ρ => ρ .x + c ≤ ρ .y
  | .gteC c, ρ => ρ .x ≥ c
  | .plusGteY c, ρ => ρ .x + c ≥ ρ .y
  | .inLU l u, ρ => l ≤ ρ .x ∧ ρ .x ≤ u

/-- Correct domains with the given values. -/
structure Has (E : Env) (ρ : Vr → Int) : Prop where
  ok : ∀ v, (E v).ok
  mem : ∀ v, (E v).mem (ρ v)

/-- The domains of instantiated variables. -/
def ground (ρ : Vr → Int) : Env := fun v => .single (ρ v)

/-- The rules keep the values. -/
def keeps (rs : List Rule) (E : Env) (ρ : Vr → Int) : Prop :=
  ∀ r ∈ rs, ∀ s, r.2 E = some s → s (ρ r.1)

theorem keeps_nil (E : Env) (ρ : Vr → Int) : keeps [] E ρ ↔ True := by simp [keeps]
theorem keeps_cons (r : Rule) (rs : List Rule) (E : Env) (ρ : Vr → Int) :
    keeps (r :: rs) E ρ ↔ (∀ s, r.2 E = some s → s (ρ r.1)) ∧ keeps rs E ρ := by simp [keeps]

theorem Has.lo {E : Env} {ρ : Vr → Int} (h : Has E ρ) (v : Vr) : (E v).lo ≤ ρ v := (h.ok v).low _ (h.mem v)
theorem Has.hi {E : Env} {ρ : Vr → Int} (h : Has E ρ) (v : Vr) : ρ v ≤ (E v).hi := (h.ok v).high _ (h.mem v)

theorem Has.val {E : Env} {ρ : Vr → Int} (h : Has E ρ) (v : Vr) {k : Int} (hv : (E v).val = some k) : k = ρ v := by
  unfold Dm.val at hv
  split at hv
  · injection hv with hv
    have := h.lo v
    have := h.hi v
    omega
  · cases hv

theorem ground_has (ρ : Vr → Int) : Has (ground ρ) ρ :=
  ⟨fun _ => ⟨rfl, rfl, fun _ h => Int.le_of_eq h.symm, fun _ h => Int.le_of_eq h⟩, fun _ => rfl⟩

theorem ground_val (ρ : Vr → Int) (v : Vr) : (ground ρ v).val = some (ρ v) := by
  simp [ground, Dm.single, Dm.val]

theorem single1_keeps {E : Env} {ρ : Vr → Int} (h : Has E ρ) {f : Int → Int} {v : Vr} {u : Int} (hu : u = f (ρ v)) :
    ∀ s, single1 f v E = some s → s u := by
  intro s hs
  unfold single1 at hs
  cases hv : (E v).val with
  | none => rw [hv] at hs; cases hs
  | some k =>
    rw [hv] at hs
    injection hs with hs
    subst hs
    rw [h.val v hv]; exact hu

theorem compl1_keeps {E : Env} {ρ : Vr → Int} (h : Has E ρ) {f : Int → Int} {v : Vr} {u : Int} (hu : u ≠ f (ρ v)) :
    ∀ s, compl1 f v E = some s → s u := by
  intro s hs
  unfold compl1 at hs
  cases hv : (E v).val with
  | none => rw [hv] at hs; cases hs
  | some k =>
    rw [hv] at hs
    injection hs with hs
    subst hs
    rw [h.val v hv]; exact hu

theorem single2_keeps {E : Env} {ρ : Vr → Int} (h : Has E ρ) {f : Int → Int → Int} {v w : Vr} {u : Int}
    (hu : u = f (ρ v) (ρ w)) : ∀ s, single2 f v w E = some s → s u := by
  intro s hs
  unfold single2 at hs
  cases hv : (E v).val with
  | none => rw [hv] at hs; cases hs
  | some k =>
    cases hw : (E w).val with
    | none => rw [hv, hw] at hs; cases hs
    | some j =>
      rw [hv, hw] at hs
      injection hs with hs
      subst hs
      rw [h.val v hv, h.val w hw]; exact hu

theorem single1_ground {ρ : Vr → Int} {f : Int → Int} {v : Vr} {u : Int} :
    (∀ s, single1 f v (ground ρ) = some s → s u) ↔ u = f (ρ v) := by
  simp [single1, ground_val]
theorem compl1_ground {ρ : Vr → Int} {f : Int → Int} {v : Vr} {u : Int} :
    (∀ s, compl1 f v (ground ρ) = some s → s u) ↔ u ≠ f (ρ v) := by
  simp [compl1, ground_val]
theorem single2_ground {ρ : Vr → Int} {f : Int → Int → Int} {v w : Vr} {u : Int} :
    (∀ s, single2 f v w (ground ρ) = some s → s u) ↔ u = f (ρ v) (ρ w) := by
  simp [single2, ground_val]
theorem some_all {s0 : Int → Prop} {u : Int} : (∀ s, some s0 = some s → s u) ↔ s0 u := by simp

theorem rules_sound (k : BK) {E : Env} {ρ : Vr → Int} (h : Has E ρ) (hb : ∀ v, 0 ≤ (E v).lo ∧ (E v).hi ≤ 1)
    (hr : k.rel ρ) : keeps k.rules E ρ := by
  have lx := h.lo .x; have ux := h.hi .x; have ly := h.lo .y; have uy := h.hi .y; have lb := h.lo .b; have ub := h.hi .b
  have bx := hb .x; have bY := hb .y; have bb := hb .b
  cases k with
  | not =>
    simp only [BK.rules, rNot, keeps_cons, keeps_nil, and_true]
    simp only [BK.rel] at hr
    exact ⟨single1_keeps h (by simp only [bnot]; omega), single1_keeps h (by simp only [bnot]; omega)⟩
  | tri op =>
    cases op <;> simp only [BK.rel, truth, BOp.rel] at hr
    · simp only [BK.rules, rEquiv, keeps_cons, keeps_nil, and_true]
      refine ⟨single2_keeps h ?_, single2_keeps h ?_, single2_keeps h ?_⟩ <;> simp only [beqv, bnot, bxor] <;> split <;> omega
    · simp only [BK.rules, rNequiv, keeps_cons, keeps_nil, and_true]
      refine ⟨single2_keeps h ?_, single2_keeps h ?_, single2_keeps h ?_⟩ <;> simp only [bxor] <;> split <;> omega
    all_goals
      simp only [BK.rules, rImply, rNimply, rAnd, rNand, rOr, rNor, keeps_cons, keeps_nil, and_true, some_all, itv, bor,
        band, bnot]
      omega
  | imply1 =>
    simp only [BK.rel] at hr
    simp only [BK.rules, rImply1, keeps_cons, keeps_nil, and_true, some_all, itv]
    omega
  | and0 =>
    simp only [BK.rel] at hr
    simp only [BK.rules, rAnd0, keeps_cons, keeps_nil, and_true, some_all, itv, bnot]
    omega
  | or1 =>
    simp only [BK.rel] at hr
    simp only [BK.rules, rOr1, keeps_cons, keeps_nil, and_true, some_all, itv, bnot]
    omega

theorem rules_exact (k : BK) {ρ : Vr → Int} (hb : ∀ v, isBool (ρ v)) (hk : keeps k.rules (ground ρ) ρ) : k.rel ρ := by
  have bx := hb .x; have bY := hb .y; have bb := hb .b
  unfold isBool at bx bY bb
  cases k with
  | not =>
    simp only [BK.rules, rNot, keeps_cons, keeps_nil, and_true, single1_ground, bnot] at hk
    exact hk.2
  | tri op =>
    cases op <;> simp only [BK.rel, truth, BOp.rel]
    · simp only [BK.rules, rEquiv, keeps_cons, keeps_nil, and_true, single2_ground, beqv, bnot, bxor] at hk
      obtain ⟨h1, -, -⟩ := hk
      split at h1 <;> omega
    · simp only [BK.rules, rNequiv, keeps_cons, keeps_nil, and_true, single2_ground, bxor] at hk
      obtain ⟨h1, -, -⟩ := hk
      split at h1 <;> omega
    all_goals
      simp only [BK.rules, rImply, rNimply, rAnd, rNand, rOr, rNor, keeps_cons, keeps_nil, and_true, some_all, itv, bor,
        band, bnot, ground, Dm.single] at hk
      omega
  | imply1 =>
    simp only [BK.rules, rImply1, keeps_cons, keeps_nil, and_true, some_all, itv, ground, Dm.single] at hk
    simp only [BK.rel]
    omega
  | and0 =>
    simp only [BK.rules, rAnd0, keeps_cons, keeps_nil, and_true, some_all, itv, bnot, ground, Dm.single] at hk
    simp only [BK.rel]
    omega
  | or1 =>
    simp only [BK.rules, rOr1, keeps_cons, keeps_nil, and_true, some_all, itv, bnot, ground, Dm.single] at hk
    simp only [BK.rel]
    omega

theorem cases_four {P : Case → Prop} {a b c d : Case} (h1 : P a) (h2 : P b) (h3 : P c) (h4 : P d) :
    ∀ x ∈ [a, b, c, d], P x := by
  intro x hx
  simp only [List.mem_cons, List.not_mem_nil, or_false] at hx
  rcases hx with rfl | rfl | rfl | rfl <;> assumption

/-- A started case keeps the values of a solution. -/
theorem switch_sound (k : TK) {E E' : Env} {ρ : Vr → Int} (h : Has E ρ) (h' : Has E' ρ)
    (hx : ∀ v, 0 ≤ ρ v ∧ ρ v ≤ maxInt) (hr : truth (ρ .b) (k.rel ρ)) :
    ∀ c ∈ k.cases, c.cond E → keeps c.rules E' ρ := by
  have lx := h.lo .x; have ux := h.hi .x; have ly := h.lo .y; have uy := h.hi .y; have lb := h.lo .b; have ub := h.hi .b
  have lx' := h'.lo .x; have ux' := h'.hi .x; have ly' := h'.lo .y; have uy' := h'.hi .y
  have px := hx .x; have py := hx .y
  have mx := h.mem .x; have my := h.mem .y
  have mx' := h'.mem .x; have my' := h'.mem .y
  cases k with
  | eqC full c =>
    cases full <;> simp only [truth, TK.rel] at hr <;> refine cases_four ?_ ?_ ?_ ?_ <;> intro hc <;>
      simp only [same, toB, keeps_cons, keeps_nil, and_true, some_all] at hc ⊢ <;> (try omega)
    rcases hr with ⟨-, hr⟩ | ⟨hr, -⟩
    · rw [hr] at mx; exact absurd mx hc
    · exact hr
  | neqC full c =>
    cases full <;> simp only [truth, TK.rel] at hr <;> refine cases_four ?_ ?_ ?_ ?_ <;> intro hc <;>
      simp only [same, toB, keeps_cons, keeps_nil, and_true, some_all] at hc ⊢ <;> (try omega)
    rcases hr with ⟨hr, -⟩ | ⟨-, hr⟩
    · exact hr
    · have e : ρ .x = c := by omega
      rw [e] at mx; exact absurd mx hc
  | plusEqY full c =>
    cases full <;> simp only [truth, TK.rel] at hr <;> refine cases_four ?_ ?_ ?_ ?_ <;> intro hc <;>
      simp only [toB, keeps_cons, keeps_nil, and_true, some_all, itv] at hc ⊢ <;> (try omega)
    · exact ⟨compl1_keeps h' (by omega), compl1_keeps h' (by omega)⟩
    · exact ⟨compl1_keeps h' (by omega), compl1_keeps h' (by omega)⟩
    · have e : ρ .x + c = ρ .y := by omega
      rw [e, ← e, Int.add_sub_cancel, e]
      exact ⟨my', mx'⟩
    · rcases hr with ⟨-, hr⟩ | ⟨hr, -⟩
      · exact absurd (hr ▸ my) (hc _ mx)
      · exact hr
  | plusNeqY full c =>
    cases full <;> simp only [truth, TK.rel] at hr <;> refine cases_four ?_ ?_ ?_ ?_ <;> intro hc <;>
      simp only [toB, keeps_cons, keeps_nil, and_true, some_all, itv] at hc ⊢ <;> (try omega)
    · exact ⟨compl1_keeps h' (by omega), compl1_keeps h' (by omega)⟩
    · have e : ρ .x + c = ρ .y := by omega
      rw [e, ← e, Int.add_sub_cancel, e]
      exact ⟨my', mx'⟩
    · exact ⟨compl1_keeps h' (by omega), compl1_keeps h' (by omega)⟩
    · rcases hr with ⟨hr, -⟩ | ⟨-, hr⟩
      · exact hr
      · have e : ρ .x + c = ρ .y := by omega
        exact absurd (e ▸ my) (hc _ mx)
  | ltY =>
    simp only [truth, TK.rel] at hr
    refine cases_four ?_ ?_ ?_ ?_ <;> intro hc <;>
      simp only [toB, keeps_cons, keeps_nil, and_true, some_all, itv] at hc ⊢ <;> omega
  | lteC c | gteC c =>
    simp only [truth, TK.rel] at hr
    refine cases_four ?_ ?_ ?_ ?_ <;> intro hc <;>
      simp only [same, toB, keeps_cons, keeps_nil, and_true, some_all, itv] at hc ⊢ <;> omega
  | plusLteY c | plusGteY c =>
    simp only [truth, TK.rel] at hr
    refine cases_four ?_ ?_ ?_ ?_ <;> intro hc <;>
      simp only [toB, keeps_cons, keeps_nil, and_true, some_all, itv] at hc ⊢ <;> omega
  | inLU l u =>
    simp only [truth, TK.rel] at hr
    refine cases_four ?_ ?_ ?_ ?_ <;> intro hc <;>
      simp only [same, toB, keeps_cons, keeps_nil, and_true, some_all, itv] at hc ⊢ <;> omega

/-- When the variables are instantiated the rules of the started case decide. -/
theorem switch_exact (k : TK) {E : Env} {ρ : Vr → Int} (h : Has E ρ) (hb : isBool (ρ .b)) :
    ∀ c ∈ k.cases, c.cond E → keeps c.rules (ground ρ) ρ → truth (ρ .b) (k.rel ρ) := by
  have lx := h.lo .x; have ux := h.hi .x; have ly := h.lo .y; have uy := h.hi .y; have lb := h.lo .b; have ub := h.hi .b
  have mx := h.mem .x; have my := h.mem .y
  unfold isBool at hb
  cases k with
  | eqC full c =>
    cases full <;> simp only [truth, TK.rel] <;> refine cases_four ?_ ?_ ?_ ?_ <;> intro hc hk <;>
      simp only [same, toB, keeps_cons, keeps_nil, and_true, some_all] at hc hk <;> (try omega)
    exact .inr ⟨hk, fun e => hc (e ▸ mx)⟩
  | neqC full c =>
    cases full <;> simp only [truth, TK.rel] <;> refine cases_four ?_ ?_ ?_ ?_ <;> intro hc hk <;>
      simp only [same, toB, keeps_cons, keeps_nil, and_true, some_all] at hc hk <;> (try omega)
    exact .inl ⟨hk, fun e => hc (e ▸ mx)⟩
  | plusEqY full c =>
    cases full <;> simp only [truth, TK.rel] <;> refine cases_four ?_ ?_ ?_ ?_ <;> intro hc hk <;>
      simp only [toB, keeps_cons, keeps_nil, and_true, some_all, itv, compl1_ground, ground, Dm.single] at hc hk <;>
      (try omega)
    all_goals first
      | (have h1 := compl1_ground.1 hk.1; omega)
      | exact .inr ⟨hk, fun e => hc _ mx (e.symm ▸ my)⟩
  | plusNeqY full c =>
    cases full <;> simp only [truth, TK.rel] <;> refine cases_four ?_ ?_ ?_ ?_ <;> intro hc hk <;>
      simp only [toB, keeps_cons, keeps_nil, and_true, some_all, itv, compl1_ground, ground, Dm.single] at hc hk <;>
      (try omega)
    all_goals first
      | (have h1 := compl1_ground.1 hk.1; omega)
      | exact .inl ⟨hk, fun e => hc _ mx (e.symm ▸ my)⟩
  | ltY =>
    simp only [truth, TK.rel]
    refine cases_four ?_ ?_ ?_ ?_ <;> intro hc hk <;>
      simp only [toB, keeps_cons, keeps_nil, and_true, some_all, itv, ground, Dm.single] at hc hk <;> omega
  | lteC c | gteC c =>
    simp only [truth, TK.rel]
    refine cases_four ?_ ?_ ?_ ?_ <;> intro hc hk <;>
      simp only [same, toB, keeps_cons, keeps_nil, and_true, some_all, itv] at hc hk <;> omega
  | plusLteY c | plusGteY c =>
    simp only [truth, TK.rel]
    refine cases_four ?_ ?_ ?_ ?_ <;> intro hc hk <;>
      simp only [toB, keeps_cons, keeps_nil, and_true, some_all, itv, ground, Dm.single] at hc hk <;> omega
  | inLU l u =>
    simp only [truth, TK.rel]
    refine cases_four ?_ ?_ ?_ ?_ <;> intro hc hk <;>
      simp only [same, toB, keeps_cons, keeps_nil, and_true, some_all, itv] at hc hk <;> omega

end Gp.FdBool
