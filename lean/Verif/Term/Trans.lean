import Verif.Term.Order
/-! Transitivity of the comparison of terms. -/
namespace Gp.Term

theorem strcmp_trans (s t r : Name) (hs : 0 ∉ s) (ht : 0 ∉ t) (hr : 0 ∉ r)
    (h1 : strcmp s t ≤ 0) (h2 : strcmp t r ≤ 0) :
    strcmp s r ≤ 0 ∧ (strcmp s r = 0 → strcmp s t = 0 ∧ strcmp t r = 0) := by
  have e1 := strcmp_eq s t hs ht
  have e2 := strcmp_eq t r ht hr
  have l1 := strcmp_lt s t hs ht
  have l2 := strcmp_lt t r ht hr
  have l3 := strcmp_lt s r hs hr
  rcases Int.lt_or_eq_of_le h1 with h1 | h1 <;> rcases Int.lt_or_eq_of_le h2 with h2 | h2
  · have := l3.2 (List.lt_trans (l1.1 h1) (l2.1 h2)); omega
  · obtain rfl := e2.1 h2; omega
  · obtain rfl := e1.1 h1; omega
  · obtain rfl := e2.1 h2; omega

mutual
theorem compare_trans : ∀ a b c : Tree, Ok a → Ok b → Ok c → compare a b ≤ 0 → compare b c ≤ 0 →
    compare a c ≤ 0 ∧ (compare a c = 0 → compare a b = 0 ∧ compare b c = 0)
  | .var x, b, c, _, _, _, h1, h2 => by
    cases b <;> cases c <;> simp [compare] at h1 h2 ⊢ <;> omega
  | .fdv x, b, c, _, _, _, h1, h2 => by
    cases b <;> cases c <;> simp [compare] at h1 h2 ⊢ <;> omega
  | .flt x, b, c, ha, hb, hc, h1, h2 => by
    cases b with
    | flt y =>
      cases c with
      | flt z =>
        have n1 := ha.fltNum; have n2 := hb.fltNum; have n3 := hc.fltNum
        simp only [compare, dlt, deq, n1, n2, n3, Bool.not_false, Bool.true_and, decide_eq_true_eq] at h1 h2 ⊢
        grind
      | _ => simp [compare] at h1 h2 ⊢
    | _ => cases c <;> simp [compare] at h1 h2 ⊢
  | .int x, b, c, _, _, _, h1, h2 => by
    cases b <;> cases c <;> simp [compare] at h1 h2 ⊢ <;> omega
  | .atm x, b, c, ha, hb, hc, h1, h2 => by
    cases b with
    | atm y =>
      cases c with
      | atm z =>
        simp only [compare] at h1 h2 ⊢
        exact strcmp_trans x y z ha.atmName hb.atmName hc.atmName h1 h2
      | _ => simp [compare] at h1 h2 ⊢
    | _ => cases c <;> simp [compare] at h1 h2 ⊢
  | .app f us, b, c, ha, hb, hc, h1, h2 => by
    cases b with
    | app g vs =>
      cases c with
      | app h ws =>
        have t := strcmp_trans f g h ha.name hb.name hc.name
        have e1 := strcmp_eq f g ha.name hb.name
        have e2 := strcmp_eq g h hb.name hc.name
        have e3 := strcmp_eq f h ha.name hc.name
        have ih := compareArgs_trans us vs ws ha.arg hb.arg hc.arg
        simp only [compare] at h1 h2 ⊢
        grind
      | _ => simp [compare] at h1 h2 ⊢
    | _ => cases c <;> simp [compare] at h1 h2 ⊢

theorem compareArgs_trans : ∀ us vs ws : List Tree, (∀ u ∈ us, Ok u) → (∀ u ∈ vs, Ok u) →
    (∀ u ∈ ws, Ok u) → us.length = vs.length → vs.length = ws.length → compareArgs us vs ≤ 0 →
    compareArgs vs ws ≤ 0 →
    compareArgs us ws ≤ 0 ∧ (compareArgs us ws = 0 → compareArgs us vs = 0 ∧ compareArgs vs ws = 0)
  | [], vs, ws, _, _, _, h1, h2, _, _ => by
    have : vs = [] := by cases vs; rfl; simp at h1
    subst this
    have : ws = [] := by cases ws; rfl; simp at h2
    subst this
    simp [compareArgs]
  | u :: us, vs, ws, hu, hv, hw, h1, h2, h3, h4 => by
    cases vs with
    | nil => simp at h1
    | cons v vs =>
      cases ws with
      | nil => simp at h2
      | cons w ws =>
        have ih1 := compare_trans u v w (hu u (by simp)) (hv v (by simp)) (hw w (by simp))
        have ih2 := compareArgs_trans us vs ws (fun x hx => hu x (by simp [hx]))
          (fun x hx => hv x (by simp [hx])) (fun x hx => hw x (by simp [hx])) (by simpa using h1)
          (by simpa using h2)
        simp only [compareArgs] at h3 h4 ⊢
        grind
end

end Gp.Term
