import Verif.Quote.Lemmas

/-! What an unquoted name token can be. -/
namespace Gp.Quote

open CT

theorem lexQuotedLoop_quoted (strict : Bool) (c0 : Nat) (ne : Bool) (f : Nat) (bad : Bool)
    (acc inp : List Nat) (t r : List Nat) (q : Bool)
    (h : lexQuotedLoop strict c0 ne f bad acc inp = .tok (.name t q) r) : q = true := by
  induction f generalizing bad acc inp with
  | zero => simp [lexQuotedLoop] at h
  | succ f ih =>
    unfold lexQuotedLoop at h
    generalize lexQuotedChar strict c0 ne inp = x at h
    obtain ⟨x, y⟩ := x
    cases x <;> dsimp only at h
    · exact ih _ _ _ h
    · cases bad
      · simp at h; exact h.1.2
      · simp at h
    · exact ih _ _ _ h
    · simp at h
    · simp at h
    · exact ih _ _ _ h
    · exact ih _ _ _ h
    · simp at h

theorem lexQuotedLoop_tok (strict : Bool) (c0 : Nat) (ne : Bool) (f : Nat) (bad : Bool)
    (acc inp : List Nat) (t : Tok) (r : List Nat)
    (h : lexQuotedLoop strict c0 ne f bad acc inp = .tok t r) : ∃ s, t = .name s true := by
  induction f generalizing bad acc inp with
  | zero => simp [lexQuotedLoop] at h
  | succ f ih =>
    unfold lexQuotedLoop at h
    generalize lexQuotedChar strict c0 ne inp = x at h
    obtain ⟨x, y⟩ := x
    cases x <;> dsimp only at h
    · exact ih _ _ _ h
    · cases bad
      · simp at h; exact ⟨_, h.1.symm⟩
      · simp at h
    · exact ih _ _ _ h
    · simp at h
    · simp at h
    · exact ih _ _ _ h
    · exact ih _ _ _ h
    · simp at h

theorem lexQuoted_name (fl : Flags) (ct : CT) (c0 : Nat) (inp t r : List Nat)
    (h : lexQuoted fl ct c0 inp = .tok (.name t false) r) : False := by
  unfold lexQuoted at h
  split at h
  · exact absurd (lexQuotedLoop_quoted _ _ _ _ _ _ _ _ _ _ h) (by simp)
  · split at h
    · simp at h
    · rename_i hx
      obtain ⟨s, hs⟩ := lexQuotedLoop_tok _ _ _ _ _ _ _ _ _ h
      simp at hs
  · split at h
    · simp at h
    · obtain ⟨s, hs⟩ := lexQuotedLoop_tok _ _ _ _ _ _ _ _ _ h
      simp at hs

theorem lexCharCode_name (fl : Flags) (vo : Bool) (inp t r : List Nat) (q : Bool) :
    lexCharCode fl vo inp ≠ .tok (.name t q) r := by
  unfold lexCharCode
  generalize lexQuotedChar fl.strict 39 false inp = x
  obtain ⟨x, y⟩ := x
  cases x <;> dsimp only <;> (repeat' split) <;> simp

theorem lexFloat_name (l : Loc) (p inp t r : List Nat) (q : Bool) :
    lexFloat l p inp ≠ .tok (.name t q) r := by
  unfold lexFloat
  dsimp only
  repeat' split
  all_goals simp

theorem lexRadix_name (rc : Nat) (inp t r : List Nat) (q : Bool) :
    lexRadix rc inp ≠ .tok (.name t q) r := by
  unfold lexRadix
  dsimp only
  repeat' split
  all_goals simp

theorem lexNumber_name (l : Loc) (fl : Flags) (vo : Bool) (inp t r : List Nat) (q : Bool) :
    lexNumber l fl vo inp ≠ .tok (.name t q) r := by
  unfold lexNumber
  dsimp only
  generalize (takeCT l isDI inp).2 = y
  cases y with
  | nil => simp
  | cons c y =>
    dsimp only
    by_cases h1 : c = 46 ∧ y.head?.map (charType l) = some DI
    · rw [if_pos h1]; exact lexFloat_name l _ _ _ _ _
    rw [if_neg h1]
    by_cases h2 : (takeCT l isDI inp).1 = [48]
    · rw [if_pos h2]
      by_cases h3 : c = 39
      · rw [if_pos h3]; exact lexCharCode_name fl vo _ _ _ _
      rw [if_neg h3]
      by_cases h4 : c = 98 ∨ c = 111 ∨ c = 120
      · rw [if_pos h4]; exact lexRadix_name _ _ _ _ _
      rw [if_neg h4]
      by_cases h5 : c = 0
      · rw [if_pos h5]; exact lexRadix_name _ _ _ _ _
      rw [if_neg h5]; simp
    · rw [if_neg h2]; simp

/-- The shapes of an unquoted name token. -/
theorem lexTok_name (l : Loc) (fl : Flags) (vo cp : Bool) (f : Nat) (lay : Bool)
    (inp t r : List Nat) (h : lexTok l fl vo cp f lay inp = .tok (.name t false) r) :
    isIdent l t = true ∨
    (isGraphic l t = true ∧ (∀ w, t ≠ 47 :: 42 :: w) ∧ (t = [46] → endsClause l r = false)) ∨
    (∃ c, t = [c] ∧ charType l c = SC ∧ (c = 44 → cp = false)) := by
  induction f generalizing lay inp with
  | zero => simp [lexTok] at h
  | succ f ih =>
    cases inp with
    | nil => simp [lexTok] at h
    | cons c inp =>
      unfold lexTok at h
      cases hc : charType l c <;> rw [hc] at h <;> dsimp only at h
      · exact ih _ _ h
      · by_cases h1 : c = 44 ∧ cp = true
        · rw [if_pos h1] at h; simp at h
        · rw [if_neg h1] at h
          simp only [LexRes.tok.injEq, Tok.name.injEq, and_true] at h
          refine Or.inr (Or.inr ⟨c, h.1.symm, hc, fun h44 => ?_⟩)
          cases cp
          · rfl
          · exact absurd ⟨h44, rfl⟩ h1
      · exact absurd h (fun h => lexQuoted_name _ _ _ _ _ _ h)
      · exact absurd h (fun h => lexQuoted_name _ _ _ _ _ _ h)
      · exact absurd h (fun h => lexQuoted_name _ _ _ _ _ _ h)
      · -- graphic
        by_cases h1 : c = 46 ∧ endsClause l inp = true
        · rw [if_pos h1] at h; simp at h
        rw [if_neg h1] at h
        by_cases h2 : c = 47 ∧ inp.head? = some 42
        · rw [if_pos h2] at h
          cases hk : skipComment (inp.drop 1) with
          | none => rw [hk] at h; simp at h
          | some r' => rw [hk] at h; exact ih _ _ h
        rw [if_neg h2] at h
        simp only [LexRes.tok.injEq, Tok.name.injEq, and_true] at h
        obtain ⟨ht, hr⟩ := h
        refine Or.inr (Or.inl ⟨?_, ?_, ?_⟩)
        · rw [← ht]
          unfold isGraphic
          simp only [List.isEmpty_cons, Bool.not_false, Bool.true_and, List.all_cons, hc, beq_self_eq_true,
            List.all_eq_true]
          exact fun d hd => takeCT_all l (· == GR) inp d hd
        · intro w hw
          rw [← ht] at hw
          simp only [List.cons.injEq] at hw
          cases inp with
          | nil => simp [takeCT] at hw
          | cons d inp =>
            unfold takeCT at hw
            by_cases hd : (charType l d == GR) = true
            · simp only [hd, if_true, List.cons.injEq] at hw
              exact h2 ⟨hw.1, by simp [hw.2.1]⟩
            · simp [hd] at hw
        · intro h46
          rw [← ht] at h46
          simp only [List.cons.injEq] at h46
          cases inp with
          | nil => exact absurd ⟨h46.1, rfl⟩ h1
          | cons d inp =>
            unfold takeCT at h46 hr
            by_cases hd : (charType l d == GR) = true
            · simp [hd] at h46
            · simp only [hd, Bool.false_eq_true, if_false] at hr
              rw [← hr]
              cases he : endsClause l (d :: inp) with
              | false => rfl
              | true => exact absurd ⟨h46.1, he⟩ h1
      · split at h <;> simp at h
      · exact absurd h (lexNumber_name _ _ _ _ _ _ _)
      · simp at h
      · simp at h
      · simp only [LexRes.tok.injEq, Tok.name.injEq, and_true] at h
        refine Or.inl ?_
        rw [← h.1]
        have hall := takeCT_all l CT.alnum (c :: inp)
        have hcons : (takeCT l CT.alnum (c :: inp)).1 = c :: (takeCT l CT.alnum inp).1 := by
          simp [takeCT, hc, CT.alnum]
        rw [hcons] at hall ⊢
        unfold isIdent
        simp only [Bool.and_eq_true, List.all_eq_true, hc, beq_self_eq_true, and_true]
        exact hall
      · exact ih _ _ h
      · simp at h

end Gp.Quote
