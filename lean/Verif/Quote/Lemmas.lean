import Verif.Quote.Model

/-! Lemmas on the lexical level. -/
namespace Gp.Quote

open CT

/-- The bytes an atom name can contain: it is a C string. -/
def Bytes (s : List Nat) : Prop := ∀ c ∈ s, 0 < c ∧ c < 256

theorem ascii_eq {l : Loc} {c : Nat} (h : c < 128) : charType l c = asciiTable.getD c EX := by
  unfold charType; rw [if_pos h]

theorem type_eq {l : Loc} (hl : l.Ok) {c : Nat} {t : CT} (h : charType l c = t)
    (ht : t ≠ SL ∧ t ≠ CL ∧ t ≠ EX) : c < 128 := by
  by_cases hc : c < 128
  · exact hc
  · unfold charType at h
    rw [if_neg hc] at h
    rcases hl.cls c with h1 | h1 | h1 <;> simp_all

theorem qt_iff {l : Loc} (hl : l.Ok) {c : Nat} : charType l c = QT ↔ c = 39 := by
  constructor
  · intro h
    have hc := type_eq hl h (by simp)
    rw [ascii_eq hc] at h
    have : ∀ c < 128, asciiTable.getD c EX = QT → c = 39 := by decide +kernel
    exact this c hc h
  · rintro rfl; rw [ascii_eq (by decide)]; rfl

theorem type_39 {l : Loc} : charType l 39 = QT := by rw [ascii_eq (by decide)]; rfl
theorem type_44 {l : Loc} : charType l 44 = SC := by rw [ascii_eq (by decide)]; rfl
theorem type_46 {l : Loc} : charType l 46 = GR := by rw [ascii_eq (by decide)]; rfl
theorem type_47 {l : Loc} : charType l 47 = GR := by rw [ascii_eq (by decide)]; rfl
theorem type_42 {l : Loc} : charType l 42 = GR := by rw [ascii_eq (by decide)]; rfl
theorem type_37 {l : Loc} : charType l 37 = CM := by rw [ascii_eq (by decide)]; rfl
theorem type_32 {l : Loc} : charType l 32 = LA := by rw [ascii_eq (by decide)]; rfl
theorem type_91 {l : Loc} : charType l 91 = PC := by rw [ascii_eq (by decide)]; rfl
theorem type_93 {l : Loc} : charType l 93 = PC := by rw [ascii_eq (by decide)]; rfl
theorem type_123 {l : Loc} : charType l 123 = PC := by rw [ascii_eq (by decide)]; rfl
theorem type_125 {l : Loc} : charType l 125 = PC := by rw [ascii_eq (by decide)]; rfl
theorem type_40 {l : Loc} : charType l 40 = PC := by rw [ascii_eq (by decide)]; rfl
theorem type_41 {l : Loc} : charType l 41 = PC := by rw [ascii_eq (by decide)]; rfl
theorem type_124 {l : Loc} : charType l 124 = PC := by rw [ascii_eq (by decide)]; rfl
theorem type_92 {l : Loc} : charType l 92 = GR := by rw [ascii_eq (by decide)]; rfl
theorem type_9 {l : Loc} : charType l 9 = LA := by rw [ascii_eq (by decide)]; rfl
theorem type_10 {l : Loc} : charType l 10 = LA := by rw [ascii_eq (by decide)]; rfl

theorem takeCT_append (l : Loc) (p : CT → Bool) (s rest : List Nat)
    (hs : ∀ c ∈ s, p (charType l c) = true)
    (hr : ∀ c, rest.head? = some c → p (charType l c) = false) :
    takeCT l p (s ++ rest) = (s, rest) := by
  induction s with
  | nil =>
    cases rest with
    | nil => rfl
    | cons c r =>
      have := hr c rfl
      simp [takeCT, this]
  | cons c s ih =>
    have h1 := hs c (by simp)
    have h2 := ih (fun d hd => hs d (by simp [hd]))
    simp [takeCT, h1, h2]

theorem takeCT_all (l : Loc) (p : CT → Bool) (s : List Nat) :
    ∀ c ∈ (takeCT l p s).1, p (charType l c) = true := by
  induction s with
  | nil => intro c h; cases h
  | cons d s ih =>
    intro c h
    unfold takeCT at h
    by_cases hp : p (charType l d) = true
    · simp only [hp, if_true] at h
      rcases List.mem_cons.1 h with rfl | h
      · exact hp
      · exact ih c h
    · simp [hp] at h

/-! ### Reading back the characters of a quoted atom -/

theorem hexVal_hexDigit : ∀ d < 16, hexVal (hexDigit d) = some d := by decide +kernel

theorem hexVal_92 : hexVal 92 = none := by decide +kernel

theorem numEscape_hexEsc (c0 : Nat) (c : Nat) (h0 : 0 < c) (h1 : c < 256) (tail : List Nat) :
    numEscape hexVal 16 0 c0
      ((if c < 16 then [hexDigit c] else [hexDigit (c / 16), hexDigit (c % 16)]) ++ (92 :: tail))
      = (.ch c, tail) := by
  have hd : digits hexVal 16 0
      ((if c < 16 then [hexDigit c] else [hexDigit (c / 16), hexDigit (c % 16)]) ++ (92 :: tail))
      = (c, 92 :: tail) := by
    by_cases hc : c < 16
    · simp only [if_pos hc, List.cons_append, List.nil_append, digits, hexVal_hexDigit c hc, hexVal_92]
      simp
    · simp only [if_neg hc, List.cons_append, List.nil_append, digits,
        hexVal_hexDigit (c / 16) (by omega), hexVal_hexDigit (c % 16) (by omega), hexVal_92]
      simp; omega
  unfold numEscape
  rw [hd]
  dsimp only
  rw [if_neg (by omega), if_neg (by omega)]; rfl

theorem escSymbol_cases : ∀ c < 256, ∀ s, escSymbol c = some s →
    s ≠ 10 ∧ ¬ (s = 92 ∨ s = 39 ∨ s = 34 ∨ s = 96 ∨ s = 0) ∧ escChar s = some c := by
  intro c hc s h
  have hmem : ∀ c < 256, escSymbol c = none ∨
      (c, (escSymbol c).getD 0) ∈ escapes := by decide +kernel
  rcases hmem c hc with h1 | h1
  · simp [h1] at h
  · rw [h, Option.getD_some] at h1
    have : ∀ p ∈ escapes, p.2 ≠ 10 ∧ ¬ (p.2 = 92 ∨ p.2 = 39 ∨ p.2 = 34 ∨ p.2 = 96 ∨ p.2 = 0) ∧
      escChar p.2 = some p.1 := by decide +kernel
    exact this _ h1

theorem lexQuotedChar_showChar (l : Loc) (strict : Bool) (c : Nat) (h0 : 0 < c) (h1 : c < 256)
    (tail : List Nat) :
    lexQuotedChar strict 39 false (showChar l c ++ tail) = (.ch c, tail) := by
  unfold showChar
  cases he : escSymbol c with
  | some s =>
    obtain ⟨ha, hb, hc⟩ := escSymbol_cases c h1 s he
    simp only [List.cons_append, List.nil_append]
    unfold lexQuotedChar; dsimp only
    rw [if_neg (by decide), if_neg (by decide), if_neg (by decide), if_neg (by simp)]
    unfold lexEscape; dsimp only
    rw [if_neg ha, if_neg hb, hc]
  | none =>
    dsimp only
    have hn : c ≠ 10 ∧ c ≠ 9 := by
      constructor
      · rintro rfl; revert he; decide +kernel
      · rintro rfl; revert he; decide +kernel
    by_cases hq : c = 39 ∨ c = 92
    · rw [if_pos hq]
      rcases hq with rfl | rfl
      · simp [lexQuotedChar]
      · simp only [List.cons_append, List.nil_append]
        unfold lexQuotedChar; dsimp only
        rw [if_neg (by decide), if_neg (by decide), if_neg (by decide), if_neg (by simp)]
        unfold lexEscape; dsimp only
        rw [if_neg (by decide), if_pos (by simp)]
    · rw [if_neg hq]
      by_cases hp : isPrint l c = false
      · rw [if_pos hp]
        unfold hexEsc
        simp only [List.append_assoc]
        generalize hg : (if c < 16 then [hexDigit c] else [hexDigit (c / 16), hexDigit (c % 16)]) ++ ([92] ++ tail) = w
        simp only [List.cons_append, List.nil_append]
        unfold lexQuotedChar; dsimp only
        rw [if_neg (by decide), if_neg (by decide), if_neg (by decide), if_neg (by simp)]
        unfold lexEscape; dsimp only
        rw [if_neg (by decide), if_neg (by decide)]
        have hx : escChar 120 = none := by decide +kernel
        rw [hx]
        dsimp only
        rw [if_neg (by simp), if_neg (by simp), if_pos rfl]
        rw [← hg]
        exact numEscape_hexEsc 39 c h0 h1 tail
      · rw [if_neg hp]
        simp only [List.cons_append, List.nil_append]
        unfold lexQuotedChar; dsimp only
        rw [if_neg (by omega), if_neg hn.1, if_neg hn.2, if_pos (by omega)]

theorem lexQuotedChar_plain (l : Loc) (hl : l.Ok) (strict : Bool) (c : Nat)
    (h : scanChar l c = false) (tail : List Nat) :
    lexQuotedChar strict 39 false (c :: tail) = (.ch c, tail) := by
  have h92 : c ≠ 92 := by rintro rfl; simp [scanChar] at h
  have h39 : c ≠ 39 := by rintro rfl; simp [scanChar, type_39] at h
  have h9 : c ≠ 9 := by rintro rfl; simp [scanChar, type_9] at h
  have h10 : c ≠ 10 := by rintro rfl; simp [scanChar, type_10] at h
  unfold lexQuotedChar; dsimp only
  rw [if_neg h39, if_neg h10, if_neg h9, if_pos (Or.inl h92)]

theorem lexQuotedLoop_chars (strict : Bool) (enc : Nat → List Nat) (s : List Nat)
    (henc : ∀ c ∈ s, ∀ tail, lexQuotedChar strict 39 false (enc c ++ tail) = (.ch c, tail))
    (rest : List Nat) (hr : rest.head? ≠ some 39) (f : Nat) (acc : List Nat)
    (hf : s.length + 1 ≤ f) :
    lexQuotedLoop strict 39 false f false acc (s.flatMap enc ++ (39 :: rest))
      = .tok (.name (acc.reverse ++ s) true) rest := by
  induction s generalizing f acc with
  | nil =>
    obtain ⟨g, rfl⟩ : ∃ g, f = g + 1 := ⟨f - 1, by simp at hf; omega⟩
    have : lexQuotedChar strict 39 false (39 :: rest) = (.close, rest) := by
      unfold lexQuotedChar; dsimp only
      rw [if_pos rfl]
      cases rest with
      | nil => rfl
      | cons d r =>
        have : d ≠ 39 := fun h => hr (by simp [h])
        simp [this]
    simp [lexQuotedLoop, this]
  | cons c s ih =>
    obtain ⟨g, rfl⟩ : ∃ g, f = g + 1 := ⟨f - 1, by simp at hf; omega⟩
    have h1 := henc c (by simp) (s.flatMap enc ++ (39 :: rest))
    simp only [List.flatMap_cons, List.append_assoc]
    unfold lexQuotedLoop
    rw [h1]
    simp only [Bool.false_eq_true, if_false]
    rw [ih (fun d hd => henc d (by simp [hd])) g (c :: acc) (by simp at hf; omega)]
    simp

theorem flatMap_single (s : List Nat) : s.flatMap (fun c => [c]) = s := by
  induction s with
  | nil => rfl
  | cons c s ih => simp [ih]

theorem length_flatMap_ge (enc : Nat → List Nat) (s : List Nat) (h : ∀ c ∈ s, enc c ≠ []) :
    s.length ≤ (s.flatMap enc).length := by
  induction s with
  | nil => simp
  | cons c s ih =>
    have := ih (fun d hd => h d (by simp [hd]))
    have h1 : 0 < (enc c).length := List.length_pos_iff.2 (h c (by simp))
    simp only [List.flatMap_cons, List.length_append, List.length_cons]
    omega

theorem showChar_ne_nil (l : Loc) (c : Nat) : showChar l c ≠ [] := by
  unfold showChar
  cases escSymbol c with
  | some s => simp
  | none =>
    dsimp only
    split
    · simp
    · split
      · simp [hexEsc]
      · simp

/-- A quoted atom reads back as the same name. -/
theorem lexQuoted_shown (l : Loc) (hl : l.Ok) (fl : Flags) (s : List Nat) (hs : Bytes s)
    (rest : List Nat) (hr : rest.head? ≠ some 39) :
    lexQuoted fl QT 39 ((if needsScan l s then s.flatMap (showChar l) else s) ++ (39 :: rest))
      = .tok (.name s true) rest := by
  unfold lexQuoted
  dsimp only
  by_cases hn : needsScan l s = true
  · rw [if_pos hn]
    have := lexQuotedLoop_chars fl.strict (showChar l) s
      (fun c hc tail => lexQuotedChar_showChar l fl.strict c (hs c hc).1 (hs c hc).2 tail) rest hr
      ((s.flatMap (showChar l) ++ 39 :: rest).length + 1) []
      (by
        have := length_flatMap_ge (showChar l) s (fun c _ => showChar_ne_nil l c)
        simp only [List.length_append, List.length_cons]
        omega)
    rw [this]; rfl
  · rw [if_neg hn]
    have hp : ∀ c ∈ s, scanChar l c = false := by
      intro c hc
      cases h : scanChar l c with
      | false => rfl
      | true => exact absurd (List.any_eq_true.2 ⟨c, hc, h⟩) hn
    have := lexQuotedLoop_chars fl.strict (fun c => [c]) s
      (fun c hc tail => lexQuotedChar_plain l hl fl.strict c (hp c hc) tail) rest hr
      ((s ++ 39 :: rest).length + 1) []
      (by simp only [List.length_append, List.length_cons]; omega)
    rw [flatMap_single] at this
    rw [this]; rfl

end Gp.Quote
