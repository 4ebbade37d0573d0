import Verif.Quote.Inv

/-!
C33: an atom written with quotes reads back as the same atom.

Spec: `glued` says when a character following a written atom would be taken as part of it, in terms of
the character classes only.
-/
namespace Gp.Quote

open CT

/-- The character `c`, put just after the text, would be read as part of the same token: a letter, digit
or underscore after a word, a graphic character after a graphic word, a quote after a quoted item. -/
def glued (l : Loc) (text : List Nat) (c : Nat) : Prop :=
  match text with
  | [] => False
  | d :: _ =>
    (charType l d = SL ∧ (charType l c).alnum = true) ∨ (charType l d = GR ∧ charType l c = GR) ∨
    (d = 39 ∧ c = 39)

instance (l : Loc) (text : List Nat) (c : Nat) : Decidable (glued l text c) := by
  unfold glued; cases text <;> dsimp only <;> infer_instance

/-- The two names read as two punctuation tokens, `[]` and `{}`. -/
def brackets (s : List Nat) : Prop := s = [91, 93] ∨ s = [123, 125]

theorem atomProp_cases (l : Loc) (s : List Nat) (h : (atomProp l s).2 = false) :
    isIdent l s = true ∨
    (isGraphic l s = true ∧ s ≠ [46] ∧ (∀ w, s ≠ 47 :: 42 :: w)) ∨
    (∃ c, s = [c] ∧ charType l c = SC ∧ c ≠ 44) ∨ brackets s := by
  unfold atomProp at h
  by_cases h1 : isIdent l s = true
  · exact Or.inl h1
  rw [if_neg h1] at h
  by_cases h2 : isGraphic l s = true
  · rw [if_pos h2] at h
    dsimp only at h
    refine Or.inr (Or.inl ⟨h2, ?_, ?_⟩)
    · rintro rfl; simp at h
    · rintro w rfl; simp at h
  rw [if_neg h2] at h
  refine Or.inr (Or.inr ?_)
  split at h
  · rename_i c
    split at h
    · rename_i hc
      exact Or.inl ⟨c, rfl, hc, by simpa using h⟩
    · simp at h
  · simp at h
    right
    rcases h with ⟨-, h⟩
    unfold brackets
    by_cases h3 : s = [91, 93]
    · exact Or.inl h3
    · exact Or.inr (h h3)

/-- General form, used at any point of the input (after layout or not, with any bound). -/
theorem lexTok_showAtom (l : Loc) (hl : l.Ok) (fl : Flags) (vo cp : Bool) (s : List Nat)
    (hs : Bytes s) (hb : ¬ brackets s) (rest : List Nat)
    (hr : ∀ c, rest.head? = some c → ¬ glued l (showAtom l s) c) (f : Nat) (lay : Bool) :
    lexTok l fl vo cp (f + 1) lay (showAtom l s ++ rest) = .tok (.name s (atomProp l s).2) rest := by
  cases hq : (atomProp l s).2 with
  | true =>
    have ht : showAtom l s = [39] ++ (if needsScan l s then s.flatMap (showChar l) else s) ++ [39] := by
      unfold showAtom; rw [hq]; simp
    have hr' : rest.head? ≠ some 39 := by
      intro h
      apply hr 39 h
      rw [ht]
      simp [glued]
    have := lexQuoted_shown l hl fl s hs rest hr'
    rw [ht]
    simp only [List.append_assoc, List.cons_append, List.nil_append]
    unfold lexTok
    rw [type_39]
    exact this
  | false =>
    have ht : showAtom l s = s := by unfold showAtom; rw [hq]; simp
    rw [ht] at hr ⊢
    rcases atomProp_cases l s hq with h | ⟨h, h46, hc⟩ | ⟨c, rfl, hc, h44⟩ | h
    · -- identifier
      cases s with
      | nil => simp [isIdent] at h
      | cons c s =>
        unfold isIdent at h
        simp only [Bool.and_eq_true, List.all_eq_true, beq_iff_eq] at h
        have htk : takeCT l CT.alnum (c :: s ++ rest) = (c :: s, rest) := by
          refine takeCT_append l CT.alnum (c :: s) rest h.1 (fun d hd => ?_)
          cases ha : (charType l d).alnum with
          | false => rfl
          | true => exact absurd (Or.inl ⟨h.2, ha⟩) (hr d hd)
        show lexTok l fl vo cp (f + 1) lay (c :: (s ++ rest)) = _
        unfold lexTok
        rw [h.2]
        dsimp only
        rw [show c :: (s ++ rest) = c :: s ++ rest from rfl, htk]
    · -- graphic
      cases s with
      | nil => simp [isGraphic] at h
      | cons c s =>
        unfold isGraphic at h
        simp only [List.isEmpty_cons, Bool.not_false, Bool.true_and, List.all_cons, Bool.and_eq_true,
          List.all_eq_true, beq_iff_eq] at h
        have htk : takeCT l (· == GR) (s ++ rest) = (s, rest) := by
          refine takeCT_append l (· == GR) s rest (fun d hd => by simp [h.2 d hd]) (fun d hd => ?_)
          cases ha : (charType l d == GR) with
          | false => rfl
          | true => exact absurd (Or.inr (Or.inl ⟨h.1, by simpa using ha⟩)) (hr d hd)
        show lexTok l fl vo cp (f + 1) lay (c :: (s ++ rest)) = _
        unfold lexTok
        rw [h.1]
        dsimp only
        rw [if_neg, if_neg, htk]
        · rintro ⟨rfl, h2⟩
          cases s with
          | nil =>
            exact hr 42 h2 (Or.inr (Or.inl ⟨type_47, type_42⟩))
          | cons d s =>
            simp at h2
            exact hc s (by rw [h2])
        · rintro ⟨rfl, h2⟩
          cases s with
          | nil => exact h46 rfl
          | cons d s =>
            have := h.2 d (by simp)
            simp [endsClause, this] at h2
    · -- solo
      show lexTok l fl vo cp (f + 1) lay (c :: rest) = _
      unfold lexTok
      rw [hc]
      dsimp only
      rw [if_neg (fun h => h44 h.1)]
    · exact absurd h hb

/-- **C33 (round trip).**  For every locale, every atom name (any bytes except NUL) other than `[]` and
`{}`, and every text following it that does not glue to it, the tokenizer reads what `writeq` printed as
one name token with exactly the same name, and leaves the rest.  The setting of the flags, and the way
commas are read, do not matter. -/
theorem C33_roundtrip (l : Loc) (hl : l.Ok) (fl : Flags) (vo cp : Bool) (s : List Nat)
    (hs : Bytes s) (hb : ¬ brackets s) (rest : List Nat)
    (hr : ∀ c, rest.head? = some c → ¬ glued l (showAtom l s) c) :
    lexToken l fl vo cp (showAtom l s ++ rest) = .tok (.name s (atomProp l s).2) rest :=
  lexTok_showAtom l hl fl vo cp s hs hb rest hr _ _

/-- **C33 (the special atoms).**  `[]` and `{}` are printed as such and read as their two brackets, the
tokens from which the parser makes the atoms (parser_supp.c:402-410). -/
theorem C33_brackets (l : Loc) (fl : Flags) (vo cp : Bool) (rest : List Nat) :
    showAtom l [91, 93] = [91, 93] ∧ showAtom l [123, 125] = [123, 125] ∧
    lexToken l fl vo cp ([91, 93] ++ rest) = .tok (.punct 91) (93 :: rest) ∧
    lexToken l fl vo cp (93 :: rest) = .tok (.punct 93) rest ∧
    lexToken l fl vo cp ([123, 125] ++ rest) = .tok (.punct 123) (125 :: rest) ∧
    lexToken l fl vo cp (125 :: rest) = .tok (.punct 125) rest := by
  refine ⟨?_, ?_, ?_, ?_, ?_, ?_⟩
  · simp [showAtom, atomProp, isIdent, isGraphic, needsScan, scanChar, type_91, type_93, CT.alnum]
  · simp [showAtom, atomProp, isIdent, isGraphic, needsScan, scanChar, type_123, type_125, CT.alnum]
  all_goals simp [lexToken, lexTok, type_91, type_93, type_123, type_125]

/-- **C33 (quotes are needed).**  When `writeq` puts quotes, the bare name would not do: followed by a
space, in an argument position, it does not read as this name. -/
theorem C33_quotes_needed (l : Loc) (fl : Flags) (vo : Bool) (s rest : List Nat)
    (hq : (atomProp l s).2 = true) :
    lexToken l fl vo true (s ++ 32 :: rest) ≠ .tok (.name s false) (32 :: rest) := by
  intro h
  rcases lexTok_name _ _ _ _ _ _ _ _ _ h with h1 | ⟨h1, h2, h3⟩ | ⟨c, rfl, h1, h2⟩
  · simp [atomProp, h1] at hq
  · by_cases hi : isIdent l s = true
    · simp [atomProp, hi] at hq
    · unfold atomProp at hq
      rw [if_neg hi, if_pos h1] at hq
      dsimp only at hq
      simp only [Bool.or_eq_true, beq_iff_eq] at hq
      rcases hq with (hq | hq) | hq
      · have := h3 hq
        simp [endsClause, type_32] at this
      · subst hq
        simp [isGraphic, type_37] at h1
      · exact absurd hq (by simp)
  · have hc : c ≠ 44 := fun h => absurd (h2 h) (by simp)
    simp [atomProp, isIdent, isGraphic, h1, CT.alnum, hc] at hq

/-- **C33 (no confusion).**  Two different atoms are never written the same way. -/
theorem C33_injective (l : Loc) (hl : l.Ok) (s t : List Nat) (hs : Bytes s) (ht : Bytes t)
    (h : showAtom l s = showAtom l t) : s = t := by
  by_cases hbs : brackets s
  · by_cases hbt : brackets t
    · rcases hbs with rfl | rfl <;> rcases hbt with rfl | rfl
      · rfl
      · rw [(C33_brackets l {} false false []).1, (C33_brackets l {} false false []).2.1] at h
        simp at h
      · rw [(C33_brackets l {} false false []).1, (C33_brackets l {} false false []).2.1] at h
        simp at h
      · rfl
    · have h2 := C33_roundtrip l hl {} false false t ht hbt [] (by simp)
      rw [← h] at h2
      rcases hbs with rfl | rfl
      · rw [(C33_brackets l {} false false []).1, (C33_brackets l {} false false []).2.2.1] at h2
        simp at h2
      · rw [(C33_brackets l {} false false []).2.1, (C33_brackets l {} false false []).2.2.2.2.1] at h2
        simp at h2
  · have h1 := C33_roundtrip l hl {} false false s hs hbs [] (by simp)
    by_cases hbt : brackets t
    · rw [h] at h1
      rcases hbt with rfl | rfl
      · rw [(C33_brackets l {} false false []).1, (C33_brackets l {} false false []).2.2.1] at h1
        simp at h1
      · rw [(C33_brackets l {} false false []).2.1, (C33_brackets l {} false false []).2.2.2.2.1] at h1
        simp at h1
    · have h2 := C33_roundtrip l hl {} false false t ht hbt [] (by simp)
      rw [h, h2] at h1
      simp at h1
      exact h1.1.symm

/-- **C33 (classes).**  For every locale the classes of the ASCII characters are those of the standard:
letters, digits, underscore, the graphic characters, the solo and punctuation characters, the quotes and
the layout characters. -/
theorem C33_classes (l : Loc) (c : Nat) (hc : c < 128) :
    charType l c =
      (if c ∈ "abcdefghijklmnopqrstuvwxyz".toList.map Char.toNat then SL
       else if c ∈ "ABCDEFGHIJKLMNOPQRSTUVWXYZ".toList.map Char.toNat then CL
       else if c ∈ "0123456789".toList.map Char.toNat then DI
       else if c ∈ "_".toList.map Char.toNat then UL
       else if c ∈ "#$&*+-./:<=>?@^~\\".toList.map Char.toNat then GR
       else if c ∈ "!,;".toList.map Char.toNat then SC
       else if c ∈ "()[]{}|".toList.map Char.toNat then PC
       else if c ∈ "%".toList.map Char.toNat then CM
       else if c ∈ "'".toList.map Char.toNat then QT
       else if c ∈ "\"".toList.map Char.toNat then DQ
       else if c ∈ "`".toList.map Char.toNat then BQ
       else LA) := by
  have h : ∀ c < 128, asciiTable.getD c EX =
      (if c ∈ "abcdefghijklmnopqrstuvwxyz".toList.map Char.toNat then SL
       else if c ∈ "ABCDEFGHIJKLMNOPQRSTUVWXYZ".toList.map Char.toNat then CL
       else if c ∈ "0123456789".toList.map Char.toNat then DI
       else if c ∈ "_".toList.map Char.toNat then UL
       else if c ∈ "#$&*+-./:<=>?@^~\\".toList.map Char.toNat then GR
       else if c ∈ "!,;".toList.map Char.toNat then SC
       else if c ∈ "()[]{}|".toList.map Char.toNat then PC
       else if c ∈ "%".toList.map Char.toNat then CM
       else if c ∈ "'".toList.map Char.toNat then QT
       else if c ∈ "\"".toList.map Char.toNat then DQ
       else if c ∈ "`".toList.map Char.toNat then BQ
       else LA) := by decide +kernel
  rw [ascii_eq hc]
  exact h c hc

/-- **C33 (escapes).**  The named escapes are those of C: `\a \b \f \n \r \t \v`. -/
theorem C33_escapes :
    escapes.map Prod.snd = "abfnrtv".toList.map Char.toNat ∧
    escapes.map Prod.fst = [7, 8, 12, 10, 13, 9, 11] := by decide +kernel

/-! ### Non-vacuity -/

theorem Loc.c_ok : Loc.c.Ok := ⟨fun _ => Or.inr (Or.inr rfl)⟩

/-- A locale where some bytes above 127 are letters (0xE0-0xFF small, 0xC0-0xDF capital). -/
def Loc.latin : Loc :=
  ⟨fun c => if 224 ≤ c then CT.SL else if 192 ≤ c then CT.CL else CT.EX, fun c => 160 ≤ c⟩

theorem Loc.latin_ok : Loc.latin.Ok :=
  ⟨fun c => by unfold Loc.latin; dsimp only; split <;> (try split) <;> simp⟩

/-- `it's\n` followed by `)`. -/
example : lexToken Loc.c {} false true (showAtom Loc.c [105, 116, 39, 115, 10] ++ [41])
    = .tok (.name [105, 116, 39, 115, 10] true) [41] :=
  C33_roundtrip Loc.c Loc.c_ok {} false true _ (by unfold Bytes; decide) (by unfold brackets; decide) _
    (by intro c hc; simp at hc; subst hc; decide +kernel)

example : showAtom Loc.c [105, 116, 39, 115, 10] = [39, 105, 116, 39, 39, 115, 92, 110, 39] := by
  decide +kernel

/-- The byte 0xE9 is written `'\xe9\'` in the C locale, and bare when it is a small letter. -/
example : showAtom Loc.c [233] = [39, 92, 120, 101, 57, 92, 39] ∧ showAtom Loc.latin [233] = [233] := by
  decide +kernel

/-- A graphic atom and a comment opener. -/
example : showAtom Loc.c [61, 46, 46] = [61, 46, 46] ∧ showAtom Loc.c [47, 42] = [39, 47, 42, 39] := by
  decide +kernel

example : (atomProp Loc.c [65]).2 = true ∧ (atomProp Loc.c [44]).2 = true ∧ (atomProp Loc.c []).2 = true := by
  decide +kernel

/-! ### What goes wrong in the reader -/

/-- The condition on the next character is needed: `- -` without the space is another atom. -/
theorem C33_glued_witness :
    lexToken Loc.c {} false false (showAtom Loc.c [45] ++ [45]) = .tok (.name [45, 45] false) [] := by
  decide +kernel

/-- A NUL byte after a backslash is accepted (strchr finds the terminator): the name gets a NUL inside,
so the C string, and the atom created, stop there. -/
theorem C33_escape_nul :
    lexToken Loc.c {} false false [39, 97, 92, 0, 98, 39] = .tok (.name [97, 0, 98] true) [] := by
  decide +kernel

/-- A NUL byte among the digits of a numeric escape counts as a digit of value 16. -/
theorem C33_escape_nul_digit :
    lexToken Loc.c {} false false [39, 92, 120, 52, 0, 92, 39] = .tok (.name [80] true) [] := by
  decide +kernel

/-- The value of a numeric escape is computed in a C `int` without check: `'\x100000041\'` overflows. -/
theorem C33_escape_overflow :
    lexToken Loc.c {} false false [39, 92, 120, 49, 48, 48, 48, 48, 48, 48, 52, 49, 92, 39] = .ub := by
  decide +kernel

end Gp.Quote
