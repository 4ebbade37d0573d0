import Verif.CharCode.Model
/-
C74. char_code/2 and lower_upper/2.
-/
namespace Gp.CharCode

/-- The integers of a Prolog term (61 bits). -/
def Small (n : Int) : Prop := -2 ^ 60 ≤ n ∧ n < 2 ^ 60

/-- Atoms have no null byte, their bytes are less than 256; integers have 61 bits. -/
def Wf : Arg → Prop
  | .atom bs => ∀ b ∈ bs, 1 ≤ b ∧ b < 256
  | .int n => Small n
  | _ => True

theorem valid_iff {n : Int} (h : Small n) : isValidCode n = true ↔ 1 ≤ n ∧ n ≤ 255 := by
  unfold Small at h
  unfold isValidCode
  rw [decide_eq_true_iff]
  omega

/-- What char_code/2 must do, case by case. -/
inductive CharCodeSpec : Arg → Arg → Out → Prop where
  | code {c : Nat} {v : Nat} : CharCodeSpec (.atom [c]) (.var v) (.bind v (.int c))
  | char {v : Nat} {c : Nat} : 1 ≤ c → c ≤ 255 → CharCodeSpec (.var v) (.int c) (.bind v (.atom [c]))
  | same {c : Nat} : CharCodeSpec (.atom [c]) (.int c) .yes
  | differ {c : Nat} {n : Int} : 1 ≤ n → n ≤ 255 → n ≠ c → CharCodeSpec (.atom [c]) (.int n) .fail
  | unbound {v w : Nat} : CharCodeSpec (.var v) (.var w) (.error .instantiation)
  | notChar {a b : Arg} : (∀ v, a ≠ .var v) → (∀ c, a ≠ .atom [c]) → CharCodeSpec a b (.error (.typeCharacter a))
  | notInt {a b : Arg} : ((∃ v, a = .var v) ∨ ∃ c, a = .atom [c]) → (∀ v, b ≠ .var v) → (∀ n, b ≠ .int n) → CharCodeSpec a b (.error (.typeInteger b))
  | notCode {a : Arg} {n : Int} : ((∃ v, a = .var v) ∨ ∃ c, a = .atom [c]) → (n < 1 ∨ 255 < n) → CharCodeSpec a (.int n) (.error .reprCharacterCode)

theorem code_spec {a b : Arg} (ha : Wf a) (hb : Wf b) : CharCodeSpec a b (charCode a b) := by
  have key : ∀ c, Wf (.atom [c]) → CharCodeSpec (.atom [c]) b (unCodeCheck c b) := by
    intro c hc
    cases b with
    | var w => exact .code
    | atom bs => exact .notInt (.inr ⟨_, rfl⟩) (by simp) (by simp)
    | other k => exact .notInt (.inr ⟨_, rfl⟩) (by simp) (by simp)
    | int n =>
      have hv := valid_iff (n := n) hb
      by_cases h : isValidCode n = true
      · by_cases e : n = c
        · subst e; simp only [unCodeCheck, h, if_true]; exact .same
        · simp only [unCodeCheck, h, if_true, if_neg e]; exact .differ (hv.1 h).1 (hv.1 h).2 e
      · simp only [unCodeCheck, if_neg h]
        exact .notCode (.inr ⟨_, rfl⟩) (by have := mt hv.2 h; omega)
  cases a with
  | var v =>
    cases b with
    | var w => exact .unbound
    | atom bs => exact .notInt (.inl ⟨_, rfl⟩) (by simp) (by simp)
    | other k => exact .notInt (.inl ⟨_, rfl⟩) (by simp) (by simp)
    | int n =>
      have hv := valid_iff (n := n) hb
      by_cases h : isValidCode n = true
      · obtain ⟨h1, h2⟩ := hv.1 h
        obtain ⟨m, rfl⟩ : ∃ m : Nat, n = m := ⟨n.toNat, by omega⟩
        have hm : m % 256 = m := Nat.mod_eq_of_lt (by omega)
        simp only [charCode, rdCodeCheck, rdIntegerCheck, h, if_true, unCharCheck, Int.toNat_natCast, hm]
        exact .char (by omega) (by omega)
      · simp only [charCode, rdCodeCheck, rdIntegerCheck, if_neg h]
        exact .notCode (.inl ⟨_, rfl⟩) (by have := mt hv.2 h; omega)
  | int n => exact .notChar (by simp) (by simp)
  | other k => exact .notChar (by simp) (by simp)
  | atom bs =>
    match bs, ha with
    | [], _ => exact .notChar (by simp) (by simp)
    | [c], ha => exact key c ha
    | c :: d :: r, _ => exact .notChar (by simp) (by simp)

/-- The specification determines the outcome. -/
theorem spec_unique {a b : Arg} {o p : Out} (hwf : Wf a) (h1 : CharCodeSpec a b o) (h2 : CharCodeSpec a b p) : o = p := by
  cases h1 <;> cases h2 <;> simp_all [Wf] <;> omega

/-- The outcome of char_code/2 is exactly the specified one: the code of the character, the character of the code, or the error. -/
theorem C74_char_code {a b : Arg} {o : Out} (ha : Wf a) (hb : Wf b) : charCode a b = o ↔ CharCodeSpec a b o :=
  ⟨fun h => h ▸ code_spec ha hb, fun h => spec_unique ha (code_spec ha hb) h⟩

example : Wf (.atom [97]) ∧ Wf (.int 300) ∧ CharCodeSpec (.atom [97]) (.int 300) (.error .reprCharacterCode) :=
  ⟨by simp [Wf], by simp [Wf, Small], .notCode (.inr ⟨_, rfl⟩) (by omega)⟩

/-- The two modes of char_code/2 are inverse: a character is given for a code exactly when the code is given for the character. -/
theorem C74_round_trip {bs : List Nat} {n : Int} {v w : Nat} (ha : Wf (.atom bs)) (hn : Small n) :
    charCode (.var v) (.int n) = .bind v (.atom bs) ↔ charCode (.atom bs) (.var w) = .bind w (.int n) := by
  rw [C74_char_code (a := .var v) (b := .int n) trivial hn, C74_char_code (b := .var w) ha trivial]
  constructor
  · intro h; cases h; exact .code
  · intro h
    cases h
    have := ha _ (List.mem_singleton.2 rfl)
    exact .char this.1 (by omega)

example : charCode (.var 0) (.int 233) = .bind 0 (.atom [233]) := by decide +kernel

/-- The upper case of a character: the upper case letter of the same rank for a lower case letter, else the character itself. -/
def IsUpperOf (u l : Nat) : Prop := (∃ i < 26, l = 97 + i ∧ u = 65 + i) ∨ ((∀ i < 26, l ≠ 97 + i) ∧ u = l)

/-- The lower case of a character. -/
def IsLowerOf (l u : Nat) : Prop := (∃ i < 26, u = 65 + i ∧ l = 97 + i) ∨ ((∀ i < 26, u ≠ 65 + i) ∧ l = u)

theorem upper_iff {u l : Nat} : IsUpperOf u l ↔ u = toUpper l := by
  unfold IsUpperOf toUpper
  split
  · rename_i h
    constructor
    · rintro (⟨i, h1, h2, h3⟩ | ⟨h1, h2⟩)
      · omega
      · exact absurd (show l = 97 + (l - 97) by omega) (h1 _ (by omega))
    · intro e; exact .inl ⟨l - 97, by omega, by omega, by omega⟩
  · rename_i h
    constructor
    · rintro (⟨i, h1, h2, h3⟩ | ⟨h1, h2⟩) <;> omega
    · intro e; exact .inr ⟨fun i hi => by omega, e⟩

theorem lower_iff {u l : Nat} : IsLowerOf l u ↔ l = toLower u := by
  unfold IsLowerOf toLower
  split
  · rename_i h
    constructor
    · rintro (⟨i, h1, h2, h3⟩ | ⟨h1, h2⟩)
      · omega
      · exact absurd (show u = 65 + (u - 65) by omega) (h1 _ (by omega))
    · intro e; exact .inl ⟨u - 65, by omega, by omega, by omega⟩
  · rename_i h
    constructor
    · rintro (⟨i, h1, h2, h3⟩ | ⟨h1, h2⟩) <;> omega
    · intro e; exact .inr ⟨fun i hi => by omega, e⟩

theorem upper_byte {c : Nat} (h : c < 256) : toUpper c % 256 = toUpper c := by
  unfold toUpper; split <;> omega

theorem lower_byte {c : Nat} (h : c < 256) : toLower c % 256 = toLower c := by
  unfold toLower; split <;> omega

/-- lower_upper/2 on characters: a known first argument gives its upper case or is compared by it; else the lower case of the second one is given. -/
theorem C74_lower_upper {l u : Nat} {v : Nat} {x : Arg} (hl : l < 256) (hu : u < 256) :
    (lowerUpper (.atom [l]) (.var v) = .bind v x ↔ ∃ c, x = .atom [c] ∧ IsUpperOf c l) ∧
    (lowerUpper (.var v) (.atom [u]) = .bind v x ↔ ∃ c, x = .atom [c] ∧ IsLowerOf c u) ∧
    (lowerUpper (.atom [l]) (.atom [u]) = .yes ↔ IsUpperOf u l) ∧
    (lowerUpper (.atom [l]) (.atom [u]) = .fail ↔ ¬ IsUpperOf u l) := by
  simp only [upper_iff, lower_iff, lowerUpper, rdCharCheck, unCharCheck, upper_byte hl, lower_byte hu]
  refine ⟨?_, ?_, ?_, ?_⟩
  · simp [eq_comm]
  · simp [eq_comm]
  · split <;> simp_all
  · split <;> simp_all

example : lowerUpper (.atom [97]) (.var 3) = .bind 3 (.atom [65]) ∧ lowerUpper (.var 3) (.atom [65]) = .bind 3 (.atom [97]) := by decide +kernel

/-- lower_upper(L, U) with an unbound L: the answer, given back to lower_upper/2, succeeds exactly when U is not a lower case letter. The call with the answer fails
for a lower case letter: the predicate is not a relation. -/
theorem C74_lower_upper_answer {u l v : Nat} (hu : u < 256) (h : lowerUpper (.var v) (.atom [u]) = .bind v (.atom [l])) :
    (lowerUpper (.atom [l]) (.atom [u]) = .yes ↔ ∀ i < 26, u ≠ 97 + i) ∧
    (lowerUpper (.atom [l]) (.atom [u]) = .fail ↔ ∃ i < 26, u = 97 + i) := by
  have e : l = toLower u := by
    simp only [lowerUpper, rdCharCheck, unCharCheck, lower_byte hu] at h
    injection h with _ h
    injection h with h
    injection h with h
    exact h.symm
  have hl : l < 256 := by rw [← lower_byte hu] at e; omega
  obtain ⟨_, _, h3, h4⟩ := C74_lower_upper (v := v) (x := .var 0) hl hu
  have key : IsUpperOf u l ↔ ∀ i < 26, u ≠ 97 + i := by
    rw [upper_iff, e]
    unfold toLower toUpper
    constructor
    · intro h i hi; split at h <;> split at h <;> omega
    · intro h
      have : ¬ (97 ≤ u ∧ u ≤ 122) := fun ⟨h1, h2⟩ => h (u - 97) (by omega) (by omega)
      by_cases k : 65 ≤ u ∧ u ≤ 90
      · rw [if_pos k, if_pos (by omega)]; omega
      · rw [if_neg k, if_neg this]
  refine ⟨h3.trans key, h4.trans ((not_congr key).trans ?_)⟩
  simp

/-- lower_upper(X, a) answers X = a but lower_upper(a, a) fails. -/
example : lowerUpper (.var 0) (.atom [97]) = .bind 0 (.atom [97]) ∧ lowerUpper (.atom [97]) (.atom [97]) = .fail := by decide +kernel

/-- A variable. -/
def IsVar (a : Arg) : Prop := ∃ v, a = .var v

/-- An atom of one character. -/
def IsChar (a : Arg) : Prop := ∃ c, a = .atom [c]

theorem arg_cases (a : Arg) : IsVar a ∨ IsChar a ∨ (¬ IsVar a ∧ ¬ IsChar a) := by
  by_cases h : IsVar a
  · exact .inl h
  · by_cases h' : IsChar a
    · exact .inr (.inl h')
    · exact .inr (.inr ⟨h, h'⟩)

theorem rd_bad {a : Arg} (h : ¬ IsVar a) (h' : ¬ IsChar a) : rdCharCheck a = .error (.typeCharacter a) := by
  unfold rdCharCheck
  split
  · exact absurd ⟨_, rfl⟩ h
  · exact absurd ⟨_, rfl⟩ h'
  · rfl

theorem un_bad {c : Nat} {a : Arg} (h : ¬ IsVar a) (h' : ¬ IsChar a) : unCharCheck c a = .error (.typeCharacter a) := by
  unfold unCharCheck
  split
  · exact absurd ⟨_, rfl⟩ h
  · exact absurd ⟨_, rfl⟩ h'
  · rfl

theorem lu_bad {a b : Arg} (h : ¬ IsVar a) (h' : ¬ IsChar a) : lowerUpper a b = .error (.typeCharacter a) := by
  unfold lowerUpper
  split
  · exact absurd ⟨_, rfl⟩ h
  · rw [rd_bad h h']

/-- The errors of lower_upper/2 are exactly the documented ones. -/
theorem C74_lower_upper_errors {a b : Arg} {e : Err} : lowerUpper a b = .error e ↔
    (IsVar a ∧ IsVar b ∧ e = .instantiation) ∨ (¬ IsVar a ∧ ¬ IsChar a ∧ e = .typeCharacter a) ∨
    ((IsVar a ∨ IsChar a) ∧ ¬ IsVar b ∧ ¬ IsChar b ∧ e = .typeCharacter b) := by
  have nv : ∀ v, IsVar (.var v) := fun v => ⟨v, rfl⟩
  have nc : ∀ c, IsChar (.atom [c]) := fun c => ⟨c, rfl⟩
  have vc : ∀ v, ¬ IsChar (.var v) := by rintro v ⟨c, h⟩; cases h
  have cv : ∀ c, ¬ IsVar (.atom [c]) := by rintro v ⟨c, h⟩; cases h
  rcases arg_cases a with ⟨v, rfl⟩ | ⟨c, rfl⟩ | ⟨h1, h2⟩
  · rcases arg_cases b with ⟨w, rfl⟩ | ⟨d, rfl⟩ | ⟨h3, h4⟩
    · simp [lowerUpper, rdCharCheck, nv, vc, eq_comm]
    · simp [lowerUpper, rdCharCheck, unCharCheck, nv, nc, vc, cv]
    · simp [lowerUpper, rd_bad h3 h4, nv, h3, h4, eq_comm]
  · rcases arg_cases b with ⟨w, rfl⟩ | ⟨d, rfl⟩ | ⟨h3, h4⟩
    · simp [lowerUpper, rdCharCheck, unCharCheck, nv, nc, vc, cv]
    · simp only [lowerUpper, rdCharCheck, unCharCheck, nc, cv]
      split <;> simp
    · simp [lowerUpper, rdCharCheck, un_bad h3 h4, nc, cv, h3, h4, eq_comm]
  · rw [lu_bad h1 h2]; simp [h1, h2, eq_comm]

example : lowerUpper (.atom [97]) (.int 3) = .error (.typeCharacter (.int 3)) ∧ lowerUpper (.var 1) (.var 2) = .error .instantiation := by decide +kernel

end Gp.CharCode
