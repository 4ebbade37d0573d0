import Verif.CharConv.Model
/-
C72. char_conversion/2 and current_char_conversion/2.
-/
namespace Gp.CharConv

/-- The conversions from the character `s`, in order. -/
def rows (conv : Conv) (s : Nat) : List (Nat × Nat) :=
  ((List.range' s (256 - s)).filter fun c => c ≠ conv c).map fun c => (c, conv c)

theorem rows_ge {conv : Conv} {s : Nat} (h : 256 ≤ s) : rows conv s = [] := by
  simp [rows, show 256 - s = 0 by omega]

theorem rows_lt {conv : Conv} {s : Nat} (h : s < 256) :
    rows conv s = if s ≠ conv s then (s, conv s) :: rows conv (s + 1) else rows conv (s + 1) := by
  unfold rows
  rw [show 256 - s = (256 - (s + 1)) + 1 by omega, List.range'_succ, List.filter_cons]
  by_cases e : s = conv s
  · simp [← e]
  · simp [e]

theorem find_eq {conv : Conv} : ∀ {n s : Nat}, 256 ≤ s + n →
    (find conv n s = none ∧ rows conv s = []) ∨ ∃ c, find conv n s = some (c, conv c) ∧ s ≤ c ∧ c < 256 ∧ rows conv s = (c, conv c) :: rows conv (c + 1)
  | 0, s, h => .inl ⟨rfl, rows_ge (by omega)⟩
  | n + 1, s, h => by
    simp only [find]
    by_cases hs : s < 256
    · rw [if_pos hs, rows_lt hs]
      by_cases e : s ≠ conv s
      · rw [if_pos e, if_pos e]; exact .inr ⟨s, rfl, Nat.le_refl s, hs, rfl⟩
      · rw [if_neg e, if_neg e]
        rcases find_eq (conv := conv) (n := n) (s := s + 1) (by omega) with h | ⟨c, h1, h2, h3⟩
        · exact .inl h
        · exact .inr ⟨c, h1, by omega, h3⟩
    · rw [if_neg hs]; exact .inl ⟨rfl, rows_ge (by omega)⟩

theorem alts_eq {unif : Nat → Nat → Bool} {conv : Conv} : ∀ {n k c : Nat}, 256 ≤ c + n → c < 256 →
    alts unif (fun _ => conv) n k (c, conv c) = ((c, conv c) :: rows conv (c + 1)).filter fun p => unif p.1 p.2
  | 0, k, c, h, hc => by omega
  | n + 1, k, c, h, hc => by
    simp only [alts, List.filter_cons]
    rcases find_eq (conv := conv) (n := 256) (s := c + 1) (by omega) with ⟨h1, h2⟩ | ⟨d, h1, h2, h3, h4⟩
    · rw [h1, h2]; split <;> simp
    · rw [h1, h4]
      simp only
      rw [alts_eq (by omega) h3]
      split <;> simp

/-- current_char_conversion(In, Out) with an unbound In gives on backtracking every character which is converted to another one, exactly once, in the order of the codes, with its
conversion, among those which unify. -/
theorem C72_current_all {unif : Nat → Nat → Bool} {conv : Conv} : currentAll unif (fun _ => conv) =
    (((List.range 256).filter fun c => c ≠ conv c).map fun c => (c, conv c)).filter fun p => unif p.1 p.2 := by
  have hr : (((List.range 256).filter fun c => c ≠ conv c).map fun c => (c, conv c)) = rows conv 0 := by
    unfold rows; rw [List.range_eq_range']
  rw [hr]
  unfold currentAll
  rcases find_eq (conv := conv) (n := 256) (s := 0) (by omega) with ⟨h1, h2⟩ | ⟨d, h1, h2, h3, h4⟩
  · rw [h1, h2]; rfl
  · rw [h1, h4]; exact alts_eq (by omega) h3

/-- char_conversion(A, B): A is converted to B when characters are converted, and no other character changes; current_char_conversion(A, X) gives B, or fails when
B is A. Nothing is converted without the flag, nor the end of the file. -/
theorem C72_char_conversion (conv : Conv) {a b : Nat} (ha : 1 ≤ a) (ha' : a < 256) :
    convert true (charConversion conv a b) a = b ∧ (∀ c : Int, c ≠ a → ∀ flag, convert flag (charConversion conv a b) c = convert flag conv c) ∧
    currentKnown (charConversion conv a b) a = (if a = b then none else some b) ∧
    (∀ c, c ≠ a → currentKnown (charConversion conv a b) c = currentKnown conv c) ∧
    ∀ conv' c, convert false conv' c = c ∧ convert true conv' (-1) = -1 := by
  refine ⟨?_, ?_, ?_, ?_, ?_⟩
  · unfold convert charConversion
    rw [if_pos ⟨rfl, by omega, by omega⟩]; simp
  · intro c hc flag
    unfold convert charConversion
    split
    · rw [if_neg (by omega)]
    · rfl
  · simp only [currentKnown, charConversion, if_true]
    by_cases e : a = b
    · simp [e]
    · simp [e]
  · intro c hc
    simp only [currentKnown, charConversion, if_neg hc]
  · intro conv' c
    exact ⟨by simp [convert], by simp [convert]⟩

/-- The next answer is computed in advance: a conversion removed after an answer is still given once, whatever the table has become. -/
theorem C72_stale_answer {unif : Nat → Nat → Bool} {convs : Nat → Conv} {p q : Nat × Nat} (h1 : find (convs 0) 256 0 = some p)
    (h2 : find (convs 0) 256 (p.1 + 1) = some q) (hq : unif q.1 q.2 = true) : q ∈ currentAll unif convs := by
  have key : ∀ n, q ∈ alts unif convs (n + 2) 0 p := by
    intro n
    rw [alts, h2]
    simp only
    rw [alts, if_pos hq]
    exact List.mem_append_right _ (List.mem_append_left _ (List.mem_singleton.mpr rfl))
  unfold currentAll
  rw [h1]
  exact key 254

/-- a is converted to b and c to d; the conversion of c is removed after the first answer. -/
example : find (charConversion (charConversion initial 97 98) 99 100) 256 0 = some (97, 98) ∧
    currentAll (fun _ _ => true) (fun _ => charConversion (charConversion initial 97 98) 99 100) = [(97, 98), (99, 100)] ∧
    currentAll (fun _ _ => true) (fun k => if k = 0 then charConversion (charConversion initial 97 98) 99 100 else charConversion initial 97 98) =
      [(97, 98), (99, 100)] := by decide +kernel

end Gp.CharConv
