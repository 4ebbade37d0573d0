import Verif.Format.Lemmas
import Verif.Format.Numbers
/- Facts about the specification: digits, groups, columns. -/
namespace Gp.Format
open Spec

/-! ### Digits -/

def evalDigits (b : Nat) (ds : List Nat) : Nat := ds.foldl (fun v d => v * b + d) 0

theorem evalDigits_snoc (b : Nat) (ds : List Nat) (d : Nat) : evalDigits b (ds ++ [d]) = evalDigits b ds * b + d := by
  simp [evalDigits]

theorem digits_spec (b : Nat) (hb : 2 ≤ b) : ∀ x, evalDigits b (digits b x) = x ∧ (∀ d ∈ digits b x, d < b) ∧
    digits b x ≠ [] ∧ (x ≠ 0 → (digits b x).head? ≠ some 0) := by
  intro x
  induction x using Nat.strongRecOn with
  | ind x ih =>
    rw [digits]
    by_cases h : b ≤ x
    · rw [dif_pos ⟨hb, h⟩]
      obtain ⟨i1, i2, i3, i4⟩ := ih (x / b) (Nat.div_lt_self (by omega) (by omega))
      have hp : x / b ≠ 0 := by have := Nat.div_pos h (by omega); omega
      refine ⟨?_, ?_, by simp, fun _ => ?_⟩
      · rw [evalDigits_snoc, i1, Nat.mul_comm]; exact Nat.div_add_mod x b
      · intro d hd
        rcases List.mem_append.1 hd with hd | hd
        · exact i2 d hd
        · rw [List.mem_singleton.1 hd]; exact Nat.mod_lt _ (by omega)
      · rw [List.head?_append]
        cases hh : (digits b (x / b)) with
        | nil => exact (i3 hh).elim
        | cons c l => have := i4 hp; rw [hh] at this; simpa using this
    · rw [dif_neg (by omega)]
      refine ⟨by simp [evalDigits], ?_, by simp, ?_⟩
      · intro d hd; rw [List.mem_singleton.1 hd]; omega
      · intro h0; simpa using h0

theorem digitChar_inj {a : Nat} (ha : a = 65 ∨ a = 97) {d e : Nat} (hd : d < 36) (he : e < 36) (h : digitChar a d = digitChar a e) : d = e := by
  unfold digitChar at h
  split at h <;> split at h <;> omega

theorem evalDigits_append (b : Nat) (l l' : List Nat) : evalDigits b (l ++ l') = evalDigits b l * b ^ l'.length + evalDigits b l' := by
  have : ∀ (l' : List Nat) (v : Nat), l'.foldl (fun v d => v * b + d) v = v * b ^ l'.length + l'.foldl (fun v d => v * b + d) 0 := by
    intro l'
    induction l' with
    | nil => intro v; simp
    | cons c l' ih =>
      intro v
      simp only [List.foldl_cons, List.length_cons]
      rw [ih (v * b + c), ih (0 * b + c), Nat.pow_succ, Nat.add_mul, Nat.zero_mul, Nat.zero_add, Nat.mul_assoc, Nat.mul_comm b, Nat.add_assoc]
  rw [evalDigits, List.foldl_append, this]
  rfl

/-- The value of decimal characters. -/
def evalDec (s : List Nat) : Nat := evalDigits 10 (s.map (· - 48))

theorem evalDec_decimal (x : Nat) : evalDec (decimal x) = x ∧ ∀ c ∈ decimal x, 48 ≤ c ∧ c ≤ 57 := by
  obtain ⟨h1, h2, _⟩ := digits_spec 10 (by omega) x
  have : ∀ c ∈ decimal x, 48 ≤ c ∧ c ≤ 57 := by
    intro c hc
    obtain ⟨d, hd, rfl⟩ := List.mem_map.1 hc
    have := h2 d hd
    unfold digitChar
    rw [if_pos this]; omega
  refine ⟨?_, this⟩
  have e : (decimal x).map (· - 48) = digits 10 x := by
    rw [decimal, List.map_map]
    conv => rhs; rw [← List.map_id (digits 10 x)]
    refine List.map_congr_left fun d hd => ?_
    have := h2 d hd
    simp only [Function.comp, digitChar, if_pos this, id_eq]
    omega
  rw [evalDec, e, h1]

theorem evalDec_lastDigits (n y : Nat) : evalDec (lastDigits n y) = y % 10 ^ n := by
  induction n generalizing y with
  | zero => simp [lastDigits, evalDec, evalDigits, Nat.mod_one]
  | succ n ih =>
    rw [lastDigits_succ, evalDec, List.map_append, List.map_singleton, evalDigits_snoc]
    have := ih (y / 10)
    rw [evalDec] at this
    rw [this]
    have e : 48 + y % 10 - 48 = y % 10 := by omega
    rw [e, Nat.pow_succ, Nat.mul_comm (10 ^ n) 10, Nat.mod_mul]
    omega

/-! ### Groups -/

theorem group_erase (s : List Nat) (h : 44 ∉ s) : (group s).filter (· ≠ 44) = s := by
  induction s with
  | nil => rfl
  | cons c s ih =>
    simp only [List.mem_cons, not_or] at h
    have hc : c ≠ 44 := fun e => h.1 e.symm
    rw [group]
    split <;> simp [hc, ih h.2] <;> simpa using ih h.2

theorem group_length (s : List Nat) : (group s).length = s.length + (s.length - 1) / 3 := by
  induction s with
  | nil => rfl
  | cons c s ih =>
    rw [group]
    split
    · rename_i h
      have := List.length_pos_iff.2 h.1
      simp only [List.length_cons, ih]; omega
    · rename_i h
      simp only [List.length_cons, ih]
      by_cases hs : s = []
      · subst hs; rfl
      · have := List.length_pos_iff.2 hs
        have : s.length % 3 ≠ 0 := fun e => h ⟨hs, e⟩
        omega

/-- From the end, the commas are at the places 3, 7, 11, … -/
theorem group_commas (s : List Nat) (h : 44 ∉ s) (i : Nat) (hi : i < (group s).length) :
    (group s).reverse[i]? = some 44 ↔ i % 4 = 3 := by
  induction s generalizing i with
  | nil => exact absurd hi (by simp [group])
  | cons c s ih =>
    simp only [List.mem_cons, not_or] at h
    have hc : c ≠ 44 := fun e => h.1 e.symm
    have hl := group_length s
    rw [group] at hi ⊢
    by_cases hs : s ≠ [] ∧ s.length % 3 = 0
    · rw [if_pos hs] at hi ⊢
      have := List.length_pos_iff.2 hs.1
      simp only [List.length_cons] at hi
      rw [List.reverse_cons, List.reverse_cons, List.append_assoc]
      by_cases h1 : i < (group s).length
      · rw [List.getElem?_append_left (by simpa using h1)]
        exact ih h.2 i h1
      · rw [List.getElem?_append_right (by simpa using h1), List.length_reverse]
        by_cases h2 : i = (group s).length
        · subst h2; simp; omega
        · have : i - (group s).length = 1 := by omega
          rw [this]
          simp [hc]; omega
    · rw [if_neg hs] at hi ⊢
      simp only [List.length_cons] at hi
      rw [List.reverse_cons]
      by_cases h1 : i < (group s).length
      · rw [List.getElem?_append_left (by simpa using h1)]
        exact ih h.2 i h1
      · have : i = (group s).length := by omega
        subst this
        rw [List.getElem?_append_right (by simp), List.length_reverse, Nat.sub_self]
        simp [hc]
        by_cases he : s = []
        · subst he; simp [group]
        · have := List.length_pos_iff.2 he
          have : s.length % 3 ≠ 0 := fun e => hs ⟨he, e⟩
          omega

/-! ### Columns -/

/-- The column after a text, from a column. -/
def column (col : Nat) (t : List Nat) : Nat := t.foldl (fun p c => if c = 10 then 0 else p + 1) col

theorem column_append (col : Nat) (a b : List Nat) : column col (a ++ b) = column (column col a) b := List.foldl_append

theorem column_plain (col : Nat) (t : List Nat) (h : 10 ∉ t) : column col t = col + t.length := by
  induction t generalizing col with
  | nil => rfl
  | cons c t ih =>
    simp only [List.mem_cons, not_or] at h
    have := ih (col + 1) h.2
    simp only [column, List.foldl_cons, List.length_cons] at this ⊢
    rw [if_neg (fun e => h.1 e.symm), this]; omega

theorem linePos_puts (o : Stm) (t : List Nat) : (o.puts t).linePos = column o.linePos t := by
  induction t generalizing o with
  | nil => rfl
  | cons c t ih =>
    rw [Stm.puts, List.foldl_cons]
    have := ih (o.put c)
    rw [Stm.puts] at this
    rw [this]
    simp only [column, List.foldl_cons, Stm.put, counters]
    congr 1
    split <;> rfl

/-- What a page keeps: the column is that of the text, and no new line waits. -/
structure Good (col : Nat) (s : Page) : Prop where
  col : s.col = column col s.out
  fill : ∀ p ∈ s.pieces, p.1 ≠ 10
  rest : 10 ∉ s.rest

theorem addLast_fill {c : Nat} : ∀ {ps : List (Nat × List Nat)}, (∀ p ∈ ps, p.1 ≠ 10) → ∀ p ∈ addLast c ps, p.1 ≠ 10
  | [], h => h
  | [q], h => by
    intro p hp
    rw [addLast, List.mem_singleton] at hp
    subst hp
    exact h q (by simp)
  | q :: r :: ps, h => by
    intro p hp
    rw [addLast, List.mem_cons] at hp
    rcases hp with rfl | hp
    · exact h p (by simp)
    · exact addLast_fill (fun p hp => h p (by simp [hp])) p hp

theorem layout_plain {free : Nat} {ps : List (Nat × List Nat)} (h1 : ∀ p ∈ ps, p.1 ≠ 10) (h2 : 10 ∉ ps.flatMap (·.2)) :
    10 ∉ layout free ps := by
  simp only [layout, List.mem_flatMap, not_exists, not_and]
  rintro ⟨p, n⟩ hp hm
  have hp' := (List.of_mem_zip hp).1
  simp only [List.mem_append, List.mem_replicate] at hm
  rcases hm with ⟨_, e⟩ | hm
  · exact h1 p hp' e.symm
  · exact h2 (List.mem_flatMap.2 ⟨p, hp', hm⟩)

theorem Good.char {col : Nat} {s : Page} (h : Good col s) (c : Nat) : Good col (s.char c) := by
  unfold Page.char
  by_cases hc : c = 10
  · rw [if_pos hc]
    refine ⟨?_, by simp, by simp [Page.rest]⟩
    show 0 = column col (s.out ++ s.rest ++ [10])
    rw [column_append]; rfl
  · rw [if_neg hc]
    by_cases hp : s.pieces = []
    · rw [if_pos hp]
      refine ⟨?_, h.fill, h.rest⟩
      show s.col + 1 = column col (s.out ++ [c])
      rw [column_append, ← h.col]
      simp [column, hc]
    · rw [if_neg hp]
      refine ⟨h.col, addLast_fill h.fill, ?_⟩
      show 10 ∉ (addLast c s.pieces).flatMap (·.2)
      rw [addLast_flat hp]
      have := h.rest
      simp only [Page.rest] at this
      simp only [List.mem_append, List.mem_singleton, not_or]
      exact ⟨this, fun e => hc e.symm⟩

theorem Good.stop {col : Nat} {s : Page} (h : Good col s) (b : Int) : Good col (s.stop b) := by
  refine ⟨?_, by simp [Page.stop], by simp [Page.stop, Page.rest]⟩
  show max s.pos b.toNat = column col (s.out ++ _)
  rw [column_append, ← h.col]
  by_cases hp : s.pieces = []
  · rw [if_pos hp, column_plain _ _ (by simp)]
    simp only [Page.pos, Page.rest, hp, List.flatMap_nil, List.length_nil, List.length_replicate]
    omega
  · rw [if_neg hp, column_plain _ _ (layout_plain h.fill h.rest), layout_length, share_sum (List.length_pos_iff.2 hp)]
    simp only [Page.pos, Page.rest]
    omega

theorem Good.chars {col : Nat} (t : List Nat) : ∀ {s : Page}, Good col s → Good col (t.foldl Page.char s) := by
  induction t with
  | nil => intro s h; exact h
  | cons c t ih => intro s h; exact ih (h.char c)

/-- The padding character is no new line. -/
def fillOk : Item → Prop
  | .fill c => c ≠ 10
  | _ => True

theorem Good.item {col : Nat} {s : Page} (h : Good col s) (i : Item) (hi : fillOk i) : Good col (s.item i) := by
  cases i with
  | text t => exact h.chars t
  | printf t => exact h.chars t
  | fresh =>
    simp only [Page.item]
    split
    · exact h.char 10
    · exact h
  | fill c =>
    refine ⟨h.col, ?_, ?_⟩
    · intro p hp
      rcases List.mem_append.1 hp with hp | hp
      · exact h.fill p hp
      · rw [List.mem_singleton.1 hp]; exact hi
    · have := h.rest
      simpa [Page.rest, Page.item] using this
  | stop rel n => exact h.stop _

/-- The page of a format, on a stream at column `col`. -/
def pageOf (col : Nat) (is : List Item) : Page := is.foldl Page.item { out := [], col := col, bound := 0, pieces := [] }

theorem good_page (col : Nat) (is : List Item) (h : ∀ i ∈ is, fillOk i) : Good col (pageOf col is) := by
  have : ∀ (is : List Item) (s : Page), (∀ i ∈ is, fillOk i) → Good col s → Good col (is.foldl Page.item s) := by
    intro is
    induction is with
    | nil => intro s _ h; exact h
    | cons i is ih => intro s hf h; exact ih _ (fun j hj => hf j (by simp [hj])) (h.item i (hf i (by simp)))
  exact this is _ h ⟨rfl, by simp, by simp [Page.rest]⟩

theorem Good.pos {col : Nat} {s : Page} (h : Good col s) : s.pos = column col (s.out ++ s.rest) := by
  rw [column_append, column_plain _ _ h.rest, ← h.col]; rfl

/-! ### Nothing is lost -/

theorem char_text (s : Page) (c : Nat) : (s.char c).out ++ (s.char c).rest = s.out ++ s.rest ++ [c] := by
  unfold Page.char
  by_cases hc : c = 10
  · rw [if_pos hc]; simp [Page.rest, hc]
  · rw [if_neg hc]
    by_cases hp : s.pieces = []
    · rw [if_pos hp]; simp [Page.rest, hp]
    · rw [if_neg hp]
      simp only [Page.rest]
      rw [addLast_flat hp]; simp

theorem chars_text (t : List Nat) : ∀ s : Page, (t.foldl Page.char s).out ++ (t.foldl Page.char s).rest = s.out ++ s.rest ++ t := by
  induction t with
  | nil => intro s; simp
  | cons c t ih => intro s; rw [List.foldl_cons, ih, char_text]; simp

theorem layout_sub (free : Nat) (ps : List (Nat × List Nat)) : (ps.flatMap (·.2)).Sublist (layout free ps) := by
  have : ∀ (ps : List (Nat × List Nat)) (l : List Nat), l.length = ps.length →
      (ps.flatMap (·.2)).Sublist ((ps.zip l).flatMap fun (p, n) => List.replicate n p.1 ++ p.2) := by
    intro ps
    induction ps with
    | nil => intro l _; simp
    | cons p ps ih =>
      intro l hl
      cases l with
      | nil => cases hl
      | cons n l =>
        simp only [List.flatMap_cons, List.zip_cons_cons]
        exact List.Sublist.append (List.sublist_append_right _ _) (ih l (by simpa using hl))
  exact this ps _ (by simp [share])

/-- The text an item contributes. -/
def textOf : Item → List Nat
  | .text t => t
  | .printf t => t
  | _ => []

theorem item_text (s : Page) (i : Item) : (s.out ++ s.rest ++ textOf i).Sublist ((s.item i).out ++ (s.item i).rest) := by
  cases i with
  | text t => simp only [Page.item, textOf, chars_text]; exact List.Sublist.refl _
  | printf t => simp only [Page.item, textOf, chars_text]; exact List.Sublist.refl _
  | fresh =>
    simp only [Page.item, textOf, List.append_nil]
    split
    · rw [char_text]; exact List.sublist_append_left _ _
    · exact List.Sublist.refl _
  | fill c =>
    simp only [Page.item, textOf, List.append_nil, Page.rest, List.flatMap_append]
    simp
  | stop rel n =>
    simp only [Page.item, textOf, List.append_nil, Page.stop, Page.rest, List.flatMap_nil]
    by_cases hp : s.pieces = []
    · rw [if_pos hp, hp]; simp
    · rw [if_neg hp]
      exact List.Sublist.append (List.Sublist.refl _) (layout_sub _ _)

theorem page_text (is : List Item) : ∀ s : Page, (s.out ++ s.rest ++ is.flatMap textOf).Sublist
    ((is.foldl Page.item s).out ++ (is.foldl Page.item s).rest) := by
  induction is with
  | nil => intro s; simp
  | cons i is ih =>
    intro s
    rw [List.foldl_cons, List.flatMap_cons, ← List.append_assoc]
    exact (List.Sublist.append (item_text s i) (List.Sublist.refl _)).trans (ih _)

end Gp.Format
