import Verif.Label.Order
import Verif.FdRange.Props
/- The choice of the variable. -/
namespace Gp.Label

open Gp.FdRange Gp.Fd

/-- The preference of `x` over `y` in the manual (fd-cstr.tex:1287-1314), from the sorted values of the two variables and their numbers
of constraints. -/
def Prefer (m : Var) (cx cy : Nat) (lx ly : List Int) : Prop :=
  match m with
  | .firstFail => lx.length ≤ ly.length
  | .mostConstrained => lx.length < ly.length ∨ (lx.length = ly.length ∧ cy ≤ cx)
  | .smallest => lx.getD 0 0 < ly.getD 0 0 ∨ (lx.getD 0 0 = ly.getD 0 0 ∧ cy ≤ cx)
  | .largest => ly.getD (ly.length - 1) 0 < lx.getD (lx.length - 1) 0 ∨ (lx.getD (lx.length - 1) 0 = ly.getD (ly.length - 1) 0 ∧ cy ≤ cx)
  | .maxRegret => ly.getD 1 0 - ly.getD 0 0 < lx.getD 1 0 - lx.getD 0 0 ∨ (lx.getD 1 0 - lx.getD 0 0 = ly.getD 1 0 - ly.getD 0 0 ∧ cy ≤ cx)
  | .random => True

variable {c : Cfg} {o : Opt} {s : Store}

theorem better_trans {x y z : Nat} (h1 : better c o s x y = false) (h2 : better c o s y z = false) : better c o s x z = false := by
  revert h1 h2
  unfold better
  cases o.var <;> simp only [Bool.or_eq_false_iff, Bool.and_eq_false_iff, decide_eq_false_iff_not] <;> first | omega | simp

theorem better_asymm {x y : Nat} (h : better c o s x y = true) : better c o s y x = false := by
  revert h
  unfold better
  cases o.var <;> simp only [Bool.or_eq_false_iff, Bool.and_eq_false_iff, decide_eq_false_iff_not, Bool.or_eq_true, Bool.and_eq_true, decide_eq_true_eq] <;> first | omega | simp

theorem better_refl (x : Nat) : better c o s x x = false := by
  unfold better
  cases o.var <;> simp

/-- The best variable of the first `p` cells. -/
def Best (c : Cfg) (o : Opt) (s : Store) (p : Nat) (arr : List Nat) : Option Nat → Prop
  | none => ∀ j, j < p → (s (arr.getD j 0)).ground = true
  | some e => e < p ∧ (s (arr.getD e 0)).ground = false ∧
    (∀ j, j < p → (s (arr.getD j 0)).ground = false → better c o s (arr.getD e 0) (arr.getD j 0) = false) ∧
    (o.reorder = false → ∀ j, j < e → (s (arr.getD j 0)).ground = false → better c o s (arr.getD j 0) (arr.getD e 0) = true)

theorem getD_swap {l : List Nat} {i j k : Nat} (hi : i < l.length) (hj : j < l.length) :
    (swap l i j).getD k 0 = if k = j then l.getD i 0 else if k = i then l.getD j 0 else l.getD k 0 := by
  unfold swap
  rw [List.getD_eq_getElem?_getD, List.getElem?_set]
  simp only [List.length_set]
  by_cases h : j = k
  · rw [if_pos h, if_pos hj, if_pos h.symm]; rfl
  · rw [if_neg h, if_neg (fun h' => h h'.symm), List.getElem?_set]
    by_cases h' : i = k
    · rw [if_pos h', if_pos hi, if_pos h'.symm]; rfl
    · rw [if_neg h', if_neg (fun h => h' h.symm)]
      rfl

theorem scan_best (n : Nat) : ∀ (k p : Nat) (arr : List Nat) (res : Option Nat) (ng : Nat), k + p = n → n ≤ arr.length → Best c o s p arr res →
    Best c o s n (scan c o s k p arr res ng).1 (scan c o s k p arr res ng).2.1 ∧
    (o.reorder = false → (scan c o s k p arr res ng).1 = arr) := by
  intro k
  induction k with
  | zero =>
    intro p arr res ng hk hn hb
    have : p = n := by omega
    subst this
    exact ⟨hb, fun _ => rfl⟩
  | succ k ih =>
    intro p arr res ng hk hn hb
    unfold scan
    dsimp only
    have cases_lt : ∀ j, j < p + 1 → j < p ∨ j = p := fun j h => by omega
    by_cases hg : (s (arr.getD p 0)).ground = true
    · rw [if_pos hg]
      refine ih (p + 1) arr res _ (by omega) hn ?_
      cases res with
      | none =>
        intro j hj
        rcases cases_lt j hj with h | h
        · exact hb j h
        · rw [h]; exact hg
      | some e =>
        refine ⟨by have := hb.1; omega, hb.2.1, fun j hj hgj => ?_, hb.2.2.2⟩
        rcases cases_lt j hj with h | h
        · exact hb.2.2.1 j h hgj
        · rw [h, hg] at hgj; cases hgj
    · rw [if_neg hg]
      have hg' : (s (arr.getD p 0)).ground = false := by simpa using hg
      cases res with
      | none =>
        refine ih (p + 1) arr (some p) _ (by omega) hn ⟨by omega, hg', fun j hj hgj => ?_, fun _ j hj hgj => ?_⟩
        · rcases cases_lt j hj with h | h
          · rw [hb j h] at hgj; cases hgj
          · rw [h]; exact better_refl _
        · rw [hb j hj] at hgj; cases hgj
      | some e =>
        obtain ⟨h1, h2, h3, h4⟩ := hb
        dsimp only
        by_cases hbt : better c o s (arr.getD e 0) (arr.getD p 0) = true
        · rw [if_pos hbt]
          by_cases hro : o.reorder = true
          · rw [if_pos hro]
            have hsw := fun k => getD_swap (l := arr) (i := e) (j := p) (k := k) (by omega) (by omega)
            obtain ⟨r1, _⟩ := ih (p + 1) (swap arr e p) (some e) ng (by omega) (by rw [swap_length]; exact hn) (by
              have he : (swap arr e p).getD e 0 = arr.getD p 0 := by rw [hsw, if_neg (by omega), if_pos rfl]
              refine ⟨by omega, by rw [he]; exact hg', fun j hj hgj => ?_, fun h => by rw [hro] at h; cases h⟩
              rw [he]
              rw [hsw] at hgj ⊢
              split
              · exact better_asymm hbt
              · split
                · exact better_refl _
                · next e1 e2 =>
                  rw [if_neg e1, if_neg e2] at hgj
                  exact better_trans (better_asymm hbt) (h3 j (by omega) hgj))
            exact ⟨r1, fun h => by rw [hro] at h; cases h⟩
          · rw [if_neg hro]
            refine ih (p + 1) arr (some p) _ (by omega) hn ⟨by omega, hg', fun j hj hgj => ?_, fun _ j hj hgj => ?_⟩
            · rcases cases_lt j hj with h | h
              · exact better_trans (better_asymm hbt) (h3 j h hgj)
              · rw [h]; exact better_refl _
            · cases hq : better c o s (arr.getD j 0) (arr.getD p 0) with
              | true => rfl
              | false =>
                have := better_trans (h3 j hj hgj) hq
                rw [hbt] at this; cases this
        · rw [if_neg hbt]
          refine ih (p + 1) arr (some e) _ (by omega) hn ⟨by omega, h2, fun j hj hgj => ?_, h4⟩
          rcases cases_lt j hj with h | h
          · exact h3 j h hgj
          · rw [h]; simpa using hbt

/-- The comparison is the one of the manual. -/
theorem better_prefer (hv : ∀ v, VarOk c (s v)) {x y : Nat} (hx : (s x).ground = false) (hy : (s y).ground = false) (hm : o.var ≠ .random) {lx ly : List Int}
    (hlx : Listing (s x).r lx) (hly : Listing (s y).r ly) : better c o s x y = false ↔ Prefer o.var (o.nbc x) (o.nbc y) lx ly := by
  have facts : ∀ z l, (s z).ground = false → Listing (s z).r l → (s z).nb = l.length ∧ (s z).r.min = l.getD 0 0 ∧ (s z).r.max = l.getD (l.length - 1) 0 ∧
      nextAfter c (s z).r (s z).r.min = l.getD 1 0 := by
    intro z l hg hl
    have hlt := (hv z).fdv ((ground_iff _).1 hg)
    obtain ⟨m1, m2, m3⟩ := bounds_mem c _ (hv z).wf (hv z).ne
    have hsort := List.pairwise_iff_getElem.1 hl.1
    obtain ⟨i, hi, ei⟩ := List.getElem_of_mem ((hl.2 _).2 m1)
    obtain ⟨j, hj, ej⟩ := List.getElem_of_mem ((hl.2 _).2 m2)
    have hi0 : i = 0 := by
      have h1 := m3 _ ((hl.2 _).1 (List.getElem_mem (show 0 < l.length by omega)))
      by_cases h : i = 0
      · exact h
      · have := hsort 0 i (by omega) hi (by omega); omega
    have hj0 : j = l.length - 1 := by
      have h1 := m3 _ ((hl.2 _).1 (List.getElem_mem (show l.length - 1 < l.length by omega)))
      by_cases h : j = l.length - 1
      · exact h
      · have := hsort j (l.length - 1) hj (by omega) (by omega); omega
    have hlen : 1 < l.length := by
      rcases Nat.lt_or_ge 1 l.length with h | h
      · exact h
      · have : i = j := by omega
        subst this; omega
    have gd : ∀ k, (hk : k < l.length) → l.getD k 0 = l[k] := fun k hk => by
      rw [List.getD_eq_getElem?_getD, List.getElem?_eq_getElem hk]; rfl
    refine ⟨(hv z).nb l hl, by rw [gd 0 (by omega), ← ei]; subst hi0; rfl, by rw [gd (l.length - 1) (by omega), ← ej]; subst hj0; rfl, ?_⟩
    rw [gd 1 hlen]
    have hone := (hl.2 _).1 (List.getElem_mem hlen)
    have hlt1 := hsort 0 1 (by omega) hlen (by omega)
    have e0 : l[0] = (s z).r.min := by subst hi0; exact ei
    rcases C23_next_after c (s z).r (hv z).wf (hv z).nonneg (s z).r.min with ⟨_, h⟩ | ⟨h1, h2, h3⟩
    · exact absurd hone (h _ (by omega))
    · obtain ⟨k, hk, ek⟩ := List.getElem_of_mem ((hl.2 _).2 h1)
      have hk0 : k ≠ 0 := fun h => by subst h; omega
      by_cases h : k = 1
      · subst h; exact ek.symm
      · have := hsort 1 k hlen hk (by omega)
        exact absurd hone (h3 _ (by omega) (by omega))
  obtain ⟨a1, a2, a3, a4⟩ := facts x lx hx hlx
  obtain ⟨b1, b2, b3, b4⟩ := facts y ly hy hly
  unfold better Prefer
  cases ho : o.var with
  | random => exact absurd ho hm
  | firstFail => simp only; rw [a1, b1]; simp only [Bool.or_eq_false_iff, decide_eq_false_iff_not, Bool.and_eq_false_iff]; omega
  | mostConstrained => simp only; rw [a1, b1]; simp only [Bool.or_eq_false_iff, decide_eq_false_iff_not, Bool.and_eq_false_iff]; omega
  | smallest => simp only; rw [a2, b2]; simp only [Bool.or_eq_false_iff, decide_eq_false_iff_not, Bool.and_eq_false_iff]; omega
  | largest => simp only; rw [a3, b3]; simp only [Bool.or_eq_false_iff, decide_eq_false_iff_not, Bool.and_eq_false_iff]; omega
  | maxRegret => simp only; rw [a4, b4, a2, b2]; simp only [Bool.or_eq_false_iff, decide_eq_false_iff_not, Bool.and_eq_false_iff]; omega

end Gp.Label
