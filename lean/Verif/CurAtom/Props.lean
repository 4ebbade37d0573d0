import Verif.CurAtom.Model
/-
C73. current_atom/1: every atom which exists at the call is given exactly once, even if atoms are created between the answers.
-/
namespace Gp.CurAtom

/-! ## Specification -/

/-- The atom exists and is not hidden: a hidden atom starts with '$' (36). -/
def Visible (t : Tbl) (hide : Bool) (i : Nat) : Prop := ∃ s, t i = some s ∧ (hide = true → ∀ r, s ≠ 36 :: r)

/-- Atoms are created but never removed. -/
def Grows (tbls : Nat → Tbl) : Prop := ∀ k i s, tbls k i = some s → tbls (k + 1) i = some s

/-! ## Proofs -/

theorem first_eq {s : Str} : first s = 36 ↔ ∃ r, s = 36 :: r := by
  cases s with
  | nil => simp [first]
  | cons c s => simp [first]

theorem findNext_eq {max : Nat} {t : Tbl} : ∀ {n i : Nat}, max ≤ i + n →
    (findNext max t n i = none ∧ ∀ j, i ≤ j → j < max → t j = none) ∨
    ∃ a s, findNext max t n i = some a ∧ i ≤ a ∧ a < max ∧ t a = some s ∧ ∀ j, i ≤ j → j < a → t j = none
  | 0, i, h => .inl ⟨rfl, fun j _ _ => by omega⟩
  | n + 1, i, h => by
    simp only [findNext]
    by_cases hi : i < max
    · rw [if_pos hi]
      cases ht : t i with
      | some s => exact .inr ⟨i, s, by simp, Nat.le_refl i, hi, ht, fun j _ _ => by omega⟩
      | none =>
        simp only [Option.isSome_none, Bool.false_eq_true, if_false]
        have hj : ∀ j, i ≤ j → (i + 1 ≤ j → t j = none) → t j = none := by
          intro j h1 h2
          by_cases e : j = i
          · rw [e]; exact ht
          · exact h2 (by omega)
        rcases findNext_eq (max := max) (t := t) (n := n) (i := i + 1) (by omega) with ⟨h1, h2⟩ | ⟨a, s, h1, h2, h3, h4, h5⟩
        · exact .inl ⟨h1, fun j q1 q2 => hj j q1 fun q => h2 j q q2⟩
        · exact .inr ⟨a, s, h1, by omega, h3, h4, fun j q1 q2 => hj j q1 fun q => h5 j q q2⟩
    · rw [if_neg hi]; exact .inl ⟨rfl, fun j _ _ => by omega⟩

theorem search_eq {max : Nat} {t : Tbl} {hide : Bool} : ∀ {n i : Nat}, max ≤ i + n →
    (search max t hide n i = none ∧ ∀ j, i ≤ j → j < max → ¬ Visible t hide j) ∨
    ∃ a, search max t hide n i = some a ∧ i ≤ a ∧ a < max ∧ Visible t hide a ∧ ∀ j, i ≤ j → j < a → ¬ Visible t hide j
  | 0, i, h => .inl ⟨rfl, fun j _ _ => by omega⟩
  | n + 1, i, h => by
    simp only [search]
    have nv : ∀ j, t j = none → ¬ Visible t hide j := by
      rintro j hj ⟨s, h1, -⟩; rw [hj] at h1; cases h1
    rcases findNext_eq (max := max) (t := t) (n := max) (i := i) (by omega) with ⟨h1, h2⟩ | ⟨a, s, h1, h2, h3, h4, h5⟩
    · rw [h1]; exact .inl ⟨rfl, fun j q1 q2 => nv j (h2 j q1 q2)⟩
    · rw [h1]
      simp only [h4, Option.getD_some]
      by_cases hv : hide = false ∨ first s ≠ 36
      · rw [if_pos hv]
        refine .inr ⟨a, rfl, h2, h3, ⟨s, h4, fun e r hr => ?_⟩, fun j q1 q2 => nv j (h5 j q1 q2)⟩
        rcases hv with hv | hv
        · rw [e] at hv; cases hv
        · exact hv (first_eq.mpr ⟨r, hr⟩)
      · rw [if_neg hv]
        have na : ¬ Visible t hide a := by
          rintro ⟨s', e1, e2⟩
          rw [h4] at e1
          injection e1 with e1
          subst e1
          apply hv
          cases hide with
          | false => exact .inl rfl
          | true => exact .inr fun e => by obtain ⟨r, hr⟩ := first_eq.mp e; exact e2 rfl r hr
        have hj : ∀ j, i ≤ j → (a + 1 ≤ j → ¬ Visible t hide j) → ¬ Visible t hide j := by
          intro j q1 q2
          by_cases e : j < a
          · exact nv j (h5 j q1 e)
          · by_cases e' : j = a
            · rw [e']; exact na
            · exact q2 (by omega)
        rcases search_eq (max := max) (t := t) (hide := hide) (n := n) (i := a + 1) (by omega) with ⟨g1, g2⟩ | ⟨b, g1, g2, g3, g4, g5⟩
        · exact .inl ⟨g1, fun j q1 q2 => hj j q1 fun q => g2 j q q2⟩
        · exact .inr ⟨b, g1, by omega, g3, g4, fun j q1 q2 => hj j q1 fun q => g5 j q q2⟩

theorem alts_eq {max : Nat} {tbls : Nat → Tbl} {hide : Bool} (hg : Grows tbls) : ∀ {n k a : Nat}, max ≤ a + 1 + n →
    (alts max tbls hide n k a).Pairwise (· < ·) ∧ (∀ b ∈ alts max tbls hide n k a, a < b ∧ b < max) ∧
    (∀ (j b : Nat), (alts max tbls hide n k a)[j]? = some b → Visible (tbls (k + j)) hide b) ∧
    ∀ i, a < i → i < max → Visible (tbls k) hide i → i ∈ alts max tbls hide n k a
  | 0, k, a, h => ⟨.nil, by simp [alts], by simp [alts], fun i _ _ => by omega⟩
  | n + 1, k, a, h => by
    simp only [alts]
    rcases search_eq (max := max) (t := tbls k) (hide := hide) (n := max) (i := a + 1) (by omega) with ⟨h1, h2⟩ | ⟨b, h1, h2, h3, h4, h5⟩
    · rw [h1]
      exact ⟨.nil, by simp, by simp, fun i q1 q2 q3 => absurd q3 (h2 i q1 q2)⟩
    · rw [h1]
      obtain ⟨i1, i2, i3, i4⟩ := alts_eq (max := max) (hide := hide) hg (n := n) (k := k + 1) (a := b) (by omega)
      refine ⟨List.pairwise_cons.mpr ⟨fun c hc => (i2 c hc).1, i1⟩, ?_, ?_, ?_⟩
      · intro c hc
        rcases List.mem_cons.mp hc with rfl | hc
        · exact ⟨by omega, h3⟩
        · have := i2 c hc; exact ⟨by omega, this.2⟩
      · intro j c hj
        cases j with
        | zero => simp at hj; subst hj; exact h4
        | succ j =>
          have := i3 j c (by simpa using hj)
          rwa [show k + 1 + j = k + (j + 1) by omega] at this
      · intro i q1 q2 q3
        by_cases e : i < b
        · exact absurd q3 (h5 i q1 e)
        · by_cases e' : i = b
          · rw [e']; exact List.mem_cons_self ..
          · obtain ⟨s, e1, e2⟩ := q3
            exact List.mem_cons_of_mem _ (i4 i (by omega) q2 ⟨s, hg k i s e1, e2⟩)

/-- current_atom(X) with a variable X gives on backtracking atoms without repetition; each one exists and is visible when it is given; and every visible atom which
exists at the call is given, although atoms may be created between the answers. -/
theorem C73_current_atom {max : Nat} {tbls : Nat → Tbl} (hide : Bool) (hg : Grows tbls) :
    (currentAll max tbls hide).Nodup ∧ (∀ (k a : Nat), (currentAll max tbls hide)[k]? = some a → Visible (tbls k) hide a) ∧
    ∀ a, a < max → Visible (tbls 0) hide a → a ∈ currentAll max tbls hide := by
  unfold currentAll
  rcases search_eq (max := max) (t := tbls 0) (hide := hide) (n := max) (i := 0) (by omega) with ⟨h1, h2⟩ | ⟨b, h1, h2, h3, h4, h5⟩
  · rw [h1]
    exact ⟨.nil, by simp, fun a q1 q2 => absurd q2 (h2 a (by omega) q1)⟩
  · rw [h1]
    obtain ⟨i1, i2, i3, i4⟩ := alts_eq (max := max) (hide := hide) hg (n := max) (k := 1) (a := b) (by omega)
    refine ⟨List.nodup_cons.mpr ⟨fun hb => Nat.lt_irrefl b (i2 b hb).1, i1.imp Nat.ne_of_lt⟩, ?_, ?_⟩
    · intro k a hk
      cases k with
      | zero => simp at hk; subst hk; exact h4
      | succ k =>
        have := i3 k a (by simpa using hk)
        rwa [show 1 + k = k + 1 by omega] at this
    · intro a q1 q2
      by_cases e : a < b
      · exact absurd q2 (h5 a (by omega) e)
      · by_cases e' : a = b
        · rw [e']; exact List.mem_cons_self ..
        · obtain ⟨s, e1, e2⟩ := q2
          exact List.mem_cons_of_mem _ (i4 a (by omega) q1 ⟨s, hg 0 a s e1, e2⟩)

/-- current_atom(A) with an atom A succeeds exactly when the enumeration gives A. -/
theorem C73_known_atom {max : Nat} {t : Tbl} (hide : Bool) {a : Nat} {s : Str} (ha : a < max) (hs : t a = some s) :
    currentKnown hide s = true ↔ a ∈ currentAll max (fun _ => t) hide := by
  obtain ⟨-, h2, h3⟩ := C73_current_atom (max := max) hide (tbls := fun _ => t) (fun _ _ _ h => h)
  have hv : currentKnown hide s = true ↔ Visible t hide a := by
    simp only [currentKnown, decide_eq_true_iff]
    constructor
    · rintro (h | h)
      · exact ⟨s, hs, fun _ r hr => h (first_eq.mpr ⟨r, hr⟩)⟩
      · exact ⟨s, hs, fun e => by rw [h] at e; cases e⟩
    · rintro ⟨s', e1, e2⟩
      rw [hs] at e1
      injection e1 with e1
      subst e1
      cases hide with
      | false => exact .inr rfl
      | true => exact .inl fun e => by obtain ⟨r, hr⟩ := first_eq.mp e; exact e2 rfl r hr
  rw [hv]
  constructor
  · exact h3 a ha
  · intro h
    obtain ⟨k, hk⟩ := List.mem_iff_getElem?.mp h
    exact h2 k a hk

/-! ## The hypotheses are met -/

/-- The atoms a, $b and c at 1, 3 and 6; d is created at 4 after the first answer, and e at 0 after the second one. -/
def exT (k : Nat) : Tbl
  | 1 => some [97]
  | 3 => some [36, 98]
  | 6 => some [99]
  | 4 => if 1 ≤ k then some [100] else none
  | 0 => if 2 ≤ k then some [101] else none
  | _ => none

theorem exT_grows : Grows exT := by
  intro k i s h
  match i with
  | 1 | 3 | 6 => exact h
  | 4 | 0 =>
    simp only [exT] at h ⊢
    split at h
    · rw [if_pos (by omega)]; exact h
    · cases h
  | 2 | 5 => cases h
  | i + 7 => simp [exT] at h

/-- d is given, e is not, and $b is only given when the hidden atoms are. -/
example : currentAll 8 exT true = [1, 4, 6] ∧ currentAll 8 exT false = [1, 3, 4, 6] ∧ currentKnown true [36, 98] = false ∧ currentKnown true [] = true := by
  decide +kernel

end Gp.CurAtom
