import Verif.FdSymb.Model
import Verif.Fd.TellProps
/- Lemmas on the symbolic constraints. -/
namespace Gp.FdSymb

open Gp.FdRange Gp.Fd

theorem toInt_id {w : Int} (h0 : -2147483648 ≤ w) (h1 : w < 2147483648) : toInt w = w := by
  unfold toInt
  rw [BitVec.toInt_ofInt, Int.bmod_def]
  split <;> omega

theorem mem_iota (a b j : Int) : j ∈ (List.range (b - a + 1).toNat).map (fun k : Nat => a + (k : Int)) ↔ a ≤ j ∧ j ≤ b := by
  simp only [List.mem_map, List.mem_range]
  constructor
  · rintro ⟨k, h, rfl⟩; omega
  · intro h; exact ⟨(j - a).toNat, by omega, by omega⟩

theorem mem_idx {c : Cfg} {i : Range} (hw : WF c i) (hne : i.min ≤ i.max) (j : Int) : j ∈ idx i ↔ Mem i j := by
  unfold idx
  split
  · rename_i h
    rw [mem_none h, mem_iota]
  · rename_i v h
    have hb := bounds_mem c i hw hne
    split
    · rename_i e
      rw [mem_iota]
      constructor
      · intro hj
        have : j = i.min := by omega
        rw [this]; exact hb.1
      · intro hj; exact hb.2.2 j hj
    · rw [mem_some h]
      simp only [List.mem_map, mem_enum]
      constructor
      · rintro ⟨k, h1, rfl⟩; exact ⟨hne, by omega, by simpa using h1⟩
      · rintro ⟨_, h1, h2⟩; exact ⟨j.toNat, h2, by omega⟩

/-- The element of the list at the position `j`, from 1. -/
def At {α : Type} (l : List α) (j : Int) (x : α) : Prop := ∃ k : Nat, j = k + 1 ∧ l[k]? = some x

theorem at_arr {l : List Int} {j w : Int} (h : At l j w) : arr l j = some w := by
  obtain ⟨k, rfl, h⟩ := h
  unfold arr
  rw [if_neg (by omega), if_neg (by omega)]
  have : ((k : Int) + 1 - 1).toNat = k := by omega
  rw [this, h]

theorem at_of_range {α : Type} (l : List α) {j : Int} (h0 : 1 ≤ j) (h1 : j ≤ l.length) : ∃ x, At l j x := by
  have hk : (j - 1).toNat < l.length := by omega
  exact ⟨l[(j - 1).toNat], (j - 1).toNat, by omega, List.getElem?_eq_getElem hk⟩

theorem at_range {α : Type} {l : List α} {j : Int} {x : α} (h : At l j x) : 1 ≤ j ∧ j ≤ l.length ∧ x ∈ l := by
  obtain ⟨k, rfl, h⟩ := h
  obtain ⟨hk, e⟩ := List.getElem?_eq_some_iff.1 h
  exact ⟨by omega, by omega, by rw [← e]; exact List.getElem_mem hk⟩

theorem at_unique {α : Type} {l : List α} {j : Int} {x y : α} (h : At l j x) (h' : At l j y) : x = y := by
  obtain ⟨k, e, h⟩ := h
  obtain ⟨k', e', h'⟩ := h'
  have : k = k' := by omega
  rw [this, h'] at h; cases h; rfl

theorem setVals_res (c : Cfg) (l : List Int) : ∀ (js : List Int) (v : Vec), v.length = c.size →
    ((∃ j ∈ js, ∃ w, arr l j = some w ∧ ¬ Win c (toInt w)) → setVals l js v = none) ∧
    ((∀ j ∈ js, ∃ w, arr l j = some w ∧ Win c (toInt w)) → ∃ v', setVals l js v = some v' ∧ v'.length = c.size ∧
      ∀ m : Nat, bit v' m = true ↔ bit v m = true ∨ ∃ j ∈ js, ∃ w, arr l j = some w ∧ toInt w = m)
  | [], v, hl => ⟨fun h => (by obtain ⟨_, h, _⟩ := h; cases h), fun _ => ⟨v, rfl, hl, fun m => by simp⟩⟩
  | j :: js, v, hl => by
    constructor
    · rintro ⟨j', hj', w', h1, h2⟩
      unfold setVals
      cases ha : arr l j with
      | none => rfl
      | some w =>
        dsimp only
        by_cases hw : Win c (toInt w)
        · obtain ⟨v1, e, hl1, _⟩ := setV_some (v := v) hw.1 (by rw [hl]; exact hw.2)
          rw [e]
          dsimp only
          rcases List.mem_cons.1 hj' with rfl | hj'
          · rw [ha] at h1; cases h1; exact absurd hw h2
          · exact (setVals_res c l js v1 (hl1.trans hl)).1 ⟨j', hj', w', h1, h2⟩
        · rw [setV_none (by unfold Win at hw; rw [hl]; omega)]
    · intro h
      obtain ⟨w, ha, hw⟩ := h j (by simp)
      obtain ⟨v1, e, hl1, hb⟩ := setV_some (v := v) hw.1 (by rw [hl]; exact hw.2)
      obtain ⟨v2, e2, hl2, hb2⟩ := (setVals_res c l js v1 (hl1.trans hl)).2 (fun j' hj' => h j' (by simp [hj']))
      refine ⟨v2, ?_, hl2, ?_⟩
      · unfold setVals
        rw [ha]
        dsimp only
        rw [e]
        exact e2
      · intro m
        rw [hb2 m, hb m]
        simp only [Bool.or_eq_true, decide_eq_true_eq, List.mem_cons]
        constructor
        · rintro ((h | h) | ⟨j', h1, h2⟩)
          · exact Or.inl h
          · exact Or.inr ⟨j, Or.inl rfl, w, ha, h.symm⟩
          · exact Or.inr ⟨j', Or.inr h1, h2⟩
        · rintro (h | ⟨j', rfl | h1, w', h2, h3⟩)
          · exact Or.inl (Or.inl h)
          · rw [ha] at h2; cases h2; exact Or.inl (Or.inr h3.symm)
          · exact Or.inr ⟨j', h1, w', h2, h3⟩

theorem setIdx_res {α : Type} (c : Cfg) (p : α → Bool) : ∀ (xs : List α) (j : Int) (v : Vec), v.length = c.size → 0 ≤ j →
    ((∃ (k : Nat) (x : α), xs[k]? = some x ∧ p x = true ∧ ¬ Win c (j + k)) → setIdx p j xs v = none) ∧
    ((∀ (k : Nat) (x : α), xs[k]? = some x → p x = true → Win c (j + k)) → ∃ v', setIdx p j xs v = some v' ∧ v'.length = c.size ∧
      ∀ m : Nat, bit v' m = true ↔ bit v m = true ∨ ∃ (k : Nat) (x : α), xs[k]? = some x ∧ p x = true ∧ (m : Int) = j + k)
  | [], j, v, hl, _ => ⟨fun h => (by obtain ⟨k, x, h, _⟩ := h; simp at h), fun _ => ⟨v, rfl, hl, fun m => by simp⟩⟩
  | x :: xs, j, v, hl, hj => by
    have shift : ∀ (k : Nat), j + 1 + (k : Int) = j + ((k + 1 : Nat) : Int) := fun k => by omega
    constructor
    · rintro ⟨k, y, h1, h2, h3⟩
      unfold setIdx
      by_cases hp : p x = true
      · rw [if_pos hp]
        by_cases hw : Win c j
        · obtain ⟨v1, e, hl1, _⟩ := setV_some (v := v) hw.1 (by rw [hl]; exact hw.2)
          rw [e]
          dsimp only
          cases k with
          | zero => exact absurd (by simpa using hw) h3
          | succ k => exact (setIdx_res c p xs (j + 1) v1 (hl1.trans hl) (by omega)).1 ⟨k, y, by simpa using h1, h2, by rw [shift]; exact h3⟩
        · rw [setV_none (by unfold Win at hw; rw [hl]; omega)]
      · rw [if_neg hp]
        cases k with
        | zero => simp only [List.getElem?_cons_zero, Option.some.injEq] at h1; rw [h1] at hp; exact absurd h2 hp
        | succ k => exact (setIdx_res c p xs (j + 1) v hl (by omega)).1 ⟨k, y, by simpa using h1, h2, by rw [shift]; exact h3⟩
    · intro h
      have hrest : ∀ (k : Nat) (y : α), xs[k]? = some y → p y = true → Win c (j + 1 + k) := fun k y h1 h2 => by
        rw [shift]; exact h (k + 1) y (by simpa using h1) h2
      unfold setIdx
      by_cases hp : p x = true
      · rw [if_pos hp]
        have hw : Win c j := by simpa using h 0 x rfl hp
        obtain ⟨v1, e, hl1, hb⟩ := setV_some (v := v) hw.1 (by rw [hl]; exact hw.2)
        rw [e]
        dsimp only
        obtain ⟨v2, e2, hl2, hb2⟩ := (setIdx_res c p xs (j + 1) v1 (hl1.trans hl) (by omega)).2 hrest
        refine ⟨v2, e2, hl2, fun m => ?_⟩
        rw [hb2 m, hb m]
        simp only [Bool.or_eq_true, decide_eq_true_eq]
        constructor
        · rintro ((h | h) | ⟨k, y, h1, h2, h3⟩)
          · exact Or.inl h
          · exact Or.inr ⟨0, x, rfl, hp, by simpa using h⟩
          · exact Or.inr ⟨k + 1, y, by simpa using h1, h2, by rw [← shift]; exact h3⟩
        · rintro (h | ⟨k, y, h1, h2, h3⟩)
          · exact Or.inl (Or.inl h)
          · cases k with
            | zero => exact Or.inl (Or.inr (by simpa using h3))
            | succ k => exact Or.inr ⟨k, y, by simpa using h1, h2, by rw [shift]; exact h3⟩
      · rw [if_neg hp]
        obtain ⟨v2, e2, hl2, hb2⟩ := (setIdx_res c p xs (j + 1) v hl (by omega)).2 hrest
        refine ⟨v2, e2, hl2, fun m => ?_⟩
        rw [hb2 m]
        constructor
        · rintro (h | ⟨k, y, h1, h2, h3⟩)
          · exact Or.inl h
          · exact Or.inr ⟨k + 1, y, by simpa using h1, h2, by rw [← shift]; exact h3⟩
        · rintro (h | ⟨k, y, h1, h2, h3⟩)
          · exact Or.inl h
          · cases k with
            | zero => simp only [List.getElem?_cons_zero, Option.some.injEq] at h1; rw [h1] at hp; exact absurd h2 hp
            | succ k => exact Or.inr ⟨k, y, by simpa using h1, h2, by rw [shift]; exact h3⟩

theorem vecEmpty_len (n : Nat) : (vecEmpty n).length = n := by simp [vecEmpty]

/-- A sparse range told to a variable whose flag is not set: exactly the common values are left. -/
theorem tell_sparse (c : Cfg) (hc : c.Ok) (v : Fdv) (r : Range) (hv : VarOk c v) (he : v.r.extra = false) (hw : WF c r) (hr : r.vec ≠ none) :
    ((tell c v (.range r)).ok = false ↔ ∀ n : Nat, ¬ (Mem v.r n ∧ Mem r n)) ∧
    ((tell c v (.range r)).ok = true → VarOk c (tell c v (.range r)).v ∧
      (r.extra = false → (tell c v (.range r)).v.r.extra = false) ∧
      ∀ n : Nat, Mem (tell c v (.range r)).v.r n ↔ Mem v.r n ∧ Mem r n) := by
  obtain ⟨w, hrw⟩ : ∃ w, r.vec = some w := by
    cases h : r.vec with
    | none => exact absurd h hr
    | some w => exact ⟨w, rfl⟩
  have hwin : ∀ n : Nat, Mem r n → (n : Int) ≤ c.vmax := fun n hn => by
    have := (mem_win hw hrw hn).2; unfold Cfg.vmax; omega
  have hT : VRepr c v (fun n => Mem v.r n) := ⟨fun _ h => h, fun _ h => Or.inl h⟩
  have hR : Repr c r (fun n => Mem r n) := ⟨hw, fun _ _ => Iff.rfl, fun _ _ n hn => mem_win hw hrw hn⟩
  have hsa : sparseArg c r = r := by unfold sparseArg; rw [hrw]
  have hie : (inter c r v.r).extra = (r.extra && (sparseArg c v.r).extra) := by
    rcases inter_eq c r v.r with ⟨h1, _, _⟩ | ⟨_, e⟩
    · exact absurd h1 hr
    · rw [e, interSS_extra, hsa]
  have hF : FlagOk c v r := by
    intro hsub
    left
    rw [hie, he]
    have : (sparseArg c v.r).extra = false := by
      unfold sparseArg
      cases hvv : v.r.vec with
      | some _ => exact he
      | none =>
        have hb := bounds_mem c v.r hv.wf hv.ne
        have := (mem_win hw hrw (hsub _ hb.2.1)).2
        simp only [becomesSparse, decide_eq_false_iff_not]
        unfold Cfg.vmax; omega
    rw [this, Bool.and_false]
  have told := C25_told c hc v _ (fun n => Mem r n) (.range r) hv hT ⟨hR, fun _ => hF⟩
  have hok : (tell c v (.range r)).ok = true → ∀ n : Nat, Mem (tell c v (.range r)).v.r n ↔ Mem v.r n ∧ Mem r n := by
    intro h n
    refine ⟨fun hn => ?_, fun hn => ?_⟩
    · have := told.sound h n hn; exact ⟨this.1, this.2.2⟩
    · rcases told.complete h n hn.1 hn.2 with h | h
      · exact h
      · have := hwin n hn.2; omega
  refine ⟨⟨fun h n hn => ?_, fun h => ?_⟩, fun hk => ⟨told.ok hk, fun hre => ?_, hok hk⟩⟩
  · have := (told.fail h n hn.1 hn.2).1
    have := hwin n hn.2; omega
  · cases hk : (tell c v (.range r)).ok with
    | false => rfl
    | true =>
      have hv' := told.ok hk
      have hb := bounds_mem c _ hv'.wf hv'.ne
      exact absurd ((hok hk _).1 (by rw [Int.toNat_of_nonneg hv'.nonneg]; exact hb.1)) (h _)
  · have hif : (inter c r v.r).extra = false := by rw [hie, hre, Bool.false_and]
    unfold tell tellRange
    dsimp only
    split
    · unfold tellIntRange; split <;> exact he
    · unfold tellRangeRange
      dsimp only
      split
      · exact he
      · split
        · exact he
        · unfold updRange
          split
          · exact hif
          · split
            · exact hif
            · exact he

end Gp.FdSymb
