import Verif.Switch.Model
namespace Gp.Switch

variable {Code : Type}

/-! The probe sequence -/

/-- The `i`-th cell tried from `p`. -/
def cell (N p i : Nat) : Nat := (p + i) % N

theorem cell_lt {N p i : Nat} (h : 0 < N) : cell N p i < N := Nat.mod_lt _ h

theorem cell_zero {N p : Nat} (h : p < N) : cell N p 0 = p := Nat.mod_eq_of_lt h

theorem cell_next {N p i : Nat} (h : p < N) : cell N (if p + 1 = N then 0 else p + 1) i = cell N p (i + 1) := by
  unfold cell
  by_cases hp : p + 1 = N
  · rw [if_pos hp, show p + (i + 1) = i + N by omega, Nat.add_mod_right, Nat.zero_add]
  · rw [if_neg hp]; congr 1; omega

theorem cell_surj {N p s : Nat} (hp : p < N) (hs : s < N) : ∃ i, i < N ∧ cell N p i = s := by
  unfold cell
  by_cases h : p ≤ s
  · exact ⟨s - p, by omega, by rw [show p + (s - p) = s by omega]; exact Nat.mod_eq_of_lt hs⟩
  · refine ⟨s + N - p, by omega, ?_⟩
    rw [show p + (s + N - p) = s + N by omega, Nat.add_mod_right]
    exact Nat.mod_eq_of_lt hs

/-- The search stops at a cell. -/
def Stop (t : Tbl Code) (key : Int) (p : Nat) : Prop := t p = none ∨ ∃ c, t p = some (key, c)

theorem probe_spec {t : Tbl Code} {N : Nat} {key : Int} : ∀ {fuel p : Nat}, p < N → (∃ i, i < fuel ∧ Stop t key (cell N p i)) →
    ∃ i, i < fuel ∧ probe t N key p fuel = some (cell N p i) ∧ Stop t key (cell N p i) ∧
      ∀ j, j < i → ¬ Stop t key (cell N p j) := by
  intro fuel
  induction fuel with
  | zero => rintro p _ ⟨i, h, _⟩; omega
  | succ fuel ih =>
    rintro p hp ⟨i, hi, hs⟩
    by_cases h0 : Stop t key p
    · refine ⟨0, by omega, ?_, ?_, fun j hj => by omega⟩
      · rw [probe, cell_zero hp]
        rcases h0 with h | ⟨c, h⟩
        · rw [h]
        · rw [h]; simp only [if_true]
      · rw [cell_zero hp]; exact h0
    · have hi0 : i ≠ 0 := by rintro rfl; rw [cell_zero hp] at hs; exact h0 hs
      obtain ⟨i', rfl⟩ : ∃ i', i = i' + 1 := ⟨i - 1, by omega⟩
      have hq : (if p + 1 = N then 0 else p + 1) < N := by
        by_cases h : p + 1 = N
        · rw [if_pos h]; omega
        · rw [if_neg h]; omega
      obtain ⟨k, hk, h1, h2, h3⟩ := ih hq ⟨i', by omega, by rw [cell_next hp]; exact hs⟩
      rw [cell_next hp] at h1 h2
      refine ⟨k + 1, by omega, ?_, h2, ?_⟩
      · rw [probe]
        cases ht : t p with
        | none => exact absurd (.inl ht) h0
        | some kc =>
          obtain ⟨k', c⟩ := kc
          simp only
          rw [if_neg (by rintro rfl; exact h0 (.inr ⟨c, ht⟩))]
          exact h1
      · intro j hj
        cases j with
        | zero => rw [cell_zero hp]; exact h0
        | succ j => rw [← cell_next hp]; exact h3 j (by omega)

/-! The tables -/

/-- The first cell for a key. -/
def home (size : Nat) (key : Int) : Nat := (key.tmod ((size : Int) + 1)).toNat

theorem home_lt {size : Nat} {key : Int} (h : 0 ≤ key) : home size key < size + 1 := by
  unfold home
  have h1 := Int.tmod_lt_of_pos key (b := (size : Int) + 1) (by omega)
  have h2 := Int.tmod_nonneg ((size : Int) + 1) h
  omega

theorem locate_eq {t : Tbl Code} {size : Nat} {key : Int} (h : 0 ≤ key) :
    locate t size key = probe t (size + 1) key (home size key) (size + 1) := by
  unfold locate home
  have h2 := Int.tmod_nonneg ((size : Int) + 1) h
  simp only
  rw [if_neg (by omega)]

/-- The invariant of the tables: a key is reached from its first cell without meeting a free cell or the key before; a key
is positive and in the table; only the cells of the table are used. -/
structure Inv (size : Nat) (t : Tbl Code) : Prop where
  reach : ∀ s k c, t s = some (k, c) → 0 ≤ k ∧ ∃ i, i < size + 1 ∧ s = cell (size + 1) (home size k) i ∧
    ∀ j, j < i → ¬ Stop t k (cell (size + 1) (home size k) j)
  out : ∀ s, size + 1 ≤ s → t s = none

/-- The number of cells used. -/
def used (size : Nat) (t : Tbl Code) : Nat := (List.range (size + 1)).countP (fun s => (t s).isSome)

theorem exists_free {size : Nat} {t : Tbl Code} (h : used size t ≤ size) : ∃ s, s < size + 1 ∧ t s = none := by
  refine Classical.byContradiction fun hn => ?_
  have : used size t = size + 1 := by
    unfold used
    rw [List.countP_eq_length.2]
    · exact List.length_range
    · intro s hs
      rw [List.mem_range] at hs
      cases ht : t s with
      | none => exact absurd ⟨s, hs, ht⟩ hn
      | some _ => rfl
  omega

theorem locate_spec {size : Nat} {t : Tbl Code} {key : Int} (hk : 0 ≤ key) (hu : used size t ≤ size) :
    ∃ i, i < size + 1 ∧ locate t size key = some (cell (size + 1) (home size key) i) ∧
      Stop t key (cell (size + 1) (home size key) i) ∧ ∀ j, j < i → ¬ Stop t key (cell (size + 1) (home size key) j) := by
  rw [locate_eq hk]
  refine probe_spec (home_lt hk) ?_
  obtain ⟨s, hs, hf⟩ := exists_free hu
  obtain ⟨i, hi, he⟩ := cell_surj (home_lt hk) hs
  exact ⟨i, hi, .inl (by rw [he]; exact hf)⟩

/-- What the table contains. -/
def Has (t : Tbl Code) (key : Int) (c : Code) : Prop := ∃ s, t s = some (key, c)

/-- The key is found iff it is in the table. -/
theorem switchTbl_spec {size : Nat} {t : Tbl Code} {key : Int} (hi : Inv size t) (hk : 0 ≤ key) (hu : used size t ≤ size) :
    ∃ r, switchTbl t size key = some r ∧ ∀ c, r = some c ↔ Has t key c := by
  obtain ⟨i, hlt, hl, hs, hmin⟩ := locate_spec hk hu (t := t)
  refine ⟨_, by rw [switchTbl, hl], fun c => ?_⟩
  constructor
  · intro h
    rcases hs with h0 | ⟨c', h0⟩
    · rw [h0] at h; simp at h
    · rw [h0] at h
      simp only [Option.map_some, Option.some.injEq] at h
      subst h
      exact ⟨_, h0⟩
  · rintro ⟨s, h⟩
    obtain ⟨_, i', hi', hs', hmin'⟩ := hi.reach s key c h
    have : i = i' := by
      rcases Nat.lt_trichotomy i i' with h1 | h1 | h1
      · exact absurd hs (hmin' i h1)
      · exact h1
      · exact absurd (.inr ⟨c, by rw [← hs']; exact h⟩) (hmin i' h1)
    subst this
    rw [← hs', h]
    rfl

theorem addElt_spec {size : Nat} {t : Tbl Code} {key : Int} {c : Code} (hi : Inv size t) (hk : 0 ≤ key)
    (hu : used size t ≤ size) :
    ∃ t', addElt t size key c = some t' ∧ Inv size t' ∧ used size t' ≤ used size t + 1 ∧
      ∀ k d, Has t' k d ↔ (k = key ∧ d = c) ∨ (k ≠ key ∧ Has t k d) := by
  obtain ⟨i, hlt, hl, hs, hmin⟩ := locate_spec hk hu (t := t)
  generalize hp : cell (size + 1) (home size key) i = p at hl hs
  have hplt : p < size + 1 := by rw [← hp]; exact cell_lt (by omega)
  refine ⟨_, by rw [addElt, hl], ⟨?_, ?_⟩, ?_, ?_⟩
  · -- reach
    intro s k d h
    by_cases hsp : s = p
    · rw [if_pos hsp] at h
      simp only [Option.some.injEq, Prod.mk.injEq] at h
      obtain ⟨rfl, rfl⟩ := h
      refine ⟨hk, i, hlt, by rw [hp]; exact hsp, fun j hj hst => ?_⟩
      have hne : cell (size + 1) (home size key) j ≠ p := by
        intro he; exact hmin j hj (he ▸ hs)
      unfold Stop at hst
      simp only [if_neg hne] at hst
      exact hmin j hj hst
    · rw [if_neg hsp] at h
      obtain ⟨h0, i', hi', hs', hmin'⟩ := hi.reach s k d h
      refine ⟨h0, i', hi', hs', fun j hj hst => ?_⟩
      unfold Stop at hst
      by_cases he : cell (size + 1) (home size k) j = p
      · simp only [if_pos he] at hst
        rcases hst with h1 | ⟨c', h1⟩
        · simp at h1
        · simp only [Option.some.injEq, Prod.mk.injEq] at h1
          rw [← h1.1] at hmin' hs'
          -- the key is the inserted one, already at `s`
          refine hmin' j hj ?_
          rw [h1.1] at ⊢
          rw [he]
          rw [h1.1] at hs
          exact hs
      · simp only [if_neg he] at hst
        exact hmin' j hj hst
  · intro s hs
    rw [if_neg (by omega)]
    exact hi.out s hs
  · -- number of cells
    unfold used
    have : ∀ l : List Nat, l.Nodup → l.countP (fun s => (if s = p then some (key, c) else t s).isSome) ≤
        l.countP (fun s => (t s).isSome) + (if p ∈ l then 1 else 0) := by
      intro l hnd
      induction l with
      | nil => simp
      | cons x l ih =>
        rw [List.nodup_cons] at hnd
        have := ih hnd.2
        rw [List.countP_cons, List.countP_cons]
        by_cases hx : x = p
        · subst hx
          rw [if_neg hnd.1] at this
          simp only [List.mem_cons, true_or, if_true, Option.isSome_some]
          omega
        · have hm : (p ∈ x :: l) ↔ p ∈ l := by
            rw [List.mem_cons]
            exact ⟨fun h => h.resolve_left (fun h => hx h.symm), .inr⟩
          simp only [hm, if_neg hx]
          omega
    have := this (List.range (size + 1)) List.nodup_range
    rw [if_pos (List.mem_range.2 hplt)] at this
    exact this
  · intro k d
    constructor
    · rintro ⟨s, h⟩
      simp only at h
      by_cases hsp : s = p
      · rw [if_pos hsp] at h
        simp only [Option.some.injEq, Prod.mk.injEq] at h
        exact .inl ⟨h.1.symm, h.2.symm⟩
      · rw [if_neg hsp] at h
        refine .inr ⟨?_, s, h⟩
        rintro rfl
        obtain ⟨_, i', hi', hs', hmin'⟩ := hi.reach s k d h
        have : i = i' := by
          rcases Nat.lt_trichotomy i i' with h1 | h1 | h1
          · exact absurd (by rw [hp]; exact hs) (hmin' i h1)
          · exact h1
          · exact absurd (.inr ⟨d, by rw [← hs']; exact h⟩) (hmin i' h1)
        subst this
        exact hsp (hs'.trans hp)
    · rintro (⟨rfl, rfl⟩ | ⟨hne, s, h⟩)
      · exact ⟨p, by simp only [if_true]⟩
      · refine ⟨s, ?_⟩
        have : s ≠ p := by
          rintro rfl
          rcases hs with h1 | ⟨c', h1⟩
          · rw [h] at h1; simp at h1
          · rw [h] at h1
            simp only [Option.some.injEq, Prod.mk.injEq] at h1
            exact hne h1.1
        simp only [if_neg this]
        exact h

theorem addAll_spec {size : Nat} : ∀ {l : List (Int × Code)} {t : Tbl Code}, Inv size t → (∀ e ∈ l, 0 ≤ e.1) →
    used size t + l.length ≤ size →
    ∃ t', addAll size t l = some t' ∧ Inv size t' ∧ used size t' ≤ size ∧
      ∀ k d, Has t' k d ↔ (∃ a b, l = a ++ (k, d) :: b ∧ ∀ e ∈ b, e.1 ≠ k) ∨ ((∀ e ∈ l, e.1 ≠ k) ∧ Has t k d) := by
  intro l
  induction l with
  | nil =>
    intro t hi _ hu
    refine ⟨t, rfl, hi, by simpa using hu, fun k d => ?_⟩
    simp
  | cons e l ih =>
    intro t hi hk hu
    obtain ⟨key, c⟩ := e
    simp only [List.length_cons] at hu
    obtain ⟨t1, h1, hi1, hu1, hh1⟩ := addElt_spec (c := c) hi (hk (key, c) (by simp)) (by omega)
    obtain ⟨t2, h2, hi2, hu2, hh2⟩ := ih hi1 (fun e he => hk e (by simp [he])) (by omega)
    refine ⟨t2, by rw [addAll, h1]; exact h2, hi2, hu2, fun k d => ?_⟩
    rw [hh2, hh1]
    constructor
    · rintro (⟨a, b, rfl, hb⟩ | ⟨hl, ⟨rfl, rfl⟩ | ⟨hne, h⟩⟩)
      · exact .inl ⟨(key, c) :: a, b, rfl, hb⟩
      · exact .inl ⟨[], l, rfl, hl⟩
      · refine .inr ⟨?_, h⟩
        intro e he
        rcases List.mem_cons.1 he with rfl | he
        · exact fun h => hne h.symm
        · exact hl e he
    · rintro (⟨a, b, he, hb⟩ | ⟨hl, h⟩)
      · cases a with
        | nil =>
          simp only [List.nil_append, List.cons.injEq, Prod.mk.injEq] at he
          obtain ⟨⟨rfl, rfl⟩, rfl⟩ := he
          exact .inr ⟨hb, .inl ⟨rfl, rfl⟩⟩
        | cons x a =>
          simp only [List.cons_append, List.cons.injEq] at he
          exact .inl ⟨a, b, he.2, hb⟩
      · exact .inr ⟨fun e he => hl e (by simp [he]), .inr ⟨fun h => hl (key, c) (by simp) h.symm, h⟩⟩

/-! Integers -/

theorem runTests_mem {l : List (Int × Code)} {n : Int} {c : Code} (hn : (l.map (·.1)).Nodup) :
    runTests l n = some c ↔ (n, c) ∈ l := by
  induction l with
  | nil => simp [runTests]
  | cons e l ih =>
    obtain ⟨k, d⟩ := e
    simp only [List.map_cons, List.nodup_cons] at hn
    rw [runTests]
    by_cases h : n = k
    · subst h
      rw [if_pos rfl]
      constructor
      · intro h; cases h; simp
      · intro h
        rcases List.mem_cons.1 h with h | h
        · cases h; rfl
        · exact absurd (List.mem_map.2 ⟨_, h, rfl⟩) hn.1
    · rw [if_neg h, ih hn.2]
      simp only [List.mem_cons, Prod.mk.injEq]
      constructor
      · exact .inr
      · rintro (h' | h')
        · exact absurd h'.1 h
        · exact h'

theorem switchRec_spec (l : List (Int × Code)) : l.Pairwise (fun a b => a.1 < b.1) → ∀ n c,
    (switchRec l).run n = some c ↔ (n, c) ∈ l := by
  fun_induction switchRec l with
  | case1 l h =>
    intro hs n c
    rw [Tree.run]
    refine runTests_mem ?_
    rw [List.Nodup, List.pairwise_map]
    exact hs.imp (fun h => by omega)
  | case2 l h mid ih1 ih2 =>
    intro hs n c
    have hmid : mid < l.length := by grind
    have hsplit : l = l.take mid ++ l[mid] :: l.drop (mid + 1) := by
      rw [List.getElem_cons_drop, List.take_append_drop]
    have hs' := hs
    rw [hsplit, List.pairwise_append, List.pairwise_cons] at hs'
    obtain ⟨s1, ⟨s2, s3⟩, s4⟩ := hs'
    rw [Tree.run]
    have hm : (n, c) ∈ l ↔ (n, c) ∈ l.take mid ∨ (n, c) = l[mid] ∨ (n, c) ∈ l.drop (mid + 1) := by
      have := congrArg (fun l' => (n, c) ∈ l') hsplit
      simp only [List.mem_append, List.mem_cons, eq_iff_iff] at this
      exact this
    rw [hm]
    by_cases he : n = l[mid].1
    · rw [if_pos he]
      constructor
      · intro h'
        refine .inr (.inl ?_)
        simp only [Option.some.injEq] at h'
        exact Prod.ext he h'.symm
      · rintro (h' | h' | h')
        · have := s4 _ h' l[mid] List.mem_cons_self; simp only at this; omega
        · rw [← h']
        · have := s2 _ h'; simp only at this; omega
    · rw [if_neg he]
      by_cases hg : n > l[mid].1
      · rw [if_pos hg, ih2 s3]
        constructor
        · exact fun h' => .inr (.inr h')
        · rintro (h' | h' | h')
          · have := s4 _ h' l[mid] List.mem_cons_self; simp only at this; omega
          · exact absurd (congrArg Prod.fst h') he
          · exact h'
      · rw [if_neg hg, ih1 s1]
        constructor
        · exact .inl
        · rintro (h' | h' | h')
          · exact h'
          · exact absurd (congrArg Prod.fst h') he
          · have := s2 _ h'; simp only at this; omega

theorem toInt32_id {n : Int} (h1 : -2147483648 ≤ n) (h2 : n < 2147483648) : toInt32 n = n := by
  unfold toInt32; omega

end Gp.Switch
