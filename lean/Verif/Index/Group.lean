import Verif.Index.Model
namespace Gp.Index

/-! Grouping by keys -/

section
variable {κ : Type} [DecidableEq κ] {le : κ → κ → Bool}

/-- A total order on the keys. -/
structure TotalOrder (le : κ → κ → Bool) : Prop where
  total : ∀ a b, le a b = true ∨ le b a = true
  trans : ∀ a b c, le a b = true → le b c = true → le a c = true
  anti : ∀ a b, le a b = true → le b a = true → a = b

/-- The numbers with the key `k`. -/
def withKey (k : κ) (l : List (κ × Nat)) : List Nat := (l.filter (fun e => decide (e.1 = k))).map (·.2)

theorem sameKey_spec (ho : TotalOrder le) (k : κ) (l : List (κ × Nat))
    (hs : l.Pairwise (fun a b => le a.1 b.1 = true)) (hk : ∀ e ∈ l, le k e.1 = true) :
    (sameKey k l).1 = withKey k l ∧ (sameKey k l).2 = l.filter (fun e => decide (e.1 ≠ k)) := by
  induction l with
  | nil => exact ⟨rfl, rfl⟩
  | cons e l ih =>
    obtain ⟨k', i⟩ := e
    rw [List.pairwise_cons] at hs
    obtain ⟨ih1, ih2⟩ := ih hs.2 (fun e he => hk e (by simp [he]))
    rw [sameKey]
    unfold withKey at *
    by_cases h : k' = k
    · rw [if_pos h]
      simp only [h, decide_true, List.filter_cons_of_pos, List.map_cons]
      exact ⟨by rw [ih1], by rw [ih2]; simp⟩
    · rw [if_neg h]
      -- all the following keys are greater
      have hne : ∀ e ∈ l, e.1 ≠ k := by
        intro e he hek
        have h1 : le k' e.1 = true := hs.1 e he
        have h2 : le k k' = true := hk (k', i) (by simp)
        rw [hek] at h1
        exact h (ho.anti _ _ h1 h2)
      constructor
      · rw [List.filter_cons_of_neg (by simpa using h), List.filter_eq_nil_iff.2 (by simpa using hne)]
        rfl
      · rw [List.filter_cons_of_pos (by simpa using h), List.filter_eq_self.2 (by simpa using hne)]

theorem groups_spec (ho : TotalOrder le) (l : List (κ × Nat)) (hs : l.Pairwise (fun a b => le a.1 b.1 = true)) :
    ((groups l).map (·.key)).Nodup ∧ (∀ g ∈ groups l, g.hd :: g.tl = withKey g.key l) ∧
    (∀ e ∈ l, ∃ g ∈ groups l, g.key = e.1) := by
  fun_induction groups l with
  | case1 => exact ⟨by simp, by simp, by simp⟩
  | case2 k i l r ih =>
    rw [List.pairwise_cons] at hs
    obtain ⟨s1, s2⟩ := sameKey_spec ho k l hs.2 hs.1
    have hr2 : r.2 = l.filter (fun e => decide (e.1 ≠ k)) := s2
    have hr1 : r.1 = withKey k l := s1
    obtain ⟨i1, i2, i3⟩ := ih (by rw [hr2]; exact hs.2.filter _)
    have hnk : ∀ g ∈ groups r.2, g.key ≠ k := by
      intro g hg hgk
      have := i2 g hg
      have hmem : g.hd ∈ withKey g.key r.2 := by rw [← this]; simp
      unfold withKey at hmem
      rw [List.mem_map] at hmem
      obtain ⟨e, he, _⟩ := hmem
      rw [List.mem_filter] at he
      have h1 := he.1
      rw [hr2, List.mem_filter] at h1
      simp at h1 he
      exact h1.2 (he.2.trans hgk)
    refine ⟨?_, ?_, ?_⟩
    · rw [List.map_cons, List.nodup_cons]
      refine ⟨?_, i1⟩
      rw [List.mem_map]
      rintro ⟨g, hg, h⟩
      exact hnk g hg h
    · intro g hg
      rcases List.mem_cons.1 hg with rfl | hg
      · simp only
        unfold withKey
        rw [List.filter_cons_of_pos (by simp), List.map_cons, hr1]
        rfl
      · rw [i2 g hg]
        unfold withKey
        have hne : ¬ (decide (k = g.key) = true) := by
          simp only [decide_eq_true_eq]; exact fun h => hnk g hg h.symm
        rw [List.filter_cons_of_neg (by simpa using fun h => hnk g hg h.symm), hr2, List.filter_filter]
        congr 1
        refine List.filter_congr fun e _ => ?_
        have hgk := hnk g hg
        by_cases he : e.1 = g.key
        · have : e.1 ≠ k := by rw [he]; exact hgk
          simp [he, hgk]
        · simp [he]
    · intro e he
      rcases List.mem_cons.1 he with rfl | he
      · exact ⟨⟨k, i, r.1⟩, by simp, rfl⟩
      · by_cases hek : e.1 = k
        · exact ⟨⟨k, i, r.1⟩, by simp, hek.symm⟩
        · obtain ⟨g, hg, h⟩ := i3 e (by rw [hr2, List.mem_filter]; exact ⟨he, by simpa using hek⟩)
          exact ⟨g, by simp [hg], h⟩

theorem keysort_filter (ho : TotalOrder le) (l : List (κ × Nat)) (k : κ) :
    withKey k (l.mergeSort (fun a b => le a.1 b.1)) = withKey k l := by
  unfold withKey
  congr 1
  refine (List.Sublist.eq_of_length ?_ ?_).symm
  · have hsub : (l.filter (fun e => decide (e.1 = k))).Sublist (l.mergeSort (fun a b => le a.1 b.1)) := by
      refine List.sublist_mergeSort (le := fun (a b : κ × Nat) => le a.1 b.1) (fun a b c => ho.trans _ _ _) (fun a b => ?_) ?_ List.filter_sublist
      · have := ho.total a.1 b.1
        simpa using this
      · rw [List.pairwise_iff_forall_sublist]
        intro a b hab
        have ha : a ∈ l.filter (fun e => decide (e.1 = k)) := hab.subset (by simp)
        have hb : b ∈ l.filter (fun e => decide (e.1 = k)) := hab.subset (by simp)
        rw [List.mem_filter] at ha hb
        simp only [decide_eq_true_eq] at ha hb
        rw [ha.2, hb.2]
        rcases ho.total k k with h | h <;> exact h
    have := hsub.filter (fun e => decide (e.1 = k))
    rw [List.filter_filter] at this
    simpa using this
  · exact ((List.mergeSort_perm l _).filter _).length_eq.symm

/-- The groups of the clauses of a type. -/
theorem groupByKeys_spec (ho : TotalOrder le) (l : List (κ × Nat)) :
    ((groupByKeys le l).map (·.key)).Nodup ∧ (∀ g ∈ groupByKeys le l, g.hd :: g.tl = withKey g.key l) ∧
    (∀ e ∈ l, ∃ g ∈ groupByKeys le l, g.key = e.1) := by
  have hsort : (l.mergeSort (fun a b => le a.1 b.1)).Pairwise (fun a b => le a.1 b.1 = true) :=
    List.pairwise_mergeSort (le := fun a b => le a.1 b.1) (fun a b c => ho.trans _ _ _)
      (fun a b => by have := ho.total a.1 b.1; simpa using this) l
  obtain ⟨h1, h2, h3⟩ := groups_spec ho _ hsort
  have hp := List.mergeSort_perm (groups (l.mergeSort (fun a b => le a.1 b.1))) (fun a b => decide (a.hd ≤ b.hd))
  unfold groupByKeys
  refine ⟨(hp.map _).nodup_iff.2 h1, ?_, ?_⟩
  · intro g hg
    rw [h2 g (hp.mem_iff.1 hg), keysort_filter ho]
  · intro e he
    obtain ⟨g, hg, h⟩ := h3 e ((List.mergeSort_perm l _).mem_iff.2 he)
    exact ⟨g, hp.mem_iff.2 hg, h⟩

theorem mem_withKey {k : κ} {l : List (κ × Nat)} {i : Nat} : i ∈ withKey k l ↔ (k, i) ∈ l := by
  unfold withKey
  rw [List.mem_map]
  constructor
  · rintro ⟨e, he, rfl⟩
    rw [List.mem_filter] at he
    simp only [decide_eq_true_eq] at he
    rw [← he.2]; exact he.1
  · intro h
    exact ⟨_, List.mem_filter.2 ⟨h, by simp⟩, rfl⟩

theorem nodup_snd {l : List (κ × Nat)} (hn : (l.map (·.2)).Nodup) {k k' : κ} {i : Nat} (h : (k, i) ∈ l) (h' : (k', i) ∈ l) :
    k = k' := by
  rw [List.Nodup, List.pairwise_map] at hn
  refine Classical.byContradiction fun hne => ?_
  obtain ⟨a, b, rfl⟩ := List.append_of_mem h
  rw [List.pairwise_append, List.pairwise_cons] at hn
  rcases List.mem_append.1 h' with h' | h'
  · exact hn.2.2 _ h' (k, i) (by simp) rfl
  · rcases List.mem_cons.1 h' with h' | h'
    · cases h'; exact hne rfl
    · exact hn.2.1.1 _ h' rfl

theorem groupByKeys_heads (ho : TotalOrder le) (l : List (κ × Nat)) (hn : (l.map (·.2)).Nodup) :
    ((groupByKeys le l).map (·.hd)).Nodup := by
  obtain ⟨h1, h2, _⟩ := groupByKeys_spec ho l
  rw [List.Nodup, List.pairwise_map] at h1 ⊢
  refine h1.imp_of_mem ?_
  intro a b ha hb hab he
  have m1 : (a.key, a.hd) ∈ l := mem_withKey.1 (by rw [← h2 a ha]; simp)
  have m2 : (b.key, b.hd) ∈ l := mem_withKey.1 (by rw [← h2 b hb]; simp)
  rw [he] at m1
  exact hab (nodup_snd hn m1 m2)
end

end Gp.Index
