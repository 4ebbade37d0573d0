import Verif.CodeGen.Spec2
import Verif.CodeGen.Lemmas15
namespace Gp.CodeGen
open Gp.Heap Gp.Unify Gp.ListBip
open Gp.Term (isNaN fkey)

/-! ## The dictionary -/

def upd (d : Entry) (k : Nat) : Entry := { d with multi := true, perm := d.perm || (d.first != k && decide (1 < k)) }

theorem addVar_mem {v k : Nat} {e' : Entry} : {d : List Entry} → (d.map (·.var)).Nodup → e' ∈ addVar d v k →
    (e' ∈ d ∧ e'.var ≠ v) ∨ (∃ e ∈ d, e.var = v ∧ e' = upd e k) ∨ (e' = ⟨v, k, false, false⟩ ∧ ∀ e ∈ d, e.var ≠ v)
  | [], _, h => by
    rw [addVar, List.mem_singleton] at h
    exact Or.inr (Or.inr ⟨h, fun e he => by cases he⟩)
  | d :: l, hn, h => by
    rw [List.map_cons, List.nodup_cons] at hn
    unfold addVar at h
    split at h
    · rename_i hd
      rcases List.mem_cons.mp h with h | h
      · exact Or.inr (Or.inl ⟨d, List.mem_cons_self, hd, h⟩)
      · exact Or.inl ⟨List.mem_cons_of_mem _ h, fun he => hn.1 (List.mem_map.mpr ⟨e', h, he.trans hd.symm⟩)⟩
    · rename_i hd
      rcases List.mem_cons.mp h with h | h
      · subst h; exact Or.inl ⟨List.mem_cons_self, hd⟩
      · rcases addVar_mem hn.2 h with h | ⟨e, h1, h2⟩ | ⟨h1, h2⟩
        · exact Or.inl ⟨List.mem_cons_of_mem _ h.1, h.2⟩
        · exact Or.inr (Or.inl ⟨e, List.mem_cons_of_mem _ h1, h2⟩)
        · refine Or.inr (Or.inr ⟨h1, fun e he => ?_⟩)
          rcases List.mem_cons.mp he with rfl | he
          · exact hd
          · exact h2 e he

theorem addVar_vars (v k : Nat) : (d : List Entry) →
    (addVar d v k).map (·.var) = if v ∈ d.map (·.var) then d.map (·.var) else d.map (·.var) ++ [v]
  | [] => rfl
  | d :: l => by
    unfold addVar
    split
    · rename_i h; subst h; simp
    · rename_i h
      rw [List.map_cons, addVar_vars v k l, List.map_cons]
      have : v ≠ d.var := fun h1 => h h1.symm
      by_cases hv : v ∈ l.map (·.var)
      · rw [if_pos hv, if_pos (List.mem_cons_of_mem _ hv)]
      · rw [if_neg hv, if_neg (by rw [List.mem_cons, not_or]; exact ⟨this, hv⟩)]; rfl

/-- The dictionary after the occurrences `L`. -/
structure Dico (L : List (Nat × Nat)) (d : List Entry) : Prop where
  nodup : (d.map (·.var)).Nodup
  cover : ∀ p ∈ L, p.1 ∈ d.map (·.var)
  le : ∀ e ∈ d, ∀ p ∈ L, p.1 = e.var → e.first ≤ p.2
  occ : ∀ e ∈ d, (e.var, e.first) ∈ L
  perm : ∀ e ∈ d, e.perm = false → ∀ p ∈ L, p.1 = e.var → p.2 = e.first ∨ p.2 ≤ 1
  multi : ∀ e ∈ d, e.multi = false → (L.map (·.1)).count e.var ≤ 1

theorem Dico.add {L : List (Nat × Nat)} {d : List Entry} (h : Dico L d) {v k : Nat} (hk : ∀ p ∈ L, p.2 ≤ k) :
    Dico (L ++ [(v, k)]) (addVar d v k) where
  nodup := by
    rw [addVar_vars]
    split
    · exact h.nodup
    · rename_i hv
      refine List.nodup_append.mpr ⟨h.nodup, by simp, fun a ha b hb => ?_⟩
      rw [List.mem_singleton] at hb
      subst hb; intro he; subst he; exact hv ha
  cover p hp := by
    rw [addVar_vars]
    rcases List.mem_append.mp hp with hp | hp
    · split
      · exact h.cover p hp
      · exact List.mem_append_left _ (h.cover p hp)
    · rw [List.mem_singleton] at hp
      subst hp
      split
      · assumption
      · exact List.mem_append_right _ List.mem_cons_self
  le e' he p hp hv := by
    rcases addVar_mem h.nodup he with ⟨h1, h2⟩ | ⟨e, h1, h2, rfl⟩ | ⟨rfl, h2⟩
    · rcases List.mem_append.mp hp with hp | hp
      · exact h.le e' h1 p hp hv
      · rw [List.mem_singleton] at hp
        subst hp; exact absurd hv.symm h2
    · show e.first ≤ p.2
      rcases List.mem_append.mp hp with hp | hp
      · exact h.le e h1 p hp hv
      · rw [List.mem_singleton] at hp
        subst hp; exact hk _ (h.occ e h1)
    · rcases List.mem_append.mp hp with hp | hp
      · obtain ⟨e, h3, h4⟩ := List.mem_map.mp (h.cover p hp)
        exact absurd (h4.trans hv) (h2 e h3)
      · rw [List.mem_singleton] at hp
        subst hp; exact Nat.le_refl _
  occ e' he := by
    rcases addVar_mem h.nodup he with ⟨h1, h2⟩ | ⟨e, h1, h2, rfl⟩ | ⟨rfl, h2⟩
    · exact List.mem_append_left _ (h.occ e' h1)
    · exact List.mem_append_left _ (h.occ e h1)
    · exact List.mem_append_right _ List.mem_cons_self
  perm e' he hn p hp hv := by
    rcases addVar_mem h.nodup he with ⟨h1, h2⟩ | ⟨e, h1, h2, rfl⟩ | ⟨rfl, h2⟩
    · rcases List.mem_append.mp hp with hp | hp
      · exact h.perm e' h1 hn p hp hv
      · rw [List.mem_singleton] at hp
        subst hp; exact absurd hv.symm h2
    · have hn' : e.perm = false ∧ (e.first = k ∨ k ≤ 1) := by
        simp only [upd, Bool.or_eq_false_iff, Bool.and_eq_false_iff, bne_eq_false_iff_eq, decide_eq_false_iff_not, Nat.not_lt] at hn
        exact hn
      show p.2 = e.first ∨ p.2 ≤ 1
      rcases List.mem_append.mp hp with hp | hp
      · exact h.perm e h1 hn'.1 p hp hv
      · rw [List.mem_singleton] at hp
        subst hp; exact hn'.2.imp Eq.symm id
    · rcases List.mem_append.mp hp with hp | hp
      · obtain ⟨e, h3, h4⟩ := List.mem_map.mp (h.cover p hp)
        exact absurd (h4.trans hv) (h2 e h3)
      · rw [List.mem_singleton] at hp
        subst hp; exact Or.inl rfl
  multi e' he hn := by
    rcases addVar_mem h.nodup he with ⟨h1, h2⟩ | ⟨e, h1, h2, rfl⟩ | ⟨rfl, h2⟩
    · have := h.multi e' h1 hn
      rw [List.map_append, List.count_append]
      have h3 : List.count e'.var [v] = 0 := by
        rw [List.count_eq_zero, List.mem_singleton]; exact h2
      show _ + List.count e'.var [v] ≤ 1
      omega
    · cases hn
    · rw [List.map_append, List.count_append]
      have h3 : (L.map (·.1)).count v = 0 := by
        rw [List.count_eq_zero]
        intro hv
        obtain ⟨p, hp, rfl⟩ := List.mem_map.mp hv
        obtain ⟨e, h3, h4⟩ := List.mem_map.mp (h.cover p hp)
        exact h2 e h3 h4
      show List.count v _ + List.count v [v] ≤ 1
      rw [h3]; simp

theorem Dico.fold : (L2 L1 : List (Nat × Nat)) → (d : List Entry) → Dico L1 d → (L1 ++ L2).Pairwise (fun p q => p.2 ≤ q.2) →
    Dico (L1 ++ L2) (L2.foldl (fun d p => addVar d p.1 p.2) d)
  | [], L1, d, h, _ => by rw [List.append_nil]; exact h
  | p :: L2, L1, d, h, hs => by
    rw [List.foldl_cons, show L1 ++ p :: L2 = (L1 ++ [p]) ++ L2 by simp] at *
    exact Dico.fold L2 (L1 ++ [p]) (addVar d p.1 p.2)
      (h.add fun q hq => (List.pairwise_append.mp (List.pairwise_append.mp hs).1).2.2 q hq p List.mem_cons_self) hs

theorem goalOccs_ge : (l : List (List Tm)) → (k : Nat) → ∀ p ∈ goalOccs k l, k ≤ p.2
  | [], _, p, hp => by cases hp
  | a :: l, k, p, hp => by
    rw [goalOccs] at hp
    rcases List.mem_append.mp hp with hp | hp
    · obtain ⟨v, _, rfl⟩ := List.mem_map.mp hp; exact Nat.le_refl _
    · exact Nat.le_of_succ_le (goalOccs_ge l (k + 1) p hp)

theorem map_sorted (vs : List Nat) (k : Nat) : (vs.map fun v => (v, k)).Pairwise (fun p q => p.2 ≤ q.2) := by
  rw [List.pairwise_map]
  exact List.pairwise_of_forall (fun _ _ => Nat.le_refl _)

theorem goalOccs_sorted : (l : List (List Tm)) → (k : Nat) → (goalOccs k l).Pairwise (fun p q => p.2 ≤ q.2)
  | [], _ => List.Pairwise.nil
  | a :: l, k => by
    rw [goalOccs]
    refine List.pairwise_append.mpr ⟨map_sorted _ _, goalOccs_sorted l (k + 1), fun p hp q hq => ?_⟩
    obtain ⟨v, _, rfl⟩ := List.mem_map.mp hp
    exact Nat.le_of_succ_le (goalOccs_ge l (k + 1) q hq)

theorem dico_ok (head : List Tm) (body : List (List Tm)) : Dico (clauseOccs head body) (dico head body) := by
  refine Dico.fold (clauseOccs head body) [] [] ⟨List.nodup_nil, fun p hp => (by cases hp), fun e he => (by cases he), fun e he => (by cases he),
    fun e he => (by cases he), fun e he => (by cases he)⟩ ?_
  rw [List.nil_append, clauseOccs]
  refine List.pairwise_append.mpr ⟨map_sorted _ _, goalOccs_sorted _ _, fun p hp q hq => ?_⟩
  obtain ⟨v, _, rfl⟩ := List.mem_map.mp hp
  exact Nat.zero_le _

/-! ## The names -/

theorem classif_le : (d : List Entry) → (y : Nat) → y ≤ (classif d y).2
  | [], _ => Nat.le_refl _
  | d :: l, y => by
    unfold classif
    split
    · exact Nat.le_of_succ_le (classif_le l (y + 1))
    · exact classif_le l y

/-- The name of the variable of an entry. -/
theorem classif_name : (d : List Entry) → (y : Nat) → (d.map (·.var)).Nodup → ∀ e ∈ d,
    (e.perm = true → ∃ i, y ≤ i ∧ i < (classif d y).2 ∧ nameOf (classif d y).1 e.var = .var (.y i)) ∧
    (e.perm = false → nameOf (classif d y).1 e.var = if e.multi then .var (.x e.var) else .void)
  | [], _, _, e, he => by cases he
  | d :: l, y, hn, e, he => by
    rw [List.map_cons, List.nodup_cons] at hn
    rcases List.mem_cons.mp he with rfl | he
    · unfold classif
      by_cases hp : e.perm = true
      · rw [if_pos hp]
        refine ⟨fun _ => ⟨y, Nat.le_refl _, classif_le l (y + 1), by simp [nameOf]⟩, fun h => by rw [h] at hp; cases hp⟩
      · rw [if_neg hp]
        exact ⟨fun h => absurd h hp, fun _ => by simp [nameOf]⟩
    · have hne : d.var ≠ e.var := fun h => hn.1 (List.mem_map.mpr ⟨e, he, h.symm⟩)
      unfold classif
      by_cases hp : d.perm = true
      · obtain ⟨h1, h2⟩ := classif_name l (y + 1) hn.2 e he
        rw [if_pos hp]
        simp only [nameOf, if_neg hne]
        refine ⟨fun h => ?_, h2⟩
        obtain ⟨i, a, b, c⟩ := h1 h
        exact ⟨i, by omega, b, c⟩
      · obtain ⟨h1, h2⟩ := classif_name l y hn.2 e he
        rw [if_neg hp]
        simp only [nameOf, if_neg hne]
        exact ⟨h1, h2⟩

theorem classif_inj : (d : List Entry) → (y : Nat) → (d.map (·.var)).Nodup → ∀ e ∈ d, ∀ e' ∈ d, ∀ u,
    nameOf (classif d y).1 e.var = .var u → nameOf (classif d y).1 e'.var = .var u → e.var = e'.var
  | [], _, _, e, he, _, _, _ => by cases he
  | d :: l, y, hn, e, he, e', he', u => by
    have hn0 := hn
    rw [List.map_cons, List.nodup_cons] at hn
    have key : ∀ f ∈ l, nameOf (classif (d :: l) y).1 d.var = .var u → nameOf (classif (d :: l) y).1 f.var = .var u → False := by
      intro f hf h1 h2
      have hne : d.var ≠ f.var := fun h => hn.1 (List.mem_map.mpr ⟨f, hf, h.symm⟩)
      unfold classif at h1 h2
      by_cases hp : d.perm = true
      · rw [if_pos hp] at h1 h2
        simp only [nameOf, if_pos, if_neg hne] at h1 h2
        obtain ⟨a, b⟩ := classif_name l (y + 1) hn.2 f hf
        cases h1
        by_cases hf2 : f.perm = true
        · obtain ⟨i, c1, _, c3⟩ := a hf2
          rw [c3] at h2
          cases h2; omega
        · rw [b (by simpa using hf2)] at h2
          split at h2 <;> cases h2
      · rw [if_neg hp] at h1 h2
        simp only [nameOf, if_pos, if_neg hne] at h1 h2
        obtain ⟨a, b⟩ := classif_name l y hn.2 f hf
        split at h1
        · cases h1
          by_cases hf2 : f.perm = true
          · obtain ⟨i, c1, _, c3⟩ := a hf2
            rw [c3] at h2; cases h2
          · rw [b (by simpa using hf2)] at h2
            split at h2
            · injection h2 with h2; injection h2 with h2; exact hne h2.symm
            · cases h2
        · cases h1
    have tail : ∀ f ∈ l, nameOf (classif (d :: l) y).1 f.var = nameOf (classif l (if d.perm then y + 1 else y)).1 f.var := by
      intro f hf
      have hne : d.var ≠ f.var := fun h => hn.1 (List.mem_map.mpr ⟨f, hf, h.symm⟩)
      show nameOf (classif (d :: l) y).1 _ = _
      rw [classif]
      split <;> simp only [nameOf, if_neg hne]
    intro h1 h2
    rcases List.mem_cons.mp he with k1 | k1 <;> rcases List.mem_cons.mp he' with k2 | k2
    · rw [k1, k2]
    · rw [k1] at h1; exact (key e' k2 h1 h2).elim
    · rw [k2] at h2; exact (key e k1 h2 h1).elim
    · rw [tail e k1] at h1
      rw [tail e' k2] at h2
      exact classif_inj l _ hn.2 e k1 e' k2 u h1 h2

/-- The class of a variable of a clause. -/
theorem names_cases {head : List Tm} {body : List (List Tm)} {v k : Nat} (h : (v, k) ∈ clauseOccs head body) :
    (names head body v = .void ∧ ((clauseOccs head body).map (·.1)).count v ≤ 1) ∨
    (names head body v = .var (.x v) ∧ ∀ j j', (v, j) ∈ clauseOccs head body → (v, j') ∈ clauseOccs head body → j < j' → j' ≤ 1) ∨
    ∃ i, i < nbY head body ∧ names head body v = .var (.y i) := by
  have hd := dico_ok head body
  obtain ⟨e, he, hv⟩ := List.mem_map.mp (hd.cover _ h)
  have hv : e.var = v := hv
  subst hv
  obtain ⟨h1, h2⟩ := classif_name (dico head body) 0 hd.nodup e he
  by_cases hp : e.perm = true
  · obtain ⟨i, _, a, b⟩ := h1 hp
    exact Or.inr (Or.inr ⟨i, a, b⟩)
  · have hp : e.perm = false := by simpa using hp
    by_cases hm : e.multi = true
    · refine Or.inr (Or.inl ⟨by rw [names, h2 hp, if_pos hm], fun j j' hj hj' hlt => ?_⟩)
      have a := hd.le e he _ hj rfl
      rcases hd.perm e he hp _ hj' rfl with b | b
      · simp only at a b; omega
      · exact b
    · have hm : e.multi = false := by simpa using hm
      exact Or.inl ⟨by rw [names, h2 hp, hm]; rfl, hd.multi e he hm⟩

theorem names_inj {head : List Tm} {body : List (List Tm)} {v v' k k' : Nat} {u : Var} (h : (v, k) ∈ clauseOccs head body)
    (h' : (v', k') ∈ clauseOccs head body) (h1 : names head body v = .var u) (h2 : names head body v' = .var u) : v = v' := by
  have hd := dico_ok head body
  obtain ⟨e, he, hv⟩ := List.mem_map.mp (hd.cover _ h)
  obtain ⟨e', he', hv'⟩ := List.mem_map.mp (hd.cover _ h')
  have hv : e.var = v := hv
  have hv' : e'.var = v' := hv'
  subst hv; subst hv'
  exact classif_inj _ 0 hd.nodup e he e' he' u h1 h2

end Gp.CodeGen
