import Verif.AllSol.BagLemmas
/-
Lemmas: groups, free variables.
-/
namespace Gp.AllSol
open Gp.Term Gp.Sort

theorem ok_rename {φ : Nat → Nat} {t : Tree} (h : Ok t) : Ok (trename φ t) := by
  induction h with
  | var a => simp only [trename]; exact .var _
  | fdv a => simp only [trename]; exact .fdv _
  | flt b h => simp only [trename]; exact .flt _ h
  | int z => simp only [trename]; exact .int _
  | atm s h => simp only [trename]; exact .atm _ h
  | app f us h1 _ ih =>
    simp only [trename]
    refine .app _ _ h1 ?_
    intro u hu
    obtain ⟨t, ht, rfl⟩ := List.mem_map.1 hu
    exact ih t ht

theorem nnz_rename {φ : Nat → Nat} {t : Tree} (h : NoNegZero t) : NoNegZero (trename φ t) := by
  induction h with
  | app f us _ ih =>
    simp only [trename]
    refine .app _ _ ?_
    intro u hu
    obtain ⟨t, ht, rfl⟩ := List.mem_map.1 hu
    exact ih t ht
  | _ => simp only [trename]; constructor <;> assumption

theorem pair_rename {φ : Nat → Nat} {t : Tree} (h : IsPair t) : IsPair (trename φ t) := by
  obtain ⟨k, v, rfl⟩ := h
  exact ⟨trename φ k, trename φ v, by simp [trename]⟩

/-- The comparison of two pairs. -/
theorem compare_pair (k v k' v' : Tree) : Term.compare (.app minus [k, v]) (.app minus [k', v']) =
    if Term.compare k k' ≠ 0 then Term.compare k k' else Term.compare v v' := by
  simp only [Term.compare, List.length_cons, List.length_nil, ne_eq, not_true_eq_false, if_false, compareArgs]
  by_cases h : Term.compare k k' = 0
  · simp only [h, not_true_eq_false, if_false]
    by_cases h2 : Term.compare v v' = 0 <;> simp [h2]
  · simp [h]

/-! ## Groups -/

theorem groupLoop_eq (key : Tree) : ∀ (l : List Tree) (adr : Tree), groupLoop key adr l =
    (arg1 adr :: (l.takeWhile fun x => decide (Term.compare key (arg0 x) = 0)).map arg1,
      l.dropWhile fun x => decide (Term.compare key (arg0 x) = 0))
  | [], adr => by simp [groupLoop]
  | x :: l, adr => by
    rw [groupLoop]
    by_cases h : Term.compare key (arg0 x) = 0
    · simp only [h, ne_eq, not_true_eq_false, if_false, groupLoop_eq key l x, List.takeWhile_cons, List.dropWhile_cons,
        decide_true, if_true, List.map_cons]
    · simp [h]

theorem takeWhile_of_asc {key : Tree} (C : CmpOk keysortCmp (fun t => Ok (arg0 t))) : ∀ (l : List Tree),
    (∀ x ∈ l, Ok (arg0 x)) → Ok key → Ascending keysortCmp l → (∀ x ∈ l, Term.compare key (arg0 x) ≤ 0) →
    (l.takeWhile fun x => decide (Term.compare key (arg0 x) = 0)) = l.filter (fun x => decide (Term.compare key (arg0 x) = 0)) ∧
    (∀ x ∈ l.dropWhile fun x => decide (Term.compare key (arg0 x) = 0), Term.compare key (arg0 x) < 0)
  | [], _, _, _, _ => ⟨rfl, by simp⟩
  | x :: l, h1, hk, h2, h3 => by
    obtain ⟨i1, i2⟩ := takeWhile_of_asc C l (fun y hy => h1 y (by simp [hy])) hk (List.pairwise_cons.1 h2).2
      (fun y hy => h3 y (by simp [hy]))
    by_cases h : Term.compare key (arg0 x) = 0
    · refine ⟨?_, ?_⟩
      · simp only [List.takeWhile_cons, List.filter_cons, h, decide_true, if_true, i1]
      · simp only [List.dropWhile_cons, h, decide_true, if_true]
        exact i2
    · have hlt : Term.compare key (arg0 x) < 0 := by have := h3 x (by simp); omega
      have hall : ∀ y ∈ l, Term.compare key (arg0 y) < 0 := by
        intro y hy
        have := (List.pairwise_cons.1 h2).1 y hy
        exact C.lt_trans (a := .app minus [key, key]) (b := x) (c := y) hk (h1 x (by simp)) (h1 y (by simp [hy])) hlt this
      refine ⟨?_, ?_⟩
      · simp only [List.takeWhile_cons, List.filter_cons, h, decide_false, Bool.false_eq_true, if_false]
        symm
        rw [List.filter_eq_nil_iff]
        intro y hy
        have := hall y hy
        simp only [decide_eq_true_eq]
        omega
      · simp only [List.dropWhile_cons, h, decide_false, Bool.false_eq_true, if_false]
        intro y hy
        rcases List.mem_cons.1 hy with rfl | hy'
        · exact hlt
        · exact hall y hy'

/-- The groups of an ascending list. -/
structure GroupsOf (l : List Tree) (gs : List (Tree × List Tree)) : Prop where
  asc : gs.Pairwise fun g g' => Term.compare g.1 g'.1 < 0
  key : ∀ g ∈ gs, ∃ x ∈ l, g.1 = arg0 x
  val : ∀ g ∈ gs, g.2 = (l.filter fun x => decide (Term.compare g.1 (arg0 x) = 0)).map arg1
  cov : ∀ x ∈ l, ∃ g ∈ gs, Term.compare g.1 (arg0 x) = 0

theorem groups_spec : ∀ (n : Nat) (l : List Tree), l.length = n → (∀ x ∈ l, Ok (arg0 x)) → Ascending keysortCmp l →
    GroupsOf l (groups l) := by
  intro n
  induction n using Nat.strongRecOn with
  | ind n ih =>
    intro l hn hok hasc
    have C := keysort_cmpOk
    cases l with
    | nil => rw [groups]; exact ⟨.nil, by simp, by simp, by simp⟩
    | cons x l =>
      have hself : Term.compare (arg0 x) (arg0 x) = 0 := by
        have h1 := hok x (by simp)
        exact (compare_spec h1 h1).2.1.2 (ok_same_refl _ h1)
      obtain ⟨ha1, ha2⟩ := List.pairwise_cons.1 hasc
      have hkx : Ok (arg0 x) := hok x (by simp)
      have hokl : ∀ y ∈ l, Ok (arg0 y) := fun y hy => hok y (by simp [hy])
      obtain ⟨t1, t2⟩ := takeWhile_of_asc C l hokl hkx ha2 (fun y hy => ha1 y hy)
      have hsub : ∀ y ∈ l.dropWhile (fun y => decide (Term.compare (arg0 x) (arg0 y) = 0)), y ∈ l :=
        fun y hy => (List.dropWhile_suffix _).subset hy
      have hlen : (l.dropWhile fun y => decide (Term.compare (arg0 x) (arg0 y) = 0)).length ≤ l.length :=
        (List.dropWhile_suffix _).sublist.length_le
      have G := ih (l.dropWhile fun y => decide (Term.compare (arg0 x) (arg0 y) = 0)).length
        (by simp only [List.length_cons] at hn; omega) _ rfl (fun y hy => hokl y (hsub y hy))
        (List.Pairwise.sublist (List.dropWhile_suffix _).sublist ha2)
      rw [groups]
      simp only [groupLoop_eq]
      -- the elements with the key of x are not in the rest
      have hlt : ∀ g ∈ groups (l.dropWhile fun y => decide (Term.compare (arg0 x) (arg0 y) = 0)),
          Term.compare (arg0 x) g.1 < 0 ∧ Ok g.1 := by
        intro g hg
        obtain ⟨y, hy, e⟩ := G.key g hg
        rw [e]
        exact ⟨t2 y hy, hokl y (hsub y hy)⟩
      refine ⟨?_, ?_, ?_, ?_⟩
      · exact List.pairwise_cons.2 ⟨fun g hg => (hlt g hg).1, G.asc⟩
      · intro g hg
        rcases List.mem_cons.1 hg with rfl | hg'
        · exact ⟨x, by simp, rfl⟩
        · obtain ⟨y, hy, e⟩ := G.key g hg'
          exact ⟨y, by simp [hsub y hy], e⟩
      · intro g hg
        rcases List.mem_cons.1 hg with rfl | hg'
        · dsimp only
          simp only [List.filter_cons, hself, decide_true, if_true, List.map_cons]
          rw [t1]
        · rw [G.val g hg']
          congr 1
          obtain ⟨hg1, hg2⟩ := hlt g hg'
          have key : ∀ y, Ok (arg0 y) → Term.compare (arg0 x) (arg0 y) = 0 → Term.compare g.1 (arg0 y) ≠ 0 := by
            intro y hy hxy h0
            have := C.eq_trans (a := x) (b := y) (c := .app minus [g.1, g.1]) hkx hy hg2 hxy
              ((C.eq_symm (a := .app minus [g.1, g.1]) (b := y) hg2 hy).1 h0)
            have h : keysortCmp x (.app minus [g.1, g.1]) = Term.compare (arg0 x) g.1 := rfl
            omega
          conv => rhs; rw [List.filter_cons, if_neg (by simpa using key x hkx hself)]
          conv => rhs; rw [← List.takeWhile_append_dropWhile (p := fun y => decide (Term.compare (arg0 x) (arg0 y) = 0)) (l := l)]
          rw [List.filter_append]
          have : (l.takeWhile fun y => decide (Term.compare (arg0 x) (arg0 y) = 0)).filter
              (fun y => decide (Term.compare g.1 (arg0 y) = 0)) = [] := by
            rw [List.filter_eq_nil_iff]
            intro y hy
            rw [t1, List.mem_filter] at hy
            simp only [decide_eq_true_eq] at hy ⊢
            exact key y (hokl y hy.1) hy.2
          rw [this, List.nil_append]
      · intro y hy
        by_cases h0 : Term.compare (arg0 x) (arg0 y) = 0
        · exact ⟨_, List.mem_cons_self, h0⟩
        · rcases List.mem_cons.1 hy with rfl | hy'
          · exact absurd hself h0
          · have : y ∈ l.dropWhile fun y => decide (Term.compare (arg0 x) (arg0 y) = 0) := by
              rw [← List.takeWhile_append_dropWhile (p := fun y => decide (Term.compare (arg0 x) (arg0 y) = 0)) (l := l)] at hy'
              rcases List.mem_append.1 hy' with h | h
              · rw [t1, List.mem_filter] at h
                exact absurd (by simpa using h.2) h0
              · exact h
            obtain ⟨g, hg, e⟩ := G.cov y this
            exact ⟨g, by simp [hg], e⟩

/-! ## Free variables -/

theorem boundVars_mem {max : Nat} : ∀ (vs l l' : List Nat), boundVars max l vs = some l' →
    ∀ v, v ∈ l' ↔ v ∈ l ∨ v ∈ vs
  | [], l, l', h, v => by simp only [boundVars, Option.some.injEq] at h; subst h; simp
  | w :: vs, l, l', h, v => by
    simp only [boundVars, boundVar] at h
    by_cases hw : w ∈ l
    · simp only [if_pos hw] at h
      rw [boundVars_mem vs l l' h v, List.mem_cons]
      constructor
      · rintro (h | h) <;> simp [h]
      · rintro (h | rfl | h) <;> simp [*]
    · simp only [if_neg hw] at h
      by_cases hm : max ≤ l.length
      · simp [if_pos hm] at h
      · simp only [if_neg hm] at h
        rw [boundVars_mem vs _ l' h v, List.mem_append, List.mem_singleton, List.mem_cons, or_assoc]

theorem free_fold (bound : List Nat) : ∀ (vs l : List Nat),
    vs.foldl (freeVar bound) l = firsts l (vs.filter fun v => decide (v ∉ bound))
  | [], l => by simp [firsts]
  | v :: vs, l => by
    rw [List.foldl_cons, free_fold bound vs, freeVar]
    by_cases hb : v ∈ bound
    · simp [hb]
    · by_cases hl : v ∈ l <;> simp [hb, hl, firsts]

end Gp.AllSol
