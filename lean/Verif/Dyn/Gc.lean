import Verif.Dyn.Core
/-
The invariant of a state and the reclamation of the clauses.
-/
namespace Gp.Dyn

/-- The chain of the erased clauses. -/
def EChain (f : Nat → Option Data) : EP → List Nat → Prop
  | .null, [] => True
  | .cl c, c' :: es => c = c' ∧ ∃ X, f c = some X ∧ X.nextErased.mark = false ∧ EChain f X.nextErased.p es
  | _, _ => False

/-- What is to be erased in a predicate: all its clauses or those which are erased. -/
def EOk (f : Nat → Option Data) (p : EP) (l : List Nat) : Prop :=
  p = .all ∨ ∃ es, es ≠ [] ∧ EChain f p es ∧ es.Nodup ∧ ∀ c, c ∈ es ↔ c ∈ l ∧ (stampOf f c).isSome

theorem EChain.congr {f g : Nat → Option Data} : ∀ {es : List Nat} {p : EP}, EChain f p es → (∀ c ∈ es, g c = f c) → EChain g p es
  | [], .null, _, _ => trivial
  | c' :: es, .cl c, h, hg => by
    obtain ⟨rfl, X, h1, h2, h3⟩ := h
    exact ⟨rfl, X, (hg c (by simp)).trans h1, h2, h3.congr (fun x hx => hg x (by simp [hx]))⟩
  | [], .cl _, h, _ => h.elim
  | [], .all, h, _ => h.elim
  | _ :: _, .null, h, _ => h.elim
  | _ :: _, .all, h, _ => h.elim

theorem EOk.congr {f g : Nat → Option Data} {p : EP} {l : List Nat} (h : EOk f p l) (hg : ∀ c ∈ l, g c = f c) : EOk g p l := by
  rcases h with h | ⟨es, h1, h2, h3, h4⟩
  · exact Or.inl h
  · refine Or.inr ⟨es, h1, h2.congr (fun c hc => hg c ((h4 c).1 hc).1), h3, fun c => ?_⟩
    rw [h4]
    constructor
    · rintro ⟨h5, h6⟩; refine ⟨h5, ?_⟩; simpa [stampOf, hg c h5] using h6
    · rintro ⟨h5, h6⟩; refine ⟨h5, ?_⟩; simpa [stampOf, hg c h5] using h6

theorem EOk.ne_null {f p l} (h : EOk f p l) : p ≠ .null := by
  rcases h with rfl | ⟨es, h1, h2, _⟩
  · simp
  · rintro rfl
    cases es with
    | nil => exact h1 rfl
    | cons => exact h2

/-- Freeing the erased clauses. -/
theorem freeErased_core (d : Nat) : ∀ (es : List Nat) (fuel : Nat) (s : St) (full : Nat → List Nat) (D : Dyn) (ep : EPtr),
    Core s full → s.dyn d = some D → EChain (dt s.cl) ep.p es → ep.mark = false → es.Nodup → (∀ c ∈ es, c ∈ full d) →
    es.length ≤ fuel →
    ∃ s' D', freeErased s fuel ep = some s' ∧ Core s' (updFull full d ((full d).filter (fun x => decide (x ∉ es))))
      ∧ s' = { s with cl := s'.cl, dyn := s'.dyn, nb := s'.nb }
      ∧ s'.dyn = (fun e => if e = d then some D' else s.dyn e)
      ∧ (D'.stamp = D.stamp ∧ D'.countA = D.countA ∧ D'.countZ = D.countZ)
      ∧ dt s'.cl = fun b => if b ∈ es then none else dt s.cl b := by
  intro es
  induction es with
  | nil =>
    intro fuel s full D ep H hD he hm _ _ _
    obtain ⟨p, mk⟩ := ep
    simp only at hm he
    subst hm
    cases p with
    | null =>
      refine ⟨s, D, ?_, ?_, rfl, ?_, ⟨rfl, rfl, rfl⟩, ?_⟩
      · cases fuel <;> rfl
      · have : updFull full d ((full d).filter (fun x => decide (x ∉ ([] : List Nat)))) = full := by
          funext e
          simp only [updFull]
          split
          · rename_i h; subst h; simp
          · rfl
        rw [this]; exact H
      · funext e; split
        · rename_i h; subst h; exact hD
        · rfl
      · funext b; simp
    | all => exact he.elim
    | cl c => exact he.elim
  | cons c es ih =>
    intro fuel s full D ep H hD he hm hnd hsub hf
    obtain ⟨p, mk⟩ := ep
    simp only at hm he
    subst hm
    cases p with
    | null => exact he.elim
    | all => exact he.elim
    | cl c' =>
      obtain ⟨rfl, X, hX, hmk, hch⟩ := he
      cases fuel with
      | zero => simp at hf
      | succ fuel =>
        have hcd := hsub c' (by simp)
        have hdX : X.dyn = d := by
          obtain ⟨_, Y, _, h1, h2, _⟩ := H.clause hcd
          rw [hX] at h1; cases h1; exact h2
        subst hdX
        obtain ⟨C, hC, hCX⟩ := dt_some hX
        obtain ⟨s1, D1, a1, a2, a3, a4, a5, a6⟩ := unlinkFree_core H hX hD
        have hn := List.nodup_cons.1 hnd
        have hDe : s1.dyn X.dyn = some D1 := by rw [a4]; simp
        obtain ⟨s2, D2, b1, b2, b3, b4, b5, b6⟩ := ih fuel s1 _ D1 X.nextErased a2 hDe
          (hch.congr (fun x hx => by
            rw [a6]
            have : x ≠ c' := by rintro rfl; exact hn.1 hx
            simp [this])) hmk hn.2
          (fun x hx => by
            simp only [updFull, if_true, List.mem_filter, decide_eq_true_eq]
            exact ⟨hsub x (by simp [hx]), by rintro rfl; exact hn.1 hx⟩) (by simpa using hf)
        refine ⟨s2, D2, ?_, ?_, ?_, ?_, ⟨b5.1.trans a5.2.1, b5.2.1.trans a5.2.2.1, b5.2.2.trans a5.2.2.2⟩, ?_⟩
        · simp only [freeErased, hC, a1]
          rw [← b1, ← hCX]; rfl
        · have : updFull (updFull full X.dyn ((full X.dyn).filter (fun x => decide (x ≠ c')))) X.dyn
              ((updFull full X.dyn ((full X.dyn).filter (fun x => decide (x ≠ c'))) X.dyn).filter (fun x => decide (x ∉ es)))
              = updFull full X.dyn ((full X.dyn).filter (fun x => decide (x ∉ c' :: es))) := by
            funext e
            simp only [updFull, if_true]
            split
            · rw [List.filter_filter]
              refine List.filter_congr (fun x _ => ?_)
              by_cases h1 : x = c' <;> by_cases h2 : x ∈ es <;> simp [h1, h2]
            · rfl
          rw [← this]; exact b2
        · rw [b3, a3]
        · rw [b4, a4]
          funext e
          by_cases h : e = X.dyn
          · simp only [if_pos h]
          · simp only [if_neg h]
        · rw [b6, a6]
          funext b
          by_cases h1 : b = c' <;> by_cases h2 : b ∈ es <;> simp [h1, h2]

/-- What the cleaning of a predicate of `first_dyn_with_erase` gives. -/
def Cleaned (f : Nat → Option Data) (D : Dyn) (l : List Nat) (E : Option Dyn) (l' : List Nat) : Prop :=
  (D.erased.mark = true ∧ E = some { D with erased := { D.erased with mark := false } } ∧ l' = l) ∨
  (D.erased.mark = false ∧ D.erased.p = .all ∧ E = none ∧ l' = []) ∨
  (D.erased.mark = false ∧ D.erased.p ≠ .all ∧ l' = l.filter (fun c => decide (stampOf f c = none)) ∧
    ∃ D', E = some D' ∧ D'.erased = ENULL ∧ D'.stamp = D.stamp)

theorem setDyn_core {s : St} {full : Nat → List Nat} (H : Core s full) {d : Nat} {D D' : Dyn} (hD : s.dyn d = some D)
    (e1 : D'.seq = D.seq) (e2 : D'.var = D.var) (e3 : D'.lst = D.lst) (e4 : D'.tbl = D.tbl) (e5 : D'.countA = D.countA)
    (e6 : D'.countZ = D.countZ) (e7 : D.stamp ≤ D'.stamp) : Core (s.setDyn d (some D')) full := by
  refine ⟨?_, ?_, H.mem, ?_⟩
  · intro e E he
    simp only [St.setDyn] at he
    by_cases hed : e = d
    · subst hed
      simp only [if_true, Option.some.injEq] at he
      subst he
      exact (H.dyn e D hD).congr (fun _ _ => rfl) (fun _ _ => rfl) (fun _ _ => rfl) e1 e2 e3 e4 e5 e6 e7
    · simp only [if_neg hed] at he
      exact H.dyn e E he
  · intro e he
    simp only [St.setDyn] at he
    by_cases hed : e = d
    · simp [hed] at he
    · simp only [if_neg hed] at he
      exact H.dead e he
  · intro e E he
    simp only [St.setDyn] at he
    by_cases hed : e = d
    · rw [hed]; exact H.fresh d D hD
    · simp only [if_neg hed] at he
      exact H.fresh e E he

/-- The cleaning of a predicate which is not marked. -/
theorem cleanDyn_core {s : St} {full : Nat → List Nat} (H : Core s full) {d : Nat} {D : Dyn} (hD : s.dyn d = some D)
    (hm : D.erased.mark = false) (he : EOk (dt s.cl) D.erased.p (full d)) :
    ∃ s' l', cleanDyn s d D = some s' ∧ Core s' (updFull full d l')
      ∧ s' = { s with cl := s'.cl, dyn := s'.dyn, nb := s'.nb }
      ∧ (∀ e, e ≠ d → s'.dyn e = s.dyn e)
      ∧ Cleaned (dt s.cl) D (full d) (s'.dyn d) l'
      ∧ (∀ c, c ∉ full d ∨ c ∈ l' → dt s'.cl c = dt s.cl c) := by
  have hok := H.dyn d D hD
  unfold cleanDyn
  by_cases hall : D.erased.p = .all
  · rw [if_pos hall]
    have hw := walk_chain s.cl (full d) none s.next (H.length d) hok.seq.2.2
    rw [hok.seq.1, hw]
    simp only []
    have hdt : ∀ y, dt (fun c => if c ∈ full d then none else s.cl c) y = if y ∈ full d then none else dt s.cl y := by
      intro y; by_cases hy : y ∈ full d <;> simp [dt, hy]
    have hce : ∀ q y, y ∉ full d → ce (fun c => if c ∈ full d then none else s.cl c) q y = ce s.cl q y := by
      intro q y hy; simp [ce, hy]
    refine ⟨_, [], rfl, ?_, rfl, ?_, ?_, ?_⟩
    · refine ⟨?_, ?_, ?_, ?_⟩
      · intro e E hE
        simp only [St.setDyn] at hE
        by_cases hed : e = d
        · simp [hed] at hE
        · simp only [if_neg hed] at hE
          simp only [updFull, if_neg hed]
          have hne : ∀ y ∈ full e, y ∉ full d := fun y hy hy2 => hed (H.disj hy hy2)
          refine (H.dyn e E hE).congr ?_ ?_ ?_ rfl rfl rfl rfl rfl rfl (Nat.le_refl _)
          · intro y hy; simp only [hdt, if_neg (hne y hy)]
          · intro y hy; exact hce true y (hne y hy)
          · intro y hy; exact hce false y (hne y hy)
      · intro e hE
        simp only [St.setDyn] at hE
        by_cases hed : e = d
        · simp [updFull, hed]
        · simp only [if_neg hed] at hE
          simp only [updFull, if_neg hed]
          exact H.dead e hE
      · intro c X hX
        simp only [hdt] at hX
        by_cases hc : c ∈ full d
        · simp [hc] at hX
        · simp only [if_neg hc] at hX
          have := H.mem c X hX
          refine ⟨?_, this.2⟩
          simp only [updFull]
          split
          · rename_i h; rw [h] at this; exact absurd this.1 hc
          · exact this.1
      · intro e E hE
        simp only [St.setDyn] at hE
        by_cases hed : e = d
        · simp [hed] at hE
        · simp only [if_neg hed] at hE
          exact H.fresh e E hE
    · intro e hed; simp [St.setDyn, hed]
    · right; left; exact ⟨hm, hall, by simp [St.setDyn], rfl⟩
    · intro c hc
      simp only [List.not_mem_nil, or_false] at hc
      simp only [hdt, if_neg hc]
  · rw [if_neg hall]
    rcases he with he | ⟨es, h1, h2, h3, h4⟩
    · exact absurd he hall
    · obtain ⟨s1, D1, a1, a2, a3, a4, a5, a6⟩ := freeErased_core d es s.next s full D D.erased H hD h2 hm h3
        (fun c hc => ((h4 c).1 hc).1)
        (length_le_of_lt _ _ h3 (fun x hx => by
          obtain ⟨_, X, _, z, _⟩ := H.clause ((h4 x).1 hx).1
          exact (H.mem x X z).2))
      have hD1 : s1.dyn d = some D1 := by rw [a4]; simp
      simp only [a1, hD1]
      have hl : (full d).filter (fun x => decide (x ∉ es)) = (full d).filter (fun c => decide (stampOf (dt s.cl) c = none)) := by
        refine List.filter_congr (fun x hx => ?_)
        have := h4 x
        by_cases hxe : x ∈ es
        · obtain ⟨_, z⟩ := this.1 hxe
          have : stampOf (dt s.cl) x ≠ none := fun z' => by rw [z'] at z; simp at z
          simp [hxe, this]
        · have : stampOf (dt s.cl) x = none := by
            cases hs : stampOf (dt s.cl) x with
            | none => rfl
            | some e => exact absurd (this.2 ⟨hx, by simp [hs]⟩) hxe
          simp [hxe, this]
      have hok1 := a2.dyn d D1 hD1
      simp only [updFull, if_true] at hok1
      have hreset : Core (s1.setDyn d (some (resetDyn D1))) (updFull full d ((full d).filter (fun x => decide (x ∉ es)))) := by
        unfold resetDyn
        by_cases hf : D1.seq.first = none
        · rw [if_pos hf]
          have hnil : (full d).filter (fun x => decide (x ∉ es)) = [] := by
            have := hok1.seq.1
            rw [hf] at this
            cases hh : (full d).filter (fun x => decide (x ∉ es)) with
            | nil => rfl
            | cons => rw [hh] at this; simp at this
          rw [hnil] at hok1 a2 ⊢
          refine ⟨?_, ?_, a2.mem, ?_⟩
          · intro e E hE
            simp only [St.setDyn] at hE
            by_cases hed : e = d
            · subst hed
              simp only [if_true, Option.some.injEq] at hE
              subst hE
              simp only [updFull, if_true]
              refine ⟨by simp, by simp, by simp, hok1.seq, ?_⟩
              intro i hi
              have h0 := hok1.ind i hi
              cases i with
              | no => exact absurd rfl hi
              | var => exact h0
              | lst => exact h0
              | key k => simp [hdr, withIdx, Chain, Seg]
            · simp only [if_neg hed] at hE
              exact a2.dyn e E hE
          · intro e hE
            simp only [St.setDyn] at hE
            by_cases hed : e = d
            · simp [hed] at hE
            · simp only [if_neg hed] at hE
              exact a2.dead e hE
          · intro e E hE
            simp only [St.setDyn] at hE
            by_cases hed : e = d
            · rw [hed]; exact a2.fresh d D1 hD1
            · simp only [if_neg hed] at hE
              exact a2.fresh e E hE
        · rw [if_neg hf]
          exact setDyn_core a2 hD1 rfl rfl rfl rfl rfl rfl (Nat.le_refl _)
      refine ⟨_, _, rfl, hreset, ?_, ?_, ?_, ?_⟩
      · rw [a3]; simp only [St.setDyn]
      · intro e hed
        simp only [St.setDyn, if_neg hed, a4]
      · right; right
        refine ⟨hm, hall, hl, resetDyn D1, by simp [St.setDyn], ?_, ?_⟩
        · unfold resetDyn; split <;> rfl
        · unfold resetDyn; split <;> exact a5.1
      · intro c hc
        simp only [St.setDyn, a6]
        have : c ∉ es := by
          rcases hc with hc | hc
          · exact fun h => hc ((h4 c).1 h).1
          · simp only [List.mem_filter, decide_eq_true_eq] at hc; exact hc.2
        simp [this]

/-- The loop of `GC_Clause`. -/
theorem cleanAll_core : ∀ (todo kept : List Nat) (s : St) (full : Nat → List Nat), Core s full → todo.Nodup →
    (∀ d ∈ todo, ∃ D, s.dyn d = some D ∧ EOk (dt s.cl) D.erased.p (full d)) →
    ∃ s' full', cleanAll s todo kept = some s' ∧ Core s' full'
      ∧ s' = { s with cl := s'.cl, dyn := s'.dyn, nb := s'.nb, withErase := s'.withErase }
      ∧ (∀ d, d ∈ s'.withErase ↔ d ∈ kept ∨ (d ∈ todo ∧ ∃ D, s.dyn d = some D ∧ D.erased.mark = true))
      ∧ ((kept ++ todo).Nodup → s'.withErase.Nodup)
      ∧ (∀ d, d ∉ todo → s'.dyn d = s.dyn d ∧ full' d = full d)
      ∧ (∀ d ∈ todo, ∀ D, s.dyn d = some D → Cleaned (dt s.cl) D (full d) (s'.dyn d) (full' d))
      ∧ (∀ d, ∀ c ∈ full' d, dt s'.cl c = dt s.cl c) := by
  intro todo
  induction todo with
  | nil =>
    intro kept s full H _ _
    refine ⟨{ s with withErase := kept.reverse }, full, rfl, ⟨H.dyn, H.dead, H.mem, H.fresh⟩, rfl, by simp, ?_, fun _ _ => ⟨rfl, rfl⟩, by simp,
      fun _ _ _ => rfl⟩
    intro h; exact (List.reverse_perm kept).nodup_iff.2 (by simpa using h)
  | cons d todo ih =>
    intro kept s full H hn he
    obtain ⟨D, hD, hE⟩ := he d (by simp)
    have hn' := List.nodup_cons.1 hn
    unfold cleanAll
    rw [hD]
    simp only []
    by_cases hm : D.erased.mark = true
    · rw [if_pos hm]
      have H1 : Core (s.setDyn d (some { D with erased := { D.erased with mark := false } })) full :=
        setDyn_core H hD rfl rfl rfl rfl rfl rfl (Nat.le_refl _)
      obtain ⟨s', full', b1, b2, b3, b4, b5, b6, b7, b8⟩ := ih (d :: kept) _ full H1 hn'.2 (by
        intro e hee
        have hed : e ≠ d := by rintro rfl; exact hn'.1 hee
        obtain ⟨E, h1, h2⟩ := he e (by simp [hee])
        exact ⟨E, by simp [St.setDyn, hed, h1], h2⟩)
      refine ⟨s', full', b1, b2, ?_, ?_, ?_, ?_, ?_, b8⟩
      · rw [b3]; simp only [St.setDyn]
      · intro e
        rw [b4]
        by_cases hed : e = d
        · subst hed
          simp [hD, hm]
        · simp [St.setDyn, hed]
      · intro h
        refine b5 ?_
        simp only [List.nodup_append, List.cons_append, List.nodup_cons, List.mem_cons, List.mem_append] at h ⊢
        grind
      · intro e hee
        simp only [List.mem_cons, not_or] at hee
        obtain ⟨h1, h2⟩ := b6 e hee.2
        refine ⟨?_, h2⟩
        rw [h1]; simp [St.setDyn, hee.1]
      · intro e hee E hEE
        rcases List.mem_cons.1 hee with rfl | hee2
        · rw [hD] at hEE; cases hEE
          obtain ⟨h1, h2⟩ := b6 e hn'.1
          left
          refine ⟨hm, ?_, h2⟩
          rw [h1]; simp [St.setDyn]
        · have hed : e ≠ d := by rintro rfl; exact hn'.1 hee2
          exact b7 e hee2 E (by simp [St.setDyn, hed, hEE])
    · rw [if_neg hm]
      have hm : D.erased.mark = false := by simpa using hm
      obtain ⟨s1, l1, a1, a2, a3, a4, a5, a6⟩ := cleanDyn_core H hD hm hE
      simp only [a1]
      obtain ⟨s', full', b1, b2, b3, b4, b5, b6, b7, b8⟩ := ih kept s1 _ a2 hn'.2 (by
        intro e hee
        have hed : e ≠ d := by rintro rfl; exact hn'.1 hee
        obtain ⟨E, h1, h2⟩ := he e (by simp [hee])
        refine ⟨E, (a4 e hed).trans h1, ?_⟩
        simp only [updFull, if_neg hed]
        refine h2.congr (fun c hc => a6 c (Or.inl (fun hc2 => hed (H.disj hc hc2)))))
      refine ⟨s', full', b1, b2, ?_, ?_, ?_, ?_, ?_, ?_⟩
      · rw [b3, a3]
      · intro e
        rw [b4]
        by_cases hed : e = d
        · subst hed
          simp [hD, hm, hn'.1]
        · simp [hed, a4 e hed]
      · intro h
        refine b5 ?_
        simp only [List.nodup_append, List.nodup_cons, List.mem_cons] at h ⊢
        grind
      · intro e hee
        simp only [List.mem_cons, not_or] at hee
        obtain ⟨h1, h2⟩ := b6 e hee.2
        refine ⟨h1.trans (a4 e hee.1), ?_⟩
        rw [h2]; simp [updFull, hee.1]
      · intro e hee E hEE
        rcases List.mem_cons.1 hee with rfl | hee2
        · rw [hD] at hEE; cases hEE
          obtain ⟨h1, h2⟩ := b6 e hn'.1
          rw [h1, h2]
          simp only [updFull, if_true]
          exact a5
        · have hed : e ≠ d := by rintro rfl; exact hn'.1 hee2
          have := b7 e hee2 E ((a4 e hed).trans hEE)
          simp only [updFull, if_neg hed] at this
          -- the stamps of the clauses of e are the same
          have hst : ∀ c ∈ full e, dt s1.cl c = dt s.cl c :=
            fun c hc => a6 c (Or.inl (fun hc2 => hed (H.disj hc hc2)))
          rcases this with h | h | ⟨h1, h2, h3, h4⟩
          · exact Or.inl h
          · exact Or.inr (Or.inl h)
          · refine Or.inr (Or.inr ⟨h1, h2, ?_, h4⟩)
            rw [h3]
            refine List.filter_congr (fun c hc => ?_)
            have : stampOf (dt s1.cl) c = stampOf (dt s.cl) c := by simp only [stampOf, hst c hc]
            rw [this]
      · intro e c hc
        rw [b8 e c hc]
        refine a6 c ?_
        -- c is still allocated in s1
        have hce : c ∈ full' e := hc
        by_cases hed : c ∈ full d
        · right
          obtain ⟨_, X, _, z1, z2, _⟩ := b2.clause hce
          have z3 := b8 e c hc
          rw [z1] at z3
          have z4 := (a2.mem c X z3.symm).1
          have : X.dyn = d := by
            apply Classical.byContradiction
            intro hne
            simp only [updFull, if_neg hne] at z4
            exact hne (H.disj z4 hed)
          rw [this] at z4
          simpa [updFull] using z4
        · exact Or.inl hed

/-! Marks -/

def markBy (b : Bool) (D : Dyn) : Dyn := { D with erased := ⟨D.erased.p, D.erased.mark || b⟩ }

/-- The state where some predicates are marked. -/
def marked (s : St) (mk : Nat → Bool) : St := { s with dyn := fun d => (s.dyn d).map (markBy (mk d)) }

theorem markDyn_marked {s : St} {mk : Nat → Bool} {d : Nat} {D : Dyn} (hD : s.dyn d = some D) :
    markDyn (marked s mk) d (markBy (mk d) D) = marked s (fun e => mk e || decide (e = d)) := by
  simp only [markDyn, marked, St.setDyn]
  congr 1
  funext e
  by_cases hed : e = d
  · subst hed; simp [hD, markBy]
  · rw [if_neg hed]; simp only [hed, decide_false, Bool.or_false]

theorem markScans_spec (s : St) : ∀ (l : List Scan) (mk : Nat → Bool), (∀ sc ∈ l, ∃ D, s.dyn sc.dyn = some D) →
    ∃ mk', markScans (marked s mk) l = some (marked s mk')
      ∧ (∀ d, mk d = true → mk' d = true)
      ∧ (∀ d, mk' d = true → mk d = true ∨ ((∃ sc ∈ l, sc.dyn = d) ∧ ∃ D, s.dyn d = some D ∧ D.erased ≠ ENULL))
      ∧ (∀ sc ∈ l, ∀ D, s.dyn sc.dyn = some D → D.erased ≠ ENULL → mk' sc.dyn = true)
  | [], mk, _ => ⟨mk, rfl, fun _ h => h, fun _ h => Or.inl h, by simp⟩
  | sc :: l, mk, h => by
    obtain ⟨D, hD⟩ := h sc (by simp)
    have hl : ∀ sc ∈ l, ∃ D, s.dyn sc.dyn = some D := fun x hx => h x (by simp [hx])
    have hm : (marked s mk).dyn sc.dyn = some (markBy (mk sc.dyn) D) := by simp [marked, hD]
    unfold markScans
    rw [hm]
    simp only []
    by_cases he : (markBy (mk sc.dyn) D).erased = ENULL
    · rw [if_pos he]
      obtain ⟨mk', a1, a2, a3, a4⟩ := markScans_spec s l mk hl
      refine ⟨mk', a1, a2, ?_, ?_⟩
      · intro d hd
        rcases a3 d hd with h | ⟨⟨x, hx, hx2⟩, h⟩
        · exact Or.inl h
        · exact Or.inr ⟨⟨x, by simp [hx], hx2⟩, h⟩
      · intro x hx E hE hne
        rcases List.mem_cons.1 hx with rfl | hx
        · rw [hD] at hE; cases hE
          exfalso; apply hne
          simp only [markBy, EPtr.mk.injEq, Bool.or_eq_false_iff] at he
          cases hEe : D.erased; simp_all
        · exact a4 x hx E hE hne
    · rw [if_neg he, markDyn_marked hD]
      obtain ⟨mk', a1, a2, a3, a4⟩ := markScans_spec s l (fun e => mk e || decide (e = sc.dyn)) hl
      refine ⟨mk', a1, ?_, ?_, ?_⟩
      · intro d hd; exact a2 d (by simp [hd])
      · intro d hd
        rcases a3 d hd with h | ⟨⟨x, hx, hx2⟩, h⟩
        · simp only [Bool.or_eq_true, decide_eq_true_eq] at h
          rcases h with h | rfl
          · exact Or.inl h
          · by_cases hmk : mk sc.dyn = true
            · exact Or.inl hmk
            · refine Or.inr ⟨⟨sc, by simp, rfl⟩, D, hD, ?_⟩
              intro hEN
              apply he
              simp [markBy, hEN, hmk]
        · exact Or.inr ⟨⟨x, by simp [hx], hx2⟩, h⟩
      · intro x hx E hE hne
        rcases List.mem_cons.1 hx with rfl | hx
        · exact a2 _ (by simp)
        · exact a4 x hx E hE hne

theorem markEnvs_spec (s : St) : ∀ (l : List Nat) (mk : Nat → Bool),
    (∀ c ∈ l, ∃ X D, dt s.cl c = some X ∧ s.dyn X.dyn = some D) →
    ∃ mk', markEnvs (marked s mk) l = some (marked s mk')
      ∧ (∀ d, mk d = true → mk' d = true)
      ∧ (∀ d, mk' d = true → mk d = true ∨ ∃ c ∈ l, ∃ X, dt s.cl c = some X ∧ X.dyn = d)
      ∧ (∀ c ∈ l, ∀ X, dt s.cl c = some X → mk' X.dyn = true)
  | [], mk, _ => ⟨mk, rfl, fun _ h => h, fun _ h => Or.inl h, by simp⟩
  | c :: l, mk, h => by
    obtain ⟨X, D, hX, hD⟩ := h c (by simp)
    obtain ⟨C, hC, hCX⟩ := dt_some hX
    have hdyn : C.dyn = X.dyn := by rw [← hCX]; rfl
    have hl : ∀ c ∈ l, ∃ X D, dt s.cl c = some X ∧ s.dyn X.dyn = some D := fun x hx => h x (by simp [hx])
    have hm : (marked s mk).dyn C.dyn = some (markBy (mk X.dyn) D) := by simp [marked, hD, hdyn]
    have hc : (marked s mk).cl c = some C := hC
    unfold markEnvs
    rw [hc]
    simp only [hm]
    rw [hdyn, markDyn_marked hD]
    obtain ⟨mk', a1, a2, a3, a4⟩ := markEnvs_spec s l (fun e => mk e || decide (e = X.dyn)) hl
    refine ⟨mk', a1, ?_, ?_, ?_⟩
    · intro d hd; exact a2 d (by simp [hd])
    · intro d hd
      rcases a3 d hd with h | ⟨x, hx, hx2⟩
      · simp only [Bool.or_eq_true, decide_eq_true_eq] at h
        rcases h with h | rfl
        · exact Or.inl h
        · exact Or.inr ⟨c, by simp, X, hX, rfl⟩
      · exact Or.inr ⟨x, by simp [hx], hx2⟩
    · intro x hx Y hY
      rcases List.mem_cons.1 hx with rfl | hx
      · rw [hX] at hY; cases hY; exact a2 _ (by simp)
      · exact a4 x hx Y hY

/-! The invariant of a state -/

/-- The invariant of a state. `nl`: no byte-code environment was ever made. -/
structure Inv (nl : Prop) (s : St) (full : Nat → List Nat) : Prop where
  core : Core s full
  weNodup : s.withErase.Nodup
  we : ∀ d ∈ s.withErase, ∃ D, s.dyn d = some D ∧ D.erased.mark = false ∧ EOk (dt s.cl) D.erased.p (full d)
  clean : ∀ d D, s.dyn d = some D → d ∉ s.withErase → D.erased = ENULL → ∀ c ∈ full d, stampOf (dt s.cl) c = none
  pred : ∀ p d, s.pred p = some d → ∃ D, s.dyn d = some D ∧ D.erased.p ≠ .all
  inj : ∀ p q d, s.pred p = some d → s.pred q = some d → p = q
  det : ∀ d D, s.dyn d = some D → D.erased.p ≠ .all → ∃ p, s.pred p = some d
  env : ∀ c ∈ s.envs, ∃ X, dt s.cl c = some X
  scan : ∀ sc ∈ s.scans, ∃ D, s.dyn sc.dyn = some D
  leak : nl → s.envs = [] ∧ ∀ d D, s.dyn d = some D → D.erased ≠ ENULL → d ∈ s.withErase

/-- A predicate used by a choice point or by an environment. -/
def Used (s : St) (d : Nat) : Prop := (∃ sc ∈ s.scans, sc.dyn = d) ∨ ∃ c ∈ s.envs, ∃ X, dt s.cl c = some X ∧ X.dyn = d

/-- What `GC_Clause` keeps. -/
structure GcRel (s : St) (full : Nat → List Nat) (s' : St) (full' : Nat → List Nat) : Prop where
  eq : s' = { s with cl := s'.cl, dyn := s'.dyn, nb := s'.nb, withErase := s'.withErase, longest := s'.longest }
  data : ∀ d, ∀ c ∈ full' d, dt s'.cl c = dt s.cl c
  used : ∀ d, Used s d → full' d = full d ∧ ∀ D, s.dyn d = some D → ∃ D', s'.dyn d = some D' ∧ D'.countZ = D.countZ
    ∧ D'.stamp = D.stamp
  att : ∀ p d, s.pred p = some d → ∀ D, s.dyn d = some D → ∃ D', s'.dyn d = some D' ∧ D'.stamp = D.stamp
    ∧ (full' d).filter (fun c => decide (stampOf (dt s.cl) c = none))
        = (full d).filter (fun c => decide (stampOf (dt s.cl) c = none))

theorem marked_core {s full} (H : Core s full) (mk : Nat → Bool) : Core (marked s mk) full := by
  refine ⟨?_, ?_, H.mem, ?_⟩
  · intro d D hD
    simp only [marked, Option.map_eq_some_iff] at hD
    obtain ⟨E, h1, rfl⟩ := hD
    exact (H.dyn d E h1).congr (fun _ _ => rfl) (fun _ _ => rfl) (fun _ _ => rfl) rfl rfl rfl rfl rfl rfl (Nat.le_refl _)
  · intro d hd
    simp only [marked, Option.map_eq_none_iff] at hd
    exact H.dead d hd
  · intro d D hD
    simp only [marked, Option.map_eq_some_iff] at hD
    obtain ⟨E, h1, rfl⟩ := hD
    exact H.fresh d E h1

/-- `GC_Clause` keeps the invariant, the clauses of the predicates in use and the clauses which are not erased. After it, the
erased clauses of the predicates which are not in use are freed. -/
theorem gcRun_spec {nl : Prop} {s : St} {full : Nat → List Nat} (H : Inv nl s full) :
    ∃ s' full', gcRun s = some s' ∧ Inv nl s' full' ∧ GcRel s full s' full' ∧ s'.longest = 0
      ∧ ∀ d ∈ s'.withErase, Used s d := by
  have hid : marked s (fun _ => false) = s := by
    unfold marked
    have : (fun d => (s.dyn d).map (markBy false)) = s.dyn := by
      funext d; cases s.dyn d <;> simp [markBy]
    rw [this]
  obtain ⟨mk1, a1, a2, a3, a4⟩ := markScans_spec s s.scans (fun _ => false) H.scan
  rw [hid] at a1
  obtain ⟨mk, b1, b2, b3, b4⟩ := markEnvs_spec s s.envs mk1 (fun c hc => by
    obtain ⟨X, hX⟩ := H.env c hc
    obtain ⟨D, hD⟩ := H.core.dynOf hX
    exact ⟨X, D, hX, hD⟩)
  have hmU : ∀ d, mk d = true → Used s d := by
    intro d hd
    rcases b3 d hd with h | h
    · rcases a3 d h with h | h
      · simp at h
      · exact Or.inl h.1
    · exact Or.inr h
  have hUm : ∀ d D, Used s d → s.dyn d = some D → D.erased ≠ ENULL → mk d = true := by
    intro d D hU hD hne
    rcases hU with ⟨sc, h1, rfl⟩ | ⟨c, h1, X, h2, rfl⟩
    · exact b2 _ (a4 sc h1 D hD hne)
    · exact b4 c h1 X h2
  have hE : ∀ d ∈ s.withErase, ∃ D, (marked s mk).dyn d = some D ∧ EOk (dt (marked s mk).cl) D.erased.p (full d) := by
    intro d hd
    obtain ⟨D, h1, h2, h3⟩ := H.we d hd
    exact ⟨markBy (mk d) D, by simp [marked, h1], h3⟩
  obtain ⟨s', full', c1, c2, c3, c4, c5, c6, c7, c8⟩ := cleanAll_core s.withErase [] (marked s mk) full (marked_core H.core mk)
    H.weNodup hE
  have hrun : gcRun s = some { s' with longest := 0 } := by
    unfold gcRun
    simp only [a1]
    have e1 : (marked s mk1).envs = s.envs := rfl
    rw [e1, b1]
    simp only []
    have e2 : (marked s mk).withErase = s.withErase := rfl
    rw [e2, c1]
  have c8' : ∀ d, ∀ c ∈ full' d, dt s'.cl c = dt s.cl c := c8
  -- the predicates of the list
  have hin : ∀ d ∈ s.withErase, ∀ D, s.dyn d = some D → D.erased.mark = false →
      (mk d = true ∧ s'.dyn d = some D ∧ full' d = full d ∧ d ∈ s'.withErase) ∨
      (mk d = false ∧ D.erased.p = .all ∧ s'.dyn d = none ∧ full' d = [] ∧ d ∉ s'.withErase) ∨
      (mk d = false ∧ D.erased.p ≠ .all ∧ full' d = (full d).filter (fun c => decide (stampOf (dt s.cl) c = none)) ∧
        d ∉ s'.withErase ∧ ∃ D', s'.dyn d = some D' ∧ D'.erased = ENULL ∧ D'.stamp = D.stamp) := by
    intro d hd D hD hmark
    have h := c7 d hd (markBy (mk d) D) (by simp [marked, hD])
    have hw := c4 d
    simp only [List.not_mem_nil, hd, true_and, false_or] at hw
    have hw' : d ∈ s'.withErase ↔ mk d = true := by
      rw [hw]
      simp [marked, hD, markBy, hmark]
    rcases h with ⟨h1, h2, h3⟩ | ⟨h1, h2, h3, h4⟩ | ⟨h1, h2, h3, h4⟩
    · left
      have hmk : mk d = true := by simpa [markBy, hmark] using h1
      refine ⟨hmk, ?_, h3, hw'.2 hmk⟩
      rw [h2]
      have hex : D.erased = ⟨D.erased.p, false⟩ := by
        cases hx : D.erased; rw [hx] at hmark; simp only at hmark; subst hmark; rfl
      simp only [markBy]
      rw [← hex]
    · right; left
      have hmk : mk d = false := by simpa [markBy, hmark] using h1
      exact ⟨hmk, h2, h3, h4, fun h => by rw [hw', hmk] at h; cases h⟩
    · right; right
      have hmk : mk d = false := by simpa [markBy, hmark] using h1
      exact ⟨hmk, h2, h3, (fun h => by rw [hw', hmk] at h; cases h), h4⟩
  have hout : ∀ d, d ∉ s.withErase → s'.dyn d = (s.dyn d).map (markBy (mk d)) ∧ full' d = full d := by
    intro d hd; exact c6 d hd
  have hwsub : ∀ d, d ∈ s'.withErase → d ∈ s.withErase := by
    intro d hd
    rcases (c4 d).1 hd with h | h
    · simp at h
    · exact h.1
  have hused : ∀ d, Used s d → full' d = full d ∧ ∀ D, s.dyn d = some D → ∃ D', s'.dyn d = some D' ∧ D'.countZ = D.countZ
      ∧ D'.stamp = D.stamp := by
    intro d hU
    by_cases hd : d ∈ s.withErase
    · obtain ⟨D, h1, h2, h3⟩ := H.we d hd
      have hne : D.erased ≠ ENULL := by
        intro h; rw [h] at h3; exact h3.ne_null rfl
      have hmk := hUm d D hU h1 hne
      rcases hin d hd D h1 h2 with ⟨x1, x2, x3, x4⟩ | ⟨x1, _⟩ | ⟨x1, _⟩
      · refine ⟨x3, fun E hE => ?_⟩
        rw [h1] at hE; cases hE
        exact ⟨D, x2, rfl, rfl⟩
      · rw [hmk] at x1; cases x1
      · rw [hmk] at x1; cases x1
    · obtain ⟨h1, h2⟩ := hout d hd
      refine ⟨h2, fun D hD => ⟨markBy (mk d) D, by rw [h1, hD]; rfl, rfl, rfl⟩⟩
  have heq : ({ s' with longest := 0 } : St) = { s with cl := s'.cl, dyn := s'.dyn, nb := s'.nb, withErase := s'.withErase, longest := 0 } := by
    rw [c3]; simp only [marked]
  have hst : ∀ d, ∀ c ∈ full' d, stampOf (dt s'.cl) c = stampOf (dt s.cl) c := by
    intro d c hc; simp only [stampOf, c8' d c hc]
  have hcl' : ∀ c ∈ s.envs, ∃ X, dt s'.cl c = some X := by
    intro c hc
    obtain ⟨X, hX⟩ := H.env c hc
    have h1 := (H.core.mem c X hX).1
    have h2 := (hused X.dyn (Or.inr ⟨c, hc, X, hX, rfl⟩)).1
    exact ⟨X, (c8' X.dyn c (by rw [h2]; exact h1)).trans hX⟩
  rw [hrun]
  have hpr : s'.pred = s.pred := by rw [c3]; rfl
  have hsc : s'.scans = s.scans := by rw [c3]; rfl
  have hev : s'.envs = s.envs := by rw [c3]; rfl
  refine ⟨_, full', rfl, ⟨⟨c2.dyn, c2.dead, c2.mem, c2.fresh⟩, ?_, ?_, ?_, ?_, ?_, ?_, ?_, ?_, ?_⟩, ⟨?_, c8', hused, ?_⟩, rfl, ?_⟩
  · exact c5 (by simpa using H.weNodup)
  · intro d hd
    simp only at hd ⊢
    have hd0 := hwsub d hd
    obtain ⟨D, h1, h2, h3⟩ := H.we d hd0
    rcases hin d hd0 D h1 h2 with ⟨x1, x2, x3, x4⟩ | ⟨_, _, _, _, x5⟩ | ⟨_, _, _, x4, _⟩
    · refine ⟨D, x2, h2, ?_⟩
      rw [x3]
      exact h3.congr (fun c hc => c8' d c (by rw [x3]; exact hc))
    · exact absurd hd x5
    · exact absurd hd x4
  · intro d D hD hnd hEN c hc
    simp only at hD hnd hc ⊢
    by_cases hd : d ∈ s.withErase
    · obtain ⟨D0, h1, h2, h3⟩ := H.we d hd
      rcases hin d hd D0 h1 h2 with ⟨x1, x2, x3, x4⟩ | ⟨_, _, x3, x4, _⟩ | ⟨_, _, x3, _, _⟩
      · exact absurd x4 hnd
      · rw [x4] at hc; simp at hc
      · rw [hst d c hc]
        rw [x3] at hc
        simpa using (List.mem_filter.1 hc).2
    · obtain ⟨h1, h2⟩ := hout d hd
      rw [h1] at hD
      simp only [Option.map_eq_some_iff] at hD
      obtain ⟨D0, hD0, rfl⟩ := hD
      rw [hst d c hc]
      rw [h2] at hc
      refine H.clean d D0 hD0 hd ?_ c hc
      simp only [markBy, EPtr.mk.injEq, Bool.or_eq_false_iff] at hEN
      obtain ⟨n1, n2, _⟩ := hEN
      cases hx : D0.erased
      rw [hx] at n1 n2
      simp only at n1 n2
      rw [n1, n2]
  · intro p d hp
    simp only [hpr] at hp ⊢
    obtain ⟨D, h1, h2⟩ := H.pred p d hp
    by_cases hd : d ∈ s.withErase
    · obtain ⟨D0, h3, h4, _⟩ := H.we d hd
      rw [h1] at h3; cases h3
      rcases hin d hd D h1 h4 with ⟨x1, x2, x3, x4⟩ | ⟨_, x2, _⟩ | ⟨_, _, _, _, D', x5, x6, _⟩
      · exact ⟨D, x2, h2⟩
      · exact absurd x2 h2
      · exact ⟨D', x5, by rw [x6]; simp⟩
    · obtain ⟨h3, _⟩ := hout d hd
      exact ⟨markBy (mk d) D, by rw [h3, h1]; rfl, h2⟩
  · intro p q d
    simp only [hpr]
    exact H.inj p q d
  · intro d D hD hne
    simp only [hpr] at hD ⊢
    by_cases hd : d ∈ s.withErase
    · obtain ⟨D0, h3, h4, _⟩ := H.we d hd
      rcases hin d hd D0 h3 h4 with ⟨x1, x2, x3, x4⟩ | ⟨_, _, x3, _⟩ | ⟨_, x2, _, _, D', x5, x6, _⟩
      · rw [hD] at x2; cases x2
        exact H.det d D h3 hne
      · rw [hD] at x3; cases x3
      · exact H.det d D0 h3 x2
    · obtain ⟨h3, _⟩ := hout d hd
      rw [h3] at hD
      simp only [Option.map_eq_some_iff] at hD
      obtain ⟨D0, hD0, rfl⟩ := hD
      exact H.det d D0 hD0 hne
  · intro c hc
    simp only [hev] at hc
    exact hcl' c hc
  · intro sc hs
    simp only [hsc] at hs ⊢
    obtain ⟨D, hD⟩ := H.scan sc hs
    obtain ⟨D', h1, _⟩ := (hused sc.dyn (Or.inl ⟨sc, hs, rfl⟩)).2 D hD
    exact ⟨D', h1⟩
  · intro hnl
    obtain ⟨h1, h2⟩ := H.leak hnl
    simp only [hev]
    refine ⟨h1, ?_⟩
    intro d D hD hne
    by_cases hd : d ∈ s.withErase
    · obtain ⟨D0, h3, h4, _⟩ := H.we d hd
      rcases hin d hd D0 h3 h4 with ⟨x1, x2, x3, x4⟩ | ⟨_, _, x3, _⟩ | ⟨_, x2, _, _, D', x5, x6, _⟩
      · exact x4
      · rw [hD] at x3; cases x3
      · rw [hD] at x5; cases x5; exact absurd x6 hne
    · obtain ⟨h3, _⟩ := hout d hd
      rw [h3] at hD
      simp only [Option.map_eq_some_iff] at hD
      obtain ⟨D0, hD0, rfl⟩ := hD
      have h4 : D0.erased = ENULL := by
        apply Classical.byContradiction
        intro h; exact hd (h2 d D0 hD0 h)
      cases hmk : mk d with
      | false => exfalso; apply hne; simp [markBy, hmk, h4]
      | true =>
        rcases b3 d hmk with h | ⟨c, hc, _⟩
        · rcases a3 d h with h | ⟨_, D1, h5, h6⟩
          · simp at h
          · rw [hD0] at h5; cases h5; exact absurd h4 h6
        · rw [h1] at hc; simp at hc
  · exact heq
  · intro p d hp D hD
    obtain ⟨D0, h1, h2⟩ := H.pred p d hp
    rw [hD] at h1; cases h1
    by_cases hd : d ∈ s.withErase
    · obtain ⟨D0, h3, h4, _⟩ := H.we d hd
      rw [hD] at h3; cases h3
      rcases hin d hd D hD h4 with ⟨x1, x2, x3, x4⟩ | ⟨_, x2, _⟩ | ⟨_, _, x3, _, D', x5, x6, x7⟩
      · exact ⟨D, x2, rfl, by rw [x3]⟩
      · exact absurd x2 h2
      · refine ⟨D', x5, x7, ?_⟩
        rw [x3, List.filter_filter]
        exact List.filter_congr (fun _ _ => by simp)
    · obtain ⟨h3, h4⟩ := hout d hd
      exact ⟨markBy (mk d) D, by simp only [h3, hD, Option.map_some], rfl, by rw [h4]⟩
  · intro d hd
    simp only at hd
    obtain ⟨D0, h3, h4, _⟩ := H.we d (hwsub d hd)
    rcases hin d (hwsub d hd) D0 h3 h4 with ⟨x1, x2, x3, x4⟩ | ⟨_, _, _, _, x5⟩ | ⟨_, _, _, x4, _⟩
    · exact hmU d x1
    · exact absurd hd x5
    · exact absurd hd x4

end Gp.Dyn
