import Verif.Mirror.Steps
namespace Gp.Mirror

open Spec

/-! ### The effect of putting a character `n` times, counted `m` times -/

def E (c : Int) (n m : Nat) (p : Stm) : Stm :=
  { p with
    out := p.out ++ List.replicate n (byte c)
    charCount := p.charCount + (if c = -1 then 0 else m)
    lineCount := p.lineCount + (if c = 10 then m else 0)
    linePos := if c = 10 then (if m = 0 then p.linePos else 0) else p.linePos + m }

theorem E_zero (c : Int) (p : Stm) : E c 0 0 p = p := by
  simp only [E, List.replicate_zero, List.append_nil, if_true]
  cases p
  simp

theorem E_comp (c : Int) (n1 m1 n2 m2 : Nat) (p : Stm) : E c n2 m2 (E c n1 m1 p) = E c (n1 + n2) (m1 + m2) p := by
  simp only [E, List.append_assoc, List.replicate_append_replicate, Stm.mk.injEq, true_and]
  refine ⟨by split <;> omega, by split <;> omega, ?_⟩
  by_cases hc : c = 10
  · simp only [hc, if_true]
    by_cases h1 : m1 = 0
    · by_cases h2 : m2 = 0 <;> simp [h1, h2]
    · by_cases h2 : m2 = 0 <;> simp [h1, h2]
  · simp only [hc, if_false]; omega

theorem E_out (c : Int) (p : Stm) : { p with out := p.out ++ [byte c] } = E c 1 0 p := by
  simp [E]

theorem E_count (c : Int) (p : Stm) : count p c = E c 0 1 p := by
  simp only [E, count, List.replicate_zero, List.append_nil]
  by_cases h1 : c = -1
  · subst h1
    simp
  · by_cases h2 : c = 10
    · subst h2; simp
    · simp [h1, h2]

def addE (c : Int) (l l' : List Nat) (s : St) : St :=
  { s with tbl := fun k => (s.tbl k).map (E c (l.count k) (l'.count k)) }

theorem addE_congr {c : Int} {l1 l1' l2 l2' : List Nat} (s : St) (h : ∀ k, l1.count k = l2.count k)
    (h' : ∀ k, l1'.count k = l2'.count k) : addE c l1 l1' s = addE c l2 l2' s := by
  simp only [addE, h, h']

theorem addE_nil (c : Int) (s : St) : addE c [] [] s = s := by
  simp only [addE, List.count_nil]
  have : (fun k => (s.tbl k).map (E c 0 0)) = s.tbl := by
    funext k
    cases s.tbl k with
    | none => rfl
    | some p => rw [Option.map_some, E_zero]
  rw [this]

theorem addE_comp (c : Int) (l1 l1' l2 l2' : List Nat) (s : St) :
    addE c l2 l2' (addE c l1 l1' s) = addE c (l1 ++ l2) (l1' ++ l2') s := by
  simp only [addE, St.mk.injEq, and_true]
  funext k
  rw [Option.map_map, List.count_append, List.count_append]
  congr 1
  funext p
  exact E_comp _ _ _ _ _ _

theorem addE_out {c : Int} {s : St} {i : Nat} {p : Stm} (hp : s.tbl i = some p) :
    { s with tbl := upd s.tbl i (some { p with out := p.out ++ [byte c] }) } = addE c [i] [] s := by
  simp only [addE, St.mk.injEq, and_true]
  funext k
  by_cases hk : k = i
  · rw [hk, upd_same, hp, Option.map_some, E_out]
    simp
  · rw [upd_ne _ _ hk]
    have : [i].count k = 0 := by rw [List.count_eq_zero]; simpa using hk
    rw [this, List.count_nil]
    cases s.tbl k with
    | none => rfl
    | some q => rw [Option.map_some, E_zero]

theorem addE_count {c : Int} {s : St} {i : Nat} {p : Stm} (hp : s.tbl i = some p) :
    { s with tbl := upd s.tbl i (some (count p c)) } = addE c [] [i] s := by
  simp only [addE, St.mk.injEq, and_true]
  funext k
  by_cases hk : k = i
  · rw [hk, upd_same, hp, Option.map_some, E_count]
    simp
  · rw [upd_ne _ _ hk]
    have : [i].count k = 0 := by rw [List.count_eq_zero]; simpa using hk
    rw [this, List.count_nil]
    cases s.tbl k with
    | none => rfl
    | some q => rw [Option.map_some, E_zero]

theorem addE_some {c : Int} {s : St} {l l' : List Nat} {k : Nat} {p : Stm} (h : s.tbl k = some p) :
    (addE c l l' s).tbl k = some (E c (l.count k) (l'.count k) p) := by
  simp only [addE, h, Option.map_some]

theorem addE_none {c : Int} {s : St} {l l' : List Nat} {k : Nat} : (addE c l l' s).tbl k = none ↔ s.tbl k = none := by
  simp only [addE]
  cases s.tbl k <;> simp

theorem mirrors_addE (c : Int) (l l' : List Nat) (s : St) : mirrors (addE c l l' s) = mirrors s := by
  funext k
  simp only [mirrors, addE]
  cases s.tbl k <;> rfl

theorem putAll_sound_of {c : Int} {put : St → Nat → Res}
    (ih : ∀ s s' i, put s i = .ok s' → ∃ l, Visits (mirrors s) i l ∧ s' = addE c l l s) :
    ∀ (l : List Node) (s s' : St), putAll put l s = .ok s' →
      ∃ L, VisitsAll (mirrors s) (l.map (·.stm)) L ∧ s' = addE c L L s := by
  intro l
  induction l with
  | nil => intro s s' h; simp only [putAll, Res.ok.injEq] at h; exact ⟨[], .nil, by rw [addE_nil]; exact h.symm⟩
  | cons n l ihl =>
    intro s s' h
    rw [putAll] at h
    split at h
    · cases h
    · split at h
      · next s1 h1 =>
        obtain ⟨L1, v1, e1⟩ := ih s s1 n.stm h1
        obtain ⟨L2, v2, e2⟩ := ihl s1 s' h
        subst e1
        rw [mirrors_addE] at v2
        exact ⟨L1 ++ L2, .cons v1 v2, by rw [e2, addE_comp]⟩
      · next hne =>
        exact (hne _ h).elim

/-- Putting a character, when it ends. -/
theorem putc_sound : ∀ (f : Nat) (c : Int) (s s' : St) (i : Nat), putc f s i c = .ok s' →
    ∃ l, Visits (mirrors s) i l ∧ s' = addE c l l s := by
  intro f c
  induction f with
  | zero => intro s s' i h; simp [putc] at h
  | succ f ih =>
    have all := putAll_sound_of (c := c) (put := fun s j => putc f s j c) ih
    intro s s' i h
    rw [putc] at h
    cases hp : s.tbl i with
    | none => rw [hp] at h; cases h
    | some p =>
      rw [hp] at h
      dsimp only at h
      split at h
      · cases h
      · rw [addE_out hp] at h
        split at h
        · next s1 h1 =>
          obtain ⟨L, v, e⟩ := all _ _ _ h1
          rw [mirrors_addE] at v
          rw [addE_comp] at e
          have hs1 := addE_some (c := c) (l := [i] ++ L) (l' := [] ++ L) hp
          rw [← e] at hs1
          rw [hs1] at h
          dsimp only at h
          rw [Res.ok.injEq, addE_count hs1, e, addE_comp] at h
          refine ⟨i :: L, .mk ?_, ?_⟩
          · have : mirrors s i = p.mirror.map (·.stm) := by simp only [mirrors, hp]
            rw [this]; exact v
          · rw [← h]
            apply addE_congr
            · intro k; simp [List.count_cons]
            · intro k; simp only [List.nil_append, List.count_append, List.count_cons, List.count_nil]; omega
        · next hne => exact (hne _ h).elim

/-- The states in which a character can be put anywhere. -/
structure Good (s : St) : Prop where
  live : ∀ i p, s.tbl i = some p → p.live = true
  node : ∀ i p, s.tbl i = some p → ∀ n ∈ p.mirror, n.id ∉ s.freed ∧ s.tbl n.stm ≠ none

theorem good_addE {c : Int} {l l' : List Nat} {s : St} (h : Good s) : Good (addE c l l' s) := by
  constructor
  · intro i p hp
    cases hq : s.tbl i with
    | none => rw [addE_none.2 hq] at hp; cases hp
    | some q =>
      rw [addE_some hq] at hp
      cases hp
      exact h.live i q hq
  · intro i p hp n hn
    cases hq : s.tbl i with
    | none => rw [addE_none.2 hq] at hp; cases hp
    | some q =>
      rw [addE_some hq] at hp
      cases hp
      refine ⟨(h.node i q hq n hn).1, ?_⟩
      rw [Ne, addE_none]
      exact (h.node i q hq n hn).2

theorem putAll_no_ub {put : St → Nat → Res} {l : List Node} {freed : List Nat} {isO : Nat → Prop}
    (P : St → Prop) (hP : ∀ s, P s → s.freed = freed ∧ ∀ k, isO k → s.tbl k ≠ none)
    (hput : ∀ s i, P s → isO i → put s i ≠ .ub ∧ ∀ s', put s i = .ok s' → P s')
    (hl : ∀ n ∈ l, n.id ∉ freed ∧ isO n.stm) : ∀ s, P s →
    putAll put l s ≠ .ub ∧ ∀ s', putAll put l s = .ok s' → P s' := by
  induction l with
  | nil => intro s hs; exact ⟨fun e => by simp [putAll] at e, fun s' e => by simp [putAll] at e; rw [← e]; exact hs⟩
  | cons n l ih =>
    intro s hs
    have h1 := hl n (by simp)
    rw [putAll, if_neg (by rw [(hP s hs).1]; exact h1.1)]
    obtain ⟨g1, g2⟩ := hput s n.stm hs h1.2
    cases hr : put s n.stm with
    | ok s1 => exact ih (fun m hm => hl m (by simp [hm])) s1 (g2 s1 hr)
    | ub => exact (g1 hr).elim
    | deep => exact ⟨fun e => (nomatch e), fun s' e => (nomatch e)⟩

theorem putc_no_ub_aux {c : Int} {f : Nat}
    (ih : ∀ (s : St) (i : Nat), Good s → s.tbl i ≠ none → putc f s i c ≠ .ub) {s s1 : St} {l : List Node} (hs : Good s1)
    (h1 : s1.freed = s.freed) (h2 : ∀ k, s.tbl k ≠ none → s1.tbl k ≠ none)
    (hl : ∀ n ∈ l, n.id ∉ s.freed ∧ s.tbl n.stm ≠ none) :
    putAll (fun s j => putc f s j c) l s1 ≠ .ub ∧
      ∀ s', putAll (fun s j => putc f s j c) l s1 = .ok s' → ∀ k, s.tbl k ≠ none → s'.tbl k ≠ none := by
  have hall := putAll_no_ub (put := fun s j => putc f s j c) (l := l) (freed := s.freed)
    (isO := fun k => s.tbl k ≠ none)
    (P := fun s' => Good s' ∧ s'.freed = s.freed ∧ ∀ k, s.tbl k ≠ none → s'.tbl k ≠ none)
    (fun s' h => ⟨h.2.1, h.2.2⟩)
    (by
      intro s1 k h1 h2
      refine ⟨ih s1 k h1.1 (h1.2.2 k h2), ?_⟩
      intro s2 e
      obtain ⟨L, _, e⟩ := putc_sound f c s1 s2 k e
      rw [e]
      refine ⟨good_addE h1.1, h1.2.1, ?_⟩
      intro k hk
      rw [Ne, addE_none]
      exact h1.2.2 k hk)
    hl s1 ⟨hs, h1, h2⟩
  exact ⟨hall.1, fun s' e => (hall.2 s' e).2.2⟩

theorem putc_no_ub {c : Int} : ∀ (f : Nat) (s : St) (i : Nat), Good s → s.tbl i ≠ none → putc f s i c ≠ .ub := by
  intro f
  induction f with
  | zero => intro s i _ _ e; simp [putc] at e
  | succ f ih =>
    intro s i hs hi
    cases hp : s.tbl i with
    | none => exact absurd hp hi
    | some p =>
      rw [putc, hp]
      dsimp only
      rw [if_neg (by simp [hs.live i p hp]), addE_out hp]
      have hall := putc_no_ub_aux ih (s := s) (s1 := addE c [i] [] s) (l := p.mirror) (good_addE hs) rfl
        (by intro k hk; rw [Ne, addE_none]; exact hk) (fun n hn => hs.node i p hp n hn)
      cases hr : putAll (fun s j => putc f s j c) p.mirror (addE c [i] [] s) with
      | ok s1 =>
        dsimp only
        have := hall.2 s1 hr i hi
        cases hq : s1.tbl i with
        | none => exact absurd hq this
        | some q => exact fun e => (nomatch e)
      | ub => exact (hall.1 hr).elim
      | deep => exact fun e => (nomatch e)

mutual
/-- The recursion ends when the mirrors can be enumerated. -/
theorem putc_complete {c : Int} {m : Nat → List Nat} : ∀ {i : Nat} {l : List Nat}, Visits m i l →
    ∃ f0, ∀ f, f0 ≤ f → ∀ s, mirrors s = m → Good s → s.tbl i ≠ none → putc f s i c = .ok (addE c l l s)
  | i, _, .mk (l := l) hv => by
    obtain ⟨f0, h0⟩ := putAll_complete (c := c) hv
    refine ⟨f0 + 1, ?_⟩
    intro f hf s hm hs hi
    obtain ⟨f, rfl⟩ : ∃ g, f = g + 1 := ⟨f - 1, by omega⟩
    cases hp : s.tbl i with
    | none => exact absurd hp hi
    | some p =>
      rw [putc, hp]
      dsimp only
      rw [if_neg (by simp [hs.live i p hp]), addE_out hp]
      have hmi : p.mirror.map (·.stm) = m i := by rw [← hm]; simp only [mirrors, hp]
      rw [h0 f (by omega) p.mirror hmi (addE c [i] [] s) (by rw [mirrors_addE]; exact hm) (good_addE hs)
        (fun n hn => ⟨(hs.node i p hp n hn).1, by rw [Ne, addE_none]; exact (hs.node i p hp n hn).2⟩)]
      dsimp only
      rw [addE_comp]
      have hs1 := addE_some (c := c) (l := [i] ++ l) (l' := [] ++ l) hp
      rw [hs1]
      dsimp only
      rw [addE_count hs1, addE_comp]
      congr 1
      apply addE_congr
      · intro k; simp [List.count_cons]
      · intro k; simp only [List.nil_append, List.count_append, List.count_cons, List.count_nil]; omega
theorem putAll_complete {c : Int} {m : Nat → List Nat} : ∀ {is : List Nat} {l : List Nat}, VisitsAll m is l →
    ∃ f0, ∀ f, f0 ≤ f → ∀ ns : List Node, ns.map (·.stm) = is → ∀ s, mirrors s = m → Good s →
      (∀ n ∈ ns, n.id ∉ s.freed ∧ s.tbl n.stm ≠ none) →
      putAll (fun s j => putc f s j c) ns s = .ok (addE c l l s)
  | _, _, .nil => ⟨0, by
      intro f _ ns hns s _ _ _
      have : ns = [] := by simpa using hns
      rw [this, putAll, addE_nil]⟩
  | _, _, .cons (i := i) (l := l) (l' := l') h1 h2 => by
    obtain ⟨f1, g1⟩ := putc_complete (c := c) h1
    obtain ⟨f2, g2⟩ := putAll_complete (c := c) h2
    refine ⟨max f1 f2, ?_⟩
    intro f hf ns hns s hm hs hn
    cases ns with
    | nil => simp at hns
    | cons n ns =>
      simp only [List.map_cons, List.cons.injEq] at hns
      obtain ⟨hn1, hn2⟩ := hn n (by simp)
      rw [putAll, if_neg hn1]
      rw [hns.1] at hn2 ⊢
      rw [g1 f (by omega) s hm hs hn2]
      dsimp only
      rw [g2 f (by omega) ns hns.2 (addE c l l s) (by rw [mirrors_addE]; exact hm) (good_addE hs)
        (fun n' hn' => ⟨(hn n' (by simp [hn'])).1, by rw [Ne, addE_none]; exact (hn n' (by simp [hn'])).2⟩), addE_comp]
end

/-- Without a cycle the mirrors can be enumerated. -/
theorem visits_of_acyclic {m : Nat → List Nat} (h : Acyclic m) (i : Nat) : ∃ l, Visits m i l := by
  obtain ⟨rank, hr⟩ := h
  have : ∀ n i, rank i < n → ∃ l, Visits m i l := by
    intro n
    induction n with
    | zero => intro i hi; omega
    | succ n ih =>
      intro i hi
      have all : ∀ js : List Nat, (∀ j ∈ js, rank j < n) → ∃ l, VisitsAll m js l := by
        intro js
        induction js with
        | nil => intro _; exact ⟨[], .nil⟩
        | cons j js ihj =>
          intro hj
          obtain ⟨l1, h1⟩ := ih j (hj j (by simp))
          obtain ⟨l2, h2⟩ := ihj (fun k hk => hj k (by simp [hk]))
          exact ⟨_, .cons h1 h2⟩
      obtain ⟨l, hl⟩ := all (m i) (fun j hj => by have := hr i j hj; omega)
      exact ⟨_, .mk hl⟩
  exact this (rank i + 1) i (by omega)

mutual
theorem visits_det {m : Nat → List Nat} : ∀ {i : Nat} {l l' : List Nat}, Visits m i l → Visits m i l' → l = l'
  | _, _, _, .mk h1, .mk h2 => by rw [visitsAll_det h1 h2]
theorem visitsAll_det {m : Nat → List Nat} : ∀ {is : List Nat} {l l' : List Nat}, VisitsAll m is l → VisitsAll m is l' → l = l'
  | _, _, _, .nil, .nil => rfl
  | _, _, _, .cons h1 h2, .cons h1' h2' => by rw [visits_det h1 h1', visitsAll_det h2 h2']
end

theorem visits_mem {m : Nat → List Nat} {is l : List Nat} (h : VisitsAll m is l) : ∀ {j}, j ∈ is →
    ∃ l', Visits m j l' ∧ l'.length ≤ l.length ∧ ∀ k ∈ l', k ∈ l := by
  induction is generalizing l with
  | nil => intro j hj; cases hj
  | cons i is ih =>
    intro j hj
    cases h with
    | cons h1 h2 =>
      rcases List.mem_cons.1 hj with rfl | hj
      · exact ⟨_, h1, by simp, fun k hk => List.mem_append_left _ hk⟩
      · obtain ⟨l', g1, g2, g3⟩ := ih h2 hj
        exact ⟨l', g1, by rw [List.length_append]; omega, fun k hk => List.mem_append_right _ (g3 k hk)⟩

theorem visits_path {m : Nat → List Nat} {i j : Nat} (h : Path m i j) : ∀ {l}, Visits m i l →
    ∃ l', Visits m j l' ∧ l'.length < l.length := by
  induction h with
  | one hj =>
    intro l hl
    cases hl with
    | mk ha =>
      obtain ⟨l', h1, h2, _⟩ := visits_mem ha hj
      exact ⟨l', h1, by simp only [List.length_cons]; omega⟩
  | step hj _ ih =>
    intro l hl
    cases hl with
    | mk ha =>
      obtain ⟨l', h1, h2, _⟩ := visits_mem ha hj
      obtain ⟨l'', h3, h4⟩ := ih h1
      exact ⟨l'', h3, by simp only [List.length_cons]; omega⟩

theorem no_visits_cycle {m : Nat → List Nat} {i j : Nat} (h : i = j ∨ Path m i j) (hc : Path m j j) (l : List Nat) :
    ¬ Visits m i l := by
  intro hv
  have : ∃ l, Visits m j l := by
    rcases h with rfl | h
    · exact ⟨l, hv⟩
    · obtain ⟨l', h1, _⟩ := visits_path h hv
      exact ⟨l', h1⟩
  obtain ⟨l, hv⟩ := this
  obtain ⟨l', h1, h2⟩ := visits_path hc hv
  rw [visits_det h1 hv] at h2
  omega

end Gp.Mirror
