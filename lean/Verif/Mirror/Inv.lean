import Verif.Mirror.Lemmas
namespace Gp.Mirror

open Spec

theorem nodup_ids {l : List Node} (h : (l.map (·.stm)).Nodup) (hi : ∀ n ∈ l, ∀ m ∈ l, n.id = m.id → n = m) :
    (l.map (·.id)).Nodup := by
  induction l with
  | nil => exact List.Pairwise.nil
  | cons n l ih =>
    simp only [List.map_cons, List.nodup_cons] at h ⊢
    refine ⟨?_, ih h.2 (fun a ha b hb => hi a (by simp [ha]) b (by simp [hb]))⟩
    intro hm
    obtain ⟨m, hm1, hm2⟩ := List.mem_map.1 hm
    have := hi n (by simp) m (by simp [hm1]) hm2.symm
    exact h.1 (by rw [this]; exact List.mem_map_of_mem hm1)

theorem sublist_nodup {l l' : List Node} (h : l'.Sublist l) (hn : (l.map (·.stm)).Nodup) : (l'.map (·.stm)).Nodup :=
  (h.map _).nodup hn

/-- Removing nodes, in pairs, keeps the invariant. -/
theorem MInv.restrict {tbl tbl' : Nat → Option Stm} {freed freed' : List Nat} {fresh : Nat}
    (h : MInv tbl freed fresh) (K : Nat → Bool → Nat → Prop) (hK : ∀ k b x, K k b x → K x (!b) k)
    (hAt : ∀ k b n, At tbl' k b n ↔ (At tbl k b n ∧ K k b n.stm))
    (hl : ∀ k p', tbl' k = some p' → ∃ p, tbl k = some p ∧ ∀ b, (lst p' b).Sublist (lst p b))
    (hf : ∀ x ∈ freed', x ∈ freed ∨ ∃ k b m, At tbl k b m ∧ ¬ K k b m.stm ∧ m.id = x) :
    MInv tbl' freed' fresh where
  nodup := by
    intro k p' b hp
    obtain ⟨p, h1, h2⟩ := hl k p' hp
    exact sublist_nodup (h2 b) (h.nodup k p b h1)
  irr := fun k b n ha => h.irr k b n ((hAt k b n).1 ha).1
  sym := by
    intro k b n ha
    obtain ⟨h1, h2⟩ := (hAt k b n).1 ha
    obtain ⟨n', h3, h4⟩ := h.sym k b n h1
    exact ⟨n', (hAt _ _ _).2 ⟨h3, by rw [h4]; exact hK _ _ _ h2⟩, h4⟩
  fr := by
    intro k b n ha
    obtain ⟨h1, h2⟩ := (hAt k b n).1 ha
    refine ⟨(h.fr k b n h1).1, fun hx => ?_⟩
    rcases hf _ hx with hx | ⟨k', b', m, h3, h4, h5⟩
    · exact (h.fr k b n h1).2 hx
    · obtain ⟨rfl, rfl, rfl⟩ := h.ids _ _ _ _ _ _ h3 h1 h5
      exact h4 h2
  f0 := by
    intro x hx
    rcases hf _ hx with hx | ⟨k', b', m, h3, h4, h5⟩
    · exact h.f0 x hx
    · rw [← h5]; exact (h.fr _ _ _ h3).1
  ids := fun i b n j b' m h1 h2 h3 => h.ids i b n j b' m ((hAt _ _ _).1 h1).1 ((hAt _ _ _).1 h2).1 h3

theorem strip_lst (i : Nat) (p : Stm) (b : Bool) : lst (strip i p) b = (lst p b).filter (fun n => n.stm ≠ i) := by
  cases b <;> rfl

theorem strip1_eq_self {b : Bool} {i : Nat} {p : Stm} (h : i ∉ (lst p b).map (·.stm)) : strip1 b i p = p := by
  have : (lst p b).filter (fun n => n.stm ≠ i) = lst p b := by
    rw [List.filter_eq_self]
    intro n hn
    have : n.stm ≠ i := fun e => h (by rw [← e]; exact List.mem_map_of_mem hn)
    simpa using this
  rw [strip1, this]
  cases b <;> rfl

theorem strip_eq (i : Nat) (p : Stm) : strip i p = strip1 true i (strip1 false i p) := rfl

/-- The two loops of the deletion of a stream. -/
theorem upd_ok {s : St} {i : Nat} {p : Stm} (h : MInv s.tbl s.freed s.fresh) (hp : s.tbl i = some p) :
    ∃ s1 s2, updMirrors s i p.mirror = some s1 ∧ updMirrorsOf s1 i p.mirrorOf = some s2 ∧
      (∀ k, k ≠ i → s2.tbl k = (s.tbl k).map (strip i)) ∧
      s2.size = s.size ∧ s2.last = s.last ∧ s2.alias = s.alias ∧ s2.fresh = s.fresh ∧
      (∀ x, x ∈ s2.freed → x ∈ s.freed ∨ ∃ k b m, At s.tbl k b m ∧ (k = i ∨ m.stm = i) ∧ m.id = x) := by
  have hat : ∀ b, ∀ n ∈ lst p b, At s.tbl i b n := fun b n hn => ⟨p, hp, hn⟩
  have hids : ∀ b, ((lst p b).map (·.id)).Nodup := fun b =>
    nodup_ids (h.nodup i p b hp) (fun n hn m hm e => (h.ids _ _ _ _ _ _ (hat b n hn) (hat b m hm) e).2.2)
  obtain ⟨s1, a1, a2, a3, a4, a5, a6, a7⟩ := loop_ok true i (lst p true) s (h.nodup i p true hp) (hids true)
    (fun n hn => (h.fr _ _ _ (hat true n hn)).2)
    (by
      intro n hn
      obtain ⟨n', ⟨q, hq, hn'⟩, _⟩ := h.sym _ _ _ (hat true n hn)
      refine ⟨q, hq, h.nodup _ q _ hq, fun m hm => (h.fr _ _ _ ⟨q, hq, hm⟩).2, ?_, ?_⟩
      · intro m hm hx
        obtain ⟨m', hm', hx⟩ := List.mem_map.1 hx
        have := h.ids _ _ _ _ _ _ (hat true m' hm') (⟨q, hq, hm⟩ : At s.tbl n.stm (!true) m) hx
        cases this.2.1
      · intro n2 _ hne q' hq' m hm m' hm' hx
        have := h.ids _ _ _ _ _ _ (⟨q, hq, hm⟩ : At s.tbl n.stm (!true) m) (⟨q', hq', hm'⟩ : At s.tbl n2.stm (!true) m') hx
        exact hne this.1.symm)
  have hnotfr : ∀ k b m, At s.tbl k b m → (b = true → k ≠ i) → (b = false → m.stm ≠ i) → m.id ∉ s1.freed := by
    intro k b m hm hb1 hb2 hx
    rcases a7 _ hx with hx | hx | ⟨n, hn, m', hm', hmi, hx⟩
    · exact (h.fr _ _ _ hm).2 hx
    · obtain ⟨m', hm', hx⟩ := List.mem_map.1 hx
      obtain ⟨e1, e2, _⟩ := h.ids _ _ _ _ _ _ (hat true m' hm') hm hx
      exact hb1 e2.symm e1.symm
    · obtain ⟨e1, e2, e3⟩ := h.ids _ _ _ _ _ _ hm' hm hx
      exact hb2 e2.symm (by rw [← e3]; exact hmi)
  have htrue : ∀ k q, s.tbl k = some q → ∃ q', s1.tbl k = some q' ∧ lst q' true = lst q true := by
    intro k q hq
    rw [a2, hq]
    split
    · exact ⟨_, rfl, rfl⟩
    · exact ⟨_, rfl, rfl⟩
  have htrue' : ∀ k q', s1.tbl k = some q' → ∃ q, s.tbl k = some q ∧ lst q' true = lst q true := by
    intro k q' hq'
    rw [a2] at hq'
    split at hq'
    · cases hs : s.tbl k with
      | none => rw [hs] at hq'; cases hq'
      | some q => rw [hs] at hq'; cases hq'; exact ⟨q, rfl, rfl⟩
    · exact ⟨q', hq', rfl⟩
  obtain ⟨s2, b1, b2, b3, b4, b5, b6, b7⟩ := loop_ok false i (lst p false) s1 (h.nodup i p false hp) (hids false)
    (fun n hn => hnotfr _ _ _ (hat false n hn) (fun e => nomatch e) (fun _ => h.irr _ _ _ (hat false n hn)))
    (by
      intro n hn
      obtain ⟨n', ⟨q0, hq0, hn'⟩, _⟩ := h.sym _ _ _ (hat false n hn)
      have hni := h.irr _ _ _ (hat false n hn)
      obtain ⟨q, hq, hql⟩ := htrue _ _ hq0
      refine ⟨q, hq, ?_, ?_, ?_, ?_⟩
      · rw [Bool.not_false, hql]; exact h.nodup _ q0 _ hq0
      · intro m hm
        rw [Bool.not_false, hql] at hm
        exact hnotfr _ _ _ ⟨q0, hq0, hm⟩ (fun _ => hni) (fun e => nomatch e)
      · intro m hm hx
        rw [Bool.not_false, hql] at hm
        obtain ⟨m', hm', hx⟩ := List.mem_map.1 hx
        have := h.ids _ _ _ _ _ _ (hat false m' hm') (⟨q0, hq0, hm⟩ : At s.tbl n.stm true m) hx
        cases this.2.1
      · intro n2 _ hne q' hq' m hm m' hm' hx
        rw [Bool.not_false, hql] at hm
        obtain ⟨q2, hq2, hql2⟩ := htrue' _ _ hq'
        rw [Bool.not_false, hql2] at hm'
        have := h.ids _ _ _ _ _ _ (⟨q0, hq0, hm⟩ : At s.tbl n.stm true m) (⟨q2, hq2, hm'⟩ : At s.tbl n2.stm true m') hx
        exact hne this.1.symm)
  refine ⟨s1, s2, ?_, ?_, ?_, by rw [b3, a3], by rw [b4, a4], by rw [b5, a5], by rw [b6, a6], ?_⟩
  · rw [updMirrors_eq]; exact a1
  · rw [updMirrorsOf_eq]; exact b1
  · intro k hk
    rw [b2, a2]
    cases hs : s.tbl k with
    | none => simp
    | some q =>
      have hf : k ∉ (lst p true).map (·.stm) → strip1 false i q = q := by
        intro hx
        apply strip1_eq_self
        intro hm
        obtain ⟨m, hm, hmi⟩ := List.mem_map.1 hm
        obtain ⟨n', ⟨p', hp', hn'⟩, hn2⟩ := h.sym _ _ _ (⟨q, hs, hm⟩ : At s.tbl k false m)
        rw [hmi, hp] at hp'
        cases hp'
        exact hx (by rw [← hn2]; exact List.mem_map_of_mem hn')
      have ht : k ∉ (lst p false).map (·.stm) → ∀ q', lst q' true = lst q true → strip1 true i q' = q' := by
        intro hx q' hq'
        apply strip1_eq_self
        rw [hq']
        intro hm
        obtain ⟨m, hm, hmi⟩ := List.mem_map.1 hm
        obtain ⟨n', ⟨p', hp', hn'⟩, hn2⟩ := h.sym _ _ _ (⟨q, hs, hm⟩ : At s.tbl k true m)
        rw [hmi, hp] at hp'
        cases hp'
        exact hx (by rw [← hn2]; exact List.mem_map_of_mem hn')
      simp only [Bool.not_true, Bool.not_false, Option.map_some, strip_eq]
      split
      · split
        · rfl
        · next hx => rw [hf hx]; rfl
      · next hx =>
        rw [ht hx (strip1 false i q) rfl]
        split
        · rfl
        · next hy => rw [hf hy]
  · intro x hx
    rcases b7 _ hx with hx | hx | ⟨n, hn, m, ⟨q, hq, hm⟩, hmi, hx⟩
    · rcases a7 _ hx with hx | hx | ⟨n, hn, m, hm, hmi, hx⟩
      · exact .inl hx
      · obtain ⟨m, hm, hx⟩ := List.mem_map.1 hx
        exact .inr ⟨i, true, m, hat true m hm, .inl rfl, hx⟩
      · exact .inr ⟨_, _, m, hm, .inr hmi, hx⟩
    · obtain ⟨m, hm, hx⟩ := List.mem_map.1 hx
      exact .inr ⟨i, false, m, hat false m hm, .inl rfl, hx⟩
    · obtain ⟨q0, hq0, hl⟩ := htrue' _ _ hq
      rw [Bool.not_false, hl] at hm
      exact .inr ⟨n.stm, true, m, ⟨q0, hq0, hm⟩, .inr hmi, hx⟩

/-! ### The whole invariant -/

structure Inv (s : St) : Prop where
  size3 : 3 ≤ s.size
  size : ∀ i, s.size ≤ i → s.tbl i = none
  lastO : s.tbl s.last ≠ none
  lastM : ∀ i, s.last < i → s.tbl i = none
  std : ∀ i, i < 3 → s.tbl i ≠ none
  nsp : ∀ i p, i < 3 → s.tbl i = some p → p.special = false
  ali : ∀ e ∈ s.alias, s.tbl e.2 ≠ none
  akeys : (s.alias.map (·.1)).Nodup
  pre : ∀ a, a < 9 → a ∈ s.alias.map (·.1)
  mir : MInv s.tbl s.freed s.fresh

theorem inv_init : Inv init where
  size3 := by decide
  size := by
    intro i hi
    have h32 : init.size = 32 := rfl
    rw [h32] at hi
    have h0 : stdin = 0 := rfl
    have h1 : stdout = 1 := rfl
    have h2 : stderr = 2 := rfl
    simp only [init]
    rw [if_neg (by omega), if_neg (by omega)]
  lastO := by decide
  lastM := by
    intro i hi
    have h32 : init.last = 2 := rfl
    rw [h32] at hi
    have h0 : stdin = 0 := rfl
    have h1 : stdout = 1 := rfl
    have h2 : stderr = 2 := rfl
    simp only [init]
    rw [if_neg (by omega), if_neg (by omega)]
  std := by
    intro i hi
    have : i = 0 ∨ i = 1 ∨ i = 2 := by omega
    rcases this with rfl | rfl | rfl <;> decide
  nsp := by
    intro i p hi hp
    have : i = 0 ∨ i = 1 ∨ i = 2 := by omega
    rcases this with rfl | rfl | rfl <;> (cases hp; rfl)
  ali := by decide
  akeys := by decide
  pre := by
    intro a ha
    have : a = 0 ∨ a = 1 ∨ a = 2 ∨ a = 3 ∨ a = 4 ∨ a = 5 ∨ a = 6 ∨ a = 7 ∨ a = 8 := by omega
    rcases this with rfl | rfl | rfl | rfl | rfl | rfl | rfl | rfl | rfl <;> decide
  mir := by
    have hno : ∀ i b n, ¬ At init.tbl i b n := by
      rintro i b n ⟨p, hp, hn⟩
      simp only [init] at hp
      split at hp
      · cases hp; cases b <;> simp [lst, newStm] at hn
      · split at hp
        · cases hp; cases b <;> simp [lst, newStm] at hn
        · cases hp
    refine ⟨?_, fun i b n h => (hno i b n h).elim, fun i b n h => (hno i b n h).elim,
      fun i b n h => (hno i b n h).elim, (by intro a ha; cases ha), fun i b n j b' m h => (hno i b n h).elim⟩
    intro i p b hp
    have : lst p b = [] := by
      cases hl : lst p b with
      | nil => rfl
      | cons n l => exact (hno i b n ⟨p, hp, by rw [hl]; simp⟩).elim
    rw [this]
    exact List.Pairwise.nil

/-! ### Aliases -/

theorem findAlias_resolve (s : St) (a : Nat) : findAlias s.alias a = resolve s a := by
  simp only [resolve]
  generalize s.alias = l
  induction l with
  | nil => rfl
  | cons e l ih =>
    obtain ⟨b, i⟩ := e
    simp only [findAlias, List.find?_cons]
    by_cases h : b = a
    · simp [h]
    · rw [if_neg h, ih, beq_false_of_ne h]

theorem findAlias_mem {l : List (Nat × Nat)} {a i : Nat} (h : findAlias l a = some i) : (a, i) ∈ l := by
  induction l with
  | nil => cases h
  | cons e l ih =>
    obtain ⟨b, j⟩ := e
    simp only [findAlias] at h
    split at h
    · next hb => cases h; simp [hb]
    · simp [ih h]

theorem findAlias_none {l : List (Nat × Nat)} {a : Nat} : findAlias l a = none ↔ a ∉ l.map (·.1) := by
  induction l with
  | nil => simp [findAlias]
  | cons e l ih =>
    obtain ⟨b, j⟩ := e
    simp only [findAlias]
    split
    · next hb => simp [hb]
    · next hb => rw [ih]; simp [Ne.symm hb]

theorem findAlias_of_mem {l : List (Nat × Nat)} {a i : Nat} (hn : (l.map (·.1)).Nodup) (h : (a, i) ∈ l) :
    findAlias l a = some i := by
  induction l with
  | nil => cases h
  | cons e l ih =>
    obtain ⟨b, j⟩ := e
    simp only [List.map_cons, List.nodup_cons] at hn
    simp only [findAlias]
    rcases List.mem_cons.1 h with h | h
    · cases h; simp
    · rw [if_neg, ih hn.2 h]
      rintro rfl
      exact hn.1 (List.mem_map_of_mem h)

theorem replAlias_keys (l : List (Nat × Nat)) (a i : Nat) : (replAlias l a i).map (·.1) = l.map (·.1) := by
  simp only [replAlias, List.map_map]
  apply List.map_congr_left
  intro e _
  simp only [Function.comp]
  split <;> rfl

theorem findAlias_repl {l : List (Nat × Nat)} {a i b : Nat} :
    findAlias (replAlias l a i) b = if b = a then (findAlias l a).map (fun _ => i) else findAlias l b := by
  induction l with
  | nil => simp [replAlias, findAlias]
  | cons e l ih =>
    obtain ⟨c, j⟩ := e
    simp only [replAlias, List.map_cons] at ih ⊢
    by_cases hc : c = a
    · subst hc
      simp only [if_true, findAlias]
      by_cases hb : b = c
      · simp [hb]
      · rw [if_neg (Ne.symm hb), ih, if_neg hb, if_neg hb, if_neg (Ne.symm hb)]
    · simp only [if_neg hc, findAlias]
      by_cases hb : c = b
      · subst hb; simp [hc]
      · rw [if_neg hb, if_neg hb, ih]

theorem findAlias_append {l : List (Nat × Nat)} {a i b : Nat} :
    findAlias (l ++ [(a, i)]) b = (match findAlias l b with | some j => some j | none => if a = b then some i else none) := by
  induction l with
  | nil => simp [findAlias]
  | cons e l ih =>
    obtain ⟨c, j⟩ := e
    simp only [List.cons_append, findAlias]
    split
    · rfl
    · exact ih

theorem delAliases_mem {l : List (Nat × Nat)} {i : Nat} {e : Nat × Nat} (h : e ∈ delAliases l i) :
    (e ∈ l ∧ e.2 ≠ i) ∨ (e.2 < 3 ∧ e.1 < 9 ∧ (e.1, i) ∈ l) := by
  simp only [delAliases, List.mem_filterMap] at h
  obtain ⟨⟨a, j⟩, h1, h2⟩ := h
  dsimp only at h2
  split at h2
  · next hj => cases h2; exact .inl ⟨h1, hj⟩
  · next hj =>
    have hj' : j = i := by simpa using hj
    subst hj'
    have c0 : userInput = 0 := rfl
    have c1 : userOutput = 1 := rfl
    have c2 : userError = 2 := rfl
    have c3 : currentInput = 3 := rfl
    have c4 : currentOutput = 4 := rfl
    have c5 : topInput = 5 := rfl
    have c6 : topOutput = 6 := rfl
    have c7 : debugInput = 7 := rfl
    have c8 : debugOutput = 8 := rfl
    split at h2
    · cases h2; exact .inr ⟨(by show stdin < 3; decide), by dsimp only; omega, h1⟩
    · split at h2
      · cases h2; exact .inr ⟨(by show stdout < 3; decide), by dsimp only; omega, h1⟩
      · split at h2
        · cases h2; exact .inr ⟨(by show stderr < 3; decide), by dsimp only; omega, h1⟩
        · cases h2

/-- Where the alias of a closed stream goes. -/
def goesTo (a : Nat) : Option Nat :=
  if a = userInput ∨ a = currentInput ∨ a = topInput ∨ a = debugInput then some stdin
  else if a = userOutput ∨ a = currentOutput ∨ a = topOutput ∨ a = debugOutput then some stdout
  else if a = userError then some stderr
  else none

theorem goesTo_pre {a : Nat} (h : a < 9) : ∃ i, goesTo a = some i ∧ i < 3 := by
  have : a = 0 ∨ a = 1 ∨ a = 2 ∨ a = 3 ∨ a = 4 ∨ a = 5 ∨ a = 6 ∨ a = 7 ∨ a = 8 := by omega
  rcases this with rfl | rfl | rfl | rfl | rfl | rfl | rfl | rfl | rfl <;> exact ⟨_, rfl, by decide⟩

theorem delAliases_cons (l : List (Nat × Nat)) (a j i : Nat) :
    delAliases ((a, j) :: l) i =
      (if j ≠ i then [(a, j)] else (match goesTo a with | some k => [(a, k)] | none => [])) ++ delAliases l i := by
  simp only [delAliases, List.filterMap_cons, goesTo]
  by_cases h0 : j = i
  · simp only [h0, ne_eq, not_true_eq_false, if_false]
    by_cases h1 : a = userInput ∨ a = currentInput ∨ a = topInput ∨ a = debugInput
    · simp [h1]
    · by_cases h2 : a = userOutput ∨ a = currentOutput ∨ a = topOutput ∨ a = debugOutput
      · simp [h1, h2]
      · rw [if_neg h1, if_neg h2, if_neg h1, if_neg h2]
        by_cases h3 : a = userError
        · rw [if_pos h3, if_pos h3]; rfl
        · rw [if_neg h3, if_neg h3]; rfl
  · simp [h0]

theorem delAliases_keys {l : List (Nat × Nat)} {i : Nat} :
    ((delAliases l i).map (·.1)).Sublist (l.map (·.1)) := by
  induction l with
  | nil => exact List.Sublist.slnil
  | cons e l ih =>
    obtain ⟨a, j⟩ := e
    rw [delAliases_cons]
    split
    · simpa using ih
    · cases goesTo a with
      | none => simpa using ih.cons a
      | some k => simpa using ih

theorem findAlias_del {l : List (Nat × Nat)} {i a : Nat} (hn : (l.map (·.1)).Nodup) :
    findAlias (delAliases l i) a = if findAlias l a = some i then goesTo a else findAlias l a := by
  induction l with
  | nil => simp [delAliases, findAlias]
  | cons e l ih =>
    obtain ⟨b, j⟩ := e
    simp only [List.map_cons, List.nodup_cons] at hn
    rw [delAliases_cons]
    by_cases hb : b = a
    · subst hb
      simp only [findAlias, if_true, Option.some.injEq]
      by_cases hj : j = i
      · simp only [hj, ne_eq, not_true_eq_false, if_false, if_true]
        cases hg : goesTo b with
        | some k => simp [findAlias]
        | none =>
          simp only [List.nil_append]
          rw [findAlias_none]
          exact fun hm => hn.1 (delAliases_keys.subset hm)
      · simp [hj, findAlias]
    · simp only [findAlias, if_neg hb]
      rw [← ih hn.2]
      split
      · simp [findAlias, hb]
      · cases goesTo b with
        | none => rfl
        | some k => simp [findAlias, hb]

/-! ### The invariant is kept -/

theorem lastUsed_ok {tbl : Nat → Option Stm} {n : Nat} (h : ∃ i, i ≤ n ∧ tbl i ≠ none) :
    ∃ m, lastUsed tbl n = some m ∧ m ≤ n ∧ tbl m ≠ none ∧ ∀ i, m < i → i ≤ n → tbl i = none := by
  induction n with
  | zero =>
    obtain ⟨i, hi, ht⟩ := h
    have : i = 0 := by omega
    subst this
    exact ⟨0, by simp [lastUsed, ht], Nat.le_refl _, ht, by intro i h1 h2; omega⟩
  | succ n ih =>
    simp only [lastUsed]
    by_cases ht : tbl (n + 1) = none
    · rw [if_pos ht]
      obtain ⟨i, hi, hti⟩ := h
      have : i ≠ n + 1 := by rintro rfl; exact hti ht
      obtain ⟨m, h1, h2, h3, h4⟩ := ih ⟨i, by omega, hti⟩
      refine ⟨m, h1, by omega, h3, ?_⟩
      intro j hj1 hj2
      by_cases e : j = n + 1
      · rw [e]; exact ht
      · exact h4 j hj1 (by omega)
    · rw [if_neg ht]
      exact ⟨n + 1, rfl, Nat.le_refl _, ht, by intro i h1 h2; omega⟩

theorem setAlias_fst (s : St) (a i : Nat) (r : Bool) :
    (setAlias s a i r).1 = { s with alias := (setAlias s a i r).1.alias } := by
  simp only [setAlias]
  split
  · split <;> rfl
  · rfl

theorem Inv.setAlias {s : St} (h : Inv s) {a i : Nat} {r : Bool} (hi : s.tbl i ≠ none) :
    Inv (setAlias s a i r).1 := by
  simp only [Mirror.setAlias]
  split
  · next j hj =>
    split
    · exact h
    · refine { h with ali := ?_, akeys := ?_, pre := ?_ }
      · intro e he
        simp only [replAlias, List.mem_map] at he
        obtain ⟨e', h1, h2⟩ := he
        split at h2
        · rw [← h2]; exact hi
        · rw [← h2]; exact h.ali e' h1
      · dsimp only; rw [replAlias_keys]; exact h.akeys
      · dsimp only; rw [replAlias_keys]; exact h.pre
  · next hj =>
    rw [findAlias_none] at hj
    refine { h with ali := ?_, akeys := ?_, pre := ?_ }
    · intro e he
      rcases List.mem_append.1 he with he | he
      · exact h.ali e he
      · rw [List.mem_singleton.1 he]; exact hi
    · dsimp only
      rw [List.map_append, List.nodup_append]
      refine ⟨h.akeys, by simp, ?_⟩
      intro x hx y hy
      simp only [List.map_cons, List.map_nil, List.mem_singleton] at hy
      rintro rfl
      exact hj (by rw [← hy]; exact hx)
    · intro b hb
      dsimp only
      rw [List.map_append]
      exact List.mem_append_left _ (h.pre b hb)

theorem findFree_spec (tbl : Nat → Option Stm) : ∀ n i,
    i ≤ findFree tbl i n ∧ findFree tbl i n ≤ i + n ∧ (∀ k, i ≤ k → k < findFree tbl i n → tbl k ≠ none) ∧
      (findFree tbl i n < i + n → tbl (findFree tbl i n) = none) := by
  intro n
  induction n with
  | zero => intro i; simp only [findFree]; exact ⟨by omega, by omega, by intro k h1 h2; omega, by omega⟩
  | succ n ih =>
    intro i
    simp only [findFree]
    split
    · next h => exact ⟨by omega, by omega, by intro k h1 h2; omega, fun _ => h⟩
    · next h =>
      obtain ⟨h1, h2, h3, h4⟩ := ih (i + 1)
      refine ⟨by omega, by omega, ?_, fun hx => h4 (by omega)⟩
      intro k hk1 hk2
      by_cases e : k = i
      · rw [e]; exact h
      · exact h3 k (by omega) hk2

theorem findFree_none {s : St} (h : Inv s) : s.tbl (findFree s.tbl 0 s.size) = none := by
  obtain ⟨_, h2, _, h4⟩ := findFree_spec s.tbl s.size 0
  by_cases e : findFree s.tbl 0 s.size < 0 + s.size
  · exact h4 e
  · exact h.size _ (by omega)

theorem MInv.congr {tbl tbl' : Nat → Option Stm} {freed : List Nat} {fresh : Nat} (h : MInv tbl freed fresh)
    (hl : ∀ k p', tbl' k = some p' → (∃ p, tbl k = some p ∧ ∀ b, lst p' b = lst p b) ∨ ∀ b, lst p' b = [])
    (hr : ∀ k p, tbl k = some p → ∃ p', tbl' k = some p' ∧ ∀ b, lst p' b = lst p b) :
    MInv tbl' freed fresh := by
  have hAt : ∀ k b n, At tbl' k b n ↔ (At tbl k b n ∧ True) := by
    intro k b n
    constructor
    · rintro ⟨p', hp', hn⟩
      rcases hl k p' hp' with ⟨p, h1, h2⟩ | h2
      · exact ⟨⟨p, h1, by rw [← h2]; exact hn⟩, trivial⟩
      · rw [h2] at hn; cases hn
    · rintro ⟨⟨p, hp, hn⟩, _⟩
      obtain ⟨p', h1, h2⟩ := hr k p hp
      exact ⟨p', h1, by rw [h2]; exact hn⟩
  have base := h
  refine ⟨?_, fun k b n ha => h.irr k b n ((hAt k b n).1 ha).1, ?_, fun k b n ha => h.fr k b n ((hAt k b n).1 ha).1,
    h.f0, fun i b n j b' m h1 h2 h3 => h.ids i b n j b' m ((hAt _ _ _).1 h1).1 ((hAt _ _ _).1 h2).1 h3⟩
  · intro k p' b hp'
    rcases hl k p' hp' with ⟨p, h1, h2⟩ | h2
    · rw [h2]; exact h.nodup k p b h1
    · rw [h2]; exact List.Pairwise.nil
  · intro k b n ha
    obtain ⟨n', h1, h2⟩ := h.sym k b n ((hAt k b n).1 ha).1
    exact ⟨n', (hAt _ _ _).2 ⟨h1, trivial⟩, h2⟩

theorem Inv.addStream {s : St} (h : Inv s) {p : Stm} (hp : ∀ b, lst p b = []) : Inv (addStream s p).1 := by
  have hnone := findFree_none h
  obtain ⟨_, h2, _, _⟩ := findFree_spec s.tbl s.size 0
  have hs3 := h.size3
  generalize hi : findFree s.tbl 0 s.size = i at *
  have hopen : ∀ k, s.tbl k ≠ none → upd s.tbl i (some p) k ≠ none := by
    intro k hk
    by_cases e : k = i
    · rw [e, upd_same]; exact fun e => nomatch e
    · rw [upd_ne _ _ e]; exact hk
  constructor
  · show 3 ≤ _
    simp only [Mirror.addStream, hi]
    split <;> omega
  · intro k hk
    simp only [Mirror.addStream, hi] at hk ⊢
    have : k ≠ i ∧ s.size ≤ k := by
      split at hk
      · next he => omega
      · next he => omega
    rw [upd_ne _ _ this.1]
    exact h.size k this.2
  · simp only [Mirror.addStream, hi]
    split
    · rw [upd_same]; exact fun e => nomatch e
    · exact hopen _ h.lastO
  · intro k hk
    simp only [Mirror.addStream, hi] at hk ⊢
    have : k ≠ i ∧ s.last < k := by
      split at hk
      · next he => omega
      · next he => omega
    rw [upd_ne _ _ this.1]
    exact h.lastM k this.2
  · intro k hk
    simp only [Mirror.addStream, hi]
    exact hopen _ (h.std k hk)
  · intro k p' hk hp'
    simp only [Mirror.addStream, hi] at hp'
    have : k ≠ i := by rintro rfl; exact h.std k hk hnone
    rw [upd_ne _ _ this] at hp'
    exact h.nsp k p' hk hp'
  · intro e he
    simp only [Mirror.addStream, hi]
    exact hopen _ (h.ali e he)
  · exact h.akeys
  · exact h.pre
  · simp only [Mirror.addStream, hi]
    refine h.mir.congr ?_ ?_
    · intro k p' hp'
      by_cases e : k = i
      · rw [e, upd_same] at hp'; cases hp'; exact .inr hp
      · rw [upd_ne _ _ e] at hp'; exact .inl ⟨p', hp', fun _ => rfl⟩
    · intro k q hq
      have : k ≠ i := by rintro rfl; rw [hnone] at hq; cases hq
      exact ⟨q, by rw [upd_ne _ _ this]; exact hq, fun _ => rfl⟩

/-- A stream without its lists. -/
def core (p : Stm) : Stm := { p with mirror := [], mirrorOf := [] }

theorem Inv.addMirror {s : St} (h : Inv s) {i j : Nat} (hi : s.tbl i ≠ none) (hj : s.tbl j ≠ none) :
    ∃ s', addMirror s i j = some s' ∧ Inv s' ∧ (∀ k, (s'.tbl k).isSome = (s.tbl k).isSome) ∧
      s'.alias = s.alias ∧ s'.last = s.last ∧
      (∀ k, (s'.tbl k).map core = (s.tbl k).map core) ∧
      (∀ k, mirrors s' k = if k = i ∧ i ≠ j ∧ j ∉ mirrors s i then j :: mirrors s i else mirrors s k) := by
  have hmi : ∀ p, s.tbl i = some p → mirrors s i = p.mirror.map (·.stm) := by intro p hp; simp only [mirrors, hp]
  simp only [Mirror.addMirror]
  by_cases hij : i = j
  · rw [if_pos hij]
    exact ⟨s, rfl, h, fun _ => rfl, rfl, rfl, fun _ => rfl, fun k => by simp [hij]⟩
  rw [if_neg hij]
  cases hp : s.tbl i with
  | none => exact absurd hp hi
  | some p =>
  cases hq : s.tbl j with
  | none => exact absurd hq hj
  | some q =>
  dsimp only
  have hm := h.mir
  rw [findNode_ok (l := p.mirror) (fun n hn => (hm.fr i true n ⟨p, hp, hn⟩).2)]
  by_cases hin : j ∈ p.mirror.map (·.stm)
  · rw [decide_eq_true hin]
    refine ⟨s, rfl, h, fun _ => rfl, rfl, rfl, fun _ => rfl, fun k => ?_⟩
    rw [if_neg (by rw [hmi p hp]; exact fun hx => hx.2.2 hin)]
  rw [decide_eq_false hin]
  dsimp only
  refine ⟨_, rfl, ?_, ?_, rfl, rfl, ?_, ?_⟩
  · -- the table
    generalize ht : upd (upd s.tbl i (some { p with mirror := ⟨s.fresh, j⟩ :: p.mirror })) j
            (some { q with mirrorOf := ⟨s.fresh + 1, i⟩ :: q.mirrorOf }) = tbl'
    have hti : tbl' i = some { p with mirror := ⟨s.fresh, j⟩ :: p.mirror } := by
      rw [← ht, upd_ne _ _ hij, upd_same]
    have htj : tbl' j = some { q with mirrorOf := ⟨s.fresh + 1, i⟩ :: q.mirrorOf } := by rw [← ht, upd_same]
    have htk : ∀ k, k ≠ i → k ≠ j → tbl' k = s.tbl k := by
      intro k h1 h2
      rw [← ht, upd_ne _ _ h2, upd_ne _ _ h1]
    have hnone : ∀ k, tbl' k = none ↔ s.tbl k = none := by
      intro k
      by_cases e1 : k = i
      · rw [e1, hti, hp]; simp
      · by_cases e2 : k = j
        · rw [e2, htj, hq]; simp
        · rw [htk k e1 e2]
    have hinj : i ∉ q.mirrorOf.map (·.stm) := by
      intro hx
      obtain ⟨n, hn, hni⟩ := List.mem_map.1 hx
      obtain ⟨n', ⟨p', hp', hn'⟩, hn2⟩ := hm.sym j false n ⟨q, hq, hn⟩
      rw [hni, hp] at hp'
      cases hp'
      exact hin (by rw [← hn2]; exact List.mem_map_of_mem hn')
    have hAt : ∀ k b n, At tbl' k b n ↔ (At s.tbl k b n ∨ (k = i ∧ b = true ∧ n = ⟨s.fresh, j⟩) ∨
        (k = j ∧ b = false ∧ n = ⟨s.fresh + 1, i⟩)) := by
      intro k b n
      by_cases e1 : k = i
      · subst e1
        constructor
        · rintro ⟨p', hp', hn⟩
          rw [hti] at hp'
          cases hp'
          cases b with
          | false => exact .inl ⟨p, hp, hn⟩
          | true =>
            rcases List.mem_cons.1 hn with rfl | hn
            · exact .inr (.inl ⟨rfl, rfl, rfl⟩)
            · exact .inl ⟨p, hp, hn⟩
        · rintro (⟨p', hp', hn⟩ | ⟨_, rfl, rfl⟩ | ⟨e, _⟩)
          · rw [hp] at hp'
            cases hp'
            refine ⟨_, hti, ?_⟩
            cases b with
            | false => exact hn
            | true => exact List.mem_cons_of_mem _ hn
          · exact ⟨_, hti, List.mem_cons_self⟩
          · exact absurd e hij
      · by_cases e2 : k = j
        · subst e2
          constructor
          · rintro ⟨p', hp', hn⟩
            rw [htj] at hp'
            cases hp'
            cases b with
            | true => exact .inl ⟨q, hq, hn⟩
            | false =>
              rcases List.mem_cons.1 hn with rfl | hn
              · exact .inr (.inr ⟨rfl, rfl, rfl⟩)
              · exact .inl ⟨q, hq, hn⟩
          · rintro (⟨p', hp', hn⟩ | ⟨e, _⟩ | ⟨_, rfl, rfl⟩)
            · rw [hq] at hp'
              cases hp'
              refine ⟨_, htj, ?_⟩
              cases b with
              | true => exact hn
              | false => exact List.mem_cons_of_mem _ hn
            · exact absurd e e1
            · exact ⟨_, htj, List.mem_cons_self⟩
        · simp only [At, htk k e1 e2, e1, e2, false_and, or_false]
    refine { size3 := h.size3, size := ?_, lastO := ?_, lastM := ?_, std := ?_, nsp := ?_, ali := ?_, akeys := h.akeys,
             pre := h.pre, mir := ?_ }
    · intro k hk; exact (hnone k).2 (h.size k hk)
    · exact fun e => h.lastO ((hnone _).1 e)
    · intro k hk; exact (hnone k).2 (h.lastM k hk)
    · intro k hk e; exact h.std k hk ((hnone _).1 e)
    · intro k p' hk hp'
      dsimp only at hp'
      by_cases e1 : k = i
      · rw [e1, hti] at hp'; cases hp'; exact h.nsp i p (by omega) hp
      · by_cases e2 : k = j
        · rw [e2, htj] at hp'; cases hp'; exact h.nsp j q (by omega) hq
        · rw [htk k e1 e2] at hp'; exact h.nsp k p' hk hp'
    · intro e he hx; exact h.ali e he ((hnone _).1 hx)
    · dsimp only
      constructor
      · intro k p' b hp'
        by_cases e1 : k = i
        · subst e1
          rw [hti] at hp'
          cases hp'
          cases b with
          | false => exact hm.nodup k p false hp
          | true =>
            show (List.map (·.stm) (⟨s.fresh, j⟩ :: p.mirror)).Nodup
            rw [List.map_cons, List.nodup_cons]
            exact ⟨hin, hm.nodup k p true hp⟩
        · by_cases e2 : k = j
          · subst e2
            rw [htj] at hp'
            cases hp'
            cases b with
            | true => exact hm.nodup k q true hq
            | false =>
              show (List.map (·.stm) (⟨s.fresh + 1, i⟩ :: q.mirrorOf)).Nodup
              rw [List.map_cons, List.nodup_cons]
              exact ⟨hinj, hm.nodup k q false hq⟩
          · rw [htk k e1 e2] at hp'
            exact hm.nodup k p' b hp'
      · intro k b n ha
        rcases (hAt k b n).1 ha with ha | ⟨rfl, rfl, rfl⟩ | ⟨rfl, rfl, rfl⟩
        · exact hm.irr k b n ha
        · exact Ne.symm hij
        · exact hij
      · intro k b n ha
        rcases (hAt k b n).1 ha with ha | ⟨rfl, rfl, rfl⟩ | ⟨rfl, rfl, rfl⟩
        · obtain ⟨n', h1, h2⟩ := hm.sym k b n ha
          exact ⟨n', (hAt _ _ _).2 (.inl h1), h2⟩
        · exact ⟨⟨s.fresh + 1, k⟩, (hAt _ _ _).2 (.inr (.inr ⟨rfl, rfl, rfl⟩)), rfl⟩
        · exact ⟨⟨s.fresh, k⟩, (hAt _ _ _).2 (.inr (.inl ⟨rfl, rfl, rfl⟩)), rfl⟩
      · intro k b n ha
        rcases (hAt k b n).1 ha with ha | ⟨rfl, rfl, rfl⟩ | ⟨rfl, rfl, rfl⟩
        · have := hm.fr k b n ha
          exact ⟨by omega, this.2⟩
        · exact ⟨by dsimp only; omega, fun hx => by have := hm.f0 _ hx; dsimp only at this; omega⟩
        · exact ⟨by dsimp only; omega, fun hx => by have := hm.f0 _ hx; dsimp only at this; omega⟩
      · intro a ha
        have := hm.f0 a ha
        omega
      · intro k b n k' b' m h1 h2 he
        have old : ∀ k b n, At s.tbl k b n → n.id < s.fresh := fun k b n ha => (hm.fr k b n ha).1
        rcases (hAt k b n).1 h1 with h1 | ⟨rfl, rfl, rfl⟩ | ⟨rfl, rfl, rfl⟩ <;>
          rcases (hAt k' b' m).1 h2 with h2 | ⟨rfl, rfl, rfl⟩ | ⟨rfl, rfl, rfl⟩
        · exact hm.ids k b n k' b' m h1 h2 he
        · have := old _ _ _ h1; dsimp only at he; omega
        · have := old _ _ _ h1; dsimp only at he; omega
        · have := old _ _ _ h2; dsimp only at he; omega
        · exact ⟨rfl, rfl, rfl⟩
        · dsimp only at he; omega
        · have := old _ _ _ h2; dsimp only at he; omega
        · dsimp only at he; omega
        · exact ⟨rfl, rfl, rfl⟩
  · intro k
    dsimp only
    by_cases e2 : k = j
    · rw [e2, upd_same, hq]; rfl
    · rw [upd_ne _ _ e2]
      by_cases e1 : k = i
      · rw [e1, upd_same, hp]; rfl
      · rw [upd_ne _ _ e1]
  · intro k
    dsimp only
    by_cases e2 : k = j
    · rw [e2, upd_same, hq]; rfl
    · rw [upd_ne _ _ e2]
      by_cases e1 : k = i
      · rw [e1, upd_same, hp]; rfl
      · rw [upd_ne _ _ e1]
  · intro k
    by_cases e1 : k = i
    · subst e1
      rw [if_pos ⟨rfl, hij, by rw [hmi p hp]; exact hin⟩, hmi p hp]
      simp only [mirrors]
      rw [upd_ne _ _ hij, upd_same]
      rfl
    · rw [if_neg (fun hx => e1 hx.1)]
      simp only [mirrors]
      by_cases e2 : k = j
      · rw [e2, upd_same, hq]
      · rw [upd_ne _ _ e2, upd_ne _ _ e1]

end Gp.Mirror
