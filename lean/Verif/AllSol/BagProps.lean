import Verif.AllSol.BagGroups
/-
Property C22: bagof/3 and setof/3.
-/
namespace Gp.AllSol
open Gp.Term Gp.Sort

/-! ## Specification of the free variables -/

/-- `gen` is `V1^...^Vn^g`, `ex` are the variables of `V1`, ..., `Vn`. -/
inductive Strip : Tree → Tree → List Nat → Prop
  | base {g : Tree} : (∀ v h, g ≠ .app caret [v, h]) → Strip g g []
  | exist {v h g : Tree} {ex : List Nat} : Strip h g ex → Strip (.app caret [v, h]) g (tvars v ++ ex)

theorem existVars_spec {max : Nat} (l : List Nat) (gen : Tree) : ∀ (l' : List Nat) (g : Tree),
    existVars max l gen = some (g, l') → ∃ ex, Strip gen g ex ∧ ∀ v, v ∈ l' ↔ v ∈ l ∨ v ∈ ex := by
  fun_induction existVars max l gen with
  | case1 l v g0 hb => intro l' g h; simp at h
  | case2 l v g0 l1 hb ih =>
    intro l' g h
    obtain ⟨ex, e1, e2⟩ := ih l' g h
    refine ⟨tvars v ++ ex, .exist e1, ?_⟩
    intro w
    rw [e2 w, boundVars_mem _ _ _ hb w, List.mem_append, or_assoc]
  | case3 l f v g0 hf =>
    intro l' g h
    simp only [Option.some.injEq, Prod.mk.injEq] at h
    obtain ⟨rfl, rfl⟩ := h
    refine ⟨[], .base ?_, by simp⟩
    intro a b h
    simp only [Tree.app.injEq] at h
    exact hf h.1
  | case4 l t ht =>
    intro l' g h
    simp only [Option.some.injEq, Prod.mk.injEq] at h
    obtain ⟨rfl, rfl⟩ := h
    exact ⟨[], .base fun v h e => ht _ _ _ e, by simp⟩

theorem tvars_ofList (l : List Nat) : tvars (.ofList (l.map .var)) = l := by
  induction l with
  | nil => simp [Tree.ofList, Tree.nil, tvars]
  | cons a l ih => simp [Tree.ofList, Tree.cons, tvars, ih]

theorem tvars_app (f : Name) (l : List Nat) : tvars (.app f (l.map .var)) = l := by
  simp only [tvars]
  induction l with
  | nil => rfl
  | cons a l ih => simp only [List.map_cons, List.flatMap_cons, ih, tvars, List.singleton_append]

/-- The free variables are kept in the order of their first occurrences. -/
theorem firsts_order (vs : List Nat) : (firsts [] vs).Pairwise fun a b => vs.idxOf a < vs.idxOf b := by
  have gen : ∀ (vs acc pre : List Nat), acc.Pairwise (fun a b => pre.idxOf a < pre.idxOf b) → (∀ a, a ∈ acc ↔ a ∈ pre) →
      (firsts acc vs).Pairwise fun a b => (pre ++ vs).idxOf a < (pre ++ vs).idxOf b := by
    intro vs
    induction vs with
    | nil => intro acc pre h _; simpa [firsts] using h
    | cons v vs ih =>
      intro acc pre h hm
      have happ : pre ++ v :: vs = (pre ++ [v]) ++ vs := by simp
      have hidx : ∀ a ∈ acc, (pre ++ [v]).idxOf a = pre.idxOf a := fun a ha =>
        by rw [List.idxOf_append, if_pos ((hm a).1 ha)]
      have hacc : acc.Pairwise fun a b => (pre ++ [v]).idxOf a < (pre ++ [v]).idxOf b := by
        refine List.Pairwise.imp_of_mem ?_ h
        intro a b ha hb hab
        rw [hidx a ha, hidx b hb]; exact hab
      rw [firsts, happ]
      split
      · rename_i hv
        refine ih acc (pre ++ [v]) hacc ?_
        intro a
        rw [List.mem_append, List.mem_singleton, ← hm a]
        constructor
        · exact .inl
        · rintro (h | rfl)
          · exact h
          · exact hv
      · rename_i hv
        refine ih (acc ++ [v]) (pre ++ [v]) ?_ ?_
        · refine List.pairwise_append.2 ⟨hacc, List.pairwise_singleton _ _, ?_⟩
          intro a ha b hb
          rw [List.mem_singleton] at hb
          subst hb
          rw [hidx a ha, List.idxOf_append, if_neg (fun h => hv ((hm b).2 h))]
          have := List.idxOf_lt_length_of_mem ((hm a).1 ha)
          omega
        · intro a
          rw [List.mem_append, List.mem_append, hm a]
  simpa using gen vs [] [] .nil (by simp)

theorem idx_eq (a : Nat) (vs : List Nat) : (a :: vs).idxOf a = 0 := by simp [List.idxOf_cons]

theorem idx_ne {v a : Nat} (h : v ≠ a) (vs : List Nat) : (v :: vs).idxOf a = vs.idxOf a + 1 := by
  rw [List.idxOf_cons, beq_false_of_ne h]; rfl

theorem idxOf_filter_lt {p : Nat → Bool} : ∀ (vs : List Nat) (a b : Nat), a ∈ vs → b ∈ vs → p a → p b →
    (vs.filter p).idxOf a < (vs.filter p).idxOf b → vs.idxOf a < vs.idxOf b
  | [], a, b, ha, _, _, _, _ => by simp at ha
  | v :: vs, a, b, ha, hb, pa, pb, h => by
    by_cases e2 : v = b
    · subst e2
      rw [List.filter_cons, if_pos pb, idx_eq] at h
      omega
    · by_cases e1 : v = a
      · subst e1
        rw [idx_eq, idx_ne e2]
        omega
      · have ha' : a ∈ vs := by rcases List.mem_cons.1 ha with h | h; exact absurd h.symm e1; exact h
        have hb' : b ∈ vs := by rcases List.mem_cons.1 hb with h | h; exact absurd h.symm e2; exact h
        rw [idx_ne e1, idx_ne e2]
        have h' : (vs.filter p).idxOf a < (vs.filter p).idxOf b := by
          by_cases hpv : p v
          · rw [List.filter_cons, if_pos hpv, idx_ne e1, idx_ne e2] at h
            omega
          · rw [List.filter_cons, if_neg hpv] at h
            exact h
        have := idxOf_filter_lt vs a b ha' hb' pa pb h'
        omega

/-- The key built for bagof/3 and setof/3: its variables are exactly the free variables of the goal, i.e. those of the goal
without its prefix `V1^...^Vn^` which are neither in the template nor in some `Vi`, each one once, in the order of their first
occurrences; there is no key if and only if there is no free variable. -/
theorem C22_free_variables {max : Nat} {templ gen g : Tree} {key : Option Tree}
    (h : freeVariables max templ gen = some (g, key)) :
    ∃ ex, Strip gen g ex ∧
      (key = none ↔ ∀ v ∈ tvars g, v ∈ tvars templ ∨ v ∈ ex) ∧
      ∀ k, key = some k → (∀ v, v ∈ tvars k ↔ v ∈ tvars g ∧ v ∉ tvars templ ∧ v ∉ ex) ∧
        (tvars k).Pairwise fun a b => (tvars g).idxOf a < (tvars g).idxOf b := by
  rw [freeVariables] at h
  cases hb : boundVars max [] (tvars templ) with
  | none => rw [hb] at h; simp at h
  | some l =>
    rw [hb] at h
    dsimp only at h
    cases he : existVars max l gen with
    | none => rw [he] at h; simp at h
    | some r =>
      obtain ⟨g', bound⟩ := r
      rw [he] at h
      dsimp only at h
      obtain ⟨ex, s1, s2⟩ := existVars_spec _ _ _ _ he
      have hbd : ∀ v, v ∈ bound ↔ v ∈ tvars templ ∨ v ∈ ex := by
        intro v
        rw [s2 v, boundVars_mem _ _ _ hb v]
        simp
      have hfv := free_fold bound (tvars g') []
      have hmem : ∀ v, v ∈ (tvars g').foldl (freeVar bound) [] ↔ v ∈ tvars g' ∧ v ∉ tvars templ ∧ v ∉ ex := by
        intro v
        rw [hfv, mem_firsts, List.mem_filter]
        simp only [List.not_mem_nil, false_or, decide_eq_true_eq, hbd, not_or]
      have hord : ((tvars g').foldl (freeVar bound) []).Pairwise fun a b => (tvars g').idxOf a < (tvars g').idxOf b := by
        rw [hfv]
        refine List.Pairwise.imp_of_mem ?_ (firsts_order _)
        intro a b ha hb' hab
        have ha' := (mem_firsts [] _ a).1 ha
        have hb'' := (mem_firsts [] _ b).1 hb'
        simp only [List.not_mem_nil, false_or, List.mem_filter] at ha' hb''
        exact idxOf_filter_lt _ a b ha'.1 hb''.1 ha'.2 hb''.2 hab
      by_cases h0 : ((tvars g').foldl (freeVar bound) []).length = 0
      · rw [if_pos h0] at h
        simp only [Option.some.injEq, Prod.mk.injEq] at h
        obtain ⟨rfl, rfl⟩ := h
        refine ⟨ex, s1, ⟨fun _ v hv => ?_, fun _ => rfl⟩, by simp⟩
        refine Classical.byContradiction fun hn => ?_
        rw [not_or] at hn
        have := (hmem v).2 ⟨hv, hn.1, hn.2⟩
        rw [List.length_eq_zero_iff] at h0
        rw [h0] at this
        simp at this
      · rw [if_neg h0] at h
        have hne : ∃ v ∈ tvars g', ¬ (v ∈ tvars templ ∨ v ∈ ex) := by
          cases hl : (tvars g').foldl (freeVar bound) [] with
          | nil => rw [hl] at h0; simp at h0
          | cons v _ =>
            have := (hmem v).1 (by rw [hl]; simp)
            exact ⟨v, this.1, by rw [not_or]; exact this.2⟩
        split at h
        · simp only [Option.some.injEq, Prod.mk.injEq] at h
          obtain ⟨rfl, rfl⟩ := h
          refine ⟨ex, s1, ⟨by simp, fun hall => ?_⟩, ?_⟩
          · obtain ⟨v, h1, h2⟩ := hne
            exact absurd (hall v h1) h2
          · intro k hk
            simp only [Option.some.injEq] at hk
            subst hk
            rw [tvars_app]
            exact ⟨hmem, hord⟩
        · simp only [Option.some.injEq, Prod.mk.injEq] at h
          obtain ⟨rfl, rfl⟩ := h
          refine ⟨ex, s1, ⟨by simp, fun hall => ?_⟩, ?_⟩
          · obtain ⟨v, h1, h2⟩ := hne
            exact absurd (hall v h1) h2
          · intro k hk
            simp only [Option.some.injEq] at hk
            subst hk
            rw [tvars_ofList]
            exact ⟨hmem, hord⟩

/-- `bagof(X, Y^p(X, Y, Z, f(T, Z)), L)`: the free variables are Z and T. -/
example : freeVariables 10 (.var 0) (.app caret [.var 1, .app [112] [.var 0, .var 1, .var 2, .app [102] [.var 3, .var 2]]]) =
    some (.app [112] [.var 0, .var 1, .var 2, .app [102] [.var 3, .var 2]], some (.app dot [.var 2, .var 3])) := by
  simp [freeVariables, tvars, boundVars, boundVar, existVars, freeVar]

/-! ## Groups -/

/-- The solutions recovered from the copies `sols` (pairs `Key - Template`, in the order of the execution): each one is a
variant of the solution, and two of them have the same key if and only if the keys of the solutions are variants. -/
structure Linked (sols ls : List Tree) : Prop where
  length : ls.length = sols.length
  variant : ∀ p ∈ sols.zip ls, IsPair p.2 ∧ TVariant p.1 p.2
  keys : ∀ p ∈ sols.zip ls, ∀ q ∈ sols.zip ls, arg0 p.2 = arg0 q.2 ↔ TVariant (arg0 p.1) (arg0 q.1)

/-- The solutions have no common variable. -/
def TApart (l : List Tree) : Prop := l.Pairwise fun t u => ∀ v ∈ tvars t, v ∉ tvars u

theorem Each.zip {R : Tree → Tree → Prop} : ∀ {l l' : List Tree}, Each R l l' →
    l'.length = l.length ∧ ∀ p ∈ l.zip l', R p.1 p.2
  | _, _, .nil => ⟨rfl, by simp⟩
  | _, _, .cons h1 h2 => by
    refine ⟨by simp [h2.zip.1], ?_⟩
    intro p hp
    rw [List.zip_cons_cons, List.mem_cons] at hp
    rcases hp with rfl | hp
    · exact h1
    · exact h2.zip.2 p hp

theorem mem_zip_left {l l' : List Tree} (h : l'.length = l.length) {x : Tree} (hx : x ∈ l') : ∃ t, (t, x) ∈ l.zip l' := by
  obtain ⟨i, hi, e⟩ := List.mem_iff_getElem.1 hx
  refine ⟨l[i]'(by omega), ?_⟩
  rw [List.mem_iff_getElem]
  exact ⟨i, by simp; omega, by simp [e]⟩

/-- The variables of the keys are linked as needed to group the solutions by `==`. -/
theorem C22_keys_linked {sols : List Tree} (hp : ∀ t ∈ sols, IsPair t) (ha : TApart sols) : Linked sols (linkAll sols) := by
  have hw : sols.reverse.Pairwise (fun t u => ∀ v ∈ tvars t, v ∉ tvars u) := by
    rw [List.pairwise_reverse]
    exact List.Pairwise.imp (fun h v h1 h2 => h v h2 h1) ha
  obtain ⟨F, rs, _, e2, e3⟩ := linkLoop_spec sols.reverse [] [] (by simp) (fun t ht => hp t (List.mem_reverse.1 ht))
    (by simp) hw
  rw [List.append_nil] at e2
  rw [List.reverse_reverse] at e3
  have hl : linkAll sols = rs := e2
  rw [hl]
  obtain ⟨z1, z2⟩ := e3.zip
  have hpz : ∀ p ∈ sols.zip rs, IsPair p.1 := fun p hp' => hp _ (List.of_mem_zip hp').1
  refine ⟨z1, ?_, ?_⟩
  · intro p hp'
    obtain ⟨φ, e, i, _⟩ := z2 p hp'
    exact ⟨by rw [e]; exact pair_rename (hpz p hp'), φ, i, e⟩
  · intro p hp' q hq'
    exact linked_keys (hpz p hp') (hpz q hq') (z2 p hp') (z2 q hq')

theorem Linked.ok {sols ls : List Tree} (L : Linked sols ls) (h : ∀ t ∈ sols, Ok t) : ∀ x ∈ ls, IsPair x ∧ Ok x := by
  intro x hx
  obtain ⟨t, ht⟩ := mem_zip_left L.length hx
  obtain ⟨p, φ, _, e⟩ := L.variant _ ht
  refine ⟨p, ?_⟩
  dsimp only at e
  rw [e]
  exact ok_rename (h t (List.of_mem_zip ht).1)

theorem ok_arg0 {x : Tree} (hp : IsPair x) (h : Ok x) : Ok (arg0 x) := by
  obtain ⟨k, v, rfl⟩ := hp
  exact h.arg k (by simp)

theorem ok_arg1 {x : Tree} (hp : IsPair x) (h : Ok x) : Ok (arg1 x) := by
  obtain ⟨k, v, rfl⟩ := hp
  exact h.arg v (by simp)

theorem filter_sameAs {k : Tree} (hk : Ok k) {l : List Tree} (hl : ∀ x ∈ l, Ok (arg0 x)) :
    (l.filter fun x => decide (Term.compare k (arg0 x) = 0)) = sameAs arg0 k l := by
  unfold sameAs
  apply List.filter_congr
  intro x hx
  rw [Bool.eq_iff_iff]
  simp only [decide_eq_true_eq]
  exact (compare_spec hk (hl x hx)).2.1

/-- bagof/3 with free variables. Let `sols` be the solutions `Key - Template` of the goal, in the order of the execution
(copies, thus without common variable) and `ls` the recovered ones (see `Linked`). The results on backtracking are: one for
each class of identical keys (i.e. solutions with variant keys), in the standard order of the keys, and the list of a key has the
values of all the solutions with this key, in the order of the solutions. -/
theorem C22_bagof (m : Sort.Mem Tree) (h : Nat) {sols : List Tree} (hp : ∀ t ∈ sols, IsPair t) (hok : ∀ t ∈ sols, Ok t)
    (ha : TApart sols) :
    ∃ ls, Linked sols ls ∧
      (bagofGroups false m h sols).Pairwise (fun g g' => StdLt g.1 g'.1) ∧
      (∀ g ∈ bagofGroups false m h sols, g.2 = (sameAs arg0 g.1 ls).map arg1 ∧ ∃ x ∈ ls, g.1 = arg0 x) ∧
      (∀ x ∈ ls, ∃ g ∈ bagofGroups false m h sols, Same g.1 (arg0 x)) := by
  have L := C22_keys_linked hp ha
  have hls := L.ok hok
  refine ⟨linkAll sols, L, ?_⟩
  simp only [bagofGroups, Bool.false_eq_true, if_false, sortArray_eq]
  generalize linkAll sols = ls at L hls ⊢
  have hk : ∀ x ∈ ls, Ok (arg0 x) := fun x hx => ok_arg0 (hls x hx).1 (hls x hx).2
  obtain ⟨p, s, c⟩ := sortL_keep keysort_cmpOk ls hk
  have hk' : ∀ x ∈ sortL keysortCmp true ls, Ok (arg0 x) := fun x hx => hk x (p.mem_iff.1 hx)
  have G := groups_spec _ _ rfl hk' s
  have hcmp : SortType.cmp .keysort = keysortCmp := rfl
  have hdec : (decide (SortType.keysort ≠ .sort)) = true := by decide
  rw [hcmp, hdec]
  have hkg : ∀ g ∈ groups (sortL keysortCmp true ls), Ok g.1 := by
    intro g hg
    obtain ⟨x, hx, e⟩ := G.key g hg
    rw [e]; exact hk' x hx
  refine ⟨?_, ?_, ?_⟩
  · refine List.Pairwise.imp_of_mem ?_ G.asc
    intro g g' hg hg' hlt
    exact (compare_spec (hkg g hg) (hkg g' hg')).1.1 hlt
  · intro g hg
    refine ⟨?_, ?_⟩
    · rw [G.val g hg, ← filter_sameAs (hkg g hg) hk]
      have := c (.app minus [g.1, g.1]) (hkg g hg)
      simp only [classOf, keysortCmp, arg0] at this
      exact congrArg (List.map arg1) this
    · obtain ⟨x, hx, e⟩ := G.key g hg
      exact ⟨x, p.mem_iff.1 hx, e⟩
  · intro x hx
    obtain ⟨g, hg, e⟩ := G.cov x (p.mem_iff.2 hx)
    exact ⟨g, hg, (compare_spec (hkg g hg) (hk x hx)).2.1.1 e⟩

/-- setof/3 with free variables: one result for each class of identical keys, in the standard order of the keys; the list of a key
is strictly ascending (sorted, without duplicates), its elements are values of solutions with this key, and each solution has its
value (an identical term) in the list of its key. -/
theorem C22_setof (m : Sort.Mem Tree) (h : Nat) {sols : List Tree} (hp : ∀ t ∈ sols, IsPair t) (hok : ∀ t ∈ sols, Ok t)
    (ha : TApart sols) :
    ∃ ls, Linked sols ls ∧
      (bagofGroups true m h sols).Pairwise (fun g g' => StdLt g.1 g'.1) ∧
      (∀ g ∈ bagofGroups true m h sols, g.2.Pairwise StdLt ∧ (∃ x ∈ ls, g.1 = arg0 x) ∧
        ∀ v ∈ g.2, ∃ x ∈ ls, Same g.1 (arg0 x) ∧ arg1 x = v) ∧
      (∀ x ∈ ls, ∃ g ∈ bagofGroups true m h sols, Same g.1 (arg0 x) ∧ ∃ v ∈ g.2, Same (arg1 x) v) := by
  have L := C22_keys_linked hp ha
  have hls := L.ok hok
  refine ⟨linkAll sols, L, ?_⟩
  simp only [bagofGroups, if_true, sortArray_eq]
  generalize linkAll sols = ls at L hls ⊢
  have hcmp : SortType.cmp .sort = Term.compare := rfl
  have hdec : (decide (SortType.sort ≠ .sort)) = false := by decide
  rw [hcmp, hdec]
  obtain ⟨s, p, c⟩ := sortL_dedup compare_cmpOk ls (fun x hx => (hls x hx).2)
  have hls' : ∀ x ∈ sortL Term.compare false ls, IsPair x ∧ Ok x := fun x hx => hls x (p x hx)
  have hk : ∀ x ∈ ls, Ok (arg0 x) := fun x hx => ok_arg0 (hls x hx).1 (hls x hx).2
  have hk' : ∀ x ∈ sortL Term.compare false ls, Ok (arg0 x) := fun x hx => hk x (p x hx)
  have pairLt : ∀ {a b : Tree}, IsPair a → IsPair b → Term.compare a b < 0 →
      Term.compare (arg0 a) (arg0 b) < 0 ∨ Term.compare (arg0 a) (arg0 b) = 0 ∧ Term.compare (arg1 a) (arg1 b) < 0 := by
    rintro a b ⟨k, v, rfl⟩ ⟨k', v', rfl⟩ hlt
    rw [compare_pair] at hlt
    simp only [arg0, arg1]
    by_cases h0 : Term.compare k k' = 0
    · rw [if_neg (by simp [h0])] at hlt; exact .inr ⟨h0, hlt⟩
    · rw [if_pos h0] at hlt; exact .inl hlt
  have hasc : Ascending keysortCmp (sortL Term.compare false ls) := by
    refine List.Pairwise.imp_of_mem ?_ s
    intro a b ha hb hlt
    show Term.compare (arg0 a) (arg0 b) ≤ 0
    rcases pairLt (hls' a ha).1 (hls' b hb).1 hlt with h | h <;> omega
  have G := groups_spec _ _ rfl hk' hasc
  have hkg : ∀ g ∈ groups (sortL Term.compare false ls), Ok g.1 := by
    intro g hg
    obtain ⟨x, hx, e⟩ := G.key g hg
    rw [e]; exact hk' x hx
  refine ⟨?_, ?_, ?_⟩
  · refine List.Pairwise.imp_of_mem ?_ G.asc
    intro g g' hg hg' hlt
    exact (compare_spec (hkg g hg) (hkg g' hg')).1.1 hlt
  · intro g hg
    refine ⟨?_, ?_, ?_⟩
    · rw [G.val g hg, List.pairwise_map]
      have := List.Pairwise.sublist (List.filter_sublist (p := fun x => decide (Term.compare g.1 (arg0 x) = 0))) s
      refine List.Pairwise.imp_of_mem ?_ this
      intro a b ha hb hlt
      rw [List.mem_filter, decide_eq_true_eq] at ha hb
      have oa := hls' a ha.1
      have ob := hls' b hb.1
      refine (compare_spec (ok_arg1 oa.1 oa.2) (ok_arg1 ob.1 ob.2)).1.1 ?_
      have h0 : Term.compare (arg0 a) (arg0 b) = 0 := by
        have := compare_cmpOk.eq_trans (hk' a ha.1) (hkg g hg) (hk' b hb.1)
          ((compare_cmpOk.eq_symm (hkg g hg) (hk' a ha.1)).1 ha.2) hb.2
        exact this
      rcases pairLt oa.1 ob.1 hlt with h | h
      · omega
      · exact h.2
    · obtain ⟨x, hx, e⟩ := G.key g hg
      exact ⟨x, p x hx, e⟩
    · intro v hv
      rw [G.val g hg] at hv
      obtain ⟨x, hx, e⟩ := List.mem_map.1 hv
      rw [List.mem_filter, decide_eq_true_eq] at hx
      exact ⟨x, p x hx.1, (compare_spec (hkg g hg) (hk' x hx.1)).2.1.1 hx.2, e⟩
  · intro x hx
    obtain ⟨y, hy, e⟩ := c x hx
    obtain ⟨g, hg, e2⟩ := G.cov y hy
    have ox := hls x hx
    have oy := hls' y hy
    have hxy : Term.compare (arg0 x) (arg0 y) = 0 ∧ Term.compare (arg1 x) (arg1 y) = 0 := by
      obtain ⟨k, v, rfl⟩ := ox.1
      obtain ⟨k', v', rfl⟩ := oy.1
      rw [compare_pair] at e
      simp only [arg0, arg1]
      by_cases h0 : Term.compare k k' = 0
      · rw [if_neg (by simp [h0])] at e; exact ⟨h0, e⟩
      · rw [if_pos h0] at e; exact absurd e h0
    refine ⟨g, hg, ?_, arg1 y, ?_, ?_⟩
    · refine (compare_spec (hkg g hg) (hk x hx)).2.1.1 ?_
      exact compare_cmpOk.eq_trans (hkg g hg) (hk' y hy) (hk x hx) e2 ((compare_cmpOk.eq_symm (hk x hx) (hk' y hy)).1 hxy.1)
    · rw [G.val g hg]
      exact List.mem_map.2 ⟨y, by rw [List.mem_filter, decide_eq_true_eq]; exact ⟨hy, e2⟩, rfl⟩
    · exact (compare_spec (ok_arg1 ox.1 ox.2) (ok_arg1 oy.1 oy.2)).2.1.1 hxy.2

/-- Without float -0.0, two solutions are in the same group (identical keys) exactly when their keys are variants. -/
theorem C22_same_group {sols ls : List Tree} (L : Linked sols ls) (hok : ∀ t ∈ sols, Ok t) (hz : ∀ t ∈ sols, NoNegZero t)
    {p q : Tree × Tree} (hp : p ∈ sols.zip ls) (hq : q ∈ sols.zip ls) :
    Same (arg0 p.2) (arg0 q.2) ↔ TVariant (arg0 p.1) (arg0 q.1) := by
  have hx : ∀ r ∈ sols.zip ls, Ok (arg0 r.2) ∧ NoNegZero (arg0 r.2) := by
    intro r hr
    obtain ⟨hpr, φ, _, e⟩ := L.variant r hr
    have h1 := ok_rename (φ := φ) (hok _ (List.of_mem_zip hr).1)
    have h2 := nnz_rename (φ := φ) (hz _ (List.of_mem_zip hr).1)
    rw [← e] at h1 h2
    refine ⟨ok_arg0 hpr h1, ?_⟩
    obtain ⟨k, v, hkv⟩ := hpr
    rw [hkv] at h2 ⊢
    cases h2 with
    | app _ _ h => exact h k (by simp)
  rw [← L.keys p hp q hq]
  constructor
  · intro h; exact same_eq h (hx p hp).2 (hx q hq).2
  · intro h; rw [h]; exact ok_same_refl _ (hx q hq).1

/-- Three solutions: `f(X)-1`, `g(Y)-2`, `f(Z)-0`. -/
def exSols : List Tree :=
  [.app minus [.app [102] [.var 10], .int 1], .app minus [.app [103] [.var 20], .int 2], .app minus [.app [102] [.var 30], .int 0]]

/-- The recovered solutions: `f(30)-1`, `g(30)-2`, `f(30)-0`. -/
example : linkAll exSols =
    [.app minus [.app [102] [.var 30], .int 1], .app minus [.app [103] [.var 30], .int 2],
      .app minus [.app [102] [.var 30], .int 0]] := by
  simp [linkAll, exSols, linkLoop, linkKey, arg0, tvars, linkVar, lookup, trename]

/-- The hypotheses of `C22_bagof`, `C22_setof` and `C22_same_group` are satisfied by `exSols`. -/
example : (∀ t ∈ exSols, IsPair t) ∧ (∀ t ∈ exSols, Ok t) ∧ TApart exSols ∧ (∀ t ∈ exSols, NoNegZero t) := by
  refine ⟨?_, ?_, ?_, ?_⟩
  · intro t ht
    simp only [exSols, List.mem_cons, List.not_mem_nil, or_false] at ht
    rcases ht with rfl | rfl | rfl <;> exact ⟨_, _, rfl⟩
  · intro t ht
    simp only [exSols, List.mem_cons, List.not_mem_nil, or_false] at ht
    rcases ht with rfl | rfl | rfl <;>
    · refine .app _ _ (by simp [minus]) ?_
      intro u hu
      simp only [List.mem_cons, List.not_mem_nil, or_false] at hu
      rcases hu with rfl | rfl
      · refine .app _ _ (by simp) ?_
        intro w hw
        simp only [List.mem_cons, List.not_mem_nil, or_false] at hw
        subst hw
        exact .var _
      · exact .int _
  · simp [TApart, exSols, tvars]
  · intro t ht
    simp only [exSols, List.mem_cons, List.not_mem_nil, or_false] at ht
    rcases ht with rfl | rfl | rfl <;>
    · refine .app _ _ ?_
      intro u hu
      simp only [List.mem_cons, List.not_mem_nil, or_false] at hu
      rcases hu with rfl | rfl
      · refine .app _ _ ?_
        intro w hw
        simp only [List.mem_cons, List.not_mem_nil, or_false] at hw
        subst hw
        exact .var _
      · exact .int _

/-- The groups of a sorted list (as an execution): `f(30)` with `[1, 0]` then `g(30)` with `[2]`. -/
example : groups [.app minus [.app [102] [.var 30], .int 1], .app minus [.app [102] [.var 30], .int 0],
      .app minus [.app [103] [.var 30], .int 2]] =
    [(.app [102] [.var 30], [.int 1, .int 0]), (.app [103] [.var 30], [.int 2])] := by
  simp [groups, groupLoop, arg0, arg1, Term.compare, compareArgs, strcmp]

/-! ## Without free variables -/

/-- setof/3 and bagof/3 without free variables (solutions without variables), called with an unbound third argument: they fail if
there is no solution; otherwise the result of bagof/3 is the list of the solutions, the one of setof/3 is strictly ascending with the
same elements.
Missing for the full property: an instantiated third argument, for which it is false (`C22_setof_instantiated_fails`,
`C22_setof_instantiated_modified`). -/
theorem C22_no_free_variables_partial (m : Sort.Mem Tree) (h v : Nat) (sols : List Tree) (hok : ∀ t ∈ sols, Ok t) (res : Tree) :
    (bagofNoFree false m h sols (.var v) res ↔ sols ≠ [] ∧ res = .ofList sols) ∧
    (bagofNoFree true m h sols (.var v) res ↔ sols ≠ [] ∧ ∃ r, res = .ofList r ∧ r = sortArray .sort m h sols) ∧
    (sortArray .sort m h sols).Pairwise StdLt ∧ (∀ x ∈ sortArray .sort m h sols, x ∈ sols) ∧
    (∀ x ∈ sols, ∃ y ∈ sortArray .sort m h sols, Same x y) := by
  obtain ⟨s, p, c⟩ := sortL_dedup compare_cmpOk sols hok
  have e : sortArray .sort m h sols = sortL Term.compare false sols := sortArray_eq _ _ _ _
  have hr : ∀ x ∈ sortL Term.compare false sols, Ok x := fun x hx => hok x (p x hx)
  refine ⟨?_, ?_, ?_, ?_, ?_⟩
  · simp [bagofNoFree]
  · simp only [bagofNoFree, if_true]
    constructor
    · rintro ⟨_, h1, h2⟩; exact ⟨h1, _, h2, rfl⟩
    · rintro ⟨h1, r, h2, rfl⟩; exact ⟨.inl ⟨v, rfl⟩, h1, h2⟩
  · rw [e]
    refine List.Pairwise.imp_of_mem ?_ s
    intro a b ha hb hab
    exact (compare_spec (hr a ha) (hr b hb)).1.1 hab
  · rw [e]; exact p
  · rw [e]
    intro x hx
    obtain ⟨y, hy, e⟩ := c x hx
    exact ⟨y, hy, (compare_spec (hok x hx) (hr y hy)).2.1.1 e⟩

example : ∀ t ∈ [Tree.atm [98], .atm [97]], Ok t := by
  intro t ht
  simp only [List.mem_cons, List.not_mem_nil, or_false] at ht
  rcases ht with rfl | rfl <;> exact .atm _ (by simp)

/-- Disagreement: `setof(X, (X = b ; X = a), [a, b])` fails. -/
theorem C22_setof_instantiated_fails (m : Sort.Mem Tree) (h : Nat) :
    ¬ ∃ res, bagofNoFree true m h [.atm [98], .atm [97]] (.ofList [.atm [97], .atm [98]]) res := by
  rintro ⟨res, (⟨v, hv⟩ | hv), _, _⟩
  · simp [Tree.ofList, Tree.cons] at hv
  · simp [Tree.ofList, Tree.cons] at hv

/-- Disagreement: `setof(X, (X = b ; X = a), [b, a])` succeeds and the list `[b, a]` of the caller is then `[a, b]`. -/
theorem C22_setof_instantiated_modified (m : Sort.Mem Tree) (h : Nat) :
    bagofNoFree true m h [.atm [98], .atm [97]] (.ofList [.atm [98], .atm [97]]) (.ofList [.atm [97], .atm [98]]) := by
  refine ⟨.inr rfl, by simp, ?_⟩
  rw [if_pos rfl, sortArray_eq]
  have h1 : ∀ x : Tree, sortL Term.compare false [x] = [x] := fun x => by rw [sortL]; simp
  have : sortL (SortType.cmp .sort) (decide (SortType.sort ≠ .sort)) [.atm [98], .atm [97]] = [.atm [97], .atm [98]] := by
    show sortL Term.compare false _ = _
    rw [sortL]
    simp [h1, mergeL, dedupL, dedupFrom, Term.compare, strcmp]
  rw [this]

end Gp.AllSol
