import Verif.Index.Run
/-
C43: the indexing of compiled clauses on the first argument.

The specification is in Verif/Index/Run.lean: `mayMatch`, `GroupTried`, `Tried`.
-/
namespace Gp.Index
open Gp.Switch

/-- The clauses tried by a call of the predicate with the clauses `lcc`, in this order, each with the number of choice points of
the predicate when it is executed (and all of them fail). -/
def call (qs : List (Int × Lab) → List (Int × Lab)) (o : Orders) (lcc : List Cl) (q : Q) : Option (List (Nat × Nat)) :=
  run qs (indexing o lcc) q (indexing o lcc) [] []

/-- The hypotheses: the order of keysort is a total order on the keys, qsort sorts, clauses are distinct, and their integers are in
an interval of size 2^31 of C integers. -/
structure Hyp (qs : List (Int × Lab) → List (Int × Lab)) (o : Orders) (lcc : List Cl) (q : Q) : Prop where
  ord : o.Ok
  qsort : Sorts qs
  ne : lcc ≠ []
  nodup : (ids lcc).Nodup
  ints : ∃ lo, (-2147483648 ≤ lo ∧ lo ≤ 0) ∧ ∀ x ∈ lcc, ClOk lo x
  goal : QOk q

section
variable {qs : List (Int × Lab) → List (Int × Lab)} {o : Orders} {lcc : List Cl} {q : Q}

/-- C43: the execution of the code ends; the clauses tried are given by `Tried`. Partial: for the integers in `Hyp.ints` (see
C43_big_integer_not_tried). -/
theorem C43_tried_partial (h : Hyp qs o lcc q) : ∃ t, call qs o lcc q = some t ∧ Tried q lcc t := by
  obtain ⟨lo, hlo, hok⟩ := h.ints
  have hn := (labels_indexing1 h.ord lcc h.ne h.nodup false).1
  obtain ⟨t, h1, h2⟩ := run_indexing1 (c := indexing o lcc) h.ord hlo h.qsort h.goal hn lcc h.ne hok false (List.suffix_refl _)
  refine ⟨t, ?_, h1⟩
  have := h2 [] []
  rw [if_neg (by simp), List.nil_append] at this
  exact this

theorem mark_fst (n : Nat) (l : List Nat) : (mark n l).map (·.1) = l := by
  fun_induction mark n l with
  | case1 => rfl
  | case2 => rfl
  | case3 i j l ih => rw [List.map_cons, ih]

theorem groupTried_spec {lcc : List Cl} {vis : List Nat} (h : GroupTried q lcc vis) (hv : ∀ x ∈ lcc, x.arg ≠ .var) :
    vis.Sublist (ids lcc) ∧ ∀ x ∈ lcc, mayMatch q x = true → x.id ∈ vis := by
  rcases h with rfl | ⟨_, rfl⟩ | ⟨x, rfl, rfl⟩ | ⟨x, hx, rfl⟩
  · exact ⟨List.filter_sublist.map _, fun x hx hm => List.mem_map.2 ⟨x, List.mem_filter.2 ⟨hx, hm⟩, rfl⟩⟩
  · exact ⟨List.Sublist.refl _, fun x hx _ => List.mem_map.2 ⟨x, hx, rfl⟩⟩
  · exact ⟨List.Sublist.refl _, fun y hy _ => by simp at hy; simp [hy]⟩
  · constructor
    · have : ids (lcc.filter (sameType q)) = [x.id] := by rw [hx]; rfl
      rw [← this]
      exact List.filter_sublist.map _
    · intro y hy hm
      have hst : q ≠ .var := by
        rintro rfl
        have : x ∈ lcc.filter (sameType .var) := by rw [hx]; simp
        rw [List.mem_filter] at this
        simp [sameType] at this
      have hfd : q ≠ .fdv := by
        rintro rfl
        have : x ∈ lcc.filter (sameType .fdv) := by rw [hx]; simp
        rw [List.mem_filter] at this
        simp [sameType] at this
      have : y ∈ lcc.filter (sameType q) := by
        rw [List.mem_filter]
        refine ⟨hy, ?_⟩
        have hyv := hv y hy
        unfold mayMatch at hm
        unfold sameType
        cases q <;> cases hya : y.arg <;> simp_all
      rw [hx, List.mem_singleton] at this
      simp [this]

/-- C43: the clauses are tried in the order of the source, none twice, and every clause which may match is tried. -/
theorem C43_complete {t : List (Nat × Nat)} (h : Tried q lcc t) :
    (t.map (·.1)).Sublist (ids lcc) ∧ ∀ x ∈ lcc, mayMatch q x = true → x.id ∈ t.map (·.1) := by
  induction h with
  | grp l vis hv hg => rw [mark_fst]; exact groupTried_spec hg hv
  | last v hv => exact ⟨List.Sublist.refl _, by simp⟩
  | var v a l tr hv _ ih =>
    refine ⟨ih.1.cons_cons _, ?_⟩
    intro x hx hm
    rcases List.mem_cons.1 hx with rfl | hx
    · simp
    · exact List.mem_cons_of_mem _ (ih.2 x hx hm)
  | grpVar b v after vis tr hne hb hv hg _ ih =>
    obtain ⟨g1, g2⟩ := groupTried_spec hg hb
    rw [List.map_append, mark_fst]
    have hids : ids (b ++ v :: after) = ids b ++ ids (v :: after) := by simp [ids]
    rw [hids]
    refine ⟨g1.append ih.1, ?_⟩
    intro x hx hm
    rcases List.mem_append.1 hx with hx | hx
    · exact List.mem_append_left _ (g2 x hx hm)
    · exact List.mem_append_right _ (ih.2 x hx hm)

/-- The last element of a marked list has no choice point of its own. -/
theorem mark_last (n : Nat) (l : List Nat) (x : Nat) (hn : (l ++ [x]).Nodup) : ∀ m, (x, m) ∈ mark n (l ++ [x]) → m = n := by
  induction l with
  | nil => intro m h; simpa [mark] using h
  | cons y l ih =>
    intro m h
    have hne : y ≠ x := by
      rintro rfl
      simp at hn
    rw [List.cons_append, List.nodup_cons] at hn
    have hm : mark n (y :: l ++ [x]) = (y, n + 1) :: mark n (l ++ [x]) := by
      cases l <;> rfl
    rw [hm] at h
    rcases List.mem_cons.1 h with h | h
    · exact absurd (by injection h with h _; exact h.symm) hne
    · exact ih hn.2 m h

theorem mark_le (n : Nat) (l : List Nat) : ∀ e ∈ mark n l, e.2 ≤ n + 1 := by
  fun_induction mark n l with
  | case1 => simp
  | case2 => simp
  | case3 i j l ih => simpa using ih

/-- C43: the last clause of the predicate is executed without choice point of the predicate: a predicate whose last clause is
recursive runs in constant space for the choice points. -/
theorem C43_last_clause {t : List (Nat × Nat)} (h : Tried q lcc t) (hn : (ids lcc).Nodup) (l : List Cl) (x : Cl)
    (hl : lcc = l ++ [x]) (m : Nat) (hm : (x.id, m) ∈ t) : m = 0 := by
  have hx : ∀ (n : Nat) (lcc l : List Cl) (vis : List Nat) (_ : (ids lcc).Nodup) (_ : lcc = l ++ [x])
      (_ : vis.Sublist (ids lcc)) (m : Nat), (x.id, m) ∈ mark n vis → m = n := by
    intro n lcc l vis hn hl hs m hm
    have hmem : x.id ∈ vis := by
      have : x.id ∈ (mark n vis).map (·.1) := List.mem_map.2 ⟨_, hm, rfl⟩
      rwa [mark_fst] at this
    subst hl
    have hids : ids (l ++ [x]) = ids l ++ [x.id] := by simp [ids]
    rw [hids] at hs hn
    obtain ⟨a, b, rfl, ha, hb⟩ := List.sublist_append_iff.1 hs
    have hxa : x.id ∉ a := fun h' => by
      rw [List.nodup_append] at hn
      exact hn.2.2 _ (ha.subset h') x.id (by simp) rfl
    have : b = [x.id] := by
      rcases List.sublist_cons_iff.1 hb with h' | ⟨r, rfl, h'⟩
      · rw [List.sublist_nil] at h'
        subst h'
        rw [List.append_nil] at hmem
        exact absurd hmem hxa
      · rw [List.sublist_nil] at h'
        rw [h']
    subst this
    exact mark_last n a x.id (hs.nodup hn) m hm
  induction h generalizing l with
  | grp l' vis hv hg => exact hx 0 l' l vis hn hl (groupTried_spec hg hv).1 m hm
  | last v hv =>
    simp only [List.mem_singleton, Prod.mk.injEq] at hm
    exact hm.2
  | var v a l' tr hv _ ih =>
    cases l with
    | nil => simp at hl
    | cons y l =>
      rw [List.cons_append, List.cons.injEq] at hl
      unfold ids at hn
      rw [List.map_cons, List.nodup_cons] at hn
      rcases List.mem_cons.1 hm with hm | hm
      · injection hm with h1 _
        have : x.id ∈ (a :: l').map (·.id) := by rw [hl.2]; simp
        rw [h1] at this
        exact absurd this hn.1
      · exact ih hn.2 l hl.2 hm
  | grpVar b v after vis tr hne hb hv hg _ ih =>
    have hids : ids (b ++ v :: after) = ids b ++ ids (v :: after) := by simp [ids]
    rw [hids, List.nodup_append] at hn
    have hlast : ∃ l', v :: after = l' ++ [x] := by
      have h1 : (v :: after).getLast? = some x := by
        have : (b ++ v :: after).getLast? = some x := by rw [hl]; simp
        simpa [List.getLast?_append] using this
      obtain ⟨l', h'⟩ := List.getLast?_eq_some_iff.1 h1
      exact ⟨l', h'⟩
    obtain ⟨l', hl'⟩ := hlast
    rcases List.mem_append.1 hm with hm | hm
    · exfalso
      have h1 : x.id ∈ (mark 1 vis).map (·.1) := List.mem_map.2 ⟨_, hm, rfl⟩
      rw [mark_fst] at h1
      have h2 := (groupTried_spec hg hb).1.subset h1
      have h3 : x.id ∈ ids (v :: after) := by rw [hl']; simp [ids]
      exact hn.2.2 _ h2 _ h3 rfl
    · exact ih hn.2.1 l' hl' hm

/-- C43: a call uses at most two choice points of the predicate at the same time. -/
theorem C43_at_most_two {t : List (Nat × Nat)} (h : Tried q lcc t) : ∀ e ∈ t, e.2 ≤ 2 := by
  induction h with
  | grp l vis hv hg => intro e he; have := mark_le 0 vis e he; omega
  | last v hv => simp
  | var v a l tr hv _ ih => simpa using ih
  | grpVar b v after vis tr hne hb hv hg _ ih =>
    intro e he
    rcases List.mem_append.1 he with he | he
    · have := mark_le 1 vis e he; omega
    · exact ih e he

/-- C43: if no clause has a variable as first argument, the argument of the call is an atom, an integer, a list or a structure and
at most one clause may match, then at most one clause is tried and without choice point; if the predicate has several
clauses of the type of the argument, the clauses which cannot match are not tried at all. -/
theorem C43_deterministic {t : List (Nat × Nat)} (h : Tried q lcc t) (hv : ∀ x ∈ lcc, x.arg ≠ .var) (hq : q.special = false)
    (hone : (lcc.filter (mayMatch q)).length ≤ 1) :
    t = [] ∨ ∃ i, t = [(i, 0)] ∧ (2 ≤ (lcc.filter (sameType q)).length → ∃ x ∈ lcc, mayMatch q x = true ∧ x.id = i) := by
  have nov : ∀ v ∈ lcc, v.arg = .var → False := fun v hm h => hv v hm h
  cases h with
  | grp _ vis hg' hg =>
    rcases hg with rfl | ⟨hs, _⟩ | ⟨x, rfl, rfl⟩ | ⟨x, hx, rfl⟩
    · match hf : lcc.filter (mayMatch q), hone with
      | [], _ => exact .inl rfl
      | [x], _ =>
        refine .inr ⟨x.id, rfl, fun _ => ⟨x, ?_⟩⟩
        have : x ∈ lcc.filter (mayMatch q) := by rw [hf]; simp
        rw [List.mem_filter] at this
        exact ⟨this.1, this.2, rfl⟩
      | x :: y :: l, h => simp at h
    · rw [hq] at hs; simp at hs
    · refine .inr ⟨x.id, rfl, fun h2 => ?_⟩
      have := List.length_filter_le (sameType q) [x]
      simp only [List.length_cons, List.length_nil] at this
      omega
    · refine .inr ⟨x.id, rfl, fun h2 => ?_⟩
      rw [hx] at h2
      simp at h2
  | last v hv' => exact absurd hv' (hv v (by simp))
  | var v a l tr hv' _ => exact absurd hv' (hv v (by simp))
  | grpVar b v after vis tr _ _ hv' _ _ => exact absurd hv' (hv v (by simp))

/-- C43, the properties together, in terms of a call (for the integers in `Hyp.ints`). -/
theorem C43_call_partial (h : Hyp qs o lcc q) : ∃ t, call qs o lcc q = some t ∧
    (t.map (·.1)).Sublist (ids lcc) ∧ (∀ x ∈ lcc, mayMatch q x = true → x.id ∈ t.map (·.1)) ∧
    (∀ e ∈ t, e.2 ≤ 2) ∧ (∀ l x, lcc = l ++ [x] → ∀ m, (x.id, m) ∈ t → m = 0) := by
  obtain ⟨t, h1, h2⟩ := C43_tried_partial h
  exact ⟨t, h1, (C43_complete h2).1, (C43_complete h2).2, C43_at_most_two h2,
    fun l x hl m hm => C43_last_clause h2 h.nodup l x hl m hm⟩

end

/-! Examples -/

/-- A `qsort`. -/
def qsEx (l : List (Int × Lab)) : List (Int × Lab) := l.mergeSort (fun a b => decide (a.1 ≤ b.1))

theorem qsEx_sorts : Sorts qsEx := by
  intro lo h1 h2 l hl
  refine ⟨List.mergeSort_perm _ _, ?_⟩
  have hp : (qsEx l).Pairwise (fun a b => decide (a.1 ≤ b.1) = true) :=
    List.pairwise_mergeSort (le := fun (a b : Int × Lab) => decide (a.1 ≤ b.1))
      (fun a b c hab hbc => by simp only [decide_eq_true_eq] at *; omega)
      (fun a b => by simp only [Bool.or_eq_true, decide_eq_true_eq]; omega) l
  refine hp.imp_of_mem ?_
  intro a b ha hb hab
  have ha := hl a ((List.mergeSort_perm _ _).mem_iff.1 ha)
  have hb := hl b ((List.mergeSort_perm _ _).mem_iff.1 hb)
  unfold IntOk at ha hb
  unfold cmpInt toInt32
  simp only [decide_eq_true_eq] at hab
  omega

/-- Total orders on the keys. -/
def oEx : Orders :=
  ⟨fun a b => decide (a ≤ b), fun a b => decide (a ≤ b), fun a b => decide (a.1 < b.1 ∨ (a.1 = b.1 ∧ a.2 ≤ b.2))⟩

theorem oEx_ok : oEx.Ok := by
  refine ⟨⟨?_, ?_, ?_⟩, ⟨?_, ?_, ?_⟩, ⟨?_, ?_, ?_⟩⟩
  · intro a b; simp only [oEx, decide_eq_true_eq]; omega
  · intro a b c; simp only [oEx, decide_eq_true_eq]; omega
  · intro a b; simp only [oEx, decide_eq_true_eq]; omega
  · intro a b; simp only [oEx, decide_eq_true_eq]; omega
  · intro a b c; simp only [oEx, decide_eq_true_eq]; omega
  · intro a b; simp only [oEx, decide_eq_true_eq]; omega
  · intro a b; simp only [oEx, decide_eq_true_eq]; omega
  · intro a b c; simp only [oEx, decide_eq_true_eq]; omega
  · intro a b h1 h2
    simp only [oEx, decide_eq_true_eq] at h1 h2
    exact Prod.ext (by omega) (by omega)

/-- The clauses p(a). p([_|_]). p(b). p(a). p(X). p(1). p(f(_)). p(2). -/
def exCl : List Cl :=
  [⟨0, .atm 5⟩, ⟨1, .lst⟩, ⟨2, .atm 6⟩, ⟨3, .atm 5⟩, ⟨4, .var⟩, ⟨5, .int 1⟩, ⟨6, .stc 7 1⟩, ⟨7, .int 2⟩]

example : Tried (.atm 5) exCl [(0, 2), (3, 1), (4, 1)] :=
  .grpVar [⟨0, .atm 5⟩, ⟨1, .lst⟩, ⟨2, .atm 6⟩, ⟨3, .atm 5⟩] ⟨4, .var⟩ [⟨5, .int 1⟩, ⟨6, .stc 7 1⟩, ⟨7, .int 2⟩] [0, 3] [(4, 1)]
    (by simp) (by decide) rfl (.inl rfl)
    (.var ⟨4, .var⟩ ⟨5, .int 1⟩ [⟨6, .stc 7 1⟩, ⟨7, .int 2⟩] [] rfl (.grp _ [] (by decide) (.inl rfl)))

example : Hyp qsEx oEx exCl (.atm 5) := by
  refine ⟨oEx_ok, qsEx_sorts, by simp [exCl], by decide, ⟨0, by omega, ?_⟩, trivial⟩
  simp [exCl, ClOk, IntOk, StcOk]

/-- p(a). p(b). p(a). p(f(_)). has no clause with a variable: p(b) is deterministic. -/
example : ∃ t, Tried (.atm 6) [⟨0, .atm 5⟩, ⟨1, .atm 6⟩, ⟨2, .atm 5⟩, ⟨3, .stc 7 1⟩] t ∧ t = [(1, 0)] :=
  ⟨_, .grp _ [1] (by decide) (.inl rfl), rfl⟩

/-- The code violates C43: with the clauses p(4294967296). p(1). the call p(4294967296) tries no clause, although the first one
matches. -/
theorem C43_big_integer_not_tried (qs : List (Int × Lab) → List (Int × Lab)) (o : Orders) (hi : ∀ a b, o.int a b = decide (a ≤ b))
    (hqs : Sorts qs) :
    call qs o [⟨0, .int 4294967296⟩, ⟨1, .int 1⟩] (.int 4294967296) = some [] ∧
    mayMatch (.int 4294967296) ⟨0, .int 4294967296⟩ = true := by
  refine ⟨?_, rfl⟩
  have hidx : indexing o [⟨0, .int 4294967296⟩, ⟨1, .int 1⟩] =
      [.switchTerm (some (.lv 0)) none (some (.sw .int 0)) none none, .label (.sw .int 0),
       .switchInt [(4294967296, .ad 0), (1, .ad 1)], .label (.lv 0), .tryMe (.lv 1), .label (.ad 0), .clause 0, .label (.lv 1),
       .trustMe, .label (.ad 1), .clause 1] := by
    unfold indexing
    rw [indexing1_nonvar o (by simp)]
    simp [tm, mk2, firstId, atmPart, intPart, lstPart, stcPart, genSwitch, groupByKeys, groups, sameKey, genLst, genList,
      genInsts, genInsts1, createSwitch, List.mergeSort, List.MergeSort.Internal.splitInTwo, List.merge, hi]
  unfold call
  rw [hidx, run_switchTerm]
  have hg : ∀ c : List Ins, goto (.sw .int 0) (.switchTerm (some (.lv 0)) none (some (.sw .int 0)) none none ::
      .label (.sw .int 0) :: c) = some c := fun c => rfl
  simp only [Q.tag, emitSwitchOnTerm, Option.isSome_some, Option.isSome_none, switchOnTerm, jump, hg]
  rw [run_switch (r := none)]
  · rfl
  · simp only [doSwitch]
    rw [C28_big_integer_fails [(4294967296, .ad 0), (1, .ad 1)] _ ⟨_, hqs 0 (by omega) (by omega) _ ?_, rfl⟩ _ (.inr (by omega))]
    unfold loadKeys toInt32 IntOk
    simp

end Gp.Index
