import Verif.Index.Labels
/-
Specification of the clauses tried, and proof for the code of a group and of a predicate.
-/
namespace Gp.Index
open Gp.Switch

/-- The first argument of the head may unify with the argument of the call (only the principal functors are considered). A float
or an argument which is not indexed is `var` in the clause. -/
def mayMatch (q : Q) (x : Cl) : Bool :=
  match q, x.arg with
  | _, .var => true
  | .var, _ => true
  | .fdv, .int _ => true
  | .atm a, .atm b => a == b
  | .int a, .int b => a == b
  | .lst, .lst => true
  | .stc f n, .stc f' n' => f == f' && n == n'
  | _, _ => false

/-- Same type. -/
def sameType (q : Q) (x : Cl) : Bool :=
  match q, x.arg with
  | .atm _, .atm _ => true
  | .int _, .int _ => true
  | .lst, .lst => true
  | .stc _ _, .stc _ _ => true
  | _, _ => false

/-- The argument of the call is an FD variable or a float: clauses which cannot match may be tried. -/
def Q.special : Q → Bool
  | .fdv => true
  | .flt => true
  | _ => false

/-- The clauses tried in a group of clauses without variables: exactly those which may match, or the only clause of the group, or
the only clause of the type of the argument (then there is no test before the clause). -/
def GroupTried (q : Q) (lcc : List Cl) (vis : List Nat) : Prop :=
  vis = ids (lcc.filter (mayMatch q)) ∨
  (q.special = true ∧ vis = ids lcc) ∨
  (∃ x, lcc = [x] ∧ vis = [x.id]) ∨
  (∃ x, lcc.filter (sameType q) = [x] ∧ vis = [x.id])

/-- The clauses tried by a call, with the number of choice points of the predicate during the execution of the clause. -/
inductive Tried (q : Q) : List Cl → List (Nat × Nat) → Prop where
  | grp (l : List Cl) (vis : List Nat) : (∀ x ∈ l, x.arg ≠ .var) → GroupTried q l vis → Tried q l (mark 0 vis)
  | last (v : Cl) : v.arg = .var → Tried q [v] [(v.id, 0)]
  | var (v a : Cl) (l : List Cl) (tr : List (Nat × Nat)) : v.arg = .var → Tried q (a :: l) tr →
      Tried q (v :: a :: l) ((v.id, 1) :: tr)
  | grpVar (b : List Cl) (v : Cl) (after : List Cl) (vis : List Nat) (tr : List (Nat × Nat)) : b ≠ [] →
      (∀ x ∈ b, x.arg ≠ .var) → v.arg = .var →
      GroupTried q b vis → Tried q (v :: after) tr → Tried q (b ++ v :: after) (mark 1 vis ++ tr)

/-! The parts of a group -/

theorem withKey_atm (a : Nat) (l : List Cl) (h : ∀ x ∈ l, x.arg ≠ .var) :
    withKey a (atmPart l) = ids (l.filter (mayMatch (.atm a))) := by
  induction l with
  | nil => rfl
  | cons x l ih =>
    have ih := ih (fun y hy => h y (by simp [hy]))
    have hx := h x (by simp)
    obtain ⟨i, g⟩ := x
    unfold withKey atmPart ids at *
    cases g with
    | var => exact absurd rfl hx
    | atm b =>
      by_cases hab : b = a
      · subst hab; simp [List.filter_cons, mayMatch, ih]
      · have : a ≠ b := fun h => hab h.symm
        simp [List.filter_cons, mayMatch, hab, this, ih]
    | int n => simpa [List.filter_cons, mayMatch] using ih
    | lst => simpa [List.filter_cons, mayMatch] using ih
    | stc f n => simpa [List.filter_cons, mayMatch] using ih

theorem withKey_int (a : Int) (l : List Cl) (h : ∀ x ∈ l, x.arg ≠ .var) :
    withKey a (intPart l) = ids (l.filter (mayMatch (.int a))) := by
  induction l with
  | nil => rfl
  | cons x l ih =>
    have ih := ih (fun y hy => h y (by simp [hy]))
    have hx := h x (by simp)
    obtain ⟨i, g⟩ := x
    unfold withKey intPart ids at *
    cases g with
    | var => exact absurd rfl hx
    | int b =>
      by_cases hab : b = a
      · subst hab; simp [List.filter_cons, mayMatch, ih]
      · have : a ≠ b := fun h => hab h.symm
        simp [List.filter_cons, mayMatch, hab, this, ih]
    | atm n => simpa [List.filter_cons, mayMatch] using ih
    | lst => simpa [List.filter_cons, mayMatch] using ih
    | stc f n => simpa [List.filter_cons, mayMatch] using ih

theorem withKey_stc (f n : Nat) (l : List Cl) (h : ∀ x ∈ l, x.arg ≠ .var) :
    withKey (f, n) (stcPart l) = ids (l.filter (mayMatch (.stc f n))) := by
  induction l with
  | nil => rfl
  | cons x l ih =>
    have ih := ih (fun y hy => h y (by simp [hy]))
    have hx := h x (by simp)
    obtain ⟨i, g⟩ := x
    unfold withKey stcPart ids at *
    cases g with
    | var => exact absurd rfl hx
    | stc f' n' =>
      by_cases hab : (f', n') = (f, n)
      · simp only [Prod.mk.injEq] at hab
        obtain ⟨rfl, rfl⟩ := hab
        simp [List.filter_cons, mayMatch, ih]
      · have : ¬ (f = f' ∧ n = n') := fun h => hab (by rw [h.1, h.2])
        have hb : mayMatch (.stc f n) ⟨i, .stc f' n'⟩ = false := by
          rw [Bool.eq_false_iff]
          simpa [mayMatch] using this
        simp only [List.filterMap_cons, List.filter_cons]
        rw [if_neg (by simpa using hab), hb]
        simpa using ih
    | int n => simpa [List.filter_cons, mayMatch] using ih
    | lst => simpa [List.filter_cons, mayMatch] using ih
    | atm a => simpa [List.filter_cons, mayMatch] using ih

theorem lstPart_eq (l : List Cl) (h : ∀ x ∈ l, x.arg ≠ .var) : lstPart l = ids (l.filter (mayMatch .lst)) := by
  induction l with
  | nil => rfl
  | cons x l ih =>
    have ih := ih (fun y hy => h y (by simp [hy]))
    have hx := h x (by simp)
    obtain ⟨i, g⟩ := x
    unfold lstPart ids at *
    cases g with
    | var => exact absurd rfl hx
    | lst => simp [List.filter_cons, mayMatch, ih]
    | int n => simpa [List.filter_cons, mayMatch] using ih
    | stc f n => simpa [List.filter_cons, mayMatch] using ih
    | atm a => simpa [List.filter_cons, mayMatch] using ih

theorem part_snd (l : List Cl) (q : Q) :
    (∀ a, q = .atm a → (atmPart l).map (·.2) = ids (l.filter (sameType q))) ∧
    (∀ a, q = .int a → (intPart l).map (·.2) = ids (l.filter (sameType q))) ∧
    (∀ f n, q = .stc f n → (stcPart l).map (·.2) = ids (l.filter (sameType q))) := by
  refine ⟨?_, ?_, ?_⟩
  · rintro a rfl
    induction l with
    | nil => rfl
    | cons x l ih =>
      obtain ⟨i, g⟩ := x
      unfold atmPart ids at *
      cases g <;> simpa [List.filter_cons, sameType] using ih
  · rintro a rfl
    induction l with
    | nil => rfl
    | cons x l ih =>
      obtain ⟨i, g⟩ := x
      unfold intPart ids at *
      cases g <;> simpa [List.filter_cons, sameType] using ih
  · rintro f n rfl
    induction l with
    | nil => rfl
    | cons x l ih =>
      obtain ⟨i, g⟩ := x
      unfold stcPart ids at *
      cases g <;> simpa [List.filter_cons, sameType] using ih

theorem single_part {κ : Type} {p : List (κ × Nat)} {l : List Cl} {f : Cl → Bool} (h : p.map (·.2) = ids (l.filter f))
    {vis : List Nat} (hv : ∃ e, p = [e] ∧ vis = [e.2]) : ∃ x, l.filter f = [x] ∧ vis = [x.id] := by
  obtain ⟨e, rfl, rfl⟩ := hv
  unfold ids at h
  cases hl : l.filter f with
  | nil => rw [hl] at h; simp at h
  | cons x r =>
    rw [hl] at h
    simp only [List.map_cons, List.map_nil, List.cons.injEq] at h
    cases r with
    | nil => exact ⟨x, rfl, by rw [h.1]⟩
    | cons _ _ => simp at h

/-! The switch instructions -/

/-- The hypotheses on the integers of the clauses: see C28_integer_partial. -/
def IntOk (lo : Int) (n : Int) : Prop := lo ≤ n ∧ n < lo + 2147483648

/-- `qs` sorts the lists of keys in such an interval (for other lists, the comparison function is not an order). -/
def Sorts (qs : List (Int × Lab) → List (Int × Lab)) : Prop :=
  ∀ lo, -2147483648 ≤ lo → lo ≤ 0 → ∀ l, (∀ e ∈ l, IntOk lo e.1) → Sorted l (qs l)

/-- The atoms and the arities. -/
def StcOk (k : Nat × Nat) : Prop := k.1 < 2 ^ 31 ∧ k.2 ≤ 255

section
variable {qs : List (Int × Lab) → List (Int × Lab)} {c : List Ins}

theorem swOk_atm (a : Nat) : SwOk qs (.atm a) Ins.switchAtm (fun _ => True) a := by
  intro t hn _
  obtain ⟨tb, h1, h2⟩ := C28_table (t.map fun e => ((e.1 : Int), e.2)) (by
    intro e he
    rw [List.mem_map] at he
    obtain ⟨e', _, rfl⟩ := he
    simp) (by
    rw [List.Nodup, List.pairwise_map] at hn
    rw [List.Nodup, List.pairwise_map, List.pairwise_map]
    exact hn.imp fun h h' => h (Int.ofNat.inj h'))
  obtain ⟨r, h3, h4⟩ := h2 a (by omega)
  rw [List.length_map] at h3
  refine ⟨r, by simp only [doSwitch, h1, Option.bind_some]; exact h3, fun l => (h4 l).trans ?_⟩
  rw [List.mem_map]
  constructor
  · rintro ⟨⟨k, l'⟩, he, h⟩
    simp only [Prod.mk.injEq, Int.natCast_inj] at h
    obtain ⟨rfl, rfl⟩ := h
    exact he
  · intro h
    exact ⟨(a, l), h, rfl⟩

theorem swOk_int {lo : Int} (hlo : -2147483648 ≤ lo ∧ lo ≤ 0) (hqs : Sorts qs) (n : Int) :
    SwOk qs (.int n) Ins.switchInt (IntOk lo) n := by
  intro t hn hP
  refine ⟨_, rfl, fun l => C28_integer_partial t (switchRec (qs (loadKeys t))) hn ?_ ?_ ⟨_, hqs lo hlo.1 hlo.2 _ ?_, rfl⟩ n l⟩
  · intro e he
    have := hP e he
    unfold IntOk at this
    omega
  · intro e he e' he'
    have := hP e he
    have := hP e' he'
    unfold IntOk at *
    omega
  · intro e he
    unfold loadKeys at he
    rw [List.mem_map] at he
    obtain ⟨e', he', rfl⟩ := he
    have := hP e' he'
    unfold IntOk toInt32 at *
    simp only
    omega

theorem swOk_stc (k : Nat × Nat) (hk : StcOk k) : SwOk qs (.stc k.1 k.2) Ins.switchStc StcOk k := by
  intro t hn hP
  have inj : ∀ a b : Nat × Nat, StcOk a → StcOk b → skey a = skey b → a = b := by
    intro a b ha hb h
    have := (C28_structure_keys a.1 a.2 b.1 b.2 ha.1 ha.2 hb.1 hb.2).2 h
    exact Prod.ext this.1 this.2
  have pos : ∀ a : Nat × Nat, StcOk a → 0 ≤ skey a := fun a ha => (C28_structure_keys a.1 a.2 a.1 a.2 ha.1 ha.2 ha.1 ha.2).1
  obtain ⟨tb, h1, h2⟩ := C28_table (t.map fun e => (skey e.1, e.2)) (by
    intro e he
    rw [List.mem_map] at he
    obtain ⟨e', he', rfl⟩ := he
    exact pos _ (hP e' he')) (by
    rw [List.Nodup, List.pairwise_map] at hn
    rw [List.Nodup, List.pairwise_map, List.pairwise_map]
    exact hn.imp_of_mem fun ha hb h h' => h (inj _ _ (hP _ ha) (hP _ hb) h'))
  obtain ⟨r, h3, h4⟩ := h2 (skey k) (pos k hk)
  rw [List.length_map] at h3
  refine ⟨r, by simp only [doSwitch, h1, Option.bind_some]; exact h3, fun l => (h4 l).trans ?_⟩
  rw [List.mem_map]
  constructor
  · rintro ⟨⟨k', l'⟩, he, h⟩
    simp only [Prod.mk.injEq] at h
    obtain ⟨h, rfl⟩ := h
    have := inj _ _ (hP _ he) hk h
    rw [← this]
    exact he
  · intro h
    exact ⟨(k, l), h, rfl⟩

/-- The hypotheses on the clauses. -/
def ClOk (lo : Int) (x : Cl) : Prop :=
  match x.arg with
  | .int n => IntOk lo n
  | .stc f n => StcOk (f, n)
  | _ => True

/-- The hypotheses on the call: for a structure only. -/
def QOk : Q → Prop
  | .stc f n => StcOk (f, n)
  | _ => True

theorem intPart_ok {lo : Int} {l : List Cl} (h : ∀ x ∈ l, ClOk lo x) : ∀ e ∈ intPart l, IntOk lo e.1 := by
  intro e he
  unfold intPart at he
  rw [List.mem_filterMap] at he
  obtain ⟨⟨i, a⟩, hx, he⟩ := he
  have := h _ hx
  cases a <;> simp at he
  subst he
  exact this

theorem stcPart_ok {lo : Int} {l : List Cl} (h : ∀ x ∈ l, ClOk lo x) : ∀ e ∈ stcPart l, StcOk e.1 := by
  intro e he
  unfold stcPart at he
  rw [List.mem_filterMap] at he
  obtain ⟨⟨i, a⟩, hx, he⟩ := he
  have := h _ hx
  cases a <;> simp at he
  subst he
  exact this

theorem run_mk2 {o : Orders} (ho : o.Ok) {lo : Int} (hlo : -2147483648 ≤ lo ∧ lo ≤ 0) (hqs : Sorts qs) {q : Q}
    (hq : QOk q) (lcc : List Cl) (hne : lcc ≠ []) (hv : ∀ x ∈ lcc, x.arg ≠ .var) (hok : ∀ x ∈ lcc, ClOk lo x)
    (hn : (labels c).Nodup) {post : List Ins} (hs : mk2 o lcc ++ post <:+ c) :
    ∃ vis, GroupTried q lcc vis ∧ ∀ st tr, run qs c q (mk2 o lcc ++ post) st tr = bt qs c q st (tr ++ mark st.length vis) := by
  match lcc, hne with
  | [x], _ =>
    rw [mk2_single]
    refine ⟨[x.id], .inr (.inr (.inl ⟨x, rfl, rfl⟩)), fun st tr => ?_⟩
    rw [List.singleton_append, run_clause]
    rfl
  | x :: y :: l, _ =>
    rw [mk2_many] at hs ⊢
    simp only [List.cons_append, List.append_assoc] at hs ⊢
    have s0 := suffix_tail hs
    have s1 := suffix_right s0
    have s2 := suffix_right s1
    have s3 := suffix_right s2
    have s4 := suffix_right s3
    have had := adOk_genInsts hn s4
    have hadI : ∀ i ∈ ids (x :: y :: l), AdOk c i := by
      intro i hi
      unfold ids at hi
      rw [List.mem_map] at hi
      obtain ⟨z, hz, rfl⟩ := hi
      exact had z hz
    obtain ⟨p1, p2, p3, p4⟩ := parts_sub (x :: y :: l)
    have tv := tries_genInsts (q := q) (qs := qs) x y l hn post s4
    suffices h : ∃ vis, GroupTried q (x :: y :: l) vis ∧ Tries qs c q (emitSwitchOnTerm (genInsts (x :: y :: l)).1
        (genSwitch .atm x.id Ins.switchAtm (groupByKeys o.atm (atmPart (x :: y :: l)))).1
        (genSwitch .int x.id Ins.switchInt (groupByKeys o.int (intPart (x :: y :: l)))).1
        (genLst (lstPart (x :: y :: l))).1
        (genSwitch .stc x.id Ins.switchStc (groupByKeys o.stc (stcPart (x :: y :: l)))).1 q.tag) vis by
      obtain ⟨vis, h1, h2⟩ := h
      refine ⟨vis, h1, fun st tr => ?_⟩
      rw [run_switchTerm]
      exact h2 st tr
    have hall : (x :: y :: l).filter (mayMatch .var) = x :: y :: l := by
      rw [List.filter_eq_self]
      intro z _
      unfold mayMatch
      cases z.arg <;> rfl
    cases q with
    | var =>
      rw [C28_switch_on_term _ _ _ _ _ _ (by simp [Q.tag])]
      exact ⟨_, .inl (by rw [hall]; rfl), tv⟩
    | fdv =>
      rw [C28_switch_on_term _ _ _ _ _ _ (by simp [Q.tag])]
      exact ⟨_, .inr (.inl ⟨rfl, rfl⟩), tv⟩
    | flt =>
      rcases C28_switch_on_term_float (genInsts (x :: y :: l)).1
        (genSwitch .atm x.id Ins.switchAtm (groupByKeys o.atm (atmPart (x :: y :: l)))).1
        (genSwitch .int x.id Ins.switchInt (groupByKeys o.int (intPart (x :: y :: l)))).1
        (genLst (lstPart (x :: y :: l))).1
        (genSwitch .stc x.id Ins.switchStc (groupByKeys o.stc (stcPart (x :: y :: l)))).1 with h | h
      · simp only [Q.tag]
        rw [h]
        exact ⟨_, .inr (.inl ⟨rfl, rfl⟩), tv⟩
      · simp only [Q.tag]
        rw [h]
        refine ⟨[], .inl ?_, tries_none⟩
        have : (x :: y :: l).filter (mayMatch .flt) = [] := by
          rw [List.filter_eq_nil_iff]
          intro z hz
          have := hv z hz
          unfold mayMatch
          cases hz : z.arg <;> simp_all
        rw [this]; rfl
    | lst =>
      rw [C28_switch_on_term _ _ _ _ _ _ (by simp [Q.tag])]
      refine ⟨lstPart (x :: y :: l), .inl (lstPart_eq _ hv), ?_⟩
      exact tries_genLst hn s2 (fun i hi => hadI i (p3.subset hi))
    | atm a =>
      rw [C28_switch_on_term _ _ _ _ _ _ (by simp [Q.tag])]
      obtain ⟨vis, h1, h2⟩ := tries_genSwitch (qs := qs) (q := .atm a) ho.atm (by simp) hn s0
        (fun e he => hadI _ (p1.subset (List.mem_map.2 ⟨e, he, rfl⟩))) (fun _ _ => trivial) (swOk_atm a)
      refine ⟨vis, ?_, h1⟩
      rcases h2 with h2 | h2
      · exact .inl (by rw [h2, withKey_atm _ _ hv])
      · exact .inr (.inr (.inr (single_part ((part_snd _ (.atm a)).1 a rfl) h2)))
    | int a =>
      rw [C28_switch_on_term _ _ _ _ _ _ (by simp [Q.tag])]
      obtain ⟨vis, h1, h2⟩ := tries_genSwitch (qs := qs) (q := .int a) ho.int (by simp) hn s1
        (fun e he => hadI _ (p2.subset (List.mem_map.2 ⟨e, he, rfl⟩))) (intPart_ok hok) (swOk_int hlo hqs a)
      refine ⟨vis, ?_, h1⟩
      rcases h2 with h2 | h2
      · exact .inl (by rw [h2, withKey_int _ _ hv])
      · exact .inr (.inr (.inr (single_part ((part_snd _ (.int a)).2.1 a rfl) h2)))
    | stc f n =>
      rw [C28_switch_on_term _ _ _ _ _ _ (by simp [Q.tag])]
      obtain ⟨vis, h1, h2⟩ := tries_genSwitch (qs := qs) (q := .stc f n) ho.stc (by simp) hn s3
        (fun e he => hadI _ (p4.subset (List.mem_map.2 ⟨e, he, rfl⟩))) (stcPart_ok hok) (swOk_stc (f, n) hq)
      refine ⟨vis, ?_, h1⟩
      rcases h2 with h2 | h2
      · exact .inl (by rw [h2, withKey_stc _ _ _ hv])
      · exact .inr (.inr (.inr (single_part ((part_snd _ (.stc f n)).2.2 f n rfl) h2)))

theorem run_me {lev1 : Bool} {b a : List Ins} {l : Lab} (h : goto l c = some a) {q : Q} (pc : List Ins) (tr : List (Nat × Nat)) :
    run qs c q (me lev1 l :: pc) (if lev1 then [b] else []) tr = run qs c q pc [a] tr := by
  cases lev1 with
  | false => exact run_tryMe h _ _ _
  | true => exact run_retryMe h _ _ _ _

theorem run_tm {lev1 : Bool} {b : List Ins} {q : Q} (pc : List Ins) (tr : List (Nat × Nat)) :
    run qs c q (tm lev1 ++ pc) (if lev1 then [b] else []) tr = run qs c q pc [] tr := by
  cases lev1 with
  | false => rfl
  | true => exact run_trustMe _ _ _ _

theorem run_indexing1 {o : Orders} (ho : o.Ok) {lo : Int} (hlo : -2147483648 ≤ lo ∧ lo ≤ 0) (hqs : Sorts qs) {q : Q}
    (hq : QOk q) (hn : (labels c).Nodup) (lcc : List Cl) (hne : lcc ≠ []) (hok : ∀ x ∈ lcc, ClOk lo x) (lev1 : Bool)
    (hs : indexing1 o lcc lev1 <:+ c) :
    ∃ t, Tried q lcc t ∧ ∀ b tr, run qs c q (indexing1 o lcc lev1) (if lev1 then [b] else []) tr = some (tr ++ t) := by
  revert hok lev1
  refine blocks_ind (P := fun lcc => (∀ x ∈ lcc, ClOk lo x) → ∀ lev1, indexing1 o lcc lev1 <:+ c →
    ∃ t, Tried q lcc t ∧ ∀ b tr, run qs c q (indexing1 o lcc lev1) (if lev1 then [b] else []) tr = some (tr ++ t)) ?_ ?_ ?_ ?_ lcc hne
  · intro l hne hv hok lev1 hs
    rw [indexing1_nonvar o hv] at hs ⊢
    obtain ⟨vis, h1, h2⟩ := run_mk2 (post := []) ho hlo hqs hq l hne hv hok hn (by rw [List.append_nil]; exact suffix_right hs)
    refine ⟨mark 0 vis, .grp l vis hv h1, fun b tr => ?_⟩
    have := h2 [] tr
    rw [List.append_nil] at this
    rw [run_tm, this]
    rfl
  · intro v hv _ lev1 hs
    rw [indexing1_last o hv]
    refine ⟨_, .last v hv, fun b tr => ?_⟩
    rw [run_tm, run_clause]
    rfl
  · intro v a l hv ih hok lev1 hs
    rw [indexing1_var o hv] at hs ⊢
    have s3 := suffix_tail (suffix_tail hs)
    obtain ⟨t, h1, h2⟩ := ih (fun x hx => hok x (by simp [List.mem_cons.1 hx])) true (suffix_tail s3)
    refine ⟨_, .var v a l t hv h1, fun b tr => ?_⟩
    rw [run_me (goto_suffix hn s3), run_clause]
    simp only [bt, List.length_cons, List.length_nil]
    have := h2 (indexing1 o (a :: l) true) (tr ++ [(v.id, 0 + 1)])
    rw [if_pos rfl] at this
    rw [this, List.append_assoc]
    rfl
  · intro b bs v after hb hv ih hok lev1 hs
    rw [indexing1_grp o hb hv] at hs ⊢
    have s1 := suffix_tail hs
    have s2 := suffix_right s1
    obtain ⟨t, h1, h2⟩ := ih (fun x hx => hok x (List.mem_append_right _ hx)) true (suffix_tail s2)
    obtain ⟨vis, h3, h4⟩ := run_mk2 ho hlo hqs hq (b :: bs) (by simp) hb (fun x hx => hok x (List.mem_append_left _ hx)) hn s1
    refine ⟨_, .grpVar (b :: bs) v after vis t (by simp) hb hv h3 h1, fun b' tr => ?_⟩
    rw [run_me (goto_suffix hn s2), h4]
    simp only [bt, List.length_cons, List.length_nil]
    have := h2 (indexing1 o (v :: after) true) (tr ++ mark (0 + 1) vis)
    rw [if_pos rfl] at this
    rw [this, List.append_assoc]

end

end Gp.Index
