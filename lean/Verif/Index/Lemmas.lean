import Verif.Index.Group
import Verif.Switch.Props
namespace Gp.Index
open Gp.Switch

/-! Labels -/

/-- The labels defined by a code. -/
def labels (c : List Ins) : List Lab := c.filterMap (fun i => match i with | .label l => some l | _ => none)

@[simp] theorem labels_nil : labels [] = [] := rfl
@[simp] theorem labels_label (l : Lab) (c : List Ins) : labels (.label l :: c) = l :: labels c := rfl
@[simp] theorem labels_append (a b : List Ins) : labels (a ++ b) = labels a ++ labels b := List.filterMap_append
theorem labels_cons (i : Ins) (c : List Ins) (h : ∀ l, i ≠ .label l) : labels (i :: c) = labels c := by
  cases i with
  | label l => exact absurd rfl (h l)
  | _ => rfl

theorem goto_append (l : Lab) (a s : List Ins) (h : l ∉ labels a) : goto l (a ++ s) = goto l s := by
  induction a with
  | nil => rfl
  | cons i a ih =>
    cases i with
    | label l' =>
      rw [labels_label, List.mem_cons, not_or] at h
      rw [List.cons_append, goto, if_neg (fun h' => h.1 h'.symm)]
      exact ih h.2
    | _ => exact ih h

theorem goto_suffix {c s : List Ins} {l : Lab} (hn : (labels c).Nodup) (hs : .label l :: s <:+ c) : goto l c = some s := by
  obtain ⟨a, rfl⟩ := hs
  rw [labels_append, labels_label, List.nodup_append] at hn
  have : l ∉ labels a := fun h => hn.2.2 l h l (by simp) rfl
  rw [goto_append l a _ this, goto, if_pos rfl]

theorem suffix_tail {i : Ins} {s c : List Ins} (h : i :: s <:+ c) : s <:+ c := (List.suffix_cons i s).trans h
theorem suffix_right {a s c : List Ins} (h : a ++ s <:+ c) : s <:+ c := (List.suffix_append a s).trans h

/-! Execution -/

/-- The clauses `l` tried in this order, `n` choice points below: each but the last one has a choice point. -/
def mark (n : Nat) : List Nat → List (Nat × Nat)
  | [] => []
  | [i] => [(i, n)]
  | i :: j :: l => (i, n + 1) :: mark n (j :: l)

section
variable (qs : List (Int × Lab) → List (Int × Lab)) (c : List Ins) (q : Q)

/-- Backtracking. -/
def bt (st : List (List Ins)) (tr : List (Nat × Nat)) : Option (List (Nat × Nat)) :=
  match st with
  | [] => some tr
  | a :: _ => run qs c q a st tr

/-- Jump to a label, or fail. -/
def jump (l : Option Lab) (st : List (List Ins)) (tr : List (Nat × Nat)) : Option (List (Nat × Nat)) :=
  match l with
  | none => bt qs c q st tr
  | some l =>
    match goto l c with
    | none => none
    | some a => run qs c q a st tr

variable {qs c q}

theorem run_label (l : Lab) (pc : List Ins) (st : List (List Ins)) (tr : List (Nat × Nat)) :
    run qs c q (.label l :: pc) st tr = run qs c q pc st tr := by rw [run]

theorem run_tryMe {l : Lab} {a : List Ins} (h : goto l c = some a) (pc : List Ins) (st : List (List Ins)) (tr : List (Nat × Nat)) :
    run qs c q (.tryMe l :: pc) st tr = run qs c q pc (a :: st) tr := by
  conv => lhs; rw [run.eq_def]
  simp only [h]

theorem run_retryMe {l : Lab} {a : List Ins} (h : goto l c = some a) (pc b : List Ins) (st : List (List Ins))
    (tr : List (Nat × Nat)) : run qs c q (.retryMe l :: pc) (b :: st) tr = run qs c q pc (a :: st) tr := by
  conv => lhs; rw [run.eq_def]
  simp only [h]

theorem run_trustMe (pc b : List Ins) (st : List (List Ins)) (tr : List (Nat × Nat)) :
    run qs c q (.trustMe :: pc) (b :: st) tr = run qs c q pc st tr := by rw [run]

theorem run_try {l : Lab} {a : List Ins} (h : goto l c = some a) (pc : List Ins) (st : List (List Ins)) (tr : List (Nat × Nat)) :
    run qs c q (.try_ l :: pc) st tr = run qs c q a (pc :: st) tr := by
  conv => lhs; rw [run.eq_def]
  simp only [h]

theorem run_retry {l : Lab} {a : List Ins} (h : goto l c = some a) (pc b : List Ins) (st : List (List Ins))
    (tr : List (Nat × Nat)) : run qs c q (.retry l :: pc) (b :: st) tr = run qs c q a (pc :: st) tr := by
  conv => lhs; rw [run.eq_def]
  simp only [h]

theorem run_trust {l : Lab} {a : List Ins} (h : goto l c = some a) (pc b : List Ins) (st : List (List Ins))
    (tr : List (Nat × Nat)) : run qs c q (.trust l :: pc) (b :: st) tr = run qs c q a st tr := by
  conv => lhs; rw [run.eq_def]
  simp only [h]

theorem run_clause (i : Nat) (pc : List Ins) (st : List (List Ins)) (tr : List (Nat × Nat)) :
    run qs c q (.clause i :: pc) st tr = bt qs c q st (tr ++ [(i, st.length)]) := by
  conv => lhs; rw [run.eq_def]
  cases st <;> rfl

theorem run_switchTerm (v a i l s : Option Lab) (pc : List Ins) (st : List (List Ins)) (tr : List (Nat × Nat)) :
    run qs c q (.switchTerm v a i l s :: pc) st tr = jump qs c q (emitSwitchOnTerm v a i l s q.tag) st tr := by
  conv => lhs; rw [run.eq_def]
  simp only
  cases emitSwitchOnTerm v a i l s q.tag with
  | none => cases st <;> rfl
  | some l => rfl

theorem run_switch {ins : Ins} {r : Option Lab} (h : doSwitch qs q ins = some r) (pc : List Ins) (st : List (List Ins))
    (tr : List (Nat × Nat)) : run qs c q (ins :: pc) st tr = jump qs c q r st tr := by
  cases ins with
  | switchAtm t =>
    conv => lhs; rw [run.eq_def]
    simp only [h]
    cases r with
    | none => cases st <;> rfl
    | some l => rfl
  | switchInt t =>
    conv => lhs; rw [run.eq_def]
    simp only [h]
    cases r with
    | none => cases st <;> rfl
    | some l => rfl
  | switchStc t =>
    conv => lhs; rw [run.eq_def]
    simp only [h]
    cases r with
    | none => cases st <;> rfl
    | some l => rfl
  | _ => simp [doSwitch] at h

variable (qs c q) in
/-- The code at the label tries the clauses `l`. -/
def Tries (lab : Option Lab) (l : List Nat) : Prop :=
  ∀ st tr, jump qs c q lab st tr = bt qs c q st (tr ++ mark st.length l)

variable (c) in
/-- The label of a clause leads to its code. -/
def AdOk (i : Nat) : Prop := ∃ s, goto (.ad i) c = some (.clause i :: s)

theorem tries_none : Tries qs c q none [] := by
  intro st tr
  simp [jump, mark]

theorem tries_ad {i : Nat} (h : AdOk c i) : Tries qs c q (some (.ad i)) [i] := by
  intro st tr
  obtain ⟨s, hs⟩ := h
  simp only [jump, hs]
  rw [run_clause]
  rfl

theorem run_genList1 (l : List Nat) (hne : l ≠ []) (had : ∀ i ∈ l, AdOk c i) (post b : List Ins) (st : List (List Ins))
    (tr : List (Nat × Nat)) :
    run qs c q (genList1 l ++ post) (b :: st) tr = bt qs c q st (tr ++ mark st.length l) := by
  induction l generalizing b tr with
  | nil => exact absurd rfl hne
  | cons i l ih =>
    obtain ⟨s, hs⟩ := had i (by simp)
    cases l with
    | nil =>
      rw [genList1, List.singleton_append, run_trust hs, run_clause]
      rfl
    | cons j l =>
      have hg : genList1 (i :: j :: l) ++ post = .retry (.ad i) :: (genList1 (j :: l) ++ post) := rfl
      rw [hg, run_retry hs, run_clause]
      simp only [bt, List.length_cons]
      rw [ih (by simp) (fun k hk => had k (by simp [hk]))]
      rw [List.append_assoc]
      rfl

theorem tries_genList {t : Ty} {i : Nat} {l : List Nat} {post : List Ins} (hn : (labels c).Nodup)
    (hs : (genList t i l).2 ++ post <:+ c) (had : ∀ j ∈ i :: l, AdOk c j) :
    Tries qs c q (some (genList t i l).1) (i :: l) := by
  cases l with
  | nil => exact tries_ad (had i (by simp))
  | cons j l =>
    have hg := goto_suffix hn (s := .try_ (.ad i) :: (genList1 (j :: l) ++ post)) (l := .trt t i) hs
    intro st tr
    simp only [genList, jump, hg]
    obtain ⟨s, hs'⟩ := had i (by simp)
    rw [run_try hs', run_clause]
    simp only [bt, List.length_cons]
    rw [run_genList1 _ (by simp) (fun k hk => had k (by simp [hk]))]
    rw [List.append_assoc]
    rfl

theorem createSwitch_keys {κ : Type} (t : Ty) (gs : List (Grp κ)) : (createSwitch t gs).1.map (·.1) = gs.map (·.key) := by
  induction gs with
  | nil => rfl
  | cons g gs ih => simp only [createSwitch, List.map_cons, ih]

theorem tries_createSwitch {κ : Type} {t : Ty} {gs : List (Grp κ)} {post : List Ins} (hn : (labels c).Nodup)
    (hs : (createSwitch t gs).2 ++ post <:+ c) (had : ∀ g ∈ gs, ∀ j ∈ g.hd :: g.tl, AdOk c j) :
    (∀ e ∈ (createSwitch t gs).1, ∃ g ∈ gs, g.key = e.1 ∧ Tries qs c q (some e.2) (g.hd :: g.tl)) ∧
    ∀ g ∈ gs, ∃ lab, (g.key, lab) ∈ (createSwitch t gs).1 := by
  induction gs with
  | nil => exact ⟨by simp [createSwitch], by simp⟩
  | cons g gs ih =>
    simp only [createSwitch, List.append_assoc] at hs
    obtain ⟨ih1, ih2⟩ := ih (suffix_right hs) (fun g' hg' => had g' (by simp [hg']))
    have hg := tries_genList (q := q) (qs := qs) hn hs (had g (by simp))
    simp only [createSwitch]
    constructor
    · intro e he
      rcases List.mem_cons.1 he with rfl | he
      · exact ⟨g, by simp, rfl, hg⟩
      · obtain ⟨g', h1, h2⟩ := ih1 e he
        exact ⟨g', by simp [h1], h2⟩
    · intro g' hg'
      rcases List.mem_cons.1 hg' with rfl | hg'
      · exact ⟨_, List.mem_cons_self⟩
      · obtain ⟨lab, h⟩ := ih2 g' hg'
        exact ⟨lab, List.mem_cons_of_mem _ h⟩

/-- A switch instruction for a type selects the label of the key `k` of the call. -/
def SwOk {κ : Type} (qs : List (Int × Lab) → List (Int × Lab)) (q : Q) (mk : List (κ × Lab) → Ins) (P : κ → Prop) (k : κ) : Prop :=
  ∀ t : List (κ × Lab), (t.map (·.1)).Nodup → (∀ e ∈ t, P e.1) →
    ∃ r, doSwitch qs q (mk t) = some r ∧ ∀ l, r = some l ↔ (k, l) ∈ t

theorem tries_genSwitch {κ : Type} [DecidableEq κ] {le : κ → κ → Bool} (ho : TotalOrder le) {t : Ty} {i : Nat}
    {mk : List (κ × Lab) → Ins} {P : κ → Prop} {k : κ} {l : List (κ × Nat)} {post : List Ins} (hmk : ∀ t lab, mk t ≠ .label lab)
    (hn : (labels c).Nodup) (hs : (genSwitch t i mk (groupByKeys le l)).2 ++ post <:+ c)
    (had : ∀ e ∈ l, AdOk c e.2) (hP : ∀ e ∈ l, P e.1) (hsw : SwOk qs q mk P k) :
    ∃ vis, Tries qs c q (genSwitch t i mk (groupByKeys le l)).1 vis ∧
      (vis = withKey k l ∨ ∃ e, l = [e] ∧ vis = [e.2]) := by
  obtain ⟨g1, g2, g3⟩ := groupByKeys_spec ho l
  have hadg : ∀ g ∈ groupByKeys le l, ∀ j ∈ g.hd :: g.tl, AdOk c j := by
    intro g hg j hj
    rw [g2 g hg] at hj
    exact had _ (mem_withKey.1 hj)
  have hPg : ∀ g ∈ groupByKeys le l, P g.key := by
    intro g hg
    have : g.hd ∈ withKey g.key l := by rw [← g2 g hg]; simp
    exact hP _ (mem_withKey.1 this)
  have hnone : (∀ g ∈ groupByKeys le l, g.key ≠ k) → withKey k l = [] := by
    intro h
    rw [List.eq_nil_iff_forall_not_mem]
    intro j hj
    obtain ⟨g, hg, he⟩ := g3 _ (mem_withKey.1 hj)
    exact h g hg he
  revert hs
  generalize groupByKeys le l = gs at *
  intro hs
  -- the general case
  have gen : gs ≠ [] → genSwitch t i mk gs = (some (.sw t i), .label (.sw t i) :: mk (createSwitch t gs).1 :: (createSwitch t gs).2) →
      ∃ vis, Tries qs c q (genSwitch t i mk gs).1 vis ∧ (vis = withKey k l ∨ ∃ e, l = [e] ∧ vis = [e.2]) := by
    intro _ heq
    rw [heq] at hs ⊢
    have hg := goto_suffix hn (s := mk (createSwitch t gs).1 :: ((createSwitch t gs).2 ++ post)) (l := .sw t i) hs
    obtain ⟨h1, h2⟩ := tries_createSwitch (q := q) (qs := qs) (c := c) (post := post) hn (suffix_tail (suffix_tail hs)) hadg
    obtain ⟨r, hr, hrl⟩ := hsw (createSwitch t gs).1 (by rw [createSwitch_keys]; exact g1) (fun e he => by
      obtain ⟨g, hg, hk, _⟩ := h1 e he
      rw [← hk]; exact hPg g hg)
    have hjump : ∀ st tr, jump qs c q (some (.sw t i)) st tr = jump qs c q r st tr := by
      intro st tr
      simp only [jump, hg]
      exact run_switch hr _ _ _
    refine ⟨withKey k l, fun st tr => ?_, .inl rfl⟩
    rw [hjump]
    cases r with
    | none =>
      have : withKey k l = [] := hnone (fun g hg hk => by
        obtain ⟨lab, hlab⟩ := h2 g hg
        have := (hrl lab).2 (hk ▸ hlab)
        simp at this)
      rw [this]
      exact tries_none st tr
    | some lab =>
      obtain ⟨g, hg, hk, ht⟩ := h1 _ ((hrl lab).1 rfl)
      simp only at hk
      rw [g2 g hg, hk] at ht
      exact ht st tr
  match gs, gen with
  | [], _ =>
    refine ⟨[], tries_none, .inl ?_⟩
    rw [hnone (by simp)]
  | [⟨k', j, []⟩], _ =>
    refine ⟨[j], tries_ad (hadg ⟨k', j, []⟩ (by simp) j (by simp)), ?_⟩
    -- there is only one clause
    have hg2 := g2 ⟨k', j, []⟩ (by simp)
    refine .inr ⟨(k', j), ?_, rfl⟩
    have hall : ∀ e ∈ l, e.1 = k' := by
      intro e he
      obtain ⟨g, hg, h⟩ := g3 e he
      simp at hg
      rw [← h, hg]
    unfold withKey at hg2
    rw [List.filter_eq_self.2 (by simpa using hall)] at hg2
    cases l with
    | nil => simp at hg2
    | cons e l =>
      simp only [List.map_cons, List.cons.injEq] at hg2
      have : l = [] := by
        have := hg2.2
        cases l with
        | nil => rfl
        | cons _ _ => simp at this
      subst this
      have h1 := hall e (by simp)
      rw [hg2.1, ← h1]
  | ⟨k', j, j' :: js⟩ :: gs, gen => exact gen (by simp) rfl
  | ⟨k', j, []⟩ :: g' :: gs, gen => exact gen (by simp) rfl

theorem tries_genLst {l : List Nat} {post : List Ins} (hn : (labels c).Nodup) (hs : (genLst l).2 ++ post <:+ c)
    (had : ∀ i ∈ l, AdOk c i) : Tries qs c q (genLst l).1 l := by
  cases l with
  | nil => exact tries_none
  | cons i l => exact tries_genList hn hs had

theorem run_genInsts1 (l : List Cl) (hne : l ≠ []) (hn : (labels c).Nodup) (post : List Ins) (hs : genInsts1 l ++ post <:+ c)
    (b : List Ins) (st : List (List Ins)) (tr : List (Nat × Nat)) :
    run qs c q (genInsts1 l ++ post) (b :: st) tr = bt qs c q st (tr ++ mark st.length (l.map (·.id))) := by
  induction l generalizing b tr with
  | nil => exact absurd rfl hne
  | cons x l ih =>
    cases l with
    | nil =>
      have hg : genInsts1 [x] ++ post = .label (.lv x.id) :: .trustMe :: .label (.ad x.id) :: .clause x.id :: post := rfl
      rw [hg, run_label, run_trustMe, run_label, run_clause]
      rfl
    | cons y l =>
      have hg : genInsts1 (x :: y :: l) ++ post = .label (.lv x.id) :: .retryMe (.lv y.id) :: .label (.ad x.id) :: .clause x.id ::
        (genInsts1 (y :: l) ++ post) := rfl
      rw [hg] at hs ⊢
      have hs' : genInsts1 (y :: l) ++ post <:+ c := suffix_tail (suffix_tail (suffix_tail (suffix_tail hs)))
      have hgoto : ∃ s, genInsts1 (y :: l) ++ post = .label (.lv y.id) :: s ∧ goto (.lv y.id) c = some s := by
        cases l with
        | nil => exact ⟨_, rfl, goto_suffix hn hs'⟩
        | cons z l => exact ⟨_, rfl, goto_suffix hn hs'⟩
      obtain ⟨s, h1, h2⟩ := hgoto
      rw [run_label, run_retryMe h2, run_label, run_clause]
      simp only [bt, List.length_cons]
      have := ih (by simp) hs' s (tr ++ [(x.id, st.length + 1)])
      rw [h1, run_label] at this
      rw [this, List.append_assoc]
      rfl

theorem tries_genInsts (x y : Cl) (l : List Cl) (hn : (labels c).Nodup) (post : List Ins)
    (hs : (genInsts (x :: y :: l)).2 ++ post <:+ c) :
    Tries qs c q (genInsts (x :: y :: l)).1 ((x :: y :: l).map (·.id)) := by
  have hg : (genInsts (x :: y :: l)).2 ++ post = .label (.lv x.id) :: .tryMe (.lv y.id) :: .label (.ad x.id) :: .clause x.id ::
    (genInsts1 (y :: l) ++ post) := rfl
  rw [hg] at hs
  have hs' : genInsts1 (y :: l) ++ post <:+ c := suffix_tail (suffix_tail (suffix_tail (suffix_tail hs)))
  have hgoto : ∃ s, genInsts1 (y :: l) ++ post = .label (.lv y.id) :: s ∧ goto (.lv y.id) c = some s := by
    cases l with
    | nil => exact ⟨_, rfl, goto_suffix hn hs'⟩
    | cons z l => exact ⟨_, rfl, goto_suffix hn hs'⟩
  obtain ⟨s, h1, h2⟩ := hgoto
  intro st tr
  simp only [genInsts, jump, goto_suffix hn hs]
  rw [run_tryMe h2, run_label, run_clause]
  simp only [bt, List.length_cons]
  have := run_genInsts1 (q := q) (qs := qs) (y :: l) (by simp) hn post hs' s st (tr ++ [(x.id, st.length + 1)])
  rw [h1, run_label] at this
  rw [this, List.append_assoc]
  rfl

theorem adOk_genInsts1 {l : List Cl} {post : List Ins} (hn : (labels c).Nodup) (hs : genInsts1 l ++ post <:+ c) :
    ∀ x ∈ l, AdOk c x.id := by
  induction l with
  | nil => simp
  | cons x l ih =>
    cases l with
    | nil =>
      intro y hy
      rw [List.mem_singleton] at hy
      subst hy
      exact ⟨post, goto_suffix hn (suffix_tail (suffix_tail hs))⟩
    | cons z l =>
      intro y hy
      rcases List.mem_cons.1 hy with rfl | hy
      · exact ⟨_, goto_suffix hn (suffix_tail (suffix_tail hs))⟩
      · exact ih (suffix_tail (suffix_tail (suffix_tail (suffix_tail hs)))) y hy

theorem adOk_genInsts {x y : Cl} {l : List Cl} {post : List Ins} (hn : (labels c).Nodup)
    (hs : (genInsts (x :: y :: l)).2 ++ post <:+ c) : ∀ z ∈ x :: y :: l, AdOk c z.id := by
  intro z hz
  rcases List.mem_cons.1 hz with rfl | hz
  · exact ⟨_, goto_suffix hn (suffix_tail (suffix_tail hs))⟩
  · exact adOk_genInsts1 hn (suffix_tail (suffix_tail (suffix_tail (suffix_tail hs)))) z hz

end

end Gp.Index
