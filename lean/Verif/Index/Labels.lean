import Verif.Index.Lemmas
namespace Gp.Index

def ids (l : List Cl) : List Nat := l.map (·.id)

/-- The clause of a label. -/
def Lab.cl : Lab → Nat
  | .ad i => i
  | .lv i => i
  | .l1 i => i
  | .sw _ i => i
  | .trt _ i => i

/-- The label is inside a group. -/
def Lab.inGrp : Lab → Bool
  | .l1 _ => false
  | _ => true

theorem labels_genList1 (l : List Nat) : labels (genList1 l) = [] := by
  induction l with
  | nil => rfl
  | cons i l ih =>
    cases l with
    | nil => rfl
    | cons j l => exact ih

theorem labels_createSwitch {κ : Type} (t : Ty) (gs : List (Grp κ)) :
    (labels (createSwitch t gs).2).Sublist (gs.map fun g => Lab.trt t g.hd) := by
  induction gs with
  | nil => exact .slnil
  | cons g gs ih =>
    simp only [createSwitch, labels_append, List.map_cons]
    cases htl : g.tl with
    | nil => exact ih.cons _
    | cons j l =>
      simp only [genList, labels_label]
      rw [labels_cons _ _ (by simp), labels_genList1]
      exact ih.cons_cons _

theorem labels_genSwitch {κ : Type} (t : Ty) (i : Nat) (mk : List (κ × Lab) → Ins) (hmk : ∀ t lab, mk t ≠ .label lab)
    (gs : List (Grp κ)) : (labels (genSwitch t i mk gs).2).Sublist (.sw t i :: gs.map fun g => Lab.trt t g.hd) := by
  have gen : genSwitch t i mk gs = (some (.sw t i), .label (.sw t i) :: mk (createSwitch t gs).1 :: (createSwitch t gs).2) →
      (labels (genSwitch t i mk gs).2).Sublist (.sw t i :: gs.map fun g => Lab.trt t g.hd) := by
    intro h
    rw [h]
    simp only [labels_label]
    rw [labels_cons _ _ (hmk _)]
    exact (labels_createSwitch t gs).cons_cons _
  match gs, gen with
  | [], _ => exact List.nil_sublist _
  | [⟨k', j, []⟩], _ => exact List.nil_sublist _
  | ⟨k', j, j' :: js⟩ :: gs, gen => exact gen rfl
  | ⟨k', j, []⟩ :: g' :: gs, gen => exact gen rfl

theorem nodup_switch {κ : Type} [DecidableEq κ] {le : κ → κ → Bool} (ho : TotalOrder le) (t : Ty) (i : Nat)
    (mk : List (κ × Lab) → Ins) (hmk : ∀ t lab, mk t ≠ .label lab) (l : List (κ × Nat)) (hn : (l.map (·.2)).Nodup) :
    (labels (genSwitch t i mk (groupByKeys le l)).2).Nodup ∧
    ∀ x ∈ labels (genSwitch t i mk (groupByKeys le l)).2, x = .sw t i ∨ ∃ j, j ∈ l.map (·.2) ∧ x = .trt t j := by
  have hsub := labels_genSwitch t i mk hmk (groupByKeys le l)
  have hh := groupByKeys_heads ho l hn
  constructor
  · refine hsub.nodup ?_
    rw [List.nodup_cons]
    refine ⟨by simp, ?_⟩
    rw [List.Nodup, List.pairwise_map] at hh ⊢
    exact hh.imp fun h h' => h (by injection h')
  · intro x hx
    rcases List.mem_cons.1 (hsub.subset hx) with h | h
    · exact .inl h
    · rw [List.mem_map] at h
      obtain ⟨g, hg, rfl⟩ := h
      have : g.hd ∈ withKey g.key l := by rw [← (groupByKeys_spec ho l).2.1 g hg]; simp
      exact .inr ⟨g.hd, List.mem_map.2 ⟨_, mem_withKey.1 this, rfl⟩, rfl⟩

theorem labels_genLst (l : List Nat) : (labels (genLst l).2).Nodup ∧ ∀ x ∈ labels (genLst l).2, ∃ j ∈ l, x = .trt .lst j := by
  cases l with
  | nil => exact ⟨List.nodup_nil, by simp [genLst]⟩
  | cons i l =>
    cases l with
    | nil => exact ⟨List.nodup_nil, by simp [genLst, genList]⟩
    | cons j l =>
      simp only [genLst, genList, labels_label]
      rw [labels_cons _ _ (by simp), labels_genList1]
      simp

theorem labels_genInsts1 (l : List Cl) : labels (genInsts1 l) = l.flatMap fun c => [.lv c.id, .ad c.id] := by
  induction l with
  | nil => rfl
  | cons x l ih =>
    cases l with
    | nil => rfl
    | cons y l =>
      rw [List.flatMap_cons, ← ih]
      rfl

theorem labels_genInsts (x y : Cl) (l : List Cl) :
    labels (genInsts (x :: y :: l)).2 = (x :: y :: l).flatMap fun c => [.lv c.id, .ad c.id] := by
  rw [List.flatMap_cons, ← labels_genInsts1]
  rfl

theorem nodup_lvad (l : List Cl) (hn : (ids l).Nodup) : (l.flatMap fun c => [Lab.lv c.id, .ad c.id]).Nodup := by
  induction l with
  | nil => exact List.nodup_nil
  | cons x l ih =>
    unfold ids at hn ih
    rw [List.map_cons, List.nodup_cons] at hn
    have := ih hn.2
    have h := hn.1
    simp only [List.flatMap_cons, List.cons_append, List.nil_append, List.nodup_cons, List.mem_cons, List.mem_flatMap]
    refine ⟨?_, ?_, this⟩
    · rintro (h' | ⟨y, hy, h'⟩)
      · simp at h'
      · simp at h'
        exact h (List.mem_map.2 ⟨y, hy, h'.symm⟩)
    · rintro ⟨y, hy, h'⟩
      simp at h'
      exact h (List.mem_map.2 ⟨y, hy, h'.symm⟩)

theorem parts_sub (l : List Cl) : ((atmPart l).map (·.2)).Sublist (ids l) ∧ ((intPart l).map (·.2)).Sublist (ids l) ∧
    (lstPart l).Sublist (ids l) ∧ ((stcPart l).map (·.2)).Sublist (ids l) := by
  induction l with
  | nil => exact ⟨.slnil, .slnil, .slnil, .slnil⟩
  | cons x l ih =>
    obtain ⟨h1, h2, h3, h4⟩ := ih
    obtain ⟨i, a⟩ := x
    unfold atmPart intPart lstPart stcPart ids at *
    cases a with
    | var => exact ⟨h1.cons _, h2.cons _, h3.cons _, h4.cons _⟩
    | atm a => exact ⟨h1.cons_cons _, h2.cons _, h3.cons _, h4.cons _⟩
    | int n => exact ⟨h1.cons _, h2.cons_cons _, h3.cons _, h4.cons _⟩
    | lst => exact ⟨h1.cons _, h2.cons _, h3.cons_cons _, h4.cons _⟩
    | stc f n => exact ⟨h1.cons _, h2.cons _, h3.cons _, h4.cons_cons _⟩

/-- The orders of keysort are total orders. -/
structure Orders.Ok (o : Orders) : Prop where
  atm : TotalOrder o.atm
  int : TotalOrder o.int
  stc : TotalOrder o.stc

theorem mk2_single (o : Orders) (x : Cl) : mk2 o [x] = [.clause x.id] := by
  obtain ⟨i, a⟩ := x
  cases a <;>
    simp [mk2, atmPart, intPart, lstPart, stcPart, genSwitch, groupByKeys, groups, sameKey, genLst, genList, genInsts]

theorem mk2_many (o : Orders) (x y : Cl) (l : List Cl) :
    mk2 o (x :: y :: l) = .switchTerm (genInsts (x :: y :: l)).1
        (genSwitch .atm x.id Ins.switchAtm (groupByKeys o.atm (atmPart (x :: y :: l)))).1
        (genSwitch .int x.id Ins.switchInt (groupByKeys o.int (intPart (x :: y :: l)))).1
        (genLst (lstPart (x :: y :: l))).1
        (genSwitch .stc x.id Ins.switchStc (groupByKeys o.stc (stcPart (x :: y :: l)))).1 ::
      ((genSwitch .atm x.id Ins.switchAtm (groupByKeys o.atm (atmPart (x :: y :: l)))).2 ++
       ((genSwitch .int x.id Ins.switchInt (groupByKeys o.int (intPart (x :: y :: l)))).2 ++
        ((genLst (lstPart (x :: y :: l))).2 ++
         ((genSwitch .stc x.id Ins.switchStc (groupByKeys o.stc (stcPart (x :: y :: l)))).2 ++ (genInsts (x :: y :: l)).2)))) := by
  simp only [mk2, firstId, List.append_assoc]

theorem labels_mk2 {o : Orders} (ho : o.Ok) (lcc : List Cl) (hne : lcc ≠ []) (hn : (ids lcc).Nodup) :
    (labels (mk2 o lcc)).Nodup ∧ ∀ x ∈ labels (mk2 o lcc), x.inGrp = true ∧ x.cl ∈ ids lcc := by
  match lcc, hne with
  | [x], _ => rw [mk2_single]; exact ⟨List.nodup_nil, by simp [labels]⟩
  | x :: y :: l, _ =>
    rw [mk2_many, labels_cons _ _ (by simp)]
    obtain ⟨p1, p2, p3, p4⟩ := parts_sub (x :: y :: l)
    obtain ⟨a1, a2⟩ := nodup_switch ho.atm .atm x.id Ins.switchAtm (by simp) _ (p1.nodup hn)
    obtain ⟨b1, b2⟩ := nodup_switch ho.int .int x.id Ins.switchInt (by simp) _ (p2.nodup hn)
    obtain ⟨c1, c2⟩ := labels_genLst (lstPart (x :: y :: l))
    obtain ⟨d1, d2⟩ := nodup_switch ho.stc .stc x.id Ins.switchStc (by simp) _ (p4.nodup hn)
    have e1 := nodup_lvad (x :: y :: l) hn
    have e2 : ∀ z ∈ labels (genInsts (x :: y :: l)).2, ∃ j ∈ ids (x :: y :: l), z = .lv j ∨ z = .ad j := by
      intro z hz
      rw [labels_genInsts, List.mem_flatMap] at hz
      obtain ⟨w, hw, hz⟩ := hz
      refine ⟨w.id, List.mem_map.2 ⟨w, hw, rfl⟩, by simpa using hz⟩
    rw [← labels_genInsts] at e1
    simp only [labels_append]
    revert a1 a2 b1 b2 c1 c2 d1 d2 e1 e2
    generalize labels (genSwitch .atm x.id Ins.switchAtm (groupByKeys o.atm (atmPart (x :: y :: l)))).2 = A
    generalize labels (genSwitch .int x.id Ins.switchInt (groupByKeys o.int (intPart (x :: y :: l)))).2 = B
    generalize labels (genLst (lstPart (x :: y :: l))).2 = C
    generalize labels (genSwitch .stc x.id Ins.switchStc (groupByKeys o.stc (stcPart (x :: y :: l)))).2 = D
    generalize labels (genInsts (x :: y :: l)).2 = E
    intro a1 a2 b1 b2 c1 c2 d1 d2 e1 e2
    have hx : x.id ∈ ids (x :: y :: l) := by simp [ids]
    constructor
    · simp only [List.nodup_append, List.mem_append]
      refine ⟨a1, ⟨b1, ⟨c1, ⟨d1, e1, ?_⟩, ?_⟩, ?_⟩, ?_⟩
      · intro u hu v hv
        rcases d2 u hu with rfl | ⟨j, _, rfl⟩ <;> obtain ⟨j', _, rfl | rfl⟩ := e2 v hv <;> simp
      · intro u hu v hv
        obtain ⟨i, _, rfl⟩ := c2 u hu
        rcases hv with hv | hv
        · rcases d2 v hv with rfl | ⟨j, _, rfl⟩ <;> simp
        · obtain ⟨j', _, rfl | rfl⟩ := e2 v hv <;> simp
      · intro u hu v hv
        rcases hv with hv | hv | hv
        · obtain ⟨i, _, rfl⟩ := c2 v hv
          rcases b2 u hu with rfl | ⟨j, _, rfl⟩ <;> simp
        · rcases b2 u hu with rfl | ⟨j, _, rfl⟩ <;> rcases d2 v hv with rfl | ⟨j, _, rfl⟩ <;> simp
        · rcases b2 u hu with rfl | ⟨j, _, rfl⟩ <;> obtain ⟨j', _, rfl | rfl⟩ := e2 v hv <;> simp
      · intro u hu v hv
        rcases hv with hv | hv | hv | hv
        · rcases a2 u hu with rfl | ⟨j, _, rfl⟩ <;> rcases b2 v hv with rfl | ⟨j, _, rfl⟩ <;> simp
        · obtain ⟨i, _, rfl⟩ := c2 v hv
          rcases a2 u hu with rfl | ⟨j, _, rfl⟩ <;> simp
        · rcases a2 u hu with rfl | ⟨j, _, rfl⟩ <;> rcases d2 v hv with rfl | ⟨j, _, rfl⟩ <;> simp
        · rcases a2 u hu with rfl | ⟨j, _, rfl⟩ <;> obtain ⟨j', _, rfl | rfl⟩ := e2 v hv <;> simp
    · intro z hz
      simp only [List.mem_append] at hz
      rcases hz with hz | hz | hz | hz | hz
      · rcases a2 z hz with rfl | ⟨j, hj, rfl⟩
        · exact ⟨rfl, hx⟩
        · exact ⟨rfl, p1.subset hj⟩
      · rcases b2 z hz with rfl | ⟨j, hj, rfl⟩
        · exact ⟨rfl, hx⟩
        · exact ⟨rfl, p2.subset hj⟩
      · obtain ⟨i, hi, rfl⟩ := c2 z hz
        exact ⟨rfl, p3.subset hi⟩
      · rcases d2 z hz with rfl | ⟨j, hj, rfl⟩
        · exact ⟨rfl, hx⟩
        · exact ⟨rfl, p4.subset hj⟩
      · obtain ⟨j', hj, rfl | rfl⟩ := e2 z hz
        · exact ⟨rfl, hj⟩
        · exact ⟨rfl, hj⟩

/-! The four forms of `indexing1` -/

theorem lookForVar_nonvar {l : List Cl} (h : ∀ x ∈ l, x.arg ≠ .var) : lookForVar l = (l, none) := by
  induction l with
  | nil => rfl
  | cons x l ih =>
    rw [lookForVar, if_neg (h x (by simp)), ih (fun y hy => h y (by simp [hy]))]

theorem lookForVar_append {b : List Cl} (h : ∀ x ∈ b, x.arg ≠ .var) {v : Cl} (hv : v.arg = .var) (after : List Cl) :
    lookForVar (b ++ v :: after) = (b, some (v, after)) := by
  induction b with
  | nil => rw [List.nil_append, lookForVar, if_pos hv]
  | cons x l ih =>
    rw [List.cons_append, lookForVar, if_neg (h x (by simp)), ih (fun y hy => h y (by simp [hy]))]

theorem indexing1_nonvar (o : Orders) {l : List Cl} (h : ∀ x ∈ l, x.arg ≠ .var) (lev1 : Bool) :
    indexing1 o l lev1 = tm lev1 ++ mk2 o l := by
  have hl := lookForVar_nonvar h
  rw [indexing1]
  split <;> rename_i heq <;> rw [hl] at heq <;> simp_all

theorem indexing1_last (o : Orders) {v : Cl} (hv : v.arg = .var) (lev1 : Bool) :
    indexing1 o [v] lev1 = tm lev1 ++ [.clause v.id] := by
  have hl := lookForVar_append (b := []) (by simp) hv []
  rw [List.nil_append] at hl
  rw [indexing1]
  split <;> rename_i heq <;> rw [hl] at heq <;> simp_all

theorem indexing1_var (o : Orders) {v : Cl} (hv : v.arg = .var) (a : Cl) (l : List Cl) (lev1 : Bool) :
    indexing1 o (v :: a :: l) lev1 = me lev1 (.l1 a.id) :: .clause v.id :: .label (.l1 a.id) :: indexing1 o (a :: l) true := by
  have hl := lookForVar_append (b := []) (by simp) hv (a :: l)
  rw [List.nil_append] at hl
  rw [indexing1]
  split <;> rename_i heq <;> rw [hl] at heq <;> simp_all

theorem indexing1_grp (o : Orders) {b : Cl} {bs : List Cl} (h : ∀ x ∈ b :: bs, x.arg ≠ .var) {v : Cl} (hv : v.arg = .var)
    (after : List Cl) (lev1 : Bool) :
    indexing1 o (b :: bs ++ v :: after) lev1 =
      me lev1 (.l1 v.id) :: (mk2 o (b :: bs) ++ .label (.l1 v.id) :: indexing1 o (v :: after) true) := by
  have hl := lookForVar_append h hv after
  cases after with
  | nil =>
    rw [indexing1_last o hv, indexing1]
    split <;> rename_i heq <;> rw [hl] at heq <;> simp at heq
    obtain ⟨⟨rfl, rfl⟩, rfl⟩ := heq
    rfl
  | cons a l =>
    rw [indexing1_var o hv, indexing1]
    split <;> rename_i heq <;> rw [hl] at heq <;> simp at heq
    obtain ⟨⟨rfl, rfl⟩, rfl, rfl, rfl⟩ := heq
    rfl

/-- Induction on the blocks. -/
theorem blocks_ind {P : List Cl → Prop} (h1 : ∀ l, l ≠ [] → (∀ x ∈ l, x.arg ≠ .var) → P l)
    (h2 : ∀ v : Cl, v.arg = .var → P [v])
    (h3 : ∀ (v a : Cl) (l : List Cl), v.arg = .var → P (a :: l) → P (v :: a :: l))
    (h4 : ∀ (b : Cl) (bs : List Cl) (v : Cl) (after : List Cl), (∀ x ∈ b :: bs, x.arg ≠ .var) → v.arg = .var →
      P (v :: after) → P (b :: bs ++ v :: after)) : ∀ l, l ≠ [] → P l := by
  have key : ∀ l : List Cl, (∀ y ∈ l, y.arg ≠ .var) ∨
      ∃ bs v after, l = bs ++ v :: after ∧ (∀ y ∈ bs, y.arg ≠ .var) ∧ v.arg = .var := by
    intro l
    induction l with
    | nil => exact .inl (by simp)
    | cons y l ih =>
      by_cases hy : y.arg = .var
      · exact .inr ⟨[], y, l, rfl, by simp, hy⟩
      · rcases ih with h | ⟨bs, v, after, rfl, h, hv⟩
        · exact .inl (by simpa [hy] using h)
        · exact .inr ⟨y :: bs, v, after, rfl, by simpa [hy] using h, hv⟩
  intro l
  generalize hk : l.length = k
  induction k using Nat.strongRecOn generalizing l with
  | _ k ih =>
  intro hne
  rcases key l with h | ⟨bs, v, after, rfl, h, hv⟩
  · exact h1 l hne h
  · have hrest : P (v :: after) := by
      cases after with
      | nil => exact h2 v hv
      | cons a l => exact h3 v a l hv (ih (a :: l).length (by rw [← hk]; simp; omega) (a :: l) rfl (by simp))
    cases bs with
    | nil => exact hrest
    | cons b bs => exact h4 b bs v after h hv hrest

theorem labels_me (lev1 : Bool) (l : Lab) (c : List Ins) : labels (me lev1 l :: c) = labels c := by
  cases lev1 <;> rfl

theorem labels_tm (lev1 : Bool) (c : List Ins) : labels (tm lev1 ++ c) = labels c := by
  cases lev1 <;> rfl

theorem labels_indexing1 {o : Orders} (ho : o.Ok) (lcc : List Cl) (hne : lcc ≠ []) : (ids lcc).Nodup → ∀ lev1,
    (labels (indexing1 o lcc lev1)).Nodup ∧
    ∀ x ∈ labels (indexing1 o lcc lev1), x.cl ∈ ids lcc ∧ (x.inGrp = false → x.cl ∈ (ids lcc).tail) := by
  refine blocks_ind (P := fun lcc => (ids lcc).Nodup → ∀ lev1, (labels (indexing1 o lcc lev1)).Nodup ∧
    ∀ x ∈ labels (indexing1 o lcc lev1), x.cl ∈ ids lcc ∧ (x.inGrp = false → x.cl ∈ (ids lcc).tail)) ?_ ?_ ?_ ?_ lcc hne
  · intro l hne h hn lev1
    obtain ⟨m1, m2⟩ := labels_mk2 ho l hne hn
    rw [indexing1_nonvar o h, labels_tm]
    exact ⟨m1, fun x hx => ⟨(m2 x hx).2, fun h' => by rw [(m2 x hx).1] at h'; simp at h'⟩⟩
  · intro v hv hn lev1
    rw [indexing1_last o hv, labels_tm]
    exact ⟨List.nodup_nil, by simp [labels]⟩
  · intro v a l hv ih hn lev1
    have hn' : (ids (a :: l)).Nodup := by
      unfold ids at hn
      rw [List.map_cons, List.nodup_cons] at hn
      exact hn.2
    obtain ⟨i1, i2⟩ := ih hn' true
    rw [indexing1_var o hv, labels_me, labels_cons _ _ (by simp), labels_label]
    constructor
    · rw [List.nodup_cons]
      refine ⟨fun h => ?_, i1⟩
      have := (i2 _ h).2 rfl
      unfold ids at hn' this
      rw [List.map_cons, List.nodup_cons] at hn'
      exact hn'.1 this
    · intro x hx
      have hmem : x.cl ∈ ids (a :: l) := by
        rcases List.mem_cons.1 hx with rfl | hx
        · simp [ids, Lab.cl]
        · exact (i2 x hx).1
      exact ⟨List.mem_cons_of_mem _ hmem, fun _ => hmem⟩
  · intro b bs v after h hv ih hn lev1
    have hids : ids (b :: bs ++ v :: after) = ids (b :: bs) ++ ids (v :: after) := by simp [ids]
    rw [hids, List.nodup_append] at hn
    obtain ⟨hn1, hn2, hn3⟩ := hn
    obtain ⟨m1, m2⟩ := labels_mk2 ho (b :: bs) (by simp) hn1
    obtain ⟨i1, i2⟩ := ih hn2 true
    rw [indexing1_grp o h hv, labels_me, labels_append, labels_label, hids]
    have hv1 : Lab.cl (.l1 v.id) ∈ ids (v :: after) := by simp [ids, Lab.cl]
    constructor
    · rw [List.nodup_append, List.nodup_cons]
      refine ⟨m1, ⟨fun h => ?_, i1⟩, ?_⟩
      · have := (i2 _ h).2 rfl
        unfold ids at hn2 this
        rw [List.map_cons, List.nodup_cons] at hn2
        exact hn2.1 this
      · intro x hx y hy hxy
        subst hxy
        rcases List.mem_cons.1 hy with rfl | hy
        · exact hn3 _ (m2 _ hx).2 _ hv1 rfl
        · exact hn3 _ (m2 _ hx).2 _ (i2 _ hy).1 rfl
    · intro x hx
      rcases List.mem_append.1 hx with hx | hx
      · exact ⟨List.mem_append_left _ (m2 x hx).2, fun h' => by rw [(m2 x hx).1] at h'; simp at h'⟩
      · have hmem : x.cl ∈ ids (v :: after) := by
          rcases List.mem_cons.1 hx with rfl | hx
          · exact hv1
          · exact (i2 x hx).1
        refine ⟨List.mem_append_right _ hmem, fun _ => ?_⟩
        unfold ids
        rw [List.map_cons, List.cons_append, List.tail_cons]
        exact List.mem_append_right _ hmem

end Gp.Index
