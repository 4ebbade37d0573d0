import Verif.Sort.Lemmas
/-! The sort on lists: permutation, sortedness, stability, duplicate removal, for a comparison which
is a total preorder on the elements satisfying `P`. -/
namespace Gp.Sort

variable {α : Type}

structure CmpOk (cmp : α → α → Int) (P : α → Prop) : Prop where
  lt_gt : ∀ a b, P a → P b → (cmp a b < 0 ↔ cmp b a > 0)
  trans : ∀ a b c, P a → P b → P c → cmp a b ≤ 0 → cmp b c ≤ 0 → cmp a c ≤ 0

namespace CmpOk
variable {cmp : α → α → Int} {P : α → Prop} (C : CmpOk cmp P)
include C

theorem total {a b} (ha : P a) (hb : P b) : cmp a b ≤ 0 ∨ cmp b a ≤ 0 := by
  have := C.lt_gt a b ha hb; have := C.lt_gt b a hb ha; omega

theorem eq_symm {a b} (ha : P a) (hb : P b) : cmp a b = 0 ↔ cmp b a = 0 := by
  have := C.lt_gt a b ha hb; have := C.lt_gt b a hb ha; omega

theorem lt_trans {a b c} (ha : P a) (hb : P b) (hc : P c) (h1 : cmp a b < 0) (h2 : cmp b c ≤ 0) : cmp a c < 0 := by
  have t := C.trans a b c ha hb hc (by omega) h2
  have t2 := C.trans b c a hb hc ha h2
  have := C.lt_gt a b ha hb; have := C.lt_gt a c ha hc; have := C.lt_gt c a hc ha
  have e := C.eq_symm ha hc
  omega

theorem lt_trans' {a b c} (ha : P a) (hb : P b) (hc : P c) (h1 : cmp a b ≤ 0) (h2 : cmp b c < 0) : cmp a c < 0 := by
  have t := C.trans a b c ha hb hc h1 (by omega)
  have t2 := C.trans c a b hc ha hb
  have := C.lt_gt b c hb hc; have := C.lt_gt a c ha hc; have := C.lt_gt c a hc ha
  have e := C.eq_symm ha hc
  omega

theorem eq_trans {a b c} (ha : P a) (hb : P b) (hc : P c) (h1 : cmp a b = 0) (h2 : cmp b c = 0) : cmp a c = 0 := by
  have t := C.trans a b c ha hb hc (by omega) (by omega)
  have t2 := C.trans c b a hc hb ha (by rw [(C.eq_symm hb hc).1 h2]; omega) (by rw [(C.eq_symm ha hb).1 h1]; omega)
  have := C.lt_gt a c ha hc; have := C.lt_gt c a hc ha
  omega
end CmpOk

/-- Ascending list. -/
def Ascending (cmp : α → α → Int) (l : List α) : Prop := l.Pairwise (fun a b => cmp a b ≤ 0)

/-- Strictly ascending list. -/
def StrictlyAscending (cmp : α → α → Int) (l : List α) : Prop := l.Pairwise (fun a b => cmp a b < 0)

theorem mergeL_perm (cmp : α → α → Int) (xs ys : List α) : (mergeL cmp xs ys).Perm (xs ++ ys) := by
  fun_induction mergeL cmp xs ys with
  | case1 => simp
  | case2 => simp
  | case3 x xs y ys h ih => exact List.Perm.cons _ ih
  | case4 x xs y ys h ih =>
    exact (List.Perm.cons _ ih).trans (List.perm_middle (l₁ := x :: xs) (l₂ := ys) (a := y)).symm

theorem mergeL_asc {cmp : α → α → Int} {P : α → Prop} (C : CmpOk cmp P) (xs ys : List α)
    (hx : ∀ x ∈ xs, P x) (hy : ∀ x ∈ ys, P x) (sx : Ascending cmp xs) (sy : Ascending cmp ys) :
    Ascending cmp (mergeL cmp xs ys) := by
  unfold Ascending at *
  fun_induction mergeL cmp xs ys with
  | case1 => exact sy
  | case2 => exact sx
  | case3 x xs y ys h ih =>
    rw [List.pairwise_cons] at sx ⊢
    refine ⟨?_, ih (fun z hz => hx z (by simp [hz])) hy sx.2 sy⟩
    intro z hz
    have hz := (mergeL_perm cmp xs (y :: ys)).mem_iff.1 hz
    rw [List.mem_append] at hz
    rcases hz with hz | hz
    · exact sx.1 z hz
    · rw [List.mem_cons] at hz
      rcases hz with rfl | hz
      · exact h
      · exact C.trans x y z (hx x (by simp)) (hy y (by simp)) (hy z (by simp [hz])) h
          ((List.pairwise_cons.1 sy).1 z hz)
  | case4 x xs y ys h ih =>
    rw [List.pairwise_cons] at sy ⊢
    refine ⟨?_, ih hx (fun z hz => hy z (by simp [hz])) sx sy.2⟩
    have hyx : cmp y x ≤ 0 := by
      have := C.total (hx x (by simp)) (hy y (by simp)); omega
    intro z hz
    have hz := (mergeL_perm cmp (x :: xs) ys).mem_iff.1 hz
    rw [List.mem_append, List.mem_cons] at hz
    rcases hz with (rfl | hz) | hz
    · exact hyx
    · exact C.trans y x z (hy y (by simp)) (hx x (by simp)) (hx z (by simp [hz])) hyx
        ((List.pairwise_cons.1 sx).1 z hz)
    · exact sy.1 z hz

/-- Elements equivalent to `k`, in order. -/
def classOf (cmp : α → α → Int) (k : α) (l : List α) : List α := l.filter (fun x => decide (cmp k x = 0))

theorem mergeL_stable {cmp : α → α → Int} {P : α → Prop} (C : CmpOk cmp P) (k : α) (hk : P k) (xs ys : List α)
    (hx : ∀ x ∈ xs, P x) (hy : ∀ x ∈ ys, P x) (sx : Ascending cmp xs) :
    classOf cmp k (mergeL cmp xs ys) = classOf cmp k xs ++ classOf cmp k ys := by
  unfold classOf
  fun_induction mergeL cmp xs ys with
  | case1 => simp
  | case2 => simp
  | case3 x xs y ys h ih =>
    have := ih (fun z hz => hx z (by simp [hz])) hy (List.pairwise_cons.1 sx).2
    rw [List.filter_cons, this, List.filter_cons (x := x)]
    split <;> simp
  | case4 x xs y ys h ih =>
    have := ih hx (fun z hz => hy z (by simp [hz])) sx
    rw [List.filter_cons, this, List.filter_cons (x := y)]
    split
    · rename_i hq
      -- no element of the first list is equivalent to y
      have : List.filter (fun x => decide (cmp k x = 0)) (x :: xs) = [] := by
        rw [List.filter_eq_nil_iff]
        intro z hz hz0
        simp only [decide_eq_true_eq] at hz0 hq
        have hPz := hx z hz
        have hPy := hy y (by simp)
        have hyz : cmp y z = 0 := C.eq_trans hPy hk hPz ((C.eq_symm hk hPy).1 hq) hz0
        have hyx : cmp y x < 0 := by
          have := C.lt_gt y x hPy (hx x (by simp)); omega
        have hxz : cmp x z ≤ 0 := by
          rw [List.mem_cons] at hz
          rcases hz with rfl | hz
          · have := C.total hPz hPz; omega
          · exact (List.pairwise_cons.1 sx).1 z hz
        have := C.lt_trans hPy (hx x (by simp)) hPz hyx hxz
        omega
      rw [this]; simp
    · rfl

theorem dedupFrom_spec {cmp : α → α → Int} {P : α → Prop} (C : CmpOk cmp P) (x : α) (l : List α)
    (hP : ∀ y ∈ x :: l, P y) (hs : Ascending cmp (x :: l)) :
    StrictlyAscending cmp (dedupFrom cmp x l) ∧ (∀ y ∈ dedupFrom cmp x l, y ∈ x :: l ∧ cmp x y ≤ 0) ∧
    (∀ y ∈ x :: l, ∃ z ∈ dedupFrom cmp x l, cmp y z = 0) := by
  have self : ∀ a, P a → cmp a a = 0 := fun a ha => by
    have := C.lt_gt a a ha ha; omega
  induction l generalizing x with
  | nil =>
    have hx := hP x (by simp)
    simp [dedupFrom, StrictlyAscending, self x hx]
  | cons y l ih =>
    have hx := hP x (by simp)
    have hy := hP y (by simp)
    unfold Ascending at hs
    rw [List.pairwise_cons] at hs
    simp only [dedupFrom]
    split
    · rename_i hc
      obtain ⟨i1, i2, i3⟩ := ih y (fun z hz => hP z (List.mem_cons_of_mem _ hz)) hs.2
      refine ⟨?_, ?_, ?_⟩
      · unfold StrictlyAscending at *
        rw [List.pairwise_cons]
        refine ⟨?_, i1⟩
        intro z hz
        obtain ⟨h1, h2⟩ := i2 z hz
        exact C.lt_trans hx hy (hP z (List.mem_cons_of_mem _ h1)) hc h2
      · intro z hz
        rw [List.mem_cons] at hz
        rcases hz with rfl | hz
        · have := self z hx; exact ⟨by simp, by omega⟩
        · obtain ⟨h1, h2⟩ := i2 z hz
          exact ⟨List.mem_cons_of_mem _ h1, hs.1 z h1⟩
      · intro z hz
        rw [List.mem_cons] at hz
        rcases hz with rfl | hz
        · exact ⟨z, by simp, self z hx⟩
        · obtain ⟨w, hw, he⟩ := i3 z hz
          exact ⟨w, by simp [hw], he⟩
    · rename_i hc
      have hxy : cmp x y = 0 := by have := hs.1 y (by simp); omega
      obtain ⟨i1, i2, i3⟩ := ih x (fun z hz => hP z (by
        rw [List.mem_cons] at hz; rcases hz with rfl | hz <;> simp [*])) (by
          rw [Ascending, List.pairwise_cons]
          exact ⟨fun z hz => hs.1 z (by simp [hz]), (List.pairwise_cons.1 hs.2).2⟩)
      refine ⟨i1, ?_, ?_⟩
      · intro z hz
        obtain ⟨h1, h2⟩ := i2 z hz
        refine ⟨?_, h2⟩
        rw [List.mem_cons] at h1
        rcases h1 with rfl | h1 <;> simp [*]
      · intro z hz
        simp only [List.mem_cons] at hz
        rcases hz with rfl | rfl | hz
        · exact i3 z (by simp)
        · obtain ⟨w, hw, he⟩ := i3 x (by simp)
          refine ⟨w, hw, ?_⟩
          have hPw := hP w (by
            have := (i2 w hw).1
            rw [List.mem_cons] at this; rcases this with rfl | h <;> simp [*])
          exact C.eq_trans hy hx hPw ((C.eq_symm hx hy).1 hxy) he
        · exact i3 z (by simp [hz])

theorem sortL_keep {cmp : α → α → Int} {P : α → Prop} (C : CmpOk cmp P) (l : List α) (hP : ∀ x ∈ l, P x) :
    (sortL cmp true l).Perm l ∧ Ascending cmp (sortL cmp true l) ∧
    ∀ k, P k → classOf cmp k (sortL cmp true l) = classOf cmp k l := by
  induction hk : l.length using Nat.strongRecOn generalizing l with
  | ind k ih =>
    rw [sortL]
    split
    · rename_i h
      refine ⟨.refl _, ?_, fun _ _ => rfl⟩
      match l, h with
      | [], _ => simp [Ascending]
      | [x], _ => simp [Ascending]
    · obtain ⟨p1, s1, c1⟩ := ih (l.take (l.length / 2)).length (by simp only [List.length_take]; omega) _
        (fun x hx => hP x (List.mem_of_mem_take hx)) rfl
      obtain ⟨p2, s2, c2⟩ := ih (l.drop (l.length / 2)).length (by simp only [List.length_drop]; omega) _
        (fun x hx => hP x (List.mem_of_mem_drop hx)) rfl
      have q1 : ∀ x ∈ sortL cmp true (l.take (l.length / 2)), P x := fun x hx =>
        hP x (List.mem_of_mem_take (p1.mem_iff.1 hx))
      have q2 : ∀ x ∈ sortL cmp true (l.drop (l.length / 2)), P x := fun x hx =>
        hP x (List.mem_of_mem_drop (p2.mem_iff.1 hx))
      simp only [if_true]
      refine ⟨?_, mergeL_asc C _ _ q1 q2 s1 s2, ?_⟩
      · refine (mergeL_perm cmp _ _).trans ((p1.append p2).trans ?_)
        rw [List.take_append_drop]
      · intro k hk
        rw [mergeL_stable C k hk _ _ q1 q2 s1, c1 k hk, c2 k hk]
        unfold classOf
        rw [← List.filter_append, List.take_append_drop]

theorem strict_asc {cmp : α → α → Int} {l : List α} (h : StrictlyAscending cmp l) : Ascending cmp l :=
  List.Pairwise.imp (fun h => by omega) h

theorem sortL_dedup {cmp : α → α → Int} {P : α → Prop} (C : CmpOk cmp P) (l : List α) (hP : ∀ x ∈ l, P x) :
    StrictlyAscending cmp (sortL cmp false l) ∧ (∀ x ∈ sortL cmp false l, x ∈ l) ∧
    ∀ x ∈ l, ∃ y ∈ sortL cmp false l, cmp x y = 0 := by
  have self : ∀ a, P a → cmp a a = 0 := fun a ha => by
    have := C.lt_gt a a ha ha; omega
  induction hk : l.length using Nat.strongRecOn generalizing l with
  | ind k ih =>
    rw [sortL]
    split
    · rename_i h
      refine ⟨?_, fun _ h => h, fun x hx => ⟨x, hx, self x (hP x hx)⟩⟩
      match l, h with
      | [], _ => simp [StrictlyAscending]
      | [x], _ => simp [StrictlyAscending]
    · obtain ⟨p1, s1, c1⟩ := ih (l.take (l.length / 2)).length (by simp only [List.length_take]; omega) _
        (fun x hx => hP x (List.mem_of_mem_take hx)) rfl
      obtain ⟨p2, s2, c2⟩ := ih (l.drop (l.length / 2)).length (by simp only [List.length_drop]; omega) _
        (fun x hx => hP x (List.mem_of_mem_drop hx)) rfl
      have q1 : ∀ x ∈ sortL cmp false (l.take (l.length / 2)), x ∈ l := fun x hx =>
        List.mem_of_mem_take (s1 x hx)
      have q2 : ∀ x ∈ sortL cmp false (l.drop (l.length / 2)), x ∈ l := fun x hx =>
        List.mem_of_mem_drop (s2 x hx)
      simp only [Bool.false_eq_true, if_false]
      have hperm := mergeL_perm cmp (sortL cmp false (l.take (l.length / 2))) (sortL cmp false (l.drop (l.length / 2)))
      have hasc := mergeL_asc C _ _ (fun x hx => hP x (q1 x hx)) (fun x hx => hP x (q2 x hx)) (strict_asc p1)
        (strict_asc p2)
      have hmem : ∀ x ∈ mergeL cmp (sortL cmp false (l.take (l.length / 2))) (sortL cmp false (l.drop (l.length / 2))),
          x ∈ l := by
        intro x hx
        have := hperm.mem_iff.1 hx
        rw [List.mem_append] at this
        rcases this with h | h
        · exact q1 x h
        · exact q2 x h
      have hcov : ∀ x ∈ l, ∃ y ∈ mergeL cmp (sortL cmp false (l.take (l.length / 2)))
          (sortL cmp false (l.drop (l.length / 2))), cmp x y = 0 := by
        intro x hx
        rw [← List.take_append_drop (l.length / 2) l, List.mem_append] at hx
        rcases hx with hx | hx
        · obtain ⟨y, hy, e⟩ := c1 x hx
          exact ⟨y, hperm.mem_iff.2 (List.mem_append_left _ hy), e⟩
        · obtain ⟨y, hy, e⟩ := c2 x hx
          exact ⟨y, hperm.mem_iff.2 (List.mem_append_right _ hy), e⟩
      generalize mergeL cmp _ _ = r at *
      cases r with
      | nil =>
        refine ⟨by simp [dedupL, StrictlyAscending], by simp [dedupL], ?_⟩
        intro x hx; obtain ⟨y, hy, _⟩ := hcov x hx; simp at hy
      | cons a r =>
        obtain ⟨d1, d2, d3⟩ := dedupFrom_spec C a r (fun x hx => hP x (hmem x hx)) hasc
        refine ⟨d1, fun x hx => hmem x (d2 x hx).1, ?_⟩
        intro x hx
        obtain ⟨y, hy, e⟩ := hcov x hx
        obtain ⟨z, hz, e2⟩ := d3 y hy
        exact ⟨z, hz, C.eq_trans (hP x hx) (hP y (hmem y hy)) (hP z (hmem z (d2 z hz).1)) e e2⟩

end Gp.Sort
