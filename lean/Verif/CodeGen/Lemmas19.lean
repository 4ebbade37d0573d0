import Verif.CodeGen.Lemmas18
import Verif.CodeGen.Lemmas17
namespace Gp.CodeGen
open Gp.Heap Gp.Unify Gp.ListBip
open Gp.Term (isNaN fkey)

variable {name : Nat → Arg} {nY : Nat}

/-! ## The arguments in the internal format -/

theorem fmtList_length : (l : List Tm) → (fmtList name l).length = l.length
  | [] => rfl
  | _ :: l => congrArg (· + 1) (fmtList_length l)

theorem fmtList_nil {l : List Tm} (h : l ≠ []) : fmtList name l ≠ [] := by
  cases l with
  | nil => exact absurd rfl h
  | cons a l => exact fun h => by cases h

mutual
theorem fmt_src : (a : Tm) → a.Good → (∀ v ∈ a.vars, Src nY (name v)) → Src nY (fmt name a)
  | .var v, _, h => h v List.mem_cons_self
  | .nil, _, _ => trivial
  | .atm _, _, _ => trivial
  | .int _, _, _ => trivial
  | .flt _, hg, _ => hg
  | .stc _ as, hg, h => ⟨fmtList_nil hg.1, fmtList_src as hg.2 h⟩
theorem fmtList_src : (l : List Tm) → GoodList l → (∀ v ∈ varsList l, Src nY (name v)) → SrcList nY (fmtList name l)
  | [], _, _ => trivial
  | a :: l, hg, h => ⟨fmt_src a hg.1 fun v hv => h v (List.mem_append_left _ hv),
      fmtList_src l hg.2 fun v hv => h v (List.mem_append_right _ hv)⟩
end

mutual
theorem fmt_occ {u : Var} : (a : Tm) → Occ u (fmt name a) → ∃ v ∈ a.vars, Occ u (name v)
  | .var v, h => ⟨v, List.mem_cons_self, h⟩
  | .nil, h => h.elim
  | .atm _, h => h.elim
  | .int _, h => h.elim
  | .flt _, h => h.elim
  | .stc _ as, h => fmtList_occ as h
theorem fmtList_occ {u : Var} : (l : List Tm) → OccList u (fmtList name l) → ∃ v ∈ varsList l, Occ u (name v)
  | [], h => h.elim
  | a :: l, h => by
    rcases h with h | h
    · obtain ⟨v, h1, h2⟩ := fmt_occ a h; exact ⟨v, List.mem_append_left _ h1, h2⟩
    · obtain ⟨v, h1, h2⟩ := fmtList_occ l h; exact ⟨v, List.mem_append_right _ h1, h2⟩
end

/-- The variable `v` has the value `σ v`. -/
def Named (name : Nat → Arg) (β : Var → T) (σ : Nat → T) (v : Nat) : Prop := ∀ u, name v = .var u → β u = σ v

/-- A name is a variable or void. -/
def IsName (name : Nat → Arg) (v : Nat) : Prop := name v = .void ∨ ∃ u, name v = .var u

mutual
theorem fmt_den {β : Var → T} {σ : Nat → T} : (a : Tm) → (∀ v ∈ a.vars, IsName name v ∧ Named name β σ v) → Den β (fmt name a) (a.inst σ)
  | .var v, h => by
    obtain ⟨h1, h2⟩ := h v List.mem_cons_self
    show Den β (name v) (σ v)
    rcases h1 with h1 | ⟨u, h1⟩
    · rw [h1]; trivial
    · rw [h1]; exact (h2 u h1).symm
  | .nil, _ => rfl
  | .atm _, _ => rfl
  | .int _, _ => rfl
  | .flt _, _ => rfl
  | .stc _ as, h => ⟨_, fmtList_den as h, rfl⟩
theorem fmtList_den {β : Var → T} {σ : Nat → T} : (l : List Tm) → (∀ v ∈ varsList l, IsName name v ∧ Named name β σ v) →
    DenList β (fmtList name l) (instList σ l)
  | [], _ => trivial
  | a :: l, h => ⟨fmt_den a fun v hv => h v (List.mem_append_left _ hv), fmtList_den l fun v hv => h v (List.mem_append_right _ hv)⟩
end

mutual
theorem inst_congr {σ σ' : Nat → T} : (a : Tm) → (∀ v ∈ a.vars, σ v = σ' v) → a.inst σ = a.inst σ'
  | .var v, h => h v List.mem_cons_self
  | .nil, _ => rfl
  | .atm _, _ => rfl
  | .int _, _ => rfl
  | .flt _, _ => rfl
  | .stc _ as, h => congrArg (mk _) (instList_congr as h)
theorem instList_congr {σ σ' : Nat → T} : (l : List Tm) → (∀ v ∈ varsList l, σ v = σ' v) → instList σ l = instList σ' l
  | [], _ => rfl
  | a :: l, h => by
    show a.inst σ :: instList σ l = a.inst σ' :: instList σ' l
    rw [inst_congr a fun v hv => h v (List.mem_append_left _ hv), instList_congr l fun v hv => h v (List.mem_append_right _ hv)]
end

/-- A void variable occurs once. -/
def Once (name : Nat → Arg) (vs : List Nat) : Prop := ∀ v, name v = .void → vs.count v ≤ 1

theorem Once.append {vs ws : List Nat} (h : Once name (vs ++ ws)) :
    Once name vs ∧ Once name ws ∧ ∀ v, name v = .void → v ∈ vs → v ∉ ws := by
  refine ⟨fun v hv => ?_, fun v hv => ?_, fun v hv h1 h2 => ?_⟩ <;> have := h v hv <;> rw [List.count_append] at this
  · omega
  · omega
  · have a := List.count_pos_iff.mpr h1
    have b := List.count_pos_iff.mpr h2
    omega

open Classical in
/-- The values of the variables of two parts of a clause. -/
theorem glue {β : Var → T} {vs ws : List Nat} (ho : Once name (vs ++ ws)) (hn : ∀ v ∈ vs ++ ws, IsName name v) {σ1 σ2 : Nat → T}
    (h1 : ∀ v ∈ vs, Named name β σ1 v) (h2 : ∀ v ∈ ws, Named name β σ2 v) :
    ∃ σ : Nat → T, (∀ v ∈ vs, σ v = σ1 v) ∧ (∀ v ∈ ws, σ v = σ2 v) ∧ ∀ v ∈ vs ++ ws, Named name β σ v := by
  obtain ⟨_, _, h3⟩ := ho.append
  have a1 : ∀ v ∈ vs, (fun v => if v ∈ vs then σ1 v else σ2 v) v = σ1 v := fun v hv => if_pos hv
  have a2 : ∀ v ∈ ws, (fun v => if v ∈ vs then σ1 v else σ2 v) v = σ2 v := by
    intro v hv
    by_cases hvs : v ∈ vs
    · rw [a1 v hvs]
      rcases hn v (List.mem_append_right _ hv) with h4 | ⟨u, hu⟩
      · exact absurd hv (h3 v h4 hvs)
      · rw [← h1 v hvs u hu, h2 v hv u hu]
    · exact if_neg hvs
  refine ⟨_, a1, a2, fun v hv u hu => ?_⟩
  rcases List.mem_append.mp hv with hv | hv
  · rw [a1 v hv]; exact h1 v hv u hu
  · rw [a2 v hv]; exact h2 v hv u hu

mutual
theorem den_fmt {β : Var → T} : (a : Tm) → (t : T) → (∀ v ∈ a.vars, IsName name v) → Once name a.vars → Den β (fmt name a) t →
    ∃ σ : Nat → T, (∀ v ∈ a.vars, Named name β σ v) ∧ a.inst σ = t
  | .var v, t, hn, _, h => by
    have h : Den β (name v) t := h
    refine ⟨fun _ => t, fun w hw u hu => ?_, rfl⟩
    rw [List.mem_singleton.mp hw] at hu
    rw [hu] at h
    exact (show t = β u from h).symm
  | .nil, t, _, _, h => ⟨fun _ => t, fun v hv => (by cases hv), (show t = _ from h).symm⟩
  | .atm _, t, _, _, h => ⟨fun _ => t, fun v hv => (by cases hv), (show t = _ from h).symm⟩
  | .int _, t, _, _, h => ⟨fun _ => t, fun v hv => (by cases hv), (show t = _ from h).symm⟩
  | .flt _, t, _, _, h => ⟨fun _ => t, fun v hv => (by cases hv), (show t = _ from h).symm⟩
  | .stc f as, t, hn, ho, h => by
    obtain ⟨ts, h1, h2⟩ := h
    obtain ⟨σ, h3, h4⟩ := denList_fmt as ts hn ho h1
    exact ⟨σ, h3, by rw [h2, ← h4]; rfl⟩
theorem denList_fmt {β : Var → T} : (l : List Tm) → (ts : List T) → (∀ v ∈ varsList l, IsName name v) → Once name (varsList l) →
    DenList β (fmtList name l) ts → ∃ σ : Nat → T, (∀ v ∈ varsList l, Named name β σ v) ∧ instList σ l = ts
  | [], [], _, _, _ => ⟨fun _ => .atm 0, fun v hv => (by cases hv), rfl⟩
  | [], _ :: _, _, _, h => h.elim
  | _ :: _, [], _, _, h => h.elim
  | a :: l, t :: ts, hn, ho, h => by
    have ho' := Once.append (vs := a.vars) (ws := varsList l) ho
    obtain ⟨σ1, b1, b2⟩ := den_fmt a t (fun v hv => hn v (List.mem_append_left _ hv)) ho'.1 h.1
    obtain ⟨σ2, c1, c2⟩ := denList_fmt l ts (fun v hv => hn v (List.mem_append_right _ hv)) ho'.2.1 h.2
    obtain ⟨σ, d1, d2, d3⟩ := glue ho hn b1 c1
    refine ⟨σ, d3, ?_⟩
    show a.inst σ :: instList σ l = _
    rw [inst_congr a d1, instList_congr l d2, b2, c2]
end

/-! ## The clause -/

theorem goalOccs_mem {v : Nat} {a : List Tm} : {l : List (List Tm)} → {k : Nat} → a ∈ l → v ∈ varsList a → ∃ j, k ≤ j ∧ (v, j) ∈ goalOccs k l
  | [], _, h, _ => by cases h
  | b :: l, k, h, hv => by
    rcases List.mem_cons.mp h with rfl | h
    · exact ⟨k, Nat.le_refl _, List.mem_append_left _ (List.mem_map.mpr ⟨v, hv, rfl⟩)⟩
    · obtain ⟨j, h1, h2⟩ := goalOccs_mem (k := k + 1) h hv
      exact ⟨j, by omega, List.mem_append_right _ h2⟩

theorem goalOccs_vars : (l : List (List Tm)) → (k : Nat) → (goalOccs k l).map (·.1) = l.flatMap varsList
  | [], _ => rfl
  | a :: l, k => by
    rw [goalOccs, List.map_append, goalOccs_vars l (k + 1), List.flatMap_cons, List.map_map]
    congr 1
    exact (List.map_congr_left (fun _ _ => rfl)).trans (List.map_id _)

variable {head : List Tm} {body : List (List Tm)}

theorem clauseOccs_vars (head : List Tm) (body : List (List Tm)) : (clauseOccs head body).map (·.1) = varsList head ++ body.flatMap varsList := by
  rw [clauseOccs, List.map_append, goalOccs_vars, List.map_map]
  congr 1
  exact (List.map_congr_left (fun _ _ => rfl)).trans (List.map_id _)

theorem occ_of_var {v : Nat} (h : v ∈ varsList head ++ body.flatMap varsList) : ∃ k, (v, k) ∈ clauseOccs head body := by
  rw [← clauseOccs_vars] at h
  obtain ⟨p, hp, rfl⟩ := List.mem_map.mp h
  exact ⟨p.2, hp⟩

theorem names_isName {v : Nat} (h : v ∈ varsList head ++ body.flatMap varsList) : IsName (names head body) v := by
  obtain ⟨k, hk⟩ := occ_of_var h
  rcases names_cases hk with h | h | ⟨i, _, h⟩
  · exact Or.inl h.1
  · exact Or.inr ⟨_, h.1⟩
  · exact Or.inr ⟨_, h⟩

theorem names_src {v : Nat} (h : v ∈ varsList head ++ body.flatMap varsList) : Src (nbY head body) (names head body v) := by
  obtain ⟨k, hk⟩ := occ_of_var h
  rcases names_cases hk with h | h | ⟨i, h1, h⟩
  · rw [h.1]; trivial
  · rw [h.1]; trivial
  · rw [h]; exact h1

theorem names_once : Once (names head body) (varsList head ++ body.flatMap varsList) := by
  intro v hv
  rw [← clauseOccs_vars]
  by_cases h : v ∈ (clauseOccs head body).map (·.1)
  · obtain ⟨p, hp, rfl⟩ := List.mem_map.mp h
    rcases names_cases hp with h | h | ⟨i, _, h⟩
    · exact h.2
    · rw [h.1] at hv; cases hv
    · rw [h] at hv; cases hv
  · rw [List.count_eq_zero.mpr h]; omega

theorem names_x {v n k : Nat} (hv : (v, k) ∈ clauseOccs head body) (h : Occ (.x n) (names head body v)) : v = n ∧
    ∀ j j', (n, j) ∈ clauseOccs head body → (n, j') ∈ clauseOccs head body → j < j' → j' ≤ 1 := by
  rcases names_cases hv with h1 | h1 | ⟨i, _, h1⟩
  · rw [h1.1] at h; exact h.elim
  · rw [h1.1] at h
    have h : Var.x v = .x n := h
    cases h
    exact ⟨rfl, h1.2⟩
  · rw [h1] at h
    have h : Var.y i = .x n := h
    cases h

theorem goals_sep : (l : List (List Tm)) → (k : Nat) → 2 ≤ k → (∀ p ∈ goalOccs k l, p ∈ clauseOccs head body) →
    Separate (l.map (fmtList (names head body)))
  | [], _, _, _ => List.Pairwise.nil
  | a :: l, k, hk, h => by
    rw [List.map_cons, Separate, List.pairwise_cons]
    refine ⟨fun b hb n h1 h2 => ?_, goals_sep l (k + 1) (by omega) fun p hp => h p (List.mem_append_right _ hp)⟩
    obtain ⟨c, hc, rfl⟩ := List.mem_map.mp hb
    obtain ⟨v, v1, v2⟩ := fmtList_occ a h1
    obtain ⟨w, w1, w2⟩ := fmtList_occ c h2
    have hv := h (v, k) (List.mem_append_left _ (List.mem_map.mpr ⟨v, v1, rfl⟩))
    obtain ⟨j, j1, j2⟩ := goalOccs_mem (k := k + 1) hc w1
    have hw := h (w, j) (List.mem_append_right _ j2)
    obtain ⟨rfl, hr⟩ := names_x hv v2
    obtain ⟨rfl, _⟩ := names_x hw w2
    have := hr k j hv hw (by omega)
    omega

theorem clause_sep (head : List Tm) (body : List (List Tm)) :
    Separate (chunks (fmtList (names head body) head) (body.map (fmtList (names head body)))) := by
  cases body with
  | nil => exact List.pairwise_singleton _ _
  | cons a l =>
    rw [List.map_cons, chunks, Separate, List.pairwise_cons]
    refine ⟨fun b hb n h1 h2 => ?_, goals_sep l 2 (Nat.le_refl _) fun p hp => List.mem_append_right _ (List.mem_append_right _ hp)⟩
    obtain ⟨c, hc, rfl⟩ := List.mem_map.mp hb
    obtain ⟨w, w1, w2⟩ := fmtList_occ c h2
    obtain ⟨j, j1, j2⟩ := goalOccs_mem (k := 2) hc w1
    have hw : (w, j) ∈ clauseOccs head (a :: l) := List.mem_append_right _ (List.mem_append_right _ j2)
    obtain ⟨rfl, hr⟩ := names_x hw w2
    have hv : ∃ k, k ≤ 1 ∧ (w, k) ∈ clauseOccs head (a :: l) := by
      rcases occList_append.mp h1 with h1 | h1
      · obtain ⟨v, v1, v2⟩ := fmtList_occ head h1
        have hv : (v, 0) ∈ clauseOccs head (a :: l) := List.mem_append_left _ (List.mem_map.mpr ⟨v, v1, rfl⟩)
        obtain ⟨rfl, _⟩ := names_x hv v2
        exact ⟨0, by omega, hv⟩
      · obtain ⟨v, v1, v2⟩ := fmtList_occ a h1
        have hv : (v, 1) ∈ clauseOccs head (a :: l) := List.mem_append_right _ (List.mem_append_left _ (List.mem_map.mpr ⟨v, v1, rfl⟩))
        obtain ⟨rfl, _⟩ := names_x hv v2
        exact ⟨1, by omega, hv⟩
    obtain ⟨k, k1, k2⟩ := hv
    have := hr k j k2 hw (by omega)
    omega

end Gp.CodeGen
