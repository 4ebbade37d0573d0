import Verif.CodeGen.Lemmas16
namespace Gp.CodeGen
open Gp.Heap Gp.Unify Gp.ListBip
open Gp.Term (isNaN fkey deq)

variable {N nY e c c' : Nat} {V V' V'' : St} {X X' X'' : Var → Cell} {g g' g'' : G}
  {A B C : (Var → T) → (Adr → T) → Prop} {E : Env} {O : Opts} {reorder : Bool} {m m0 m1 m2 m' m'' : M} {n : Nat} {Sol : List T → Prop}
  {head last : List Arg} {goals : List (List Arg × (List T → Prop))}

/-! ## A clause -/

theorem toBody_inv (hi : Inv N nY e V X g) : Inv N nY e V X g.toBody where
  ok := hi.ok
  word v hv hk := hi.word v hv (fun h => hk (by simp only [G.toBody]; split <;> simp [h]))
  heap v hv hk := hi.heap v hv (by simp only [G.toBody] at hk; split at hk <;> first | cases hk | exact hk)
  yword i hk := hi.yword i hk
  yheap i hk := hi.yheap i hk
  ydom i hk := hi.ydom i hk
  yfree i h1 h2 := hi.yfree i h1 h2
  env := hi.env
  inj := hi.inj
  tmp k hk := hi.tmp k hk
  nouns v h1 h2 := by
    simp only [G.toBody, h2]; exact hi.nouns v h1 h2

theorem toBody_noarg (g : G) : NoArg g.toBody := fun _ => rfl

theorem toBody_safe {ee : Adr} (h : Safe ee e V X g) : Safe ee e V X g.toBody := by
  intro v hv b hb
  simp only [G.toBody] at hv
  split at hv
  · cases hv
  · exact h v hv b hb

theorem toBody_holds {β : Var → T} {ρ : Adr → T} (h : Holds e V X g β ρ) : Holds e V X g.toBody β ρ := by
  intro v hv
  refine h v (fun h1 => hv ?_)
  simp only [G.toBody]; split <;> simp [h1]

theorem holds_toBody {β : Var → T} {ρ : Adr → T} (h : Holds m.e m.s m.X g.toBody β ρ) : Holds m.e m.s m.X g (withArgs m β ρ) ρ := by
  intro v hv
  cases v with
  | arg i => rfl
  | _ => exact h _ hv

theorem den_xy {β β' : Var → T} {args : List Arg} {ts : List T} (hs : SrcList nY args)
    (h : ∀ v, v.isY = true ∨ (∃ n, v = .x n) → β v = β' v) : DenList β args ts ↔ DenList β' args ts := by
  refine denList_occ args ts ?_
  intro v hv
  rcases occList_src args hs hv with ⟨n, rfl⟩ | ⟨i, rfl, _⟩
  · exact h _ (Or.inr ⟨n, rfl⟩)
  · exact h _ (Or.inl rfl)

theorem withArgs_xy {β : Var → T} {ρ : Adr → T} (v : Var) (h : v.isY = true ∨ (∃ n, v = .x n)) : withArgs m β ρ v = β v := by
  rcases h with h | ⟨n, rfl⟩
  · cases v <;> first | rfl | cases h
  · rfl

theorem setArgs_xy {β : Var → T} {ts : List T} (v : Var) (h : v.isY = true ∨ (∃ n, v = .x n)) : setArgs ts β v = β v := by
  rcases h with h | ⟨n, rfl⟩
  · cases v <;> first | rfl | cases h
  · rfl

theorem sameTo_xy {β β' : Var → T} (hb : SameTo c β β') (v : Var) (h : v.isY = true ∨ (∃ n, v = .x n)) : β' v = β v := by
  refine hb v (fun n hn => ?_)
  subst hn
  rcases h with h | ⟨n, h⟩ <;> cases h

/-- The temporaries of the last goal do not occur before the last chunk. -/
theorem sep_last (hsep : Separate (chunks head (goals.map (·.1) ++ [last]))) (hg : goals ≠ []) {n : Nat} (h : OccList (.x n) last) :
    ¬ OccList (.x n) head ∧ ∀ q ∈ goals, ¬ OccList (.x n) q.1 := by
  cases goals with
  | nil => exact absurd rfl hg
  | cons q l =>
    simp only [List.map_cons, List.cons_append, chunks, Separate, List.pairwise_cons] at hsep
    have h1 := fun hq => hsep.1 last (by simp) n hq h
    refine ⟨fun h2 => h1 (occList_append.mpr (Or.inl h2)), fun p hp h2 => ?_⟩
    rcases List.mem_cons.mp hp with rfl | hp
    · exact h1 (occList_append.mpr (Or.inr h2))
    · exact (List.pairwise_append.mp hsep.2).2.2 p.1 (List.mem_map.mpr ⟨p, hp, rfl⟩) last (by simp) n h2 h

theorem sep_goals (hsep : Separate (chunks head (goals.map (·.1) ++ [last]))) : Separate (goals.map (·.1)) := by
  cases goals with
  | nil => exact List.Pairwise.nil
  | cons q l =>
    simp only [List.map_cons, List.cons_append, chunks, Separate, List.pairwise_cons] at hsep ⊢
    refine ⟨fun b hb n h => hsep.1 b (List.mem_append_left _ hb) n (occList_append.mpr (Or.inr h)), (List.pairwise_append.mp hsep.2).1⟩

theorem sep_head (hsep : Separate (chunks head (goals.map (·.1) ++ [last]))) {n : Nat} (h : OccList (.x n) head) :
    ∀ q ∈ goals.tail, ¬ OccList (.x n) q.1 := by
  cases goals with
  | nil => intro q hq; cases hq
  | cons q l =>
    simp only [List.map_cons, List.cons_append, chunks, Separate, List.pairwise_cons] at hsep
    intro p hp
    exact hsep.1 p.1 (List.mem_append_left _ (List.mem_map.mpr ⟨p, hp, rfl⟩)) n (occList_append.mpr (Or.inl h))

/-- The head and the calls. -/
structure ClauseOk (N nY : Nat) (m : M) (head : List Arg) (goals : List (List Arg × (List T → Prop))) (last : List Arg) (m' : M) (g' : G) : Prop where
  e : m'.e = m.e
  ee : m'.ee = m.ee
  lssa : m'.s.lssa = m.s.lssa
  inv : Inv N nY m.e m'.s m'.X g'
  noarg : NoArg g'
  grow : Grow m.s.mem m'.s.mem
  low : ∀ ee, m.s.lssa ≤ ee → (∀ i, i < nY → ee ≤ yadr m.e i) → Low ee m.s.mem → Low ee m'.s.mem
  safe : ∀ ee, m.s.lssa ≤ ee → (∀ i, i < nY → ee ≤ yadr m.e i) → Safe ee m.e m.s m.X (atStart head.length) → Safe ee m.e m'.s m'.X g'
  down : ∀ ρ, Model N m'.s.mem ρ → Model N m.s.mem ρ ∧ ∀ β', Holds m.e m'.s m'.X g' β' ρ →
      ∃ β, Match N m head β ρ ∧ Solved β goals ∧ ∀ v, v.isY = true ∨ (∃ n, v = .x n) ∧ OccList v last → β v = β' v
  up : ∀ ρ β, Match N m head β ρ → Solved β goals →
    ∃ ρ' β', Model N m'.s.mem ρ' ∧ Agree m.s.mem ρ ρ' ∧ Holds m.e m'.s m'.X g' β' ρ' ∧ ∀ v, v.isY = true ∨ (∃ n, v = .x n) → β' v = β v

theorem clause_ok (hw : WellFormed nY head goals last) (hm : Start N nY head.length m)
    (h : Clause E O reorder N m head goals m' g') : ClauseOk N nY m head goals last m' g' := by
  obtain ⟨m0, h0, hc⟩ := h
  obtain ⟨t0, e0, ee0⟩ := head_run hm hw.srcHead h0
  have hi0 : Inv N nY m0.e m0.s m0.X (genHead { O with body := false } reorder head (atStart head.length)).2 := by rw [e0]; exact t0.inv
  have hk : ∀ n, (genHead { O with body := false } reorder head (atStart head.length)).2.info (.x n) ≠ none → OccList (.x n) head := by
    intro n hn
    refine Classical.byContradiction fun ho => hn ?_
    rw [head_nocc ho]; rfl
  have c := calls_ok hc (toBody_inv hi0) (toBody_noarg _) (by rw [e0]; exact hm.size) hw.srcGoals (sep_goals hw.sep)
    (fun n hn => sep_head hw.sep (hk n hn))
  refine ⟨by rw [c.e, e0], by rw [c.ee, ee0], by rw [c.lssa, t0.lssa], by rw [← e0]; exact c.inv, c.noarg, t0.grow.trans c.grow,
    fun ee h1 h2 h3 => ?_, fun ee h1 h2 h3 => ?_, fun ρ hρ => ?_, fun ρ β hM hS => ?_⟩
  · exact c.low ee (by rw [t0.lssa]; exact h1) (by rw [e0]; exact h2) (t0.low ee h1 h2 h3)
  · have := c.safe ee (by rw [t0.lssa]; exact h1) (by rw [e0]; exact h2) (by rw [e0]; exact toBody_safe (t0.safe ee h1 h2 h3))
    rw [e0] at this; exact this
  · obtain ⟨hm0, d⟩ := c.down (fun v => (∃ n, v = .x n) ∧ OccList v last) (fun v hv => by
      obtain ⟨⟨n, rfl⟩, ho⟩ := hv
      refine ⟨⟨n, rfl⟩, fun q hq => (sep_last hw.sep (fun h => by rw [h] at hq; cases hq) ho).2 q hq, fun hne => ?_⟩
      show (genHead { O with body := false } reorder head (atStart head.length)).2.info (.x n) = none
      rw [head_nocc (sep_last hw.sep hne ho).1]; rfl) ρ hρ
    obtain ⟨hmm, d0⟩ := t0.down ρ hm0
    refine ⟨hmm, fun β' hβ' => ?_⟩
    obtain ⟨β, b1, b2, b3⟩ := d β' (by rw [e0]; exact hβ')
    have b1' := holds_toBody b1
    rw [e0] at b1'
    obtain ⟨a1, a2⟩ := d0 _ b1' trivial
    rw [map_args a1] at a2
    exact ⟨β, ⟨hmm, (den_xy hw.srcHead (fun v hv => withArgs_xy v hv)).mp a2⟩, b2, b3⟩
  · obtain ⟨hρ, hd⟩ := hM
    have hd' := den_withArgs (m := m) (ρ := ρ) hw.srcHead hd
    rw [← map_args holds_withArgs] at hd'
    obtain ⟨ρ1, β1, a1, a2, a3, a4, _⟩ := t0.up ρ (withArgs m β ρ) hρ holds_withArgs hd'
    have hxy : ∀ v : Var, v.isY = true ∨ (∃ n, v = .x n) → β1 v = β v := fun v hv => by rw [sameTo_xy a3 v hv, withArgs_xy v hv]
    obtain ⟨ρ2, β2, b1, b2, b3, b4⟩ := c.up ρ1 β1 a1 (by rw [e0]; exact toBody_holds a4) (fun q hq => by
      obtain ⟨ts, t1, t2⟩ := hS q hq
      exact ⟨ts, (den_xy (hw.srcGoals q hq) hxy).mpr t1, t2⟩)
    exact ⟨ρ2, β2, b1, a2.trans b2 t0.grow, by rw [← e0]; exact b3, fun v hv => by rw [b4 v hv, hxy v hv]⟩

end Gp.CodeGen
