import Verif.CodeGen.Lemmas15
namespace Gp.CodeGen
open Gp.Heap Gp.Unify Gp.ListBip
open Gp.Term (isNaN fkey deq)

variable {N nY e c c' : Nat} {V V' V'' : St} {X X' X'' : Var → Cell} {g g' g'' : G}
  {A B C : (Var → T) → (Adr → T) → Prop} {E : Env} {O : Opts} {m m1 m2 m' : M} {n : Nat} {Sol : List T → Prop}

/-! ## A call -/

theorem Called.grow (h : Called N m n Sol m') : Grow m.s.mem m'.s.mem where
  term := h.term
  keep a ha hne := h.keep a (by intro h1; rw [h1] at ha; cases ha) hne

theorem Called.inv (h : Called N m n Sol m') (hi : Inv N nY m.e m.s m.X g) (hsz : nY + 3 ≤ m.e) :
    Inv N nY m.e m'.s m'.X g.forget where
  ok := h.ok
  word v hv hk := by simp [G.forget, hv] at hk
  heap v hv hk := by simp [G.forget, hv] at hk
  yword i hk := h.term _ (hi.yword i hk)
  yheap i hk := by
    have hk : g.info (.y i) = some .inHeap := hk
    have h1 := hi.yheap i hk
    have hy := (hi.env i (hi.ydom i (by rw [hk]; simp))).1
    rw [h.lssa, h.keep]
    · exact h1
    · intro h2; have := h1 _ h2; omega
    · intro h2; have := hi.yword i (by rw [hk]; simp); rw [h2] at this; simp [isTerm] at this
  ydom i hk := hi.ydom i hk
  yfree i h1 h2 := h.unused _ (hi.env i h1).1 (by simp only [yadr]; omega) (hi.yfree i h1 h2)
  env i h1 := by rw [h.lssa]; exact hi.env i h1
  inj := hi.inj
  tmp k _ := by simp [G.forget, Var.isY]
  nouns v hv _ := by simp [G.forget, hv]

theorem Called.low (h : Called N m n Sol m') {ee : Adr} (h1 : m.s.lssa ≤ ee) (h3 : Low ee m.s.mem) : Low ee m'.s.mem := by
  intro a b ha hb
  by_cases he : m'.s.mem a = m.s.mem a
  · exact h3 a b ha (by rw [← he]; exact hb)
  · rcases h.refs a b hb he with h4 | h4 <;> omega

theorem Called.safe (h : Called N m n Sol m') (hi : Inv N nY m.e m.s m.X g) {ee : Adr} (h2 : ∀ i, i < nY → ee ≤ yadr m.e i)
    (h3 : Safe ee m.e m.s m.X g) : Safe ee m.e m'.s m'.X g.forget := by
  intro v hv b hb
  cases v with
  | y i =>
    have hv : g.info (.y i) = some .notInCurEnv := hv
    have hk : g.info (.y i) ≠ none := by rw [hv]; simp
    have hy := h2 i (hi.ydom i hk)
    simp only [word] at hb
    rw [h.keep] at hb
    · exact h3 _ hv b hb
    · intro h4; have := h3 _ hv _ h4; omega
    · intro h4; have := hi.yword i hk; rw [h4] at this; simp [isTerm] at this
  | _ => cases hv

/-- The values of the argument registers. -/
theorem terms_eq {β : Var → T} {ρ : Adr → T} (hk : ∀ i, i < n → g.info (.arg i) ≠ none) (h : Holds m.e m.s m.X g β ρ) :
    ((List.range n).map fun i => β (.arg i)) = m.terms ρ n :=
  List.map_congr_left fun i hi => h (.arg i) (hk i (List.mem_range.mp hi))

/-- The values of the variables of the clause, and `ts` in the argument registers. -/
def setArgs (ts : List T) (β : Var → T) : Var → T
  | .arg i => ts[i]?.getD (.atm 0)
  | v => β v

theorem setArgs_map (ts : List T) (β : Var → T) (h : n = ts.length) : ((List.range n).map fun i => setArgs ts β (.arg i)) = ts := by
  subst h
  refine List.ext_getElem (by simp) (fun i h1 h2 => ?_)
  simp [setArgs, List.getElem?_eq_getElem h2]

theorem den_setArgs {β : Var → T} {ts us : List T} {args : List Arg} (hs : SrcList nY args) (h : DenList β args ts) :
    DenList (setArgs us β) args ts := by
  refine (denList_occ args ts ?_).mp h
  intro v hv
  cases v <;> first | rfl | exact absurd hv (occ_arg hs)

theorem holds_setArgs {β : Var → T} {ρ : Adr → T} {ts : List T} (hn : NoArg g) (h : Holds e V X g β ρ) :
    Holds e V X g (setArgs ts β) ρ := by
  intro v hv
  cases v with
  | arg i => exact absurd (hn i) hv
  | _ => exact h _ hv

theorem den_length {β : Var → T} {args : List Arg} {ts : List T} (h : DenList β args ts) : args.length = ts.length :=
  ((denList_iff args ts).mp h).1

theorem den_same {β β' : Var → T} {ts us : List T} {args : List Arg} (hs : SrcList nY args) (h : SameTo c (setArgs us β) β') :
    DenList β args ts ↔ DenList β' args ts := by
  refine denList_occ args ts ?_
  intro v hv
  cases v with
  | arg i => exact absurd hv (occ_arg hs)
  | tmp i => exact absurd hv (occ_tmp hs)
  | x i => exact (h (.x i) (fun n hn => by cases hn)).symm
  | y i => exact (h (.y i) (fun n hn => by cases hn)).symm

theorem holds_forget {β : Var → T} {ρ ρ' : Adr → T} (hi : Inv N nY m.e m.s m.X g) (hg : Agree m.s.mem ρ ρ')
    (h : Holds m.e m.s m.X g β ρ) : Holds m.e m'.s m'.X g.forget β ρ' := by
  intro v hv
  cases v with
  | y i =>
    have hv : g.info (.y i) ≠ none := hv
    exact (h _ hv).trans (hg _ (hi.yword i hv)).symm
  | _ => exact absurd rfl hv

/-- What holds after the calls. -/
structure CallsOk (N nY : Nat) (m : M) (g : G) (goals : List (List Arg × (List T → Prop))) (m' : M) (g' : G) : Prop where
  e : m'.e = m.e
  ee : m'.ee = m.ee
  lssa : m'.s.lssa = m.s.lssa
  inv : Inv N nY m.e m'.s m'.X g'
  noarg : NoArg g'
  grow : Grow m.s.mem m'.s.mem
  low : ∀ ee, m.s.lssa ≤ ee → (∀ i, i < nY → ee ≤ yadr m.e i) → Low ee m.s.mem → Low ee m'.s.mem
  safe : ∀ ee, m.s.lssa ≤ ee → (∀ i, i < nY → ee ≤ yadr m.e i) → Safe ee m.e m.s m.X g → Safe ee m.e m'.s m'.X g'
  down : ∀ (P : Var → Prop), (∀ v, P v → (∃ n, v = .x n) ∧ (∀ q ∈ goals, ¬ OccList v q.1) ∧ (goals ≠ [] → g.info v = none)) →
    ∀ ρ, Model N m'.s.mem ρ → Model N m.s.mem ρ ∧ ∀ β', Holds m.e m'.s m'.X g' β' ρ →
      ∃ β, Holds m.e m.s m.X g β ρ ∧ Solved β goals ∧ ∀ v, v.isY = true ∨ P v → β v = β' v
  up : ∀ ρ β, Model N m.s.mem ρ → Holds m.e m.s m.X g β ρ → Solved β goals →
    ∃ ρ' β', Model N m'.s.mem ρ' ∧ Agree m.s.mem ρ ρ' ∧ Holds m.e m'.s m'.X g' β' ρ' ∧ ∀ v, v.isY = true ∨ (∃ n, v = .x n) → β' v = β v

open Classical in
theorem calls_ok {reorder : Bool} {goals : List (List Arg × (List T → Prop))}
    (h : Calls E O reorder N m g goals m' g') (hi : Inv N nY m.e m.s m.X g) (hn : NoArg g) (hsz : nY + 3 ≤ m.e)
    (hs : ∀ q ∈ goals, SrcList nY q.1) (hsep : Separate (goals.map (·.1)))
    (hkn : ∀ n, g.info (.x n) ≠ none → ∀ q ∈ goals.tail, ¬ OccList (.x n) q.1) : CallsOk N nY m g goals m' g' := by
  induction h with
  | nil m g =>
    exact ⟨rfl, rfl, rfl, hi, hn, Grow.refl _, fun _ _ _ h => h, fun _ _ _ h => h,
      fun P hP ρ hρ => ⟨hρ, fun β hβ => ⟨β, hβ, fun q hq => (by cases hq), fun _ _ => rfl⟩⟩,
      fun ρ β h1 h2 _ => ⟨ρ, β, h1, Agree.refl _ _, h2, fun _ _ => rfl⟩⟩
  | @cons m m1 m2 m' g g' args Sol goals h1 h2 h3 ih =>
    have hsa := hs _ List.mem_cons_self
    obtain ⟨m1', r1, t1, e1, ee1, k1, _⟩ := call_run hsa hi hn h1
    cases r1
    have hi1 : Inv N nY m1.e m1.s m1.X (genCall { O with body := true, lastPred := false } reorder args g).2 := by rw [e1]; exact t1.inv
    have hi2 := h2.inv hi1 (by rw [e1]; exact hsz)
    rw [List.map_cons, Separate, List.pairwise_cons] at hsep
    have ih := ih (by rw [h2.e]; exact hi2) (fun i => rfl) (by rw [h2.e, e1]; exact hsz) (fun q hq => hs q (List.mem_cons_of_mem _ hq)) hsep.2
      (fun n h => absurd rfl h)
    have he2 : m2.e = m.e := by rw [h2.e, e1]
    have hl2 : m2.s.lssa = m.s.lssa := by rw [h2.lssa, t1.lssa]
    have h2safe : ∀ ee, (∀ i, i < nY → ee ≤ yadr m.e i) → Safe ee m.e m1.s m1.X (genCall { O with body := true, lastPred := false } reorder args g).2 →
        Safe ee m.e m2.s m2.X (genCall { O with body := true, lastPred := false } reorder args g).2.forget := by
      intro ee b hsf
      have := h2.safe hi1 (ee := ee) (by rw [e1]; exact b) (by rw [e1]; exact hsf)
      rw [e1] at this; exact this
    refine ⟨by rw [ih.e, he2], by rw [ih.ee, h2.ee, ee1], by rw [ih.lssa, hl2], by rw [← he2]; exact ih.inv, ih.noarg,
      (t1.grow.trans h2.grow).trans ih.grow, fun ee a b h => ?_, fun ee a b h => ?_, fun P hP ρ hρ => ?_, fun ρ β hρ hβ hsol => ?_⟩
    · exact ih.low ee (by rw [hl2]; exact a) (by rw [he2]; exact b) (h2.low (by rw [t1.lssa]; exact a) (t1.low ee a b h))
    · have := ih.safe ee (by rw [hl2]; exact a) (by rw [he2]; exact b) (by rw [he2]; exact h2safe ee b (t1.safe ee a b h))
      rw [he2] at this; exact this
    · obtain ⟨m2m, d2⟩ := ih.down P (fun v hv => by
        obtain ⟨⟨n, rfl⟩, h4, _⟩ := hP v hv
        exact ⟨⟨n, rfl⟩, fun q hq => h4 q (List.mem_cons_of_mem _ hq), fun _ => rfl⟩) ρ hρ
      obtain ⟨m1m, hsol⟩ := h2.sound ρ m2m
      obtain ⟨mm, d1⟩ := t1.down ρ m1m
      refine ⟨mm, fun β' hβ' => ?_⟩
      obtain ⟨β2, b1, b2, b3⟩ := d2 β' (by rw [he2]; exact hβ')
      rw [he2] at b1
      let Q : Var → Prop := fun v => v.isY = true ∨ P v ∨ ∃ q ∈ goals, OccList v q.1
      let β1 : Var → T := fun v => if Q v then β2 v else m1.value ρ v
      have hpos : ∀ v, Q v → β1 v = β2 v := fun v h => if_pos h
      have hh1 : Holds m.e m1.s m1.X (genCall { O with body := true, lastPred := false } reorder args g).2 β1 ρ := by
        intro v hv
        by_cases hq : Q v
        · rw [hpos v hq]
          cases v with
          | y i => exact b1 (.y i) hv
          | x n =>
            exfalso
            have hocc : ¬ OccList (.x n) args ∧ g.info (.x n) = none := by
              rcases hq with hq | hq | ⟨q, hq, ho⟩
              · cases hq
              · obtain ⟨_, h5, h6⟩ := hP _ hq
                exact ⟨h5 _ List.mem_cons_self, h6 (by simp)⟩
              · refine ⟨fun h => hsep.1 q.1 (List.mem_map.mpr ⟨q, hq, rfl⟩) n h ho, ?_⟩
                cases hin : g.info (.x n) with
                | none => rfl
                | some i => exact absurd ho (hkn n (by rw [hin]; simp) q hq)
            exact hv ((call_nocc hocc.1 g).trans hocc.2)
          | arg n =>
            exfalso
            rcases hq with hq | hq | ⟨q, hq, ho⟩
            · cases hq
            · obtain ⟨⟨k, h5⟩, _⟩ := hP _ hq; cases h5
            · exact occ_arg (hs q (List.mem_cons_of_mem _ hq)) ho
          | tmp n =>
            exfalso
            rcases hq with hq | hq | ⟨q, hq, ho⟩
            · cases hq
            · obtain ⟨⟨k, h5⟩, _⟩ := hP _ hq; cases h5
            · exact occ_tmp (hs q (List.mem_cons_of_mem _ hq)) ho
        · have : β1 v = m1.value ρ v := if_neg hq
          rw [this]
          have := holds_value rfl hi1 m1m v hv
          rw [e1] at this; exact this
      obtain ⟨a1, a2⟩ := d1 β1 hh1 trivial
      rw [terms_eq (m := m1) k1 (by rw [e1]; exact hh1)] at a2
      refine ⟨β1, a1, ?_, fun v hv => ?_⟩
      · intro q hq
        rcases List.mem_cons.mp hq with rfl | hq
        · exact ⟨_, a2, hsol⟩
        · obtain ⟨ts, c1, c2⟩ := b2 q hq
          exact ⟨ts, (denList_occ _ _ (fun v hv => (hpos v (Or.inr (Or.inr ⟨q, hq, hv⟩))).symm)).mp c1, c2⟩
      · rw [hpos v (hv.imp id Or.inl), b3 v hv]
    · obtain ⟨ts, s1, s2⟩ := hsol _ List.mem_cons_self
      have hlen := den_length s1
      obtain ⟨ρ1, β1, c1, c2, c3, c4, _⟩ := t1.up ρ (setArgs ts β) hρ (holds_setArgs hn hβ) (by
        rw [setArgs_map ts β hlen]; exact den_setArgs hsa s1)
      have hterms : m1.terms ρ1 args.length = ts := by
        rw [← terms_eq (m := m1) k1 (by rw [e1]; exact c4), ← setArgs_map ts β hlen]
        exact List.map_congr_left fun i _ => c3 (.arg i) (fun n hn => by cases hn)
      have hxy : ∀ v, v.isY = true ∨ (∃ n, v = .x n) → β1 v = β v := by
        intro v hv
        rcases hv with hv | ⟨n, rfl⟩
        · cases v with
          | y i => exact c3 (.y i) (fun n hn => by cases hn)
          | _ => cases hv
        · exact c3 (.x n) (fun n hn => by cases hn)
      obtain ⟨ρ2, c5, c6⟩ := h2.complete ρ1 c1 (by rw [hterms]; exact s2)
      obtain ⟨ρ3, β3, c7, c8, c9, c10⟩ := ih.up ρ2 β1 c5 (by
          rw [h2.e]
          exact holds_forget hi1 c6 (by rw [e1]; exact c4)) (by
        intro q hq
        obtain ⟨us, u1, u2⟩ := hsol q (List.mem_cons_of_mem _ hq)
        exact ⟨us, (den_same (hs q (List.mem_cons_of_mem _ hq)) c3).mp u1, u2⟩)
      refine ⟨ρ3, β3, c7, (c2.trans c6 t1.grow).trans c8 (t1.grow.trans h2.grow), by rw [← he2]; exact c9, fun v hv => ?_⟩
      rw [c10 v hv, hxy v hv]

end Gp.CodeGen
