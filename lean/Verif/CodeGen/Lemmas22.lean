import Verif.CodeGen.Spec3
import Verif.CodeGen.Lemmas21
namespace Gp.CodeGen
open Gp.Heap Gp.Unify Gp.ListBip
open Gp.Term (isNaN fkey deq)

variable {N nY e c c' : Nat} {V V' V'' : St} {X X' X'' : Var → Cell} {g g' g'' : G}
  {A B C : (Var → T) → (Adr → T) → Prop} {E : Env} {O : Opts} {m m1 m2 m' : M} {n : Nat} {reorder : Bool} {head last : List Arg}
  {goals : List Chunk} {leqs : List (Arg × Arg)}

/-! ## A temporary which does not occur stays unknown -/

theorem toBody_x (g : G) (j : Nat) : g.toBody.info (.x j) = g.info (.x j) := rfl

theorem eqReg_nocc {v : Var} {a : Arg} {q : List Ins × G × Bool} {j : Nat} (hv : v ≠ .x j) (ha : ¬ Occ (.x j) a) (h : eqReg O v a g = some q) :
    q.2.1.info (.x j) = g.info (.x j) := by
  unfold eqReg at h
  split at h
  · cases h; rw [toBody_x]; exact unif_nocc O j a v g ha
  · split at h
    · split at h
      · cases h
      · cases h
        rw [toBody_x, setInfo_other _ (Ne.symm hv)]
        exact genLoadVar_info O _ v g (fun h => ha (by simp only [Occ]; exact h.symm))
    · split at h
      · cases h; rfl
      · cases h; rw [toBody_x]; exact load_nocc O j _ v g ha hv

theorem eqVar_nocc {v : Var} {a : Arg} {q : List Ins × G × Bool} {j : Nat} (hv : v ≠ .x j) (ha : ¬ Occ (.x j) a) (h : eqVar O v a g = some q) :
    q.2.1.info (.x j) = g.info (.x j) := by
  unfold eqVar at h
  split at h
  · cases h
    rw [toBody_x]
    refine (unif_nocc O j a (.arg 0) _ ha).trans (load_nocc O j (.var v) (.arg 0) g ?_ (by simp))
    simp only [Occ]; exact hv
  · exact eqReg_nocc hv ha h

mutual
theorem equal_nocc (O : Opts) (j : Nat) : (a b : Arg) → (g : G) → (q : List Ins × G × Bool) → ¬ Occ (.x j) a → ¬ Occ (.x j) b →
    equal O a b g = some q → q.2.1.info (.x j) = g.info (.x j)
  | .void, b, g, q, _, _, h => by unfold equal at h; cases h; rfl
  | .var v, b, g, q, ha, hb, h => by
    unfold equal at h
    split at h
    · cases h; rfl
    · split at h
      · cases h; rfl
      · exact eqVar_nocc (fun h => ha (by simp only [Occ]; exact h)) hb h
  | .stc f as, b, g, q, ha, hb, h => by
    unfold equal at h
    split at h
    · cases h; rfl
    · split at h
      · cases h; rfl
      · exact eqVar_nocc (fun h => hb (by simp only [Occ]; exact h)) ha h
      · split at h
        · exact equalList_nocc O j as _ g q ha hb h
        · cases h; rfl
      · cases h; rfl
  | .atm i, b, g, q, ha, hb, h => by
    unfold equal at h
    split at h
    · cases h; rfl
    · split at h <;> first | exact eqVar_nocc (fun h => hb (by simp only [Occ]; exact h)) ha h | (cases h; rfl)
  | .int i, b, g, q, ha, hb, h => by
    unfold equal at h
    split at h
    · cases h; rfl
    · split at h <;> first | exact eqVar_nocc (fun h => hb (by simp only [Occ]; exact h)) ha h | (cases h; rfl)
  | .flt i, b, g, q, ha, hb, h => by
    unfold equal at h
    split at h
    · cases h; rfl
    · split at h <;> first | exact eqVar_nocc (fun h => hb (by simp only [Occ]; exact h)) ha h | (cases h; rfl)
  | .nil, b, g, q, ha, hb, h => by
    unfold equal at h
    split at h
    · cases h; rfl
    · split at h <;> first | exact eqVar_nocc (fun h => hb (by simp only [Occ]; exact h)) ha h | (cases h; rfl)
theorem equalList_nocc (O : Opts) (j : Nat) : (l l' : List Arg) → (g : G) → (q : List Ins × G × Bool) → ¬ OccList (.x j) l → ¬ OccList (.x j) l' →
    equal.equalList O l l' g = some q → q.2.1.info (.x j) = g.info (.x j)
  | a :: l, b :: l', g, q, ha, hb, h => by
    simp only [equal.equalList] at h
    split at h
    · cases h
    · rename_i c1 g1 k1 h1
      split at h
      · cases h
      · rename_i c2 g2 k2 h2
        cases h
        have p1 := equal_nocc O j a b g _ (fun h => ha (Or.inl h)) (fun h => hb (Or.inl h)) h1
        exact (equalList_nocc O j l l' g1 _ (fun h => ha (Or.inr h)) (fun h => hb (Or.inr h)) h2).trans p1
  | [], l', g, q, _, _, h => by unfold equal.equalList at h; cases h; rfl
  | _ :: _, [], g, q, _, _, h => by unfold equal.equalList at h; cases h; rfl
end

theorem eqs_mem {eqs : List (Arg × Arg)} {args : List Arg} {p : Arg × Arg} (h : p ∈ eqs) : p.1 ∈ allArgs eqs args ∧ p.2 ∈ allArgs eqs args := by
  constructor <;> exact List.mem_append_left _ (List.mem_flatMap.mpr ⟨p, h, by simp⟩)

theorem eqs_nocc (O : Opts) (j : Nat) : (l : List (Arg × Arg)) → (g g' : G) → (code : List Ins) → (k : Bool) →
    (∀ p ∈ l, ¬ Occ (.x j) p.1 ∧ ¬ Occ (.x j) p.2) → genEqs O l g = some (code, g', k) → g'.info (.x j) = g.info (.x j)
  | [], g, g', code, k, _, h => by unfold genEqs at h; cases h; rfl
  | p :: l, g, g', code, k, hp, h => by
    simp only [genEqs] at h
    split at h
    · cases h
    · rename_i c1 g1 k1 h1
      split at h
      · cases h
      · rename_i c2 g2 k2 h2
        cases h
        have h3 := hp p List.mem_cons_self
        exact (eqs_nocc O j l g1 _ c2 k2 (fun q hq => hp q (List.mem_cons_of_mem _ hq)) h2).trans (equal_nocc O j _ _ g _ h3.1 h3.2 h1)

/-! ## A chunk -/

theorem src_mem : (l : List Arg) → (∀ a ∈ l, Src nY a) → SrcList nY l
  | [], _ => trivial
  | a :: l, h => ⟨h a List.mem_cons_self, src_mem l (fun b hb => h b (List.mem_cons_of_mem _ hb))⟩

theorem all_args {eqs : List (Arg × Arg)} {args : List Arg} (h : SrcList nY (allArgs eqs args)) : SrcList nY args :=
  src_mem args fun a ha => srcList_mem h a (List.mem_append_right _ ha)

theorem all_eqs {eqs : List (Arg × Arg)} {args : List Arg} (h : SrcList nY (allArgs eqs args)) : ∀ p ∈ eqs, Src nY p.1 ∧ Src nY p.2 :=
  fun _ hp => ⟨srcList_mem h _ (eqs_mem hp).1, srcList_mem h _ (eqs_mem hp).2⟩

theorem unified_occ {β β' : Var → T} {eqs : List (Arg × Arg)} {args : List Arg} (h : ∀ v, OccList v (allArgs eqs args) → β v = β' v) :
    Unified β eqs ↔ Unified β' eqs := by
  refine forall_congr' fun p => forall_congr' fun hp => exists_congr fun t => and_congr ?_ ?_
  · exact den_occ _ t (fun v hv => h v (mem_occList (eqs_mem hp).1 hv))
  · exact den_occ _ t (fun v hv => h v (mem_occList (eqs_mem hp).2 hv))

theorem args_occ {β β' : Var → T} {eqs : List (Arg × Arg)} {args : List Arg} {ts : List T} (h : ∀ v, OccList v (allArgs eqs args) → β v = β' v) :
    DenList β args ts ↔ DenList β' args ts :=
  denList_occ args ts (fun v hv => h v (occList_append.mpr (Or.inr hv)))

theorem genEqs_tmp (O : Opts) : (l : List (Arg × Arg)) → (g g' : G) → (code : List Ins) → (k : Bool) → NoArg g → genEqs O l g = some (code, g', k) → g.tmp ≤ g'.tmp
  | [], g, g', code, k, hn, h => by unfold genEqs at h; cases h; exact Nat.le_refl _
  | p :: l, g, g', code, k, hn, h => by
    simp only [genEqs] at h
    split at h
    · cases h
    · rename_i c1 g1 k1 h1
      split at h
      · cases h
      · rename_i c2 g2 k2 h2
        cases h
        have := equal_pure hn h1
        exact Nat.le_trans this.2 (genEqs_tmp O l g1 _ c2 k2 this.1 h2)

theorem chunk_run {b : Bool} {eqs : List (Arg × Arg)} {args : List Arg} {code : List Ins} {g1 : G} {res : Option M}
    (hs : SrcList nY (allArgs eqs args)) (hi : Inv N nY m.e m.s m.X g) (hn : NoArg g) (hg : genEqs O eqs g = some (code, g1, true))
    (h1 : exec E code m = some (some m1)) (h2 : exec E (genCall O b args g1).1 m1 = some res) :
    ∃ m' : M, res = some m' ∧ Tr N nY m.e g.tmp m.s m.X g m'.s m'.X (genCall O b args g1).2
        (fun β _ => Unified β eqs ∧ DenList β args ((List.range args.length).map fun i => β (.arg i)))
        (fun _ _ => True) ∧ m'.e = m.e ∧ m'.ee = m.ee ∧ (∀ i, i < args.length → (genCall O b args g1).2.info (.arg i) ≠ none) ∧
      (O.lastPred = true → m.s.lssa ≤ m.ee → (∀ i, i < nY → m.ee ≤ yadr m.e i) → Safe m.ee m.e m.s m.X g →
        ∀ i, i < args.length → Global m.ee (m'.X (.arg i))) := by
  obtain ⟨t1, e1, ee1⟩ := genEqs_ok O E eqs g g1 m code (some m1) (all_eqs hs) hi hn hg h1
  obtain ⟨m', r2, t2, e2, ee2, k2, s2⟩ := call_run (all_args hs) (by rw [e1]; exact t1.inv) (genEqs_noarg O eqs g g1 code true hn hg) h2
  have t1' := t1.frame (F := fun β _ => DenList β args ((List.range args.length).map fun i => β (.arg i))) (fun _ _ β β' _ hb => by
    have : ((List.range args.length).map fun i => β' (.arg i)) = ((List.range args.length).map fun i => β (.arg i)) :=
      List.map_congr_left fun i _ => hb (.arg i) (fun n h => by cases h)
    rw [this]; exact denList_congr hb args (all_args hs) _)
  rw [e1] at t2
  have hle : g.tmp ≤ g1.tmp := genEqs_tmp O eqs g g1 code true hn hg
  refine ⟨m', r2, (t1'.conseq (fun _ _ _ _ => Iff.rfl) (B' := fun β _ => DenList β args ((List.range args.length).map fun i => β (.arg i)))
    (fun _ _ _ _ => by simp)).trans t2 hle, by rw [e2, e1], by rw [ee2, ee1], k2, fun a1 a2 a3 a4 => ?_⟩
  have := s2 a1 (by rw [t1.lssa, ee1]; exact a2) (by rw [ee1, e1]; exact a3) (by rw [ee1, e1]; exact t1.safe m.ee a2 a3 a4)
  rw [ee1] at this; exact this

theorem chunk_nocc {b : Bool} {eqs : List (Arg × Arg)} {args : List Arg} {code : List Ins} {g1 : G} {j : Nat}
    (h : ¬ OccList (.x j) (allArgs eqs args)) (hg : genEqs O eqs g = some (code, g1, true)) :
    (genCall O b args g1).2.info (.x j) = g.info (.x j) := by
  rw [call_nocc (fun h' => h (occList_append.mpr (Or.inr h'))) g1]
  exact eqs_nocc O j eqs g g1 code true (fun p hp => ⟨fun h' => h (mem_occList (eqs_mem hp).1 h'), fun h' => h (mem_occList (eqs_mem hp).2 h')⟩) hg

/-- What holds after the calls. -/
structure CallsOkE (N nY : Nat) (m : M) (g : G) (goals : List Chunk) (m' : M) (g' : G) : Prop where
  e : m'.e = m.e
  ee : m'.ee = m.ee
  lssa : m'.s.lssa = m.s.lssa
  inv : Inv N nY m.e m'.s m'.X g'
  noarg : NoArg g'
  grow : Grow m.s.mem m'.s.mem
  low : ∀ ee, m.s.lssa ≤ ee → (∀ i, i < nY → ee ≤ yadr m.e i) → Low ee m.s.mem → Low ee m'.s.mem
  safe : ∀ ee, m.s.lssa ≤ ee → (∀ i, i < nY → ee ≤ yadr m.e i) → Safe ee m.e m.s m.X g → Safe ee m.e m'.s m'.X g'
  down : ∀ (P : Var → Prop), (∀ v, P v → (∃ n, v = .x n) ∧ (∀ q ∈ goals, ¬ OccList v (allArgs q.eqs q.args)) ∧ (goals ≠ [] → g.info v = none)) →
    ∀ ρ, Model N m'.s.mem ρ → Model N m.s.mem ρ ∧ ∀ β', Holds m.e m'.s m'.X g' β' ρ →
      ∃ β, Holds m.e m.s m.X g β ρ ∧ SolvedE β goals ∧ ∀ v, v.isY = true ∨ P v → β v = β' v
  up : ∀ ρ β, Model N m.s.mem ρ → Holds m.e m.s m.X g β ρ → SolvedE β goals →
    ∃ ρ' β', Model N m'.s.mem ρ' ∧ Agree m.s.mem ρ ρ' ∧ Holds m.e m'.s m'.X g' β' ρ' ∧ ∀ v, v.isY = true ∨ (∃ n, v = .x n) → β' v = β v

open Classical in
theorem callsE_ok {reorder : Bool} {goals : List Chunk}
    (h : CallsE E O reorder N m g goals m' g') (hi : Inv N nY m.e m.s m.X g) (hn : NoArg g) (hsz : nY + 3 ≤ m.e)
    (hs : ∀ q ∈ goals, SrcList nY (allArgs q.eqs q.args)) (hsep : Separate (goals.map (fun q => allArgs q.eqs q.args)))
    (hkn : ∀ n, g.info (.x n) ≠ none → ∀ q ∈ goals.tail, ¬ OccList (.x n) (allArgs q.eqs q.args)) : CallsOkE N nY m g goals m' g' := by
  induction h with
  | nil m g =>
    exact ⟨rfl, rfl, rfl, hi, hn, Grow.refl _, fun _ _ _ h => h, fun _ _ _ h => h,
      fun P hP ρ hρ => ⟨hρ, fun β hβ => ⟨β, hβ, fun q hq => (by cases hq), fun _ _ => rfl⟩⟩,
      fun ρ β h1 h2 _ => ⟨ρ, β, h1, Agree.refl _ _, h2, fun _ _ => rfl⟩⟩
  | @cons m m0 m1 m2 m' g g0 g' q0 code goals hg0 h0 h1 h2 h3 ih =>
    have hsa := hs _ List.mem_cons_self
    obtain ⟨m1', r1, t1, e1, ee1, k1, _⟩ := chunk_run hsa hi hn hg0 h0 h1
    cases r1
    have hi1 : Inv N nY m1.e m1.s m1.X (genCall { O with body := true, lastPred := false } reorder q0.args g0).2 := by rw [e1]; exact t1.inv
    have hi2 := h2.inv hi1 (by rw [e1]; exact hsz)
    rw [List.map_cons, Separate, List.pairwise_cons] at hsep
    have ih := ih (by rw [h2.e]; exact hi2) (fun i => rfl) (by rw [h2.e, e1]; exact hsz) (fun q hq => hs q (List.mem_cons_of_mem _ hq)) hsep.2
      (fun n h => absurd rfl h)
    have he2 : m2.e = m.e := by rw [h2.e, e1]
    have hl2 : m2.s.lssa = m.s.lssa := by rw [h2.lssa, t1.lssa]
    have h2safe : ∀ ee, (∀ i, i < nY → ee ≤ yadr m.e i) → Safe ee m.e m1.s m1.X (genCall { O with body := true, lastPred := false } reorder q0.args g0).2 →
        Safe ee m.e m2.s m2.X (genCall { O with body := true, lastPred := false } reorder q0.args g0).2.forget := by
      intro ee b hsf
      have := h2.safe hi1 (ee := ee) (by rw [e1]; exact b) (by rw [e1]; exact hsf)
      rw [e1] at this; exact this
    refine ⟨by rw [ih.e, he2], by rw [ih.ee, h2.ee, ee1], by rw [ih.lssa, hl2], by rw [← he2]; exact ih.inv, ih.noarg,
      (t1.grow.trans h2.grow).trans ih.grow, fun ee a b h => ?_, fun ee a b h => ?_, fun P hP ρ hρ => ?_, fun ρ β hρ hβ hsol => ?_⟩
    · exact ih.low ee (by rw [hl2]; exact a) (by rw [he2]; exact b) (h2.low (by rw [t1.lssa]; exact a) (t1.low ee a b h))
    · have := ih.safe ee (by rw [hl2]; exact a) (by rw [he2]; exact b) (by rw [he2]; exact h2safe ee b (t1.safe ee a b h))
      rw [he2] at this; exact this
    · obtain ⟨m2m, d2⟩ := ih.down P (fun v hv => by
        obtain ⟨⟨n, rfl⟩, h4, _⟩ := hP v hv
        exact ⟨⟨n, rfl⟩, fun q hq => h4 q (List.mem_cons_of_mem _ hq), fun _ => rfl⟩) ρ hρ
      obtain ⟨m1m, hsol⟩ := h2.sound ρ m2m
      obtain ⟨mm, d1⟩ := t1.down ρ m1m
      refine ⟨mm, fun β' hβ' => ?_⟩
      obtain ⟨β2, b1, b2, b3⟩ := d2 β' (by rw [he2]; exact hβ')
      rw [he2] at b1
      let Q : Var → Prop := fun v => v.isY = true ∨ P v ∨ ∃ q ∈ goals, OccList v (allArgs q.eqs q.args)
      let β1 : Var → T := fun v => if Q v then β2 v else m1.value ρ v
      have hpos : ∀ v, Q v → β1 v = β2 v := fun v h => if_pos h
      have hh1 : Holds m.e m1.s m1.X (genCall { O with body := true, lastPred := false } reorder q0.args g0).2 β1 ρ := by
        intro v hv
        by_cases hq : Q v
        · rw [hpos v hq]
          cases v with
          | y i => exact b1 (.y i) hv
          | x n =>
            exfalso
            have hocc : ¬ OccList (.x n) (allArgs q0.eqs q0.args) ∧ g.info (.x n) = none := by
              rcases hq with hq | hq | ⟨q, hq, ho⟩
              · cases hq
              · obtain ⟨_, h5, h6⟩ := hP _ hq
                exact ⟨h5 _ List.mem_cons_self, h6 (by simp)⟩
              · refine ⟨fun h => hsep.1 (allArgs q.eqs q.args) (List.mem_map.mpr ⟨q, hq, rfl⟩) n h ho, ?_⟩
                cases hin : g.info (.x n) with
                | none => rfl
                | some i => exact absurd ho (hkn n (by rw [hin]; simp) q hq)
            exact hv ((chunk_nocc hocc.1 hg0).trans hocc.2)
          | arg n =>
            exfalso
            rcases hq with hq | hq | ⟨q, hq, ho⟩
            · cases hq
            · obtain ⟨⟨k, h5⟩, _⟩ := hP _ hq; cases h5
            · exact occ_arg (hs q (List.mem_cons_of_mem _ hq)) ho
          | tmp n =>
            exfalso
            rcases hq with hq | hq | ⟨q, hq, ho⟩
            · cases hq
            · obtain ⟨⟨k, h5⟩, _⟩ := hP _ hq; cases h5
            · exact occ_tmp (hs q (List.mem_cons_of_mem _ hq)) ho
        · have : β1 v = m1.value ρ v := if_neg hq
          rw [this]
          have := holds_value rfl hi1 m1m v hv
          rw [e1] at this; exact this
      obtain ⟨a1, a2⟩ := d1 β1 hh1 trivial
      obtain ⟨a2e, a2⟩ := a2
      rw [terms_eq (m := m1) k1 (by rw [e1]; exact hh1)] at a2
      refine ⟨β1, a1, ?_, fun v hv => ?_⟩
      · intro q hq
        rcases List.mem_cons.mp hq with rfl | hq
        · exact ⟨a2e, _, a2, hsol⟩
        · obtain ⟨cu, ts, c1, c2⟩ := b2 q hq
          have hag : ∀ v, OccList v (allArgs q.eqs q.args) → β2 v = β1 v := fun v hv => (hpos v (Or.inr (Or.inr ⟨q, hq, hv⟩))).symm
          exact ⟨(unified_occ hag).mp cu, ts, (args_occ hag).mp c1, c2⟩
      · rw [hpos v (hv.imp id Or.inl), b3 v hv]
    · obtain ⟨su, ts, s1, s2⟩ := hsol _ List.mem_cons_self
      have hlen := den_length s1
      obtain ⟨ρ1, β1, c1, c2, c3, c4, _⟩ := t1.up ρ (setArgs ts β) hρ (holds_setArgs hn hβ) (by
        rw [setArgs_map ts β hlen]
        refine ⟨(unified_occ (args := q0.args) (fun v hv => ?_)).mp su, den_setArgs (all_args hsa) s1⟩
        rcases occList_src _ hsa hv with ⟨n, rfl⟩ | ⟨i, rfl, _⟩ <;> rfl)
      have hterms : m1.terms ρ1 q0.args.length = ts := by
        rw [← terms_eq (m := m1) k1 (by rw [e1]; exact c4), ← setArgs_map ts β hlen]
        exact List.map_congr_left fun i _ => c3 (.arg i) (fun n hn => by cases hn)
      have hxy : ∀ v, v.isY = true ∨ (∃ n, v = .x n) → β1 v = β v := by
        intro v hv
        rcases hv with hv | ⟨n, rfl⟩
        · cases v with
          | y i => exact c3 (.y i) (fun n hn => by cases hn)
          | _ => cases hv
        · exact c3 (.x n) (fun n hn => by cases hn)
      obtain ⟨ρ2, c5, c6⟩ := h2.complete ρ1 c1 (by rw [hterms]; exact s2)
      obtain ⟨ρ3, β3, c7, c8, c9, c10⟩ := ih.up ρ2 β1 c5 (by
          rw [h2.e]
          exact holds_forget hi1 c6 (by rw [e1]; exact c4)) (by
        intro q hq
        obtain ⟨uu, us, u1, u2⟩ := hsol q (List.mem_cons_of_mem _ hq)
        have hsq := hs q (List.mem_cons_of_mem _ hq)
        refine ⟨(unified_occ (args := q.args) (fun v hv => ?_)).mp uu, us, (den_same (all_args hsq) c3).mp u1, u2⟩
        rcases occList_src _ hsq hv with ⟨n, rfl⟩ | ⟨i, rfl, _⟩
        · exact (hxy _ (Or.inr ⟨n, rfl⟩)).symm
        · exact (hxy _ (Or.inl rfl)).symm)
      refine ⟨ρ3, β3, c7, (c2.trans c6 t1.grow).trans c8 (t1.grow.trans h2.grow), by rw [← he2]; exact c9, fun v hv => ?_⟩
      rw [c10 v hv, hxy v hv]

/-! ## A clause -/

theorem unified_xy {β β' : Var → T} {eqs : List (Arg × Arg)} {args : List Arg} (hs : SrcList nY (allArgs eqs args))
    (h : ∀ v, v.isY = true ∨ (∃ n, v = .x n) → β v = β' v) : Unified β eqs ↔ Unified β' eqs := by
  refine unified_occ (args := args) ?_
  intro v hv
  rcases occList_src _ hs hv with ⟨n, rfl⟩ | ⟨i, rfl, _⟩
  · exact h _ (Or.inr ⟨n, rfl⟩)
  · exact h _ (Or.inl rfl)

/-- The temporaries of the last goal do not occur before the last chunk. -/
theorem sepE_last (hsep : Separate (chunks head (goals.map (fun q => allArgs q.eqs q.args) ++ [allArgs leqs last]))) (hg : goals ≠ []) {n : Nat} (h : OccList (.x n) (allArgs leqs last)) :
    ¬ OccList (.x n) head ∧ ∀ q ∈ goals, ¬ OccList (.x n) (allArgs q.eqs q.args) := by
  cases goals with
  | nil => exact absurd rfl hg
  | cons q l =>
    simp only [List.map_cons, List.cons_append, chunks, Separate, List.pairwise_cons] at hsep
    have h1 := fun hq => hsep.1 (allArgs leqs last) (by simp) n hq h
    refine ⟨fun h2 => h1 (occList_append.mpr (Or.inl h2)), fun p hp h2 => ?_⟩
    rcases List.mem_cons.mp hp with rfl | hp
    · exact h1 (occList_append.mpr (Or.inr h2))
    · exact (List.pairwise_append.mp hsep.2).2.2 (allArgs p.eqs p.args) (List.mem_map.mpr ⟨p, hp, rfl⟩) (allArgs leqs last) (by simp) n h2 h

theorem sepE_goals (hsep : Separate (chunks head (goals.map (fun q => allArgs q.eqs q.args) ++ [allArgs leqs last]))) : Separate (goals.map (fun q => allArgs q.eqs q.args)) := by
  cases goals with
  | nil => exact List.Pairwise.nil
  | cons q l =>
    simp only [List.map_cons, List.cons_append, chunks, Separate, List.pairwise_cons] at hsep ⊢
    refine ⟨fun b hb n h => hsep.1 b (List.mem_append_left _ hb) n (occList_append.mpr (Or.inr h)), (List.pairwise_append.mp hsep.2).1⟩

theorem sepE_head (hsep : Separate (chunks head (goals.map (fun q => allArgs q.eqs q.args) ++ [allArgs leqs last]))) {n : Nat} (h : OccList (.x n) head) :
    ∀ q ∈ goals.tail, ¬ OccList (.x n) (allArgs q.eqs q.args) := by
  cases goals with
  | nil => intro q hq; cases hq
  | cons q l =>
    simp only [List.map_cons, List.cons_append, chunks, Separate, List.pairwise_cons] at hsep
    intro p hp
    exact hsep.1 (allArgs p.eqs p.args) (List.mem_append_left _ (List.mem_map.mpr ⟨p, hp, rfl⟩)) n (occList_append.mpr (Or.inl h))

/-- The head and the calls. -/
structure ClauseOkE (N nY : Nat) (m : M) (head : List Arg) (goals : List Chunk) (leqs : List (Arg × Arg)) (last : List Arg) (m' : M) (g' : G) : Prop where
  e : m'.e = m.e
  ee : m'.ee = m.ee
  lssa : m'.s.lssa = m.s.lssa
  inv : Inv N nY m.e m'.s m'.X g'
  noarg : NoArg g'
  grow : Grow m.s.mem m'.s.mem
  low : ∀ ee, m.s.lssa ≤ ee → (∀ i, i < nY → ee ≤ yadr m.e i) → Low ee m.s.mem → Low ee m'.s.mem
  safe : ∀ ee, m.s.lssa ≤ ee → (∀ i, i < nY → ee ≤ yadr m.e i) → Safe ee m.e m.s m.X (atStart head.length) → Safe ee m.e m'.s m'.X g'
  down : ∀ ρ, Model N m'.s.mem ρ → Model N m.s.mem ρ ∧ ∀ β', Holds m.e m'.s m'.X g' β' ρ →
      ∃ β, Match N m head β ρ ∧ SolvedE β goals ∧ ∀ v, v.isY = true ∨ (∃ n, v = .x n) ∧ OccList v (allArgs leqs last) → β v = β' v
  up : ∀ ρ β, Match N m head β ρ → SolvedE β goals →
    ∃ ρ' β', Model N m'.s.mem ρ' ∧ Agree m.s.mem ρ ρ' ∧ Holds m.e m'.s m'.X g' β' ρ' ∧ ∀ v, v.isY = true ∨ (∃ n, v = .x n) → β' v = β v

theorem clauseE_ok (hw : WellFormedE nY head goals leqs last) (hm : Start N nY head.length m)
    (h : ClauseE E O reorder N m head goals m' g') : ClauseOkE N nY m head goals leqs last m' g' := by
  obtain ⟨m0, h0, hc⟩ := h
  obtain ⟨t0, e0, ee0⟩ := head_run hm hw.srcHead h0
  have hi0 : Inv N nY m0.e m0.s m0.X (genHead { O with body := false } reorder head (atStart head.length)).2 := by rw [e0]; exact t0.inv
  have hk : ∀ n, (genHead { O with body := false } reorder head (atStart head.length)).2.info (.x n) ≠ none → OccList (.x n) head := by
    intro n hn
    refine Classical.byContradiction fun ho => hn ?_
    rw [head_nocc ho]; rfl
  have c := callsE_ok hc (toBody_inv hi0) (toBody_noarg _) (by rw [e0]; exact hm.size) hw.srcGoals (sepE_goals hw.sep)
    (fun n hn => sepE_head hw.sep (hk n hn))
  refine ⟨by rw [c.e, e0], by rw [c.ee, ee0], by rw [c.lssa, t0.lssa], by rw [← e0]; exact c.inv, c.noarg, t0.grow.trans c.grow,
    fun ee h1 h2 h3 => ?_, fun ee h1 h2 h3 => ?_, fun ρ hρ => ?_, fun ρ β hM hS => ?_⟩
  · exact c.low ee (by rw [t0.lssa]; exact h1) (by rw [e0]; exact h2) (t0.low ee h1 h2 h3)
  · have := c.safe ee (by rw [t0.lssa]; exact h1) (by rw [e0]; exact h2) (by rw [e0]; exact toBody_safe (t0.safe ee h1 h2 h3))
    rw [e0] at this; exact this
  · obtain ⟨hm0, d⟩ := c.down (fun v => (∃ n, v = .x n) ∧ OccList v (allArgs leqs last)) (fun v hv => by
      obtain ⟨⟨n, rfl⟩, ho⟩ := hv
      refine ⟨⟨n, rfl⟩, fun q hq => (sepE_last hw.sep (fun h => by rw [h] at hq; cases hq) ho).2 q hq, fun hne => ?_⟩
      show (genHead { O with body := false } reorder head (atStart head.length)).2.info (.x n) = none
      rw [head_nocc (sepE_last hw.sep hne ho).1]; rfl) ρ hρ
    obtain ⟨hmm, d0⟩ := t0.down ρ hm0
    refine ⟨hmm, fun β' hβ' => ?_⟩
    obtain ⟨β, b1, b2, b3⟩ := d β' (by rw [e0]; exact hβ')
    have b1' := holds_toBody b1
    rw [e0] at b1'
    obtain ⟨a1, a2⟩ := d0 _ b1' trivial
    rw [map_args a1] at a2
    exact ⟨β, ⟨hmm, (den_xy hw.srcHead (fun v hv => withArgs_xy v hv)).mp a2⟩, b2, b3⟩
  · obtain ⟨hρ, hd⟩ := hM
    have hd' := den_withArgs (m := m) (ρ := ρ) hw.srcHead hd
    rw [← map_args holds_withArgs] at hd'
    obtain ⟨ρ1, β1, a1, a2, a3, a4, _⟩ := t0.up ρ (withArgs m β ρ) hρ holds_withArgs hd'
    have hxy : ∀ v : Var, v.isY = true ∨ (∃ n, v = .x n) → β1 v = β v := fun v hv => by rw [sameTo_xy a3 v hv, withArgs_xy v hv]
    obtain ⟨ρ2, β2, b1, b2, b3, b4⟩ := c.up ρ1 β1 a1 (by rw [e0]; exact toBody_holds a4) (fun q hq => by
      obtain ⟨tu, ts, t1, t2⟩ := hS q hq
      exact ⟨(unified_xy (hw.srcGoals q hq) hxy).mpr tu, ts, (den_xy (all_args (hw.srcGoals q hq)) hxy).mpr t1, t2⟩)
    exact ⟨ρ2, β2, b1, a2.trans b2 t0.grow, by rw [← e0]; exact b3, fun v hv => by rw [b4 v hv, hxy v hv]⟩

end Gp.CodeGen
