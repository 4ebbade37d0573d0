import Verif.Dyn.Sim
/-
The simulation: removal of all the clauses of a predicate or of a file, cuts, and the steps.
-/
namespace Gp.Dyn

theorem eraseAll_sim {nl : Prop} {a : ASt} {s : St} {full : Nat → List Nat} (P : Par) (H : Sim nl a s full) (p : Nat) :
    ∃ s' full', step P s (.eraseAll p) = some (s', none) ∧ Sim nl (astep a (.eraseAll p)).1 s' full' := by
  have hgo : ∀ q, q ≠ p → ((astep a (.eraseAll p)).1.pred q) = a.pred q := by
    intro q hq; simp only [astep, ASt.setPred, if_neg hq]
  have hgp : (astep a (.eraseAll p)).1.pred p = ⟨(a.pred p).gen + 1, []⟩ := by simp only [astep, ASt.setPred, if_true]
  have hgle : ∀ q, (a.pred q).gen ≤ ((astep a (.eraseAll p)).1.pred q).gen := by
    intro q; by_cases hq : q = p
    · rw [hq, hgp]; exact Nat.le_succ _
    · rw [hgo q hq]; exact Nat.le_refl _
  cases hp : s.pred p with
  | none =>
    refine ⟨s, full, by simp only [step, eraseAll, hp], ⟨H.inv, H.next, ?_, ?_, ?_⟩⟩
    · intro q hq
      by_cases hqp : q = p
      · rw [hqp, hgp]
      · rw [hgo q hqp]; exact H.pnone q hq
    · intro q d hq
      have hqp : q ≠ p := by rintro rfl; rw [hp] at hq; cases hq
      rw [hgo q hqp]; exact H.psome q d hq
    · refine H.scans.imp (fun as sc hr => ⟨hr.ex, Nat.le_trans hr.le (hgle _), ?_⟩)
      by_cases hq : as.p = p
      · have h1 := hr.le
        rw [hq] at h1
        rw [hq, hgp, hp]
        constructor
        · intro h; simp only at h; omega
        · intro h; cases h
      · rw [hgo _ hq]; exact hr.gen
  | some d =>
    obtain ⟨D, hD, hDe⟩ := H.inv.pred p d hp
    have hok := H.inv.core.dyn d D hD
    have hw := walk_chain s.cl (full d) none s.next (H.inv.core.length d) hok.seq.2.2
    rw [← hok.seq.1] at hw
    obtain ⟨s1, hs1⟩ : ∃ s1 : St, s1 = { (s.setDyn d (some { D with erased := ⟨.all, false⟩ })) with
                 withErase := if D.erased = ENULL then d :: s.withErase else s.withErase
                 nb := s.nb + countAlive s.cl (full d)
                 pred := fun q => if q = p then none else s.pred q } := ⟨_, rfl⟩
    have hc := setDyn_core H.inv.core (D' := { D with erased := ⟨.all, false⟩ }) hD rfl rfl rfl rfl rfl rfl (Nat.le_refl _)
    have hcl : s1.cl = s.cl := by rw [hs1]; rfl
    have hnx : s1.next = s.next := by rw [hs1]; rfl
    have hsc : s1.scans = s.scans := by rw [hs1]; rfl
    have hev : s1.envs = s.envs := by rw [hs1]; rfl
    have hwe : s1.withErase = if D.erased = ENULL then d :: s.withErase else s.withErase := by rw [hs1]
    have hpr : s1.pred = fun q => if q = p then none else s.pred q := by rw [hs1]
    have hdy : s1.dyn = fun e => if e = d then some { D with erased := ⟨.all, false⟩ } else s.dyn e := by rw [hs1]; rfl
    have hpq : ∀ q e, s1.pred q = some e → q ≠ p ∧ s.pred q = some e ∧ e ≠ d := by
      intro q e hq
      rw [hpr] at hq
      by_cases hqp : q = p
      · simp [hqp] at hq
      · simp only [if_neg hqp] at hq
        refine ⟨hqp, hq, ?_⟩
        rintro rfl
        exact hqp (H.inv.inj q p _ hq hp)
    have hdy' : ∀ e E0, s.dyn e = some E0 → ∃ E, s1.dyn e = some E ∧ E.countZ = E0.countZ ∧ E.stamp = E0.stamp := by
      intro e E hE
      rw [hdy]
      by_cases hed : e = d
      · rw [hed, hD] at hE; cases hE
        exact ⟨{ D with erased := ⟨.all, false⟩ }, by simp only [if_pos hed], rfl, rfl⟩
      · exact ⟨E, by simp only [if_neg hed]; exact hE, rfl, rfl⟩
    have H1 : Sim nl (astep a (.eraseAll p)).1 s1 full := by
      refine ⟨⟨?_, ?_, ?_, ?_, ?_, ?_, ?_, ?_, ?_, ?_⟩, ?_, ?_, ?_, ?_⟩
      · rw [hs1]; exact ⟨hc.dyn, hc.dead, hc.mem, hc.fresh⟩
      · rw [hwe]
        split
        · rename_i hEN
          refine List.nodup_cons.2 ⟨?_, H.inv.weNodup⟩
          intro hmem
          obtain ⟨E, e1, e2, e3⟩ := H.inv.we _ hmem
          rw [hD] at e1; cases e1
          rw [hEN] at e3; exact e3.ne_null rfl
        · exact H.inv.weNodup
      · intro e he
        by_cases hed : e = d
        · exact ⟨{ D with erased := ⟨.all, false⟩ }, by rw [hdy]; simp only [if_pos hed], rfl, Or.inl rfl⟩
        · have he' : e ∈ s.withErase := by
            rw [hwe] at he
            split at he
            · rcases List.mem_cons.1 he with h | h
              · exact absurd h hed
              · exact h
            · exact he
          obtain ⟨E, e1, e2, e3⟩ := H.inv.we e he'
          exact ⟨E, by rw [hdy]; simp only [if_neg hed]; exact e1, e2, by rw [hcl]; exact e3⟩
      · intro e E hE hne hEN
        rw [hcl]
        rw [hdy] at hE
        by_cases hed : e = d
        · simp only [if_pos hed, Option.some.injEq] at hE
          subst hE; simp at hEN
        · simp only [if_neg hed] at hE
          refine H.inv.clean e E hE ?_ hEN
          intro h; apply hne; rw [hwe]; split
          · simp [h]
          · exact h
      · intro q e hq
        obtain ⟨_, h1, h2⟩ := hpq q e hq
        obtain ⟨E, e1, e2⟩ := H.inv.pred q e h1
        exact ⟨E, by rw [hdy]; simp only [if_neg h2]; exact e1, e2⟩
      · intro q r e hq hr
        exact H.inv.inj q r e (hpq q e hq).2.1 (hpq r e hr).2.1
      · intro e E hE hne
        rw [hdy] at hE
        by_cases hed : e = d
        · simp only [if_pos hed, Option.some.injEq] at hE
          subst hE; simp at hne
        · simp only [if_neg hed] at hE
          obtain ⟨q, hq⟩ := H.inv.det e E hE hne
          have hqp : q ≠ p := by rintro rfl; rw [hp] at hq; cases hq; exact hed rfl
          exact ⟨q, by rw [hpr]; simp only [if_neg hqp]; exact hq⟩
      · intro c hc
        rw [hev] at hc
        rw [hcl]; exact H.inv.env c hc
      · intro sc hs
        rw [hsc] at hs
        obtain ⟨E, hE⟩ := H.inv.scan sc hs
        obtain ⟨E', h1, _⟩ := hdy' _ E hE
        exact ⟨E', h1⟩
      · intro hnl
        obtain ⟨k1, k2⟩ := H.inv.leak hnl
        rw [hev]
        refine ⟨k1, fun e E hE hne => ?_⟩
        rw [hdy] at hE
        rw [hwe]
        by_cases hed : e = d
        · split
          · simp [hed]
          · rename_i hEN; rw [hed]; exact k2 _ D hD hEN
        · simp only [if_neg hed] at hE
          have := k2 e E hE hne
          split
          · simp [this]
          · exact this
      · rw [hnx]; exact H.next
      · intro q hq
        by_cases hqp : q = p
        · rw [hqp, hgp]
        · rw [hgo q hqp]
          rw [hpr] at hq
          simp only [if_neg hqp] at hq
          exact H.pnone q hq
      · intro q e hq
        obtain ⟨h1, h2, _⟩ := hpq q e hq
        rw [hgo q h1, hcl]
        exact H.psome q e h2
      · rw [hsc]
        have hasc : (astep a (.eraseAll p)).1.scans = a.scans := rfl
        rw [hasc]
        refine H.scans.imp (fun as sc hr => ?_)
        obtain ⟨arg, E, c, h1, h2, h3, h4, h5, h6, h7, h8, h9⟩ := hr.ex
        obtain ⟨E', g1, g2, g3⟩ := hdy' _ E h1
        refine ⟨⟨arg, E', c, g1, h2, by omega, by omega, h5, h6, by rw [hcl]; exact h7, by rw [hcl]; exact h8, by rw [hcl]; exact h9⟩, Nat.le_trans hr.le (hgle _), ?_⟩
        by_cases hq : as.p = p
        · have h1 := hr.le
          rw [hq] at h1
          rw [hq, hgp, hpr]
          simp only [if_true]
          constructor
          · intro h; omega
          · intro h; cases h
        · rw [hgo _ hq, hpr]; simp only [if_neg hq]; exact hr.gen
    obtain ⟨s', full', e1, e2, _⟩ := gc_sim P H1
    refine ⟨s', full', ?_, e2⟩
    simp only [step, eraseAll, hp, hD, hw]
    rw [← hs1, e1]

theorem cut_sim {nl : Prop} {a : ASt} {s : St} {full : Nat → List Nat} (H : Sim nl a s full) (k : Nat) :
    Sim nl { a with scans := a.scans.drop k } { s with scans := s.scans.drop k } full := by
  refine ⟨⟨⟨H.inv.core.dyn, H.inv.core.dead, H.inv.core.mem, H.inv.core.fresh⟩, H.inv.weNodup, H.inv.we, H.inv.clean, H.inv.pred,
    H.inv.inj, H.inv.det, H.inv.env, ?_, H.inv.leak⟩, H.next, H.pnone, H.psome, ?_⟩
  · intro x hx
    exact H.inv.scan x (List.mem_of_mem_drop hx)
  · have : ∀ (k : Nat) (l : List AScan) (l' : List Scan), All2 (ScanRel s full a.pred) l l' →
        All2 (ScanRel s full a.pred) (l.drop k) (l'.drop k) := by
      intro k
      induction k with
      | zero => intro l l' h; exact h
      | succ k ih =>
        intro l l' h
        cases h with
        | nil => exact .nil
        | cons _ h => exact ih _ _ h
    exact (this k _ _ H.scans).imp (fun as sc hr => ⟨hr.ex, hr.le, hr.gen⟩)

theorem leave_sim {nl : Prop} {a : ASt} {s : St} {full : Nat → List Nat} (H : Sim nl a s full) (k : Nat) :
    Sim nl a { s with envs := s.envs.eraseIdx k } full := by
  refine ⟨⟨⟨H.inv.core.dyn, H.inv.core.dead, H.inv.core.mem, H.inv.core.fresh⟩, H.inv.weNodup, H.inv.we, H.inv.clean, H.inv.pred,
    H.inv.inj, H.inv.det, ?_, H.inv.scan, ?_⟩, H.next, H.pnone, H.psome, H.scans.imp (fun as sc hr => ⟨hr.ex, hr.le, hr.gen⟩)⟩
  · intro c hc
    exact H.inv.env c (List.mem_of_mem_eraseIdx hc)
  · intro hnl
    obtain ⟨k1, k2⟩ := H.inv.leak hnl
    exact ⟨by simp only [k1, List.eraseIdx_nil], k2⟩

/-! Removal of the clauses of a file -/

/-- The clauses removed by the rest of the loop. -/
def keepF (f : Int) (l : List Nat) (x : ACl) : Bool := !(decide (x.file = f) && decide (x.id ∈ l))

theorem mem_absL {f : Nat → Option Data} {l : List Nat} {x : ACl} (h : x ∈ absL f l) :
    x.id ∈ l ∧ stampOf f x.id = none ∧ x.arg = argOf f x.id ∧ x.file = fileOf f x.id := by
  unfold absL at h
  simp only [List.mem_map, List.mem_filter, decide_eq_true_eq] at h
  obtain ⟨y, ⟨h1, h2⟩, rfl⟩ := h
  exact ⟨h1, h2, rfl, rfl⟩

theorem setPred_setPred (a : ASt) (p : Nat) (x y : APred) : (a.setPred p x).setPred p y = a.setPred p y := by
  unfold ASt.setPred
  simp only
  congr 1
  funext q
  split <;> rfl

theorem length_filter_cons_lt {α} (p : α → Bool) (q : α → Bool) (l : List α) (h : ∀ x ∈ l, q x = true → p x = true)
    (y : α) (hy : y ∈ l) (h1 : p y = true) (h2 : q y = false) : (l.filter q).length < (l.filter p).length := by
  induction l with
  | nil => simp at hy
  | cons x l ih =>
    have hle : (l.filter q).length ≤ (l.filter p).length := by
      clear ih hy
      induction l with
      | nil => simp
      | cons z l ih2 =>
        have hz := h z (by simp)
        have := ih2 (fun w hw => h w (by simp at hw ⊢; grind))
        simp only [List.filter_cons]
        cases hq : q z with
        | true => rw [hz hq]; simp; omega
        | false => cases p z <;> simp <;> omega
    rcases List.mem_cons.1 hy with rfl | hy'
    · simp [List.filter_cons, h1, h2]; omega
    · have := ih (fun w hw => h w (by simp [hw])) hy'
      simp only [List.filter_cons]
      cases hq : q x with
      | true => rw [h x (by simp) hq]; simp; omega
      | false => cases p x <;> simp <;> omega

theorem eraseFileLoop_sim {nl : Prop} (P : Par) (f : Int) {full : Nat → List Nat} {p d : Nat} : ∀ (l2 l1 : List Nat) (prev : Option Nat) (fuel : Nat) (a : ASt)
    (s : St), Sim nl a s full → s.pred p = some d → full d = l1 ++ l2 → l2.length ≤ fuel → Seg (ce s.cl true) prev l2 none →
    s.nb + ((a.pred p).cls.filter (fun x => decide (x.file = f) && decide (x.id ∈ l2))).length < P.maxErased → s.longest < P.maxSkip →
    ∃ s', eraseFileLoop P f fuel s l2.head? = some s' ∧
      Sim nl (a.setPred p { a.pred p with cls := (a.pred p).cls.filter (keepF f l2) }) s' full
  | [], l1, prev, fuel, a, s, H, hp, hl, hf, hseg, hnb, hlg => by
    refine ⟨s, by cases fuel <;> simp [eraseFileLoop], ?_⟩
    refine H.congr rfl ?_ ?_ rfl
    · intro q
      simp only [ASt.setPred]
      split
      · rename_i h; subst h
        rw [List.filter_eq_self]; intro x _; simp [keepF]
      · rfl
    · intro q; simp only [ASt.setPred]; split
      · rename_i h; rw [h]
      · rfl
  | c :: l2, l1, prev, 0, a, s, H, hp, hl, hf, hseg, hnb, hlg => by simp at hf
  | c :: l2, l1, prev, fuel + 1, a, s, H, hp, hl, hf, hseg, hnb, hlg => by
    have hcm : c ∈ full d := by rw [hl]; simp
    obtain ⟨D, X, hD, hX, hXd, _⟩ := H.inv.core.clause hcm
    obtain ⟨C, hC, hCX⟩ := dt_some hX
    have hnd : (full d).Nodup := H.inv.core.nodup d
    have hcl2 : c ∉ l2 := by
      rw [hl] at hnd
      exact (List.nodup_cons.1 (List.nodup_append.1 hnd).2.1).1
    have hnext : C.seq.next = l2.head? := by
      have h0 := hseg.1
      unfold ce at h0
      rw [hC] at h0
      have h0 : C.seq = ⟨l2.head?.or none, prev⟩ := by simpa [getCell] using h0
      rw [h0]; cases l2 <;> rfl
    have hfile : fileOf (dt s.cl) c = C.file := fileOf_eq (dt_of hC)
    have hl' : full d = (l1 ++ [c]) ++ l2 := by rw [hl]; simp
    have hf' : l2.length ≤ fuel := by simpa using hf
    show ∃ s', eraseFileLoop P f (fuel + 1) s (some c) = some s' ∧ _
    unfold eraseFileLoop
    simp only [hC]
    have hcls := H.psome p d hp
    by_cases hff : C.file = f
    · rw [if_pos hff]
      unfold delClause
      simp only [hC]
      by_cases hst : C.stamp.isSome
      · -- already erased
        simp only [if_pos hst, hC, hnext]
        have hmem : ∀ x ∈ (a.pred p).cls, x.id ≠ c := by
          intro x hx he
          rw [hcls] at hx
          have := (mem_absL hx).2.1
          rw [he, stampOf_eq (dt_of hC)] at this
          have h9 : C.data.stamp = C.stamp := rfl
          rw [h9] at this
          rw [this] at hst; simp at hst
        have hcong : (a.pred p).cls.filter (fun x => decide (x.file = f) && decide (x.id ∈ l2))
            = (a.pred p).cls.filter (fun x => decide (x.file = f) && decide (x.id ∈ c :: l2)) :=
          List.filter_congr (fun x hx => by simp [hmem x hx])
        obtain ⟨s', e1, e2⟩ := eraseFileLoop_sim P f l2 (l1 ++ [c]) (some c) fuel a s H hp hl' hf' hseg.2 (by rw [hcong]; exact hnb) hlg
        refine ⟨s', e1, ?_⟩
        have hcong2 : (a.pred p).cls.filter (keepF f (c :: l2)) = (a.pred p).cls.filter (keepF f l2) :=
          List.filter_congr (fun x hx => by simp [keepF, hmem x hx])
        rw [hcong2]; exact e2
      · have hdy : s.dyn C.dyn = some D := by
          have : C.dyn = d := by rw [← hXd, ← hCX]; rfl
          rw [this]; exact hD
        obtain ⟨H1, hce, hpr, _⟩ := eraseClause_sim H hp hcm hC hdy (by simpa using hst)
        have halive : (⟨c, argOf (dt s.cl) c, fileOf (dt s.cl) c⟩ : ACl) ∈ (a.pred p).cls := by
          rw [hcls]; unfold absL
          refine List.mem_map.2 ⟨c, List.mem_filter.2 ⟨hcm, ?_⟩, rfl⟩
          rw [stampOf_eq (dt_of hC)]
          have : C.data.stamp = none := by show C.stamp = none; simpa using hst
          simp [this]
        obtain ⟨a1, ha1⟩ : ∃ a1, a1 = a.setPred p { a.pred p with cls := (a.pred p).cls.filter (fun x => x.id ≠ c) } := ⟨_, rfl⟩
        rw [← ha1] at H1
        have ha1p : (a1.pred p).cls = (a.pred p).cls.filter (fun x => x.id ≠ c) := by rw [ha1]; simp [ASt.setPred]
        have hlen : ((a1.pred p).cls.filter (fun x => decide (x.file = f) && decide (x.id ∈ l2))).length
            < ((a.pred p).cls.filter (fun x => decide (x.file = f) && decide (x.id ∈ c :: l2))).length := by
          rw [ha1p, List.filter_filter]
          refine length_filter_cons_lt _ _ _ ?_ _ halive ?_ ?_
          · intro x _ hx; simp at hx ⊢; grind
          · simp [hfile, hff]
          · simp
        have hnb1 : (eraseClause s c C D).nb = s.nb + 1 := rfl
        have hlg1 : (eraseClause s c C D).longest = s.longest := rfl
        have hgc : gc P (eraseClause s c C D) = some (eraseClause s c C D) := by
          unfold gc
          rw [if_pos]
          rw [hnb1, hlg1]
          refine ⟨?_, hlg⟩
          omega
        rw [if_neg hst]
        simp only [hdy, hgc]
        have hC1 : (eraseClause s c C D).cl c = some { C with stamp := some D.stamp, nextErased := D.erased } := by
          simp [eraseClause, setCl]
        simp only [hC1, hnext]
        obtain ⟨s', e1, e2⟩ := eraseFileLoop_sim P f l2 (l1 ++ [c]) (some c) fuel a1 _ H1 (by rw [hpr]; exact hp) hl' hf'
          (by rw [hce]; exact hseg.2) (by rw [hnb1]; omega) hlg
        refine ⟨s', e1, ?_⟩
        have heq : a1.setPred p { a1.pred p with cls := (a1.pred p).cls.filter (keepF f l2) }
            = a.setPred p { a.pred p with cls := (a.pred p).cls.filter (keepF f (c :: l2)) } := by
          have hg : (a1.pred p).gen = (a.pred p).gen := by rw [ha1]; simp [ASt.setPred]
          have hcc : (a1.pred p).cls.filter (keepF f l2) = (a.pred p).cls.filter (keepF f (c :: l2)) := by
            rw [ha1p, List.filter_filter]
            refine List.filter_congr (fun x hx => ?_)
            by_cases hxc : x.id = c
            · rw [hcls] at hx
              have hxf := (mem_absL hx).2.2.2
              rw [hxc, hfile, hff] at hxf
              simp [keepF, hxc, hxf]
            · simp [keepF, hxc]
          have hx : ({ a1.pred p with cls := (a1.pred p).cls.filter (keepF f l2) } : APred)
              = { a.pred p with cls := (a.pred p).cls.filter (keepF f (c :: l2)) } := by
            show APred.mk _ _ = APred.mk _ _
            rw [hcc, hg]
          rw [hx, ha1, setPred_setPred]
        rw [← heq]; exact e2
    · rw [if_neg hff, hnext]
      have hmem : ∀ x ∈ (a.pred p).cls, x.file = f → x.id ≠ c := by
        intro x hx hxf he
        rw [hcls] at hx
        have := (mem_absL hx).2.2.2
        rw [he, hfile, hxf] at this
        exact hff this.symm
      have hcong : (a.pred p).cls.filter (fun x => decide (x.file = f) && decide (x.id ∈ l2))
          = (a.pred p).cls.filter (fun x => decide (x.file = f) && decide (x.id ∈ c :: l2)) :=
        List.filter_congr (fun x hx => by by_cases hxf : x.file = f <;> simp [hxf, hmem x hx])
      obtain ⟨s', e1, e2⟩ := eraseFileLoop_sim P f l2 (l1 ++ [c]) (some c) fuel a s H hp hl' hf' hseg.2 (by rw [hcong]; exact hnb) hlg
      refine ⟨s', e1, ?_⟩
      have hcong2 : (a.pred p).cls.filter (keepF f (c :: l2)) = (a.pred p).cls.filter (keepF f l2) :=
        List.filter_congr (fun x hx => by by_cases hxf : x.file = f <;> simp [keepF, hxf, hmem x hx])
      rw [hcong2]; exact e2

theorem eraseFile_sim {nl : Prop} {a : ASt} {s : St} {full : Nat → List Nat} (P : Par) (H : Sim nl a s full) (p : Nat) (f : Int)
    (hnb : s.nb + ((a.pred p).cls.filter (fun x => x.file = f)).length < P.maxErased) (hlg : s.longest < P.maxSkip) :
    ∃ s' full', step P s (.eraseFile p f) = some (s', none) ∧ Sim nl (astep a (.eraseFile p f)).1 s' full' := by
  cases hp : s.pred p with
  | none =>
    have hn := H.pnone p hp
    refine ⟨s, full, by simp only [step, eraseFile, hp], H.congr rfl ?_ ?_ rfl⟩
    · intro q; simp only [astep, ASt.setPred]; split
      · rename_i h; subst h; rw [hn]; rfl
      · rfl
    · intro q; simp only [astep, ASt.setPred]; split
      · rename_i h; rw [h]
      · rfl
  | some d =>
    obtain ⟨D, hD, hDe⟩ := H.inv.pred p d hp
    have hok := H.inv.core.dyn d D hD
    have hcls := H.psome p d hp
    have hc1 : (a.pred p).cls.filter (fun x => decide (x.file = f) && decide (x.id ∈ full d)) = (a.pred p).cls.filter (fun x => x.file = f) :=
      List.filter_congr (fun x hx => by rw [hcls] at hx; simp [(mem_absL hx).1])
    have hc2 : (a.pred p).cls.filter (keepF f (full d)) = (a.pred p).cls.filter (fun x => x.file ≠ f) :=
      List.filter_congr (fun x hx => by rw [hcls] at hx; simp [keepF, (mem_absL hx).1])
    obtain ⟨s1, e1, e2⟩ := eraseFileLoop_sim P f (full d) [] none s.next a s H hp rfl (H.inv.core.length d) hok.seq.2.2 (by rw [hc1]; exact hnb) hlg
    rw [← hok.seq.1] at e1
    rw [hc2] at e2
    obtain ⟨s', full', g1, g2, _⟩ := gc_sim P e2
    exact ⟨s', full', by simp only [step, eraseFile, hp, hD, e1, g1], g2⟩

theorem init_sim (nl : Prop) : Sim nl ainit init (fun _ => []) := by
  refine ⟨⟨⟨?_, ?_, ?_, ?_⟩, ?_, ?_, ?_, ?_, ?_, ?_, ?_, ?_, ?_⟩, rfl, ?_, ?_, .nil⟩ <;> simp [init, ainit, dt]

end Gp.Dyn
