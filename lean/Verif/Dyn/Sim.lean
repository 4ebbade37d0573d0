import Verif.Dyn.Gc
import Verif.Dyn.ScanL
/-
The simulation of the specification by the model.
-/
namespace Gp.Dyn

/-- The clauses visible in the database. -/
def absL (f : Nat → Option Data) (l : List Nat) : List ACl :=
  (l.filter (fun c => decide (stampOf f c = none))).map (fun c => ⟨c, argOf f c, fileOf f c⟩)

/-- A call scans the sequential chain. -/
def seqB (a : Arg) : Bool := decide (index a = .no ∨ index a = .var)

def chA (f : Nat → Option Data) (l : List Nat) (a : Arg) : List Nat := if seqB a then l else withIdx f l (index a)
def chB (f : Nat → Option Data) (l : List Nat) (a : Arg) : List Nat := if seqB a then [] else withIdx f l .var
def chL (f : Nat → Option Data) (l : List Nat) (a : Arg) : List Nat := l.filter (fun c => cand a (argOf f c))

/-- A choice point and its alternatives in the specification. -/
structure ScanRel (s : St) (full : Nat → List Nat) (ap : Nat → APred) (as : AScan) (sc : Scan) : Prop where
  ex : ∃ arg D c, s.dyn sc.dyn = some D ∧ sc.isSeq = seqB arg ∧ sc.stop ≤ D.countZ ∧ sc.stamp < D.stamp ∧ sc.clause = some c
    ∧ c ∈ full sc.dyn
    ∧ PtrOk (dt s.cl) (chA (dt s.cl) (full sc.dyn) arg) (noOf (dt s.cl) c) sc.stop sc.xxx
    ∧ PtrOk (dt s.cl) (chB (dt s.cl) (full sc.dyn) arg) (noOf (dt s.cl) c) sc.stop sc.var
    ∧ as.rest = c :: remain (dt s.cl) (chL (dt s.cl) (full sc.dyn) arg) (noOf (dt s.cl) c) sc.stop sc.stamp
  le : as.gen ≤ (ap as.p).gen
  gen : as.gen = (ap as.p).gen ↔ s.pred as.p = some sc.dyn

/-- Two lists related element by element. -/
inductive All2 {α β : Type} (R : α → β → Prop) : List α → List β → Prop where
  | nil : All2 R [] []
  | cons {a b l l'} : R a b → All2 R l l' → All2 R (a :: l) (b :: l')

theorem All2.imp {α β : Type} {R S : α → β → Prop} (h : ∀ a b, R a b → S a b) {l : List α} {l' : List β} (H : All2 R l l') : All2 S l l' := by
  induction H with
  | nil => exact .nil
  | cons h1 _ ih => exact .cons (h _ _ h1) ih

/-- The simulation. -/
structure Sim (nl : Prop) (a : ASt) (s : St) (full : Nat → List Nat) : Prop where
  inv : Inv nl s full
  next : a.next = s.next
  pnone : ∀ p, s.pred p = none → (a.pred p).cls = []
  psome : ∀ p d, s.pred p = some d → (a.pred p).cls = absL (dt s.cl) (full d)
  scans : All2 (ScanRel s full a.pred) a.scans s.scans

theorem cand_iff (a x : Arg) (h : seqB a = false) : cand a x = true ↔ index x = index a ∨ index x = .var := by
  cases a <;> simp [seqB, index] at h <;> cases x <;> simp [cand, index]

theorem cand_seq (a x : Arg) (h : seqB a = true) : cand a x = true := by
  cases a <;> simp [seqB, index] at h <;> simp [cand]

theorem chL_sub {f l a c} (h : c ∈ chL f l a) : c ∈ l := (List.mem_filter.1 h).1

theorem chA_sub {f l a c} (h : c ∈ chA f l a) : c ∈ l := by
  unfold chA at h; split at h
  · exact h
  · exact (mem_withIdx.1 h).1

theorem chB_sub {f l a c} (h : c ∈ chB f l a) : c ∈ l := by
  unfold chB at h; split at h
  · simp at h
  · exact (mem_withIdx.1 h).1

theorem ctx_of {m : Mem} {d : Nat} {D : Dyn} {l : List Nat} (h : DynOk (dt m) (ce m true) (ce m false) d D l) (a : Arg) :
    Ctx m (seqB a) (chA (dt m) l a) (chB (dt m) l a) (chL (dt m) l a) := by
  cases hs : seqB a with
  | true =>
    have hL : chL (dt m) l a = l := by
      unfold chL; rw [List.filter_eq_self]; intro c _; exact cand_seq a _ hs
    have hA : chA (dt m) l a = l := by simp [chA, hs]
    have hB : chB (dt m) l a = [] := by simp [chB, hs]
    rw [hL, hA, hB]
    exact ⟨h.seq.2.2, trivial, h.ord, h.ord, List.Pairwise.nil, by simp, by simp⟩
  | false =>
    have hA : chA (dt m) l a = withIdx (dt m) l (index a) := by simp [chA, hs]
    have hB : chB (dt m) l a = withIdx (dt m) l .var := by simp [chB, hs]
    rw [hA, hB]
    have hi : index a ≠ .no ∧ index a ≠ .var := by simpa [seqB] using hs
    refine ⟨(h.ind _ hi.1).2.2, (h.ind .var (by simp)).2.2, h.ord.filter _, h.ord.filter _, h.ord.filter _, ?_, ?_⟩
    · intro x
      rw [mem_withIdx, mem_withIdx]
      simp only [chL, List.mem_filter, cand_iff a _ hs]
      constructor
      · rintro ⟨h1, h2 | h2⟩
        · exact Or.inl ⟨h1, h2⟩
        · exact Or.inr ⟨h1, h2⟩
      · rintro (⟨h1, h2⟩ | ⟨h1, h2⟩)
        · exact ⟨h1, Or.inl h2⟩
        · exact ⟨h1, Or.inr h2⟩
    · intro x hx hx2
      exact hi.2 ((mem_withIdx.1 hx).2.symm.trans (mem_withIdx.1 hx2).2)

/-! Congruences -/

/-- The same number and argument. -/
def Same (f g : Nat → Option Data) (c : Nat) : Prop := noOf g c = noOf f c ∧ argOf g c = argOf f c

theorem same_of_eq {f g : Nat → Option Data} {c : Nat} (h : g c = f c) : Same f g c := by
  constructor
  · simp only [noOf, h]
  · simp only [argOf, h]

theorem filter_same {α} {p q : α → Bool} {l : List α} (h : ∀ x ∈ l, p x = q x) : l.filter p = l.filter q := List.filter_congr h

theorem withIdx_same {f g : Nat → Option Data} {l : List Nat} (i : Idx) (h : ∀ c ∈ l, Same f g c) : withIdx g l i = withIdx f l i :=
  List.filter_congr (fun c hc => by simp only [(h c hc).2])

theorem chA_same {f g : Nat → Option Data} {l : List Nat} (a : Arg) (h : ∀ c ∈ l, Same f g c) : chA g l a = chA f l a := by
  unfold chA; rw [withIdx_same _ h]
theorem chB_same {f g : Nat → Option Data} {l : List Nat} (a : Arg) (h : ∀ c ∈ l, Same f g c) : chB g l a = chB f l a := by
  unfold chB; rw [withIdx_same _ h]
theorem chL_same {f g : Nat → Option Data} {l : List Nat} (a : Arg) (h : ∀ c ∈ l, Same f g c) : chL g l a = chL f l a :=
  List.filter_congr (fun c hc => by simp only [(h c hc).2])

theorem PtrOk.same {f g : Nat → Option Data} {A : List Nat} {P stop : Int} {ptr : Option Nat} (h : PtrOk f A P stop ptr)
    (hs : ∀ c ∈ A, Same f g c) : PtrOk g A P stop ptr := by
  cases ptr with
  | none =>
    intro x hx hP
    rw [(hs x hx).1] at hP ⊢
    exact h x hx hP
  | some x =>
    simp only [PtrOk] at h ⊢
    rw [← h]
    congr 1
    exact List.filter_congr (fun c hc => by simp only [(hs c hc).1])

theorem remain_same {f g : Nat → Option Data} {L : List Nat} {P stop : Int} {st : Nat} (hs : ∀ c ∈ L, Same f g c)
    (hd : ∀ c ∈ L, del st (stampOf g c) = del st (stampOf f c)) : remain g L P stop st = remain f L P stop st :=
  List.filter_congr (fun c hc => by simp only [(hs c hc).1, hd c hc])

/-- A choice point is kept when the clauses of its predicate are the same, except that some of them are erased. -/
theorem ScanRel.keep {s s' : St} {full full' : Nat → List Nat} {ap ap' : Nat → APred} {as : AScan} {sc : Scan}
    (h : ScanRel s full ap as sc) (hf : full' sc.dyn = full sc.dyn) (hs : ∀ c ∈ full sc.dyn, Same (dt s.cl) (dt s'.cl) c)
    (hd : ∀ D, s.dyn sc.dyn = some D → ∀ c ∈ full sc.dyn, sc.stamp < D.stamp →
      del sc.stamp (stampOf (dt s'.cl) c) = del sc.stamp (stampOf (dt s.cl) c))
    (hD : ∀ D, s.dyn sc.dyn = some D → ∃ D', s'.dyn sc.dyn = some D' ∧ D.countZ ≤ D'.countZ ∧ D.stamp ≤ D'.stamp)
    (hg : (ap' as.p).gen = (ap as.p).gen) (hp : s'.pred as.p = s.pred as.p) : ScanRel s' full' ap' as sc := by
  obtain ⟨arg, D, c, h1, h2, h3, h4, h5, h6, h7, h8, h9⟩ := h.ex
  obtain ⟨D', d1, d2, d3⟩ := hD D h1
  refine ⟨⟨arg, D', c, d1, h2, by omega, by omega, h5, by rw [hf]; exact h6, ?_, ?_, ?_⟩, by rw [hg]; exact h.le, by rw [hg, hp]; exact h.gen⟩
  · rw [hf, chA_same arg hs, (hs c h6).1]
    exact h7.same (fun x hx => hs x (chA_sub hx))
  · rw [hf, chB_same arg hs, (hs c h6).1]
    exact h8.same (fun x hx => hs x (chB_sub hx))
  · rw [h9, hf, chL_same arg hs, (hs c h6).1]
    rw [remain_same (fun x hx => hs x (chL_sub hx)) (fun x hx => hd D h1 x (chL_sub hx) h4)]

theorem absL_congr {f g : Nat → Option Data} {l : List Nat} (h : ∀ c ∈ l, g c = f c) : absL g l = absL f l := by
  unfold absL
  have h1 : l.filter (fun c => decide (stampOf g c = none)) = l.filter (fun c => decide (stampOf f c = none)) :=
    List.filter_congr (fun c hc => by rw [show stampOf g c = stampOf f c from by simp only [stampOf, h c hc]])
  rw [h1]
  refine List.map_congr_left (fun c hc => ?_)
  have := h c (List.mem_filter.1 hc).1
  simp only [argOf, fileOf, this]

theorem Sim.congr {nl : Prop} {a a' : ASt} {s : St} {full : Nat → List Nat} (h : Sim nl a s full) (h1 : a'.next = a.next)
    (h2 : ∀ p, (a'.pred p).cls = (a.pred p).cls) (h3 : ∀ p, (a'.pred p).gen = (a.pred p).gen) (h4 : a'.scans = a.scans) :
    Sim nl a' s full := by
  refine ⟨h.inv, h1.trans h.next, fun p hp => (h2 p).trans (h.pnone p hp), fun p d hp => (h2 p).trans (h.psome p d hp), ?_⟩
  rw [h4]
  exact h.scans.imp (fun as sc hr => hr.keep rfl (fun _ _ => ⟨rfl, rfl⟩) (fun _ _ _ _ _ => rfl) (fun D hD => ⟨D, hD, Int.le_refl _, Nat.le_refl _⟩) (h3 _) rfl)

theorem forall₂_mem {α β : Type} {R S : α → β → Prop} : ∀ {l : List α} {l' : List β}, All2 R l l' →
    (∀ x y, y ∈ l' → R x y → S x y) → All2 S l l'
  | _, _, .nil, _ => .nil
  | _, _, .cons h t, hi => .cons (hi _ _ (by simp) h) (forall₂_mem t (fun x y hy => hi x y (by simp [hy])))

/-! Reclamation -/

theorem gcRun_sim {nl : Prop} {a : ASt} {s : St} {full : Nat → List Nat} (H : Sim nl a s full) :
    ∃ s' full', gcRun s = some s' ∧ Sim nl a s' full' ∧ GcRel s full s' full' := by
  obtain ⟨s', full', h1, h2, h3, _, _⟩ := gcRun_spec H.inv
  refine ⟨s', full', h1, ⟨h2, ?_, ?_, ?_, ?_⟩, h3⟩
  · rw [H.next, h3.eq]
  · intro p hp
    rw [h3.eq] at hp
    exact H.pnone p hp
  · intro p d hp
    rw [h3.eq] at hp
    obtain ⟨D, hD, _⟩ := H.inv.pred p d hp
    obtain ⟨D', _, _, h4⟩ := h3.att p d hp D hD
    rw [H.psome p d hp, absL_congr (h3.data d)]
    unfold absL
    rw [h4]
  · have hsc : s'.scans = s.scans := by rw [h3.eq]
    have hpr : s'.pred = s.pred := by rw [h3.eq]
    rw [hsc]
    refine forall₂_mem H.scans (fun as sc hm hr => ?_)
    obtain ⟨hu1, hu2⟩ := h3.used sc.dyn (Or.inl ⟨sc, hm, rfl⟩)
    have hdt : ∀ c ∈ full sc.dyn, dt s'.cl c = dt s.cl c := fun c hc => h3.data sc.dyn c (by rw [hu1]; exact hc)
    refine hr.keep hu1 (fun c hc => same_of_eq (hdt c hc)) (fun D hD c hc _ => ?_) (fun D hD => ?_) rfl (by rw [hpr])
    · simp only [stampOf, hdt c hc]
    · obtain ⟨D', e1, e2, e3⟩ := hu2 D hD
      exact ⟨D', e1, by omega, by omega⟩

theorem gc_sim {nl : Prop} {a : ASt} {s : St} {full : Nat → List Nat} (P : Par) (H : Sim nl a s full) :
    ∃ s' full', gc P s = some s' ∧ Sim nl a s' full' ∧ s'.pred = s.pred := by
  unfold gc
  by_cases h : s.nb < P.maxErased ∧ s.longest < P.maxSkip
  · rw [if_pos h]; exact ⟨s, full, rfl, H, rfl⟩
  · rw [if_neg h]
    obtain ⟨s', full', h1, h2, h3⟩ := gcRun_sim H
    exact ⟨s', full', h1, h2, by rw [h3.eq]⟩

/-! Adding a clause -/

theorem ensureDyn_sim {nl : Prop} {a : ASt} {s : St} {full : Nat → List Nat} (H : Sim nl a s full) (p : Nat) :
    Sim nl a (ensureDyn s p).1 full ∧ (ensureDyn s p).1.pred p = some (ensureDyn s p).2 := by
  unfold ensureDyn
  cases hp : s.pred p with
  | some d => exact ⟨H, hp⟩
  | none =>
    refine ⟨?_, by simp⟩
    have hnew : s.dyn s.nextDyn = none := by
      cases h : s.dyn s.nextDyn with
      | none => rfl
      | some D => have := H.inv.core.fresh _ D h; omega
    have hfl := H.inv.core.dead _ hnew
    have hne : ∀ d D, s.dyn d = some D → d ≠ s.nextDyn := by rintro d D h rfl; rw [hnew] at h; cases h
    have hset : ∀ d D, s.dyn d = some D → (s.setDyn s.nextDyn (some newDyn)).dyn d = some D := by
      intro d D h; simp [St.setDyn, hne d D h, h]
    have hpne : ∀ q d, s.pred q = some d → d ≠ s.nextDyn := by
      intro q d h
      obtain ⟨D, h1, _⟩ := H.inv.pred q d h
      exact hne d D h1
    have hpq : ∀ q d, (if q = p then some s.nextDyn else s.pred q) = some d → (q = p ∧ d = s.nextDyn) ∨ (q ≠ p ∧ s.pred q = some d) := by
      intro q d h
      by_cases hq : q = p
      · simp [hq] at h; exact Or.inl ⟨hq, h.symm⟩
      · simp only [if_neg hq] at h; exact Or.inr ⟨hq, h⟩
    refine ⟨⟨⟨?_, ?_, H.inv.core.mem, ?_⟩, H.inv.weNodup, ?_, ?_, ?_, ?_, ?_, H.inv.env, ?_, ?_⟩, H.next, ?_, ?_, ?_⟩
    · intro d D hD
      by_cases hd : d = s.nextDyn
      · subst hd
        simp only [St.setDyn, if_true, Option.some.injEq] at hD
        subst hD
        rw [hfl]
        refine ⟨by simp, by simp, by decide, by simp [Chain, newDyn, Seg], ?_⟩
        intro i hi
        cases i <;> simp [hdr, newDyn, Chain, Seg, withIdx]
      · simp only [St.setDyn, if_neg hd] at hD
        exact H.inv.core.dyn d D hD
    · intro d hd
      by_cases hdn : d = s.nextDyn
      · simp [St.setDyn, hdn] at hd
      · simp only [St.setDyn, if_neg hdn] at hd
        exact H.inv.core.dead d hd
    · intro d D hD
      by_cases hd : d = s.nextDyn
      · simp only [hd]; omega
      · simp only [St.setDyn, if_neg hd] at hD
        have := H.inv.core.fresh d D hD
        simp only; omega
    · intro d hd
      obtain ⟨D, h1, h2⟩ := H.inv.we d hd
      exact ⟨D, hset d D h1, h2⟩
    · intro d D hD hnd hE
      by_cases hd : d = s.nextDyn
      · rw [hd, hfl]; simp
      · simp only [St.setDyn, if_neg hd] at hD
        exact H.inv.clean d D hD hnd hE
    · intro q d hq
      rcases hpq q d hq with ⟨_, rfl⟩ | ⟨_, hq⟩
      · exact ⟨newDyn, by simp [St.setDyn], by simp [newDyn]⟩
      · obtain ⟨D, h1, h2⟩ := H.inv.pred q d hq
        exact ⟨D, hset d D h1, h2⟩
    · intro q r d hq hr
      rcases hpq q d hq with ⟨h1, h2⟩ | ⟨_, hq⟩ <;> rcases hpq r d hr with ⟨h3, h4⟩ | ⟨_, hr⟩
      · rw [h1, h3]
      · exact absurd h2 (hpne r d hr)
      · exact absurd h4 (hpne q d hq)
      · exact H.inv.inj q r d hq hr
    · intro d D hD hne'
      by_cases hd : d = s.nextDyn
      · exact ⟨p, by simp [hd]⟩
      · simp only [St.setDyn, if_neg hd] at hD
        obtain ⟨q, hq⟩ := H.inv.det d D hD hne'
        refine ⟨q, ?_⟩
        have : q ≠ p := by rintro rfl; rw [hp] at hq; cases hq
        simp [this, hq]
    · intro sc hs
      obtain ⟨D, hD⟩ := H.inv.scan sc hs
      exact ⟨D, hset _ D hD⟩
    · intro hnl
      obtain ⟨h1, h2⟩ := H.inv.leak hnl
      refine ⟨h1, fun d D hD hE => ?_⟩
      by_cases hd : d = s.nextDyn
      · simp only [St.setDyn, if_pos hd, Option.some.injEq] at hD
        subst hD; exact absurd rfl hE
      · simp only [St.setDyn, if_neg hd] at hD
        exact h2 d D hD hE
    · intro q hq
      by_cases hqp : q = p
      · simp [hqp] at hq
      · simp only [if_neg hqp] at hq; exact H.pnone q hq
    · intro q d hq
      rcases hpq q d hq with ⟨rfl, rfl⟩ | ⟨_, hq⟩
      · rw [hfl, H.pnone q hp]; rfl
      · exact H.psome q d hq
    · refine forall₂_mem H.scans (fun as sc hm hr => ?_)
      obtain ⟨D, hD⟩ := H.inv.scan sc hm
      obtain ⟨arg, D', c, h1, h2, h3, h4, h5, h6, h7, h8, h9⟩ := hr.ex
      refine ⟨⟨arg, D', c, hset _ D' h1, h2, h3, h4, h5, h6, h7, h8, h9⟩, hr.le, ?_⟩
      rw [hr.gen]
      by_cases hq : as.p = p
      · simp only [hq, if_true, hp]
        have := hne _ D hD
        constructor
        · intro h; cases h
        · intro h; simp only [Option.some.injEq] at h; exact absurd h.symm this
      · simp only [if_neg hq]

/-- A choice point is kept when a clause is added at the beginning, or at the end, of its predicate. -/
theorem ScanRel.add {s s' : St} {full full' : Nat → List Nat} {ap ap' : Nat → APred} {as : AScan} {sc : Scan} (HC : Core s full)
    (h : ScanRel s full ap as sc) (D D' : Dyn) (hD : s.dyn sc.dyn = some D) (hD' : s'.dyn sc.dyn = some D')
    (front : Bool) (n : Nat) (X : Data)
    (hfull : full' sc.dyn = if front then n :: full sc.dyn else full sc.dyn ++ [n])
    (hdt : ∀ c ∈ full sc.dyn, dt s'.cl c = dt s.cl c) (hX : dt s'.cl n = some X)
    (hno : X.no = if front then D.countA else D.countZ) (hcz : D.countZ ≤ D'.countZ) (hst : D'.stamp = D.stamp)
    (hg : (ap' as.p).gen = (ap as.p).gen) (hp : s'.pred as.p = s.pred as.p) : ScanRel s' full' ap' as sc := by
  obtain ⟨arg, D1, c, h1, h2, h3, h4, h5, h6, h7, h8, h9⟩ := h.ex
  rw [hD] at h1; cases h1
  obtain ⟨D2, Y, z1, z2, z3, z4, z5, z6⟩ := HC.clause h6
  rw [hD] at z1; cases z1
  have hsame : ∀ c ∈ full sc.dyn, Same (dt s.cl) (dt s'.cl) c := fun c hc => same_of_eq (hdt c hc)
  have hnc : noOf (dt s'.cl) c = noOf (dt s.cl) c := (hsame c h6).1
  have hncY : noOf (dt s.cl) c = Y.no := noOf_eq z2
  have hnn : noOf (dt s'.cl) n = if front then D.countA else D.countZ := by rw [noOf_eq hX, hno]
  -- a chain with or without the new clause
  have hptr : ∀ (A A' : List Nat) ptr, (∀ x ∈ A, x ∈ full sc.dyn) → (A' = A ∨ A' = if front then n :: A else A ++ [n]) →
      PtrOk (dt s.cl) A (noOf (dt s.cl) c) sc.stop ptr → PtrOk (dt s'.cl) A' (noOf (dt s'.cl) c) sc.stop ptr := by
    intro A A' ptr hsub hA' hpt
    have hpt' : PtrOk (dt s'.cl) A (noOf (dt s'.cl) c) sc.stop ptr := by
      rw [hnc]; exact hpt.same (fun x hx => hsame x (hsub x hx))
    rcases hA' with rfl | rfl
    · exact hpt'
    · cases ptr with
      | none =>
        intro x hx hP
        have : x = n ∨ x ∈ A := by cases front <;> simp at hx <;> grind
        rcases this with rfl | hx
        · rw [hnn] at hP ⊢
          cases front
          · simp only [Bool.false_eq_true, if_false] at hP ⊢; omega
          · simp only [if_true] at hP ⊢; omega
        · exact hpt' x hx hP
      | some x =>
        simp only [PtrOk] at hpt' ⊢
        cases front with
        | true =>
          simp only [if_true] at hnn ⊢
          rw [List.filter_cons]
          have : ¬ (noOf (dt s'.cl) c < noOf (dt s'.cl) n) := by omega
          simp only [this, decide_false, Bool.false_eq_true, if_false]
          exact hpt'
        | false =>
          simp only [Bool.false_eq_true, if_false]
          rw [List.filter_append, List.head?_append, hpt']
          rfl
  have hcase : ∀ (q : Nat → Bool) (q' : Nat → Bool), (∀ x ∈ full sc.dyn, q' x = q x) →
      (full' sc.dyn).filter q' = (full sc.dyn).filter q ∨
      (full' sc.dyn).filter q' = if front then n :: (full sc.dyn).filter q else (full sc.dyn).filter q ++ [n] := by
    intro q q' hq
    rw [hfull]
    have := List.filter_congr (p := q') (q := q) (l := full sc.dyn) hq
    cases front <;> cases hqn : q' n <;> simp [List.filter_append, hqn, this]
  have hidx : ∀ i, withIdx (dt s'.cl) (full' sc.dyn) i = withIdx (dt s.cl) (full sc.dyn) i ∨
      withIdx (dt s'.cl) (full' sc.dyn) i = if front then n :: withIdx (dt s.cl) (full sc.dyn) i else withIdx (dt s.cl) (full sc.dyn) i ++ [n] := by
    intro i
    exact hcase _ _ (fun x hx => by simp only [(hsame x hx).2])
  refine ⟨⟨arg, D', c, hD', h2, by omega, by omega, h5, ?_, ?_, ?_, ?_⟩, by rw [hg]; exact h.le, by rw [hg, hp]; exact h.gen⟩
  · rw [hfull]; cases front <;> simp [h6]
  · refine hptr (chA (dt s.cl) (full sc.dyn) arg) _ _ (fun x hx => chA_sub hx) ?_ h7
    unfold chA
    cases seqB arg
    · simp only [Bool.false_eq_true, if_false]; exact hidx _
    · simp only [if_true]; exact Or.inr hfull
  · refine hptr (chB (dt s.cl) (full sc.dyn) arg) _ _ (fun x hx => chB_sub hx) ?_ h8
    unfold chB
    cases seqB arg
    · simp only [Bool.false_eq_true, if_false]; exact hidx _
    · simp only [if_true]; exact Or.inl trivial
  · rw [h9, hnc]
    have hb : remain (dt s'.cl) (chL (dt s.cl) (full sc.dyn) arg) (noOf (dt s.cl) c) sc.stop sc.stamp
        = remain (dt s.cl) (chL (dt s.cl) (full sc.dyn) arg) (noOf (dt s.cl) c) sc.stop sc.stamp :=
      remain_same (fun x hx => hsame x (chL_sub hx)) (fun x hx => by simp only [stampOf, hdt x (chL_sub hx)])
    rw [← hb]
    have hout : ¬ (noOf (dt s.cl) c < noOf (dt s'.cl) n ∧ noOf (dt s'.cl) n < sc.stop) := by
      rw [hnn]; cases front
      · simp only [Bool.false_eq_true, if_false]; omega
      · simp only [if_true]; omega
    have hL : chL (dt s'.cl) (full' sc.dyn) arg = chL (dt s.cl) (full sc.dyn) arg ∨
        chL (dt s'.cl) (full' sc.dyn) arg = if front then n :: chL (dt s.cl) (full sc.dyn) arg else chL (dt s.cl) (full sc.dyn) arg ++ [n] :=
      hcase _ _ (fun x hx => by simp only [(hsame x hx).2])
    rcases hL with hL | hL
    · rw [hL]
    · rw [hL]
      unfold remain
      cases front <;> simp [List.filter_append, List.filter_cons, hout]

theorem addTo_sim {nl : Prop} {a : ASt} {s : St} {full : Nat → List Nat} (H : Sim nl a s full) {p d : Nat} (hp : s.pred p = some d)
    (arg : Arg) (file : Int) (front : Bool) :
    ∃ s' full', addTo s d arg file front = some (s', a.next) ∧ Sim nl (astep a (.add p arg file front)).1 s' full' := by
  obtain ⟨D, hD, hDe⟩ := H.inv.pred p d hp
  obtain ⟨s', D', h1, h2, h3, h4, ⟨h5, h6, h7, h8⟩, h9⟩ := addTo_core H.inv.core hD arg file front
  have hnn : ∀ e, ∀ c ∈ full e, c ≠ s.next := by
    rintro e c hc rfl
    obtain ⟨_, X, _, h1, _⟩ := H.inv.core.clause hc
    have := (H.inv.core.mem _ X h1).2
    omega
  have hdt : ∀ e, ∀ c ∈ full e, dt s'.cl c = dt s.cl c := by
    intro e c hc; rw [h9]; simp only [if_neg (hnn e c hc)]
  have hpr : s'.pred = s.pred := by rw [h3]
  have hsc : s'.scans = s.scans := by rw [h3]
  have hev : s'.envs = s.envs := by rw [h3]
  have hwe : s'.withErase = s.withErase := by rw [h3]
  have hnx : s'.next = s.next + 1 := by rw [h3]
  -- erased fields are the same
  have hdy : ∀ e E, s'.dyn e = some E → ∃ E0, s.dyn e = some E0 ∧ E.erased = E0.erased := by
    intro e E hE
    rw [h4] at hE
    by_cases hed : e = d
    · simp only [if_pos hed, Option.some.injEq] at hE
      subst hE; subst hed; exact ⟨D, hD, h5⟩
    · simp only [if_neg hed] at hE; exact ⟨E, hE, rfl⟩
  have hdy' : ∀ e E0, s.dyn e = some E0 → ∃ E, s'.dyn e = some E ∧ E.erased = E0.erased := by
    intro e E hE
    rw [h4]
    by_cases hed : e = d
    · subst hed; rw [hD] at hE; cases hE
      exact ⟨D', by simp, h5⟩
    · simp only [if_neg hed]; exact ⟨E, hE, rfl⟩
  have hfe : ∀ e, e ≠ d → updFull full d (if front then s.next :: full d else full d ++ [s.next]) e = full e := by
    intro e he; simp [updFull, he]
  have hnew : stampOf (dt s'.cl) s.next = none := by rw [h9]; simp [stampOf]
  have hmem : ∀ e c, c ∈ updFull full d (if front then s.next :: full d else full d ++ [s.next]) e → c = s.next ∨ c ∈ full e := by
    intro e c hc
    simp only [updFull] at hc
    split at hc
    · rename_i he; subst he
      cases front <;> simp at hc <;> grind
    · exact Or.inr hc
  have hsub : ∀ e c, c ∈ full e → c ∈ updFull full d (if front then s.next :: full d else full d ++ [s.next]) e := by
    intro e c hc
    simp only [updFull]
    split
    · rename_i he; subst he; cases front <;> simp [hc]
    · exact hc
  refine ⟨s', _, by rw [H.next]; exact h1, ⟨⟨h2, by rw [hwe]; exact H.inv.weNodup, ?_, ?_, ?_, ?_, ?_, ?_, ?_, ?_⟩, ?_, ?_, ?_, ?_⟩⟩
  · intro e he
    rw [hwe] at he
    obtain ⟨E, e1, e2, e3⟩ := H.inv.we e he
    obtain ⟨E', e4, e5⟩ := hdy' e E e1
    refine ⟨E', e4, by rw [e5]; exact e2, ?_⟩
    rw [e5]
    rcases e3.congr (hdt e) with hh | ⟨es, g1, g2, g3, g4⟩
    · exact Or.inl hh
    · refine Or.inr ⟨es, g1, g2, g3, fun c => ?_⟩
      rw [g4]
      constructor
      · rintro ⟨k1, k2⟩; exact ⟨hsub e c k1, k2⟩
      · rintro ⟨k1, k2⟩
        rcases hmem e c k1 with rfl | k1
        · rw [hnew] at k2; simp at k2
        · exact ⟨k1, k2⟩
  · intro e E hE hne hEN c hc
    obtain ⟨E0, e1, e2⟩ := hdy e E hE
    rw [hwe] at hne
    rcases hmem e c hc with rfl | hc
    · exact hnew
    · simp only [stampOf, hdt e c hc]
      exact H.inv.clean e E0 e1 hne (by rw [← e2]; exact hEN) c hc
  · intro q e hq
    rw [hpr] at hq
    obtain ⟨E, e1, e2⟩ := H.inv.pred q e hq
    obtain ⟨E', e4, e5⟩ := hdy' e E e1
    exact ⟨E', e4, by rw [e5]; exact e2⟩
  · rw [hpr]; exact H.inv.inj
  · intro e E hE hne
    obtain ⟨E0, e1, e2⟩ := hdy e E hE
    rw [hpr]
    exact H.inv.det e E0 e1 (by rw [← e2]; exact hne)
  · intro c hc
    rw [hev] at hc
    obtain ⟨X, hX⟩ := H.inv.env c hc
    exact ⟨X, (hdt _ c (H.inv.core.mem c X hX).1).trans hX⟩
  · intro sc hs
    rw [hsc] at hs
    obtain ⟨E, hE⟩ := H.inv.scan sc hs
    obtain ⟨E', e4, _⟩ := hdy' _ E hE
    exact ⟨E', e4⟩
  · intro hnl
    obtain ⟨k1, k2⟩ := H.inv.leak hnl
    rw [hev, hwe]
    refine ⟨k1, fun e E hE hne => ?_⟩
    obtain ⟨E0, e1, e2⟩ := hdy e E hE
    exact k2 e E0 e1 (by rw [← e2]; exact hne)
  · simp only [astep, ASt.setPred, hnx, H.next]
  · intro q hq
    rw [hpr] at hq
    have hqp : q ≠ p := by rintro rfl; rw [hp] at hq; cases hq
    simp only [astep, ASt.setPred, if_neg hqp]
    exact H.pnone q hq
  · intro q e hq
    rw [hpr] at hq
    by_cases hqp : q = p
    · subst hqp
      rw [hp] at hq; cases hq
      simp only [astep, ASt.setPred, if_true, updFull]
      rw [H.psome q d hp]
      have hx : absL (dt s'.cl) (full d) = absL (dt s.cl) (full d) := absL_congr (hdt d)
      have hn1 : argOf (dt s'.cl) s.next = arg := by rw [h9]; simp [argOf]
      have hn2 : fileOf (dt s'.cl) s.next = file := by rw [h9]; simp [fileOf]
      rw [← hx, H.next]
      unfold absL
      cases front <;> simp [List.filter_append, List.filter_cons, hnew, hn1, hn2]
    · simp only [astep, ASt.setPred, if_neg hqp]
      have hed : e ≠ d := by rintro rfl; exact hqp (H.inv.inj q p e hq hp)
      rw [hfe e hed, absL_congr (hdt e)]
      exact H.psome q e hq
  · rw [hsc]
    have hgen : ∀ q, ((astep a (.add p arg file front)).1.pred q).gen = (a.pred q).gen := by
      intro q; simp only [astep, ASt.setPred]; split
      · rename_i h; rw [h]
      · rfl
    have hasc : (astep a (.add p arg file front)).1.scans = a.scans := rfl
    rw [hasc]
    refine H.scans.imp (fun as sc hr => ?_)
    by_cases hed : sc.dyn = d
    · refine ScanRel.add H.inv.core hr D D' (by rw [hed]; exact hD) (by rw [h4]; simp [hed]) front s.next
        ⟨d, arg, if front then D.countA else D.countZ, file, none, ENULL⟩ ?_ (hdt _) ?_ rfl ?_ h6 (hgen _) (by rw [hpr])
      · rw [hed]; simp [updFull]
      · rw [h9]; simp
      · rw [h8]; cases front <;> simp <;> omega
    · refine hr.keep (hfe _ hed) (fun c hc => same_of_eq (hdt _ c hc)) (fun E hE c hc _ => by simp only [stampOf, hdt _ c hc])
        (fun E hE => ⟨E, ?_, Int.le_refl _, Nat.le_refl _⟩) (hgen _) (by rw [hpr])
      rw [h4]; simp only [if_neg hed]; exact hE

theorem add_sim {nl : Prop} {a : ASt} {s : St} {full : Nat → List Nat} (H : Sim nl a s full) (p : Nat) (arg : Arg) (file : Int)
    (front : Bool) :
    ∃ s' full', addClause s p arg file front = some (s', a.next) ∧ Sim nl (astep a (.add p arg file front)).1 s' full' := by
  obtain ⟨H1, hp⟩ := ensureDyn_sim H p
  exact addTo_sim H1 hp arg file front

/-! Deletion -/

/-- A clause is erased. -/
theorem eraseClause_sim {nl : Prop} {a : ASt} {s : St} {full : Nat → List Nat} (H : Sim nl a s full) {p d c : Nat} {C : Cl} {D : Dyn}
    (hp : s.pred p = some d) (hc : c ∈ full d) (hC : s.cl c = some C) (hD : s.dyn C.dyn = some D) (hs : C.stamp = none) :
    Sim nl (a.setPred p { a.pred p with cls := (a.pred p).cls.filter (fun x => x.id ≠ c) }) (eraseClause s c C D) full
    ∧ ce (eraseClause s c C D).cl = ce s.cl ∧ (eraseClause s c C D).pred = s.pred
    ∧ (∀ y, y ≠ c → (eraseClause s c C D).cl y = s.cl y) := by
  have hX : dt s.cl c = some C.data := dt_of hC
  have hdd : C.dyn = d := by
    obtain ⟨_, Y, _, h1, h2, _⟩ := H.inv.core.clause hc
    rw [hX] at h1; cases h1; exact h2
  subst hdd
  have hDe : D.erased.p ≠ .all := by
    obtain ⟨D1, h1, h2⟩ := H.inv.pred p _ hp
    rw [hD] at h1; cases h1; exact h2
  obtain ⟨s', hs'⟩ : ∃ s', s' = eraseClause s c C D := ⟨_, rfl⟩
  have hcl : s'.cl = setCl s.cl c (some { C with stamp := some D.stamp, nextErased := D.erased }) := by rw [hs']; rfl
  have hpr : s'.pred = s.pred := by rw [hs']; rfl
  have hsc : s'.scans = s.scans := by rw [hs']; rfl
  have hev : s'.envs = s.envs := by rw [hs']; rfl
  have hnx : s'.next = s.next := by rw [hs']; rfl
  have hwe : s'.withErase = if D.erased = ENULL then C.dyn :: s.withErase else s.withErase := by rw [hs']; rfl
  have hdy : s'.dyn = fun e => if e = C.dyn then some { D with erased := ⟨.cl c, false⟩ } else s.dyn e := by rw [hs']; rfl
  rw [← hs']
  have hce : ce s'.cl = ce s.cl := by
    funext q y
    rw [hcl]
    by_cases hy : y = c
    · subst hy; cases q <;> simp [ce, setCl, getCell, hC]
    · simp [ce, setCl, hy]
  have hdt : dt s'.cl = fun y => if y = c then some ⟨C.dyn, C.arg, C.no, C.file, some D.stamp, D.erased⟩ else dt s.cl y := by
    funext y
    rw [hcl]
    by_cases hy : y = c
    · subst hy; simp [dt, setCl, Cl.data]
    · simp [dt, setCl, hy]
  have hdo : ∀ y, y ≠ c → dt s'.cl y = dt s.cl y := by intro y hy; rw [hdt]; simp only [if_neg hy]
  have hdc : dt s'.cl c = some ⟨C.dyn, C.arg, C.no, C.file, some D.stamp, D.erased⟩ := by rw [hdt]; simp
  have hsame : ∀ y, Same (dt s.cl) (dt s'.cl) y := by
    intro y
    by_cases hy : y = c
    · subst hy
      exact ⟨by rw [noOf_eq hdc, noOf_eq hX]; rfl, by rw [argOf_eq hdc, argOf_eq hX]; rfl⟩
    · exact same_of_eq (hdo y hy)
  have hne : ∀ e, e ≠ C.dyn → ∀ y ∈ full e, y ≠ c := by
    rintro e he y hy rfl
    exact he (H.inv.core.disj hy hc)
  have hst0 : stampOf (dt s.cl) c = none := by rw [stampOf_eq hX]; exact hs
  have hst1 : stampOf (dt s'.cl) c = some D.stamp := by rw [stampOf_eq hdc]
  have hok := H.inv.core.dyn _ D hD
  have hcore : Core s' full := by
    refine ⟨?_, ?_, ?_, ?_⟩
    · intro e E hE
      rw [hce]
      rw [hdy] at hE
      by_cases hed : e = C.dyn
      · simp only [if_pos hed, Option.some.injEq] at hE
        subst hE
        rw [hed]
        refine ⟨?_, ?_, hok.cnt, hok.seq, ?_⟩
        · intro y hy
          obtain ⟨Y, v1, v2, v3, v4, v5⟩ := hok.data y hy
          by_cases hyc : y = c
          · subst hyc
            rw [hX] at v1; cases v1
            exact ⟨_, hdc, rfl, v3, v4, by simp⟩
          · exact ⟨Y, (hdo y hyc).trans v1, v2, v3, v4, v5⟩
        · refine hok.ord.imp (fun {x y} hxy => ?_)
          rw [(hsame x).1, (hsame y).1]; exact hxy
        · intro i hi
          rw [withIdx_same i (fun y _ => hsame y)]
          exact hok.ind i hi
      · simp only [if_neg hed] at hE
        exact (H.inv.core.dyn e E hE).congr (fun y hy => hdo y (hne e hed y hy)) (fun _ _ => rfl) (fun _ _ => rfl) rfl rfl rfl rfl rfl rfl (Nat.le_refl _)
    · intro e he
      rw [hdy] at he
      by_cases hed : e = C.dyn
      · simp [hed] at he
      · simp only [if_neg hed] at he; exact H.inv.core.dead e he
    · intro y Y hY
      rw [hnx]
      by_cases hy : y = c
      · subst hy
        rw [hdc] at hY; cases hY
        exact H.inv.core.mem _ C.data hX
      · rw [hdo y hy] at hY
        exact H.inv.core.mem y Y hY
    · intro e E hE
      have : s'.nextDyn = s.nextDyn := by rw [hs']; rfl
      rw [this]
      rw [hdy] at hE
      by_cases hed : e = C.dyn
      · rw [hed]; exact H.inv.core.fresh _ D hD
      · simp only [if_neg hed] at hE; exact H.inv.core.fresh e E hE
  have hstE : ∀ e, e ≠ C.dyn → ∀ y ∈ full e, dt s'.cl y = dt s.cl y := fun e he y hy => hdo y (hne e he y hy)
  refine ⟨⟨⟨hcore, ?_, ?_, ?_, ?_, ?_, ?_, ?_, ?_, ?_⟩, ?_, ?_, ?_, ?_⟩, hce, hpr, ?_⟩
  · rw [hwe]
    split
    · rename_i hEN
      refine List.nodup_cons.2 ⟨?_, H.inv.weNodup⟩
      intro hmem
      obtain ⟨E, e1, e2, e3⟩ := H.inv.we _ hmem
      rw [hD] at e1; cases e1
      rw [hEN] at e3; exact e3.ne_null rfl
    · exact H.inv.weNodup
  · intro e he
    by_cases hed : e = C.dyn
    · subst hed
      refine ⟨{ D with erased := ⟨.cl c, false⟩ }, by rw [hdy]; simp, rfl, Or.inr ?_⟩
      have hcd : ∀ y, y ∈ full C.dyn ∧ (stampOf (dt s'.cl) y).isSome ↔ y = c ∨ (y ∈ full C.dyn ∧ (stampOf (dt s.cl) y).isSome) := by
        intro y
        by_cases hy : y = c
        · subst hy; simp [hc, hst1]
        · simp only [stampOf, hdo y hy, hy, false_or]
      by_cases hEN : D.erased = ENULL
      · have hnw : C.dyn ∉ s.withErase := by
          intro hmem
          obtain ⟨E, e1, e2, e3⟩ := H.inv.we _ hmem
          rw [hD] at e1; cases e1
          rw [hEN] at e3; exact e3.ne_null rfl
        refine ⟨[c], by simp, ⟨rfl, _, hdc, by rw [hEN], by simp only [hEN]; trivial⟩, by simp, fun y => ?_⟩
        rw [hcd]
        constructor
        · intro h; left; simpa using h
        · rintro (h | ⟨h1, h2⟩)
          · simpa using h
          · have := H.inv.clean _ D hD hnw hEN y h1
            rw [this] at h2; simp at h2
      · rw [hwe, if_neg hEN] at he
        obtain ⟨E, e1, e2, e3⟩ := H.inv.we _ he
        rw [hD] at e1; cases e1
        rcases e3 with e3 | ⟨es, g1, g2, g3, g4⟩
        · exact absurd e3 hDe
        · have hces : c ∉ es := by
            intro h; have := ((g4 c).1 h).2; rw [hst0] at this; simp at this
          refine ⟨c :: es, by simp, ⟨rfl, _, hdc, e2, ?_⟩, List.nodup_cons.2 ⟨hces, g3⟩, fun y => ?_⟩
          · refine g2.congr (fun y hy => hdo y ?_)
            rintro rfl; exact hces hy
          · rw [hcd, List.mem_cons, g4]
    · have he' : e ∈ s.withErase := by
        rw [hwe] at he
        split at he
        · rcases List.mem_cons.1 he with h | h
          · exact absurd h hed
          · exact h
        · exact he
      obtain ⟨E, e1, e2, e3⟩ := H.inv.we e he'
      exact ⟨E, by rw [hdy]; simp only [if_neg hed]; exact e1, e2, e3.congr (hstE e hed)⟩
  · intro e E hE hne' hEN y hy
    rw [hdy] at hE
    by_cases hed : e = C.dyn
    · simp only [if_pos hed, Option.some.injEq] at hE
      subst hE; simp at hEN
    · simp only [if_neg hed] at hE
      have he' : e ∉ s.withErase := by
        intro h; apply hne'; rw [hwe]; split
        · simp [h]
        · exact h
      simp only [stampOf, hstE e hed y hy]
      exact H.inv.clean e E hE he' hEN y hy
  · intro q e hq
    rw [hpr] at hq
    obtain ⟨E, e1, e2⟩ := H.inv.pred q e hq
    by_cases hed : e = C.dyn
    · exact ⟨{ D with erased := ⟨.cl c, false⟩ }, by rw [hdy]; simp only [if_pos hed], by simp⟩
    · exact ⟨E, by rw [hdy]; simp only [if_neg hed]; exact e1, e2⟩
  · rw [hpr]; exact H.inv.inj
  · intro e E hE hne'
    rw [hpr]
    rw [hdy] at hE
    by_cases hed : e = C.dyn
    · exact ⟨p, by rw [hed]; exact hp⟩
    · simp only [if_neg hed] at hE
      exact H.inv.det e E hE hne'
  · intro y hy
    rw [hev] at hy
    obtain ⟨Y, hY⟩ := H.inv.env y hy
    by_cases hyc : y = c
    · exact ⟨_, by rw [hyc]; exact hdc⟩
    · exact ⟨Y, (hdo y hyc).trans hY⟩
  · intro sc hsm
    rw [hsc] at hsm
    obtain ⟨E, hE⟩ := H.inv.scan sc hsm
    rw [hdy]
    by_cases hed : sc.dyn = C.dyn
    · exact ⟨{ D with erased := ⟨.cl c, false⟩ }, by simp only [if_pos hed]⟩
    · exact ⟨E, by simp only [if_neg hed]; exact hE⟩
  · intro hnl
    obtain ⟨k1, k2⟩ := H.inv.leak hnl
    rw [hev]
    refine ⟨k1, fun e E hE hne' => ?_⟩
    rw [hdy] at hE
    rw [hwe]
    by_cases hed : e = C.dyn
    · split
      · simp [hed]
      · rename_i hEN; rw [hed]; exact k2 _ D hD hEN
    · simp only [if_neg hed] at hE
      have := k2 e E hE hne'
      split
      · simp [this]
      · exact this
  · rw [hnx]; exact H.next
  · intro q hq
    rw [hpr] at hq
    have hqp : q ≠ p := by rintro rfl; rw [hp] at hq; cases hq
    simp only [ASt.setPred, if_neg hqp]
    exact H.pnone q hq
  · intro q e hq
    rw [hpr] at hq
    by_cases hqp : q = p
    · subst hqp
      rw [hp] at hq; cases hq
      simp only [ASt.setPred, if_true]
      rw [H.psome q _ hp]
      unfold absL
      rw [List.filter_map, List.filter_filter]
      have h1 : (full C.dyn).filter (fun y => (((fun x : ACl => decide (x.id ≠ c)) ∘ fun c => (⟨c, argOf (dt s.cl) c, fileOf (dt s.cl) c⟩ : ACl)) y && decide (stampOf (dt s.cl) y = none)))
          = (full C.dyn).filter (fun y => decide (stampOf (dt s'.cl) y = none)) := by
        refine List.filter_congr (fun y _ => ?_)
        by_cases hy : y = c
        · subst hy; simp [hst1]
        · simp [stampOf, hdo y hy, hy]
      rw [h1]
      refine List.map_congr_left (fun y hy => ?_)
      have hyc : y ≠ c := by
        rintro rfl
        have := (List.mem_filter.1 hy).2
        rw [hst1] at this; simp at this
      simp only [argOf, fileOf, hdo y hyc]
    · simp only [ASt.setPred, if_neg hqp]
      have hed : e ≠ C.dyn := by rintro rfl; exact hqp (H.inv.inj q p _ hq hp)
      rw [absL_congr (hstE e hed)]
      exact H.psome q e hq
  · rw [hsc]
    have hgen : ∀ q, ((a.setPred p { a.pred p with cls := (a.pred p).cls.filter (fun x => x.id ≠ c) }).pred q).gen = (a.pred q).gen := by
      intro q; simp only [ASt.setPred]; split
      · rename_i h; rw [h]
      · rfl
    refine H.scans.imp (fun as sc hr => ?_)
    refine hr.keep rfl (fun y _ => hsame y) (fun E hE y hy hlt => ?_) (fun E hE => ?_) (hgen _) (by rw [hpr])
    · by_cases hyc : y = c
      · subst hyc
        have : sc.dyn = C.dyn := H.inv.core.disj hy hc
        rw [this, hD] at hE; cases hE
        rw [hst0, hst1]
        simp only [del, decide_eq_false_iff_not]
        omega
      · simp only [stampOf, hdo y hyc]
    · rw [hdy]
      by_cases hed : sc.dyn = C.dyn
      · rw [hed, hD] at hE; cases hE
        exact ⟨{ D with erased := ⟨.cl c, false⟩ }, by simp only [if_pos hed], Int.le_refl _, Nat.le_refl _⟩
      · exact ⟨E, by simp only [if_neg hed]; exact hE, Int.le_refl _, Nat.le_refl _⟩
  · intro y hy
    rw [hcl]; simp [setCl, hy]

/-- Removing a clause which is not visible changes nothing. -/
theorem filter_erased {nl : Prop} {a : ASt} {s : St} {full : Nat → List Nat} (H : Sim nl a s full) {p d c : Nat} (hp : s.pred p = some d)
    (hs : (stampOf (dt s.cl) c).isSome) : (a.pred p).cls.filter (fun x => x.id ≠ c) = (a.pred p).cls := by
  rw [H.psome p d hp, List.filter_eq_self]
  intro x hx
  unfold absL at hx
  simp only [List.mem_map, List.mem_filter, decide_eq_true_eq] at hx
  obtain ⟨y, ⟨_, hy⟩, rfl⟩ := hx
  simp only [ne_eq, decide_not, Bool.not_eq_true', decide_eq_false_iff_not]
  rintro rfl
  rw [hy] at hs; simp at hs

theorem delClause_sim {nl : Prop} {a : ASt} {s : St} {full : Nat → List Nat} (P : Par) (H : Sim nl a s full) {p d c : Nat}
    (hp : s.pred p = some d) (hc : c ∈ full d) :
    ∃ s' full', delClause P s c = some s' ∧
      Sim nl (a.setPred p { a.pred p with cls := (a.pred p).cls.filter (fun x => x.id ≠ c) }) s' full' := by
  obtain ⟨D, X, hD, hX, hXd, _⟩ := H.inv.core.clause hc
  obtain ⟨C, hC, hCX⟩ := dt_some hX
  unfold delClause
  rw [hC]
  simp only []
  by_cases hs : C.stamp.isSome
  · rw [if_pos hs]
    refine ⟨s, full, rfl, H.congr rfl ?_ ?_ rfl⟩
    · intro q
      simp only [ASt.setPred]
      split
      · rename_i h; subst h
        exact filter_erased H hp (by rw [stampOf_eq (dt_of hC)]; exact hs)
      · rfl
    · intro q; simp only [ASt.setPred]; split
      · rename_i h; rw [h]
      · rfl
  · rw [if_neg hs]
    have hdy : s.dyn C.dyn = some D := by
      have : C.dyn = d := by rw [← hXd, ← hCX]; rfl
      rw [this]; exact hD
    rw [hdy]
    simp only []
    obtain ⟨H1, _, _, _⟩ := eraseClause_sim H hp hc hC hdy (by simpa using hs)
    obtain ⟨s', full', h1, h2, _⟩ := gc_sim P H1
    exact ⟨s', full', h1, h2⟩

theorem doAct_sim {nl : Prop} {a : ASt} {s : St} {full : Nat → List Nat} (P : Par) (H : Sim nl a s full) {p gen d c : Nat} (act : Act)
    (hc : c ∈ full d) (hr : act = .retract → gen = (a.pred p).gen ∧ s.pred p = some d) (he : nl → act ≠ .enter) :
    ∃ s' full', doAct P s (some c) act = some (s', some c) ∧ Sim nl (a.act p gen c act) s' full' := by
  obtain ⟨D, X, hD, hX, hXd, _⟩ := H.inv.core.clause hc
  obtain ⟨C, hC, hCX⟩ := dt_some hX
  unfold doAct
  simp only [hC]
  cases act with
  | read => exact ⟨s, full, rfl, H⟩
  | retract =>
    obtain ⟨h1, h2⟩ := hr rfl
    obtain ⟨s', full', h3, h4⟩ := delClause_sim P H h2 hc
    simp only [h3]
    refine ⟨s', full', rfl, ?_⟩
    simp only [ASt.act, if_pos h1]
    exact h4
  | enter =>
    refine ⟨_, full, rfl, ⟨⟨⟨H.inv.core.dyn, H.inv.core.dead, H.inv.core.mem, H.inv.core.fresh⟩, H.inv.weNodup, H.inv.we, H.inv.clean, H.inv.pred, H.inv.inj, H.inv.det, ?_, H.inv.scan, ?_⟩, H.next, H.pnone, H.psome, ?_⟩⟩
    · intro y hy
      rcases List.mem_cons.1 hy with rfl | hy
      · exact ⟨X, hX⟩
      · exact H.inv.env y hy
    · intro hnl; exact absurd rfl (he hnl)
    · exact H.scans.imp (fun as sc hr => ⟨hr.ex, hr.le, hr.gen⟩)

/-! Calls -/

theorem stamp_sim {nl : Prop} {a : ASt} {s : St} {full : Nat → List Nat} (H : Sim nl a s full) {d : Nat} {D : Dyn} (hD : s.dyn d = some D)
    (k : Nat) : Sim nl a { s.setDyn d (some { D with stamp := D.stamp + 1 }) with longest := k } full := by
  have hc := setDyn_core H.inv.core (D' := { D with stamp := D.stamp + 1 }) hD rfl rfl rfl rfl rfl rfl (Nat.le_succ _)
  have hdy : ∀ e E, (s.setDyn d (some { D with stamp := D.stamp + 1 })).dyn e = some E → ∃ E0, s.dyn e = some E0 ∧ E.erased = E0.erased := by
    intro e E hE
    simp only [St.setDyn] at hE
    by_cases hed : e = d
    · simp only [if_pos hed, Option.some.injEq] at hE
      subst hE; exact ⟨D, by rw [hed]; exact hD, rfl⟩
    · simp only [if_neg hed] at hE; exact ⟨E, hE, rfl⟩
  have hdy' : ∀ e E0, s.dyn e = some E0 → ∃ E, (s.setDyn d (some { D with stamp := D.stamp + 1 })).dyn e = some E ∧ E.erased = E0.erased
      ∧ E.countZ = E0.countZ ∧ E0.stamp ≤ E.stamp := by
    intro e E hE
    simp only [St.setDyn]
    by_cases hed : e = d
    · rw [hed, hD] at hE; cases hE
      exact ⟨{ D with stamp := D.stamp + 1 }, by simp only [if_pos hed], rfl, rfl, Nat.le_succ _⟩
    · exact ⟨E, by simp only [if_neg hed]; exact hE, rfl, rfl, Nat.le_refl _⟩
  refine ⟨⟨⟨hc.dyn, hc.dead, hc.mem, hc.fresh⟩, H.inv.weNodup, ?_, ?_, ?_, H.inv.inj, ?_, H.inv.env, ?_, ?_⟩, H.next, H.pnone, H.psome, ?_⟩
  · intro e he
    obtain ⟨E, e1, e2, e3⟩ := H.inv.we e he
    obtain ⟨E', f1, f2, _⟩ := hdy' e E e1
    exact ⟨E', f1, by rw [f2]; exact e2, by rw [f2]; exact e3⟩
  · intro e E hE hne hEN
    obtain ⟨E0, f1, f2⟩ := hdy e E hE
    exact H.inv.clean e E0 f1 hne (by rw [← f2]; exact hEN)
  · intro p e hp
    obtain ⟨E, e1, e2⟩ := H.inv.pred p e hp
    obtain ⟨E', f1, f2, _⟩ := hdy' e E e1
    exact ⟨E', f1, by rw [f2]; exact e2⟩
  · intro e E hE hne
    obtain ⟨E0, f1, f2⟩ := hdy e E hE
    exact H.inv.det e E0 f1 (by rw [← f2]; exact hne)
  · intro sc hs
    obtain ⟨E, hE⟩ := H.inv.scan sc hs
    obtain ⟨E', f1, _⟩ := hdy' _ E hE
    exact ⟨E', f1⟩
  · intro hnl
    obtain ⟨k1, k2⟩ := H.inv.leak hnl
    refine ⟨k1, fun e E hE hne => ?_⟩
    obtain ⟨E0, f1, f2⟩ := hdy e E hE
    exact k2 e E0 f1 (by rw [← f2]; exact hne)
  · refine H.scans.imp (fun as sc hr => ?_)
    refine hr.keep rfl (fun _ _ => ⟨rfl, rfl⟩) (fun _ _ _ _ _ => rfl) (fun E hE => ?_) rfl rfl
    obtain ⟨E', f1, _, f3, f4⟩ := hdy' _ E hE
    exact ⟨E', f1, by omega, f4⟩

theorem initScan_spec (d : Nat) (D : Dyn) (arg : Arg) : initScan d D (index arg) =
    ⟨d, D.countZ, D.stamp, seqB arg, if seqB arg then D.seq.first else (hdr D (index arg)).first,
      if seqB arg then none else D.var.first, none⟩ := by
  cases arg <;> simp only [initScan, index, seqB, hdr] <;> simp
  all_goals split <;> simp_all

theorem chain_start {m : Mem} {d : Nat} {D : Dyn} {l : List Nat} (h : DynOk (dt m) (ce m true) (ce m false) d D l) (arg : Arg) (stop : Int) :
    PtrOk (dt m) (chA (dt m) l arg) D.countA stop (if seqB arg then D.seq.first else (hdr D (index arg)).first) ∧
    PtrOk (dt m) (chB (dt m) l arg) D.countA stop (if seqB arg then none else D.var.first) := by
  have hgt : ∀ c ∈ l, D.countA < noOf (dt m) c := by
    intro c hc
    obtain ⟨X, h1, _, h2, _⟩ := h.data c hc
    rw [noOf_eq h1]; exact h2
  have hp : ∀ A : List Nat, (∀ c ∈ A, c ∈ l) → PtrOk (dt m) A D.countA stop A.head? := by
    intro A hA
    have := PtrOk.of_split (f := dt m) (a := []) (b := A) (Q := D.countA) (stop := stop) (by simp) (fun c hc => hgt c (hA c hc))
    simpa using this
  constructor
  · have h1 := hp (chA (dt m) l arg) (fun c hc => chA_sub hc)
    have h2 : (chA (dt m) l arg).head? = (if seqB arg then D.seq.first else (hdr D (index arg)).first) := by
      unfold chA
      cases hs : seqB arg with
      | true => simp only [if_true]; exact h.seq.1.symm
      | false =>
        simp only [Bool.false_eq_true, if_false]
        have hi : index arg ≠ .no ∧ index arg ≠ .var := by simpa [seqB] using hs
        exact (h.ind _ hi.1).1.symm
    rw [← h2]; exact h1
  · have h1 := hp (chB (dt m) l arg) (fun c hc => chB_sub hc)
    have h2 : (chB (dt m) l arg).head? = (if seqB arg then none else D.var.first) := by
      unfold chB
      cases hs : seqB arg with
      | true => simp
      | false =>
        simp only [Bool.false_eq_true, if_false]
        exact (h.ind .var (by simp)).1.symm
    rw [← h2]; exact h1

/-- The clauses which remain at the beginning are the candidates of the database. -/
theorem remain_start {m : Mem} {d : Nat} {D : Dyn} {l : List Nat} (h : DynOk (dt m) (ce m true) (ce m false) d D l) (arg : Arg) :
    remain (dt m) (chL (dt m) l arg) D.countA D.countZ D.stamp = ((absL (dt m) l).filter (fun x => cand arg x.arg)).map (·.id) := by
  unfold absL
  rw [List.filter_map, List.map_map, List.filter_filter]
  have : ((fun x : ACl => x.id) ∘ fun c => (⟨c, argOf (dt m) c, fileOf (dt m) c⟩ : ACl)) = id := rfl
  rw [this, List.map_id]
  unfold remain chL
  rw [List.filter_filter]
  refine List.filter_congr (fun c hc => ?_)
  obtain ⟨X, h1, _, h2, h3, h4⟩ := h.data c hc
  rw [noOf_eq h1, stampOf_eq h1]
  simp only [h2, h3, and_self, decide_true, Bool.true_and, Function.comp]
  cases hst : X.stamp with
  | none => simp [del, Bool.and_comm]
  | some e =>
    have := h4 e hst
    simp [del, this]

theorem filter_len_lt {f : Nat → Option Data} {l : List Nat} {arg : Arg} {P : Int} {n : Nat} (h : l.length ≤ n) :
    ((chL f l arg).filter (fun c => decide (P < noOf f c))).length < 2 * n + 1 := by
  have h1 := List.length_filter_le (fun c => decide (P < noOf f c)) (chL f l arg)
  have h2 := List.length_filter_le (fun c => cand arg (argOf f c)) l
  unfold chL at h1 ⊢
  omega

theorem startOn_sim {nl : Prop} {a : ASt} {s : St} {full : Nat → List Nat} (P : Par) (H : Sim nl a s full) {p d : Nat}
    (hp : s.pred p = some d) (arg : Arg) (act : Act) (he : nl → act ≠ .enter) :
    ∃ s' c s'' full', startOn s d arg = some (s', c) ∧ doAct P s' c act = some (s'', (astep a (.start p arg act)).2)
      ∧ Sim nl (astep a (.start p arg act)).1 s'' full' := by
  obtain ⟨D, hD, _⟩ := H.inv.pred p d hp
  have hok := H.inv.core.dyn d D hD
  have hlen := H.inv.core.length d
  unfold startOn
  rw [hD]
  simp only [initScan_spec]
  obtain ⟨hA, hB⟩ := chain_start hok arg D.countZ
  obtain ⟨sc, k, e1, e2, e3⟩ := scanNext_spec (ctx_of hok arg) (2 * s.next + 1) 0
    ⟨d, D.countZ, D.stamp, seqB arg, if seqB arg then D.seq.first else (hdr D (index arg)).first,
      if seqB arg then none else D.var.first, none⟩ D.countA rfl hA hB (filter_len_lt hlen)
  have e1' : scanNext (s.setDyn d (some { D with stamp := D.stamp + 1 })).cl (2 * (s.setDyn d (some { D with stamp := D.stamp + 1 })).next + 1) 0
    ⟨d, D.countZ, D.stamp, seqB arg, if seqB arg then D.seq.first else (hdr D (index arg)).first,
      if seqB arg then none else D.var.first, none⟩ = some (sc, k) := e1
  rw [e1']
  simp only []
  rw [remain_start hok arg] at e2 e3
  have habs : ((a.pred p).cls.filter (fun x => cand arg x.arg)).map (·.id)
      = ((absL (dt s.cl) (full d)).filter (fun x => cand arg x.arg)).map (·.id) := by rw [H.psome p d hp]
  cases hrem : ((absL (dt s.cl) (full d)).filter (fun x => cand arg x.arg)).map (·.id) with
  | nil =>
    rw [hrem] at e2 habs
    have hcl : sc.clause = none := by rw [e2]; rfl
    simp only [hcl]
    have h0 := stamp_sim H hD s.longest
    refine ⟨_, none, { s.setDyn d (some { D with stamp := D.stamp + 1 }) with longest := s.longest }, full, rfl, ?_, ?_⟩
    rotate_left
    · simp only [astep, habs]
      exact h0
    · simp only [doAct, astep, habs]
      rfl
  | cons c r =>
    rw [hrem] at e2 habs
    have hcl : sc.clause = some c := by rw [e2]; rfl
    obtain ⟨g1, g2, g3, g4⟩ := e3 c r hrem
    have hcm : c ∈ full d := chL_sub g1
    simp only at g2 g3 g4
    have hst : sc.stop = D.countZ := by rw [e2]
    have hsm : sc.stamp = D.stamp := by rw [e2]
    have hsq : sc.isSeq = seqB arg := by rw [e2]
    have hsd : sc.dyn = d := by rw [e2]
    simp only [hcl]
    obtain ⟨sc', k', f1, f2, f3⟩ := scanNext_spec (ctx_of hok arg) (2 * s.next + 1) 0 sc (noOf (dt s.cl) c) hsq
      (by rw [hst]; exact g2) (by rw [hst]; exact g3) (filter_len_lt hlen)
    have f1' : scanNext (s.setDyn d (some { D with stamp := D.stamp + 1 })).cl (2 * (s.setDyn d (some { D with stamp := D.stamp + 1 })).next + 1) 0 sc
      = some (sc', k') := f1
    rw [f1']
    simp only []
    rw [hst, hsm, g4] at f2 f3
    have hS : ∀ q, Sim nl a { s.setDyn d (some { D with stamp := D.stamp + 1 }) with longest := q } full := fun q => stamp_sim H hD q
    cases r with
    | nil =>
      have hcl' : sc'.clause = none := by rw [f2]; rfl
      simp only [hcl']
      obtain ⟨s'', full', d1, d2⟩ := doAct_sim P (hS (upLongest (upLongest (s.setDyn d (some { D with stamp := D.stamp + 1 })) k) k').longest)
        (p := p) (gen := (a.pred p).gen) (d := d) (c := c) act hcm (fun _ => ⟨rfl, hp⟩) he
      refine ⟨_, some c, s'', full', rfl, ?_, ?_⟩
      · simp only [astep, habs]
        exact d1
      · simp only [astep, habs, if_true]
        exact d2
    | cons c' r' =>
      have hcl' : sc'.clause = some c' := by rw [f2]; rfl
      obtain ⟨i1, i2, i3, i4⟩ := f3 c' r' rfl
      simp only [hcl']
      obtain ⟨q, hq⟩ : ∃ q, q = (upLongest (upLongest (s.setDyn d (some { D with stamp := D.stamp + 1 })) k) k').longest := ⟨_, rfl⟩
      have HS := hS q
      have hsd' : sc'.dyn = d := by rw [f2]; exact hsd
      have hst' : sc'.stop = D.countZ := by rw [f2]
      have hsm' : sc'.stamp = D.stamp := by rw [f2]
      have H2 : Sim nl { a with scans := ⟨p, (a.pred p).gen, c' :: r'⟩ :: a.scans }
          { s.setDyn d (some { D with stamp := D.stamp + 1 }) with longest := q, scans := sc' :: s.scans } full := by
        refine ⟨⟨⟨HS.inv.core.dyn, HS.inv.core.dead, HS.inv.core.mem, HS.inv.core.fresh⟩, HS.inv.weNodup, HS.inv.we, HS.inv.clean,
          HS.inv.pred, HS.inv.inj, HS.inv.det, HS.inv.env, ?_, HS.inv.leak⟩, HS.next, HS.pnone, HS.psome, ?_⟩
        · intro x hx
          rcases List.mem_cons.1 hx with rfl | hx
          · exact ⟨{ D with stamp := D.stamp + 1 }, by simp only [hsd', St.setDyn, if_true]⟩
          · exact HS.inv.scan x hx
        · refine .cons ?_ ?_
          · refine ⟨⟨arg, { D with stamp := D.stamp + 1 }, c', by simp only [hsd', St.setDyn, if_true], ?_, ?_, ?_, hcl', ?_, ?_, ?_, ?_⟩, Nat.le_refl _, ?_⟩
            · rw [f2]; exact hsq
            · rw [hst']; exact Int.le_refl _
            · rw [hsm']; exact Nat.lt_succ_self _
            · rw [hsd']; exact chL_sub i1
            · rw [hsd', hst']; exact i2
            · rw [hsd', hst']; exact i3
            · rw [hsd', hst', hsm']
              exact congrArg _ i4.symm
            · simp only [hsd', St.setDyn]
              exact ⟨fun _ => hp, fun _ => trivial⟩
          · exact HS.scans.imp (fun as sc hr => ⟨hr.ex, hr.le, hr.gen⟩)
      obtain ⟨s'', full', d1, d2⟩ := doAct_sim P H2 (p := p) (gen := (a.pred p).gen) (d := d) (c := c) act hcm (fun _ => ⟨rfl, hp⟩) he
      refine ⟨_, some c, s'', full', rfl, ?_, ?_⟩
      · simp only [astep, habs]
        rw [← d1, hq]
        rfl
      · simp only [astep, habs, reduceCtorEq, if_false]
        exact d2

theorem start_sim {nl : Prop} {a : ASt} {s : St} {full : Nat → List Nat} (P : Par) (H : Sim nl a s full) (p : Nat) (arg : Arg)
    (act : Act) (he : nl → act ≠ .enter) :
    ∃ s' full', step P s (.start p arg act) = some (s', (astep a (.start p arg act)).2) ∧ Sim nl (astep a (.start p arg act)).1 s' full' := by
  cases hp : s.pred p with
  | none =>
    have hn := H.pnone p hp
    refine ⟨s, full, ?_, ?_⟩
    · simp [step, startScan, hp, doAct, astep, hn]
    · simp only [astep, hn]; exact H
  | some d =>
    obtain ⟨s1, full1, g1, g2, g3⟩ := gc_sim P H
    obtain ⟨s', c, s'', full', e1, e2, e3⟩ := startOn_sim P g2 (by rw [g3]; exact hp) arg act he
    refine ⟨s'', full', ?_, e3⟩
    simp only [step, startScan, hp, g1, e1, e2]

theorem redo_sim {nl : Prop} {a : ASt} {s : St} {full : Nat → List Nat} (P : Par) (H : Sim nl a s full) (act : Act)
    (he : nl → act ≠ .enter) (hl : act = .retract → ∀ as ss, a.scans = as :: ss → as.gen = (a.pred as.p).gen) :
    ∃ s' full', step P s (.redo act) = some (s', (astep a (.redo act)).2) ∧ Sim nl (astep a (.redo act)).1 s' full' := by
  have hS := H.scans
  cases hs : s.scans with
  | nil =>
    rw [hs] at hS
    have ha : a.scans = [] := by cases h : a.scans with
      | nil => rfl
      | cons => rw [h] at hS; cases hS
    refine ⟨s, full, ?_, ?_⟩
    · simp [step, redoScan, hs, doAct, astep, ha]
    · simp only [astep, ha]; exact H
  | cons sc l =>
    rw [hs] at hS
    cases ha : a.scans with
    | nil => rw [ha] at hS; cases hS
    | cons as ss =>
      rw [ha] at hS
      cases hS with
      | cons hr hS =>
      obtain ⟨arg, D, c, h1, h2, h3, h4, h5, h6, h7, h8, h9⟩ := hr.ex
      have hok := H.inv.core.dyn _ D h1
      obtain ⟨sc', k, e1, e2, e3⟩ := scanNext_spec (ctx_of hok arg) (2 * s.next + 1) 0 sc (noOf (dt s.cl) c) h2 h7 h8
        (filter_len_lt (H.inv.core.length _))
      obtain ⟨ap, agen, arest⟩ := as
      simp only at h9
      obtain ⟨r, hrdef⟩ : ∃ r, r = remain (dt s.cl) (chL (dt s.cl) (full sc.dyn) arg) (noOf (dt s.cl) c) sc.stop sc.stamp := ⟨_, rfl⟩
      rw [← hrdef] at h9 e2 e3
      subst h9
      have hgen := hr.gen
      have hle := hr.le
      simp only at hgen hle
      -- the state without the choice point
      have hpop : ∀ q, Sim nl { a with scans := ss } { s with longest := q, scans := l } full := by
        intro q
        refine ⟨⟨⟨H.inv.core.dyn, H.inv.core.dead, H.inv.core.mem, H.inv.core.fresh⟩, H.inv.weNodup, H.inv.we, H.inv.clean, H.inv.pred,
          H.inv.inj, H.inv.det, H.inv.env, ?_, H.inv.leak⟩, H.next, H.pnone, H.psome, hS.imp (fun as sc hr => ⟨hr.ex, hr.le, hr.gen⟩)⟩
        intro x hx
        exact H.inv.scan x (by rw [hs]; simp [hx])
      have hret : act = .retract → agen = (a.pred ap).gen ∧ s.pred ap = some sc.dyn := by
        intro hact
        have := hl hact _ _ ha
        exact ⟨this, hgen.1 this⟩
      cases r with
      | nil =>
        have hcl' : sc'.clause = none := by rw [e2]; rfl
        obtain ⟨s', full', d1, d2⟩ := doAct_sim P (hpop (upLongest s k).longest) (p := ap) (gen := agen) (d := sc.dyn) (c := c) act h6 hret he
        refine ⟨s', full', ?_, ?_⟩
        · simp only [step, redoScan, hs, h5, e1, hcl', astep, ha]
          exact d1
        · simp only [astep, ha, if_true]
          exact d2
      | cons c' r' =>
        have hcl' : sc'.clause = some c' := by rw [e2]; rfl
        obtain ⟨i1, i2, i3, i4⟩ := e3 c' r' rfl
        have hsd' : sc'.dyn = sc.dyn := by rw [e2]
        have hst' : sc'.stop = sc.stop := by rw [e2]
        have hsm' : sc'.stamp = sc.stamp := by rw [e2]
        have HP := hpop (upLongest s k).longest
        have H2 : Sim nl { a with scans := ⟨ap, agen, c' :: r'⟩ :: ss } { s with longest := (upLongest s k).longest, scans := sc' :: l } full := by
          refine ⟨⟨⟨H.inv.core.dyn, H.inv.core.dead, H.inv.core.mem, H.inv.core.fresh⟩, H.inv.weNodup, H.inv.we, H.inv.clean, H.inv.pred,
            H.inv.inj, H.inv.det, H.inv.env, ?_, H.inv.leak⟩, H.next, H.pnone, H.psome, ?_⟩
          · intro x hx
            rcases List.mem_cons.1 hx with rfl | hx
            · rw [hsd']; exact ⟨D, h1⟩
            · exact HP.inv.scan x hx
          · refine .cons ⟨⟨arg, D, c', ?_, ?_, ?_, ?_, hcl', ?_, ?_, ?_, ?_⟩, hle, ?_⟩ (HP.scans.imp (fun as sc hr => ⟨hr.ex, hr.le, hr.gen⟩))
            · rw [hsd']; exact h1
            · rw [e2]; exact h2
            · rw [hst']; exact h3
            · rw [hsm']; exact h4
            · rw [hsd']; exact chL_sub i1
            · rw [hsd', hst']; exact i2
            · rw [hsd', hst']; exact i3
            · rw [hsd', hst', hsm']; exact congrArg _ i4.symm
            · rw [hsd']; exact hgen
        obtain ⟨s', full', d1, d2⟩ := doAct_sim P H2 (p := ap) (gen := agen) (d := sc.dyn) (c := c) act h6 hret he
        refine ⟨s', full', ?_, ?_⟩
        · simp only [step, redoScan, hs, h5, e1, hcl', astep, ha]
          exact d1
        · simp only [astep, ha, reduceCtorEq, if_false]
          exact d2

end Gp.Dyn
