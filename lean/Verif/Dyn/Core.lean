import Verif.Dyn.Chain
/-
The invariant of the clauses and of the chains of the predicates, and what keeps it.
-/
namespace Gp.Dyn

def noOf (f : Nat → Option Data) (c : Nat) : Int := ((f c).map (·.no)).getD 0
def argOf (f : Nat → Option Data) (c : Nat) : Arg := ((f c).map (·.arg)).getD .none
def fileOf (f : Nat → Option Data) (c : Nat) : Int := ((f c).map (·.file)).getD 0
def stampOf (f : Nat → Option Data) (c : Nat) : Option Nat := (f c).bind (·.stamp)

/-- The header of an index. -/
def hdr (D : Dyn) : Idx → Hdr
  | .no => ⟨none, none⟩
  | .var => D.var
  | .lst => D.lst
  | .key k => (D.tbl k).getD ⟨none, none⟩

/-- The clauses of `l` with a given index. -/
def withIdx (f : Nat → Option Data) (l : List Nat) (i : Idx) : List Nat := l.filter (fun c => decide (index (argOf f c) = i))

/-- `l` is the list of the clauses of a predicate. -/
structure DynOk (f : Nat → Option Data) (sq ix : Nat → Option Cell) (d : Nat) (D : Dyn) (l : List Nat) : Prop where
  data : ∀ c ∈ l, ∃ X, f c = some X ∧ X.dyn = d ∧ D.countA < X.no ∧ X.no < D.countZ ∧ ∀ e, X.stamp = some e → e ≤ D.stamp
  ord : l.Pairwise (fun a b => noOf f a < noOf f b)
  cnt : D.countA < D.countZ
  seq : Chain sq D.seq l
  ind : ∀ i, i ≠ .no → Chain ix (hdr D i) (withIdx f l i)

theorem DynOk.nodup {f sq ix d D l} (h : DynOk f sq ix d D l) : l.Nodup :=
  h.ord.imp (fun hab e => by subst e; omega)

theorem noOf_eq {f : Nat → Option Data} {c X} (h : f c = some X) : noOf f c = X.no := by simp [noOf, h]
theorem argOf_eq {f : Nat → Option Data} {c X} (h : f c = some X) : argOf f c = X.arg := by simp [argOf, h]
theorem fileOf_eq {f : Nat → Option Data} {c X} (h : f c = some X) : fileOf f c = X.file := by simp [fileOf, h]
theorem stampOf_eq {f : Nat → Option Data} {c X} (h : f c = some X) : stampOf f c = X.stamp := by simp [stampOf, h]

theorem withIdx_congr {f g : Nat → Option Data} {l : List Nat} (i : Idx) (h : ∀ c ∈ l, g c = f c) :
    withIdx g l i = withIdx f l i := by
  unfold withIdx
  refine List.filter_congr (fun c hc => ?_)
  have : argOf g c = argOf f c := by simp only [argOf, h c hc]
  rw [this]

theorem pairwise_congr {f g : Nat → Option Data} {l : List Nat} (h : ∀ c ∈ l, g c = f c)
    (hp : l.Pairwise (fun a b => noOf f a < noOf f b)) : l.Pairwise (fun a b => noOf g a < noOf g b) := by
  refine hp.imp_of_mem (fun {a b} ha hb hab => ?_)
  simp only [noOf, h a ha, h b hb]
  exact hab

/-- Another memory which agrees on the clauses, another header information with the same chains. -/
theorem DynOk.congr {f g : Nat → Option Data} {sq ix sq' ix' : Nat → Option Cell} {d : Nat} {D D' : Dyn} {l : List Nat}
    (h : DynOk f sq ix d D l) (hf : ∀ c ∈ l, g c = f c) (h1 : ∀ c ∈ l, sq' c = sq c) (h2 : ∀ c ∈ l, ix' c = ix c)
    (e1 : D'.seq = D.seq) (e2 : D'.var = D.var) (e3 : D'.lst = D.lst) (e4 : D'.tbl = D.tbl) (e5 : D'.countA = D.countA)
    (e6 : D'.countZ = D.countZ) (e7 : D.stamp ≤ D'.stamp) : DynOk g sq' ix' d D' l := by
  have hh : ∀ i, hdr D' i = hdr D i := by
    intro i; cases i <;> simp [hdr, e2, e3, e4]
  refine ⟨?_, pairwise_congr hf h.ord, by rw [e5, e6]; exact h.cnt, by rw [e1]; exact h.seq.congr h1, ?_⟩
  · intro c hc
    obtain ⟨X, a1, a2, a3, a4, a5⟩ := h.data c hc
    exact ⟨X, (hf c hc).trans a1, a2, by rw [e5]; exact a3, by rw [e6]; exact a4, fun e he => Nat.le_trans (a5 e he) e7⟩
  · intro i hi
    rw [hh, withIdx_congr i hf]
    refine (h.ind i hi).congr (fun c hc => h2 c ?_)
    exact (List.mem_filter.1 hc).1

/-- The invariant of the clauses and of the chains: `full d` is the list of the clauses of `d` which are not freed. -/
structure Core (s : St) (full : Nat → List Nat) : Prop where
  dyn : ∀ d D, s.dyn d = some D → DynOk (dt s.cl) (ce s.cl true) (ce s.cl false) d D (full d)
  dead : ∀ d, s.dyn d = none → full d = []
  mem : ∀ c X, dt s.cl c = some X → c ∈ full X.dyn ∧ c < s.next
  fresh : ∀ d D, s.dyn d = some D → d < s.nextDyn

/-- A clause in `full d`. -/
theorem Core.clause {s full} (H : Core s full) {d c} (h : c ∈ full d) :
    ∃ D X, s.dyn d = some D ∧ dt s.cl c = some X ∧ X.dyn = d ∧ D.countA < X.no ∧ X.no < D.countZ
      ∧ ∀ e, X.stamp = some e → e ≤ D.stamp := by
  cases hd : s.dyn d with
  | none => rw [H.dead d hd] at h; simp at h
  | some D =>
    obtain ⟨X, hX⟩ := (H.dyn d D hd).data c h
    exact ⟨D, X, rfl, hX⟩

theorem Core.dynOf {s full} (H : Core s full) {c X} (h : dt s.cl c = some X) : ∃ D, s.dyn X.dyn = some D := by
  obtain ⟨D, _, h1, _⟩ := H.clause (H.mem c X h).1
  exact ⟨D, h1⟩

theorem Core.disj {s full} (H : Core s full) {d e c} (h : c ∈ full d) (h' : c ∈ full e) : d = e := by
  obtain ⟨_, X, _, h1, h2, _⟩ := H.clause h
  obtain ⟨_, Y, _, h3, h4, _⟩ := H.clause h'
  rw [h1] at h3; cases h3
  exact h2.symm.trans h4

theorem Core.nodup {s full} (H : Core s full) (d : Nat) : (full d).Nodup := by
  cases hd : s.dyn d with
  | none => rw [H.dead d hd]; exact List.nodup_nil
  | some D => exact (H.dyn d D hd).nodup

/-- A list without duplicates of numbers less than `n` has at most `n` elements. -/
theorem length_le_of_lt : ∀ (n : Nat) (l : List Nat), l.Nodup → (∀ x ∈ l, x < n) → l.length ≤ n
  | 0, [], _, _ => by simp
  | 0, x :: _, _, h => absurd (h x (by simp)) (by omega)
  | n + 1, l, hn, h => by
    have h1 := length_le_of_lt n (l.filter (· ≠ n)) (hn.filter _) (fun x hx => by
      simp only [ne_eq, decide_not, List.mem_filter, Bool.not_eq_true', decide_eq_false_iff_not] at hx
      have := h x hx.1; omega)
    have h2 : l.length ≤ (l.filter (· ≠ n)).length + 1 := by
      clear h1 h
      induction l with
      | nil => simp
      | cons x l ih =>
        have hn' := List.nodup_cons.1 hn
        by_cases hx : x = n
        · subst hx
          have : l.filter (· ≠ x) = l := by
            rw [List.filter_eq_self]
            intro y hy
            simp only [ne_eq, decide_not, Bool.not_eq_true', decide_eq_false_iff_not]
            rintro rfl; exact hn'.1 hy
          simp only [List.filter_cons, ne_eq, not_true_eq_false, decide_false, Bool.false_eq_true, if_false, List.length_cons]
          have h3 := congrArg List.length this
          simp only [ne_eq] at h3
          omega
        · have := ih hn'.2
          simp only [List.filter_cons, ne_eq, hx, not_false_eq_true, decide_true, if_true, List.length_cons] at this ⊢
          omega
    omega

theorem Core.length {s full} (H : Core s full) (d : Nat) : (full d).length ≤ s.next := by
  refine length_le_of_lt _ _ (H.nodup d) (fun x hx => ?_)
  obtain ⟨_, X, _, h1, _⟩ := H.clause hx
  exact (H.mem x X h1).2

/-- Removing an element of a list without duplicates. -/
theorem split_filter {L : List Nat} {c : Nat} (hn : L.Nodup) (hc : c ∈ L) :
    ∃ a b, L = a ++ c :: b ∧ L.filter (fun x => decide (x ≠ c)) = a ++ b := by
  obtain ⟨a, b, rfl⟩ := List.append_of_mem hc
  refine ⟨a, b, rfl, ?_⟩
  have hca : c ∉ a ∧ c ∉ b := by
    simp only [List.nodup_append, List.nodup_cons, List.mem_cons] at hn
    exact ⟨fun hh => hn.2.2 c hh c (Or.inl rfl) rfl, hn.2.1.1⟩
  have h1 : a.filter (fun x => decide (x ≠ c)) = a := by
    rw [List.filter_eq_self]; intro y hy; simp only [decide_eq_true_eq]; rintro rfl; exact hca.1 hy
  have h2 : b.filter (fun x => decide (x ≠ c)) = b := by
    rw [List.filter_eq_self]; intro y hy; simp only [decide_eq_true_eq]; rintro rfl; exact hca.2 hy
  rw [List.filter_append, List.filter_cons, h1, h2]
  simp

theorem mem_withIdx {f l i c} : c ∈ withIdx f l i ↔ c ∈ l ∧ index (argOf f c) = i := by
  simp [withIdx, List.mem_filter]

theorem withIdx_filter (f : Nat → Option Data) (l : List Nat) (i : Idx) (q : Nat → Bool) :
    withIdx f (l.filter q) i = (withIdx f l i).filter q := by
  unfold withIdx
  rw [List.filter_filter, List.filter_filter]
  refine List.filter_congr (fun x _ => ?_)
  exact Bool.and_comm _ _

theorem hdr_setHdr (D : Dyn) (i j : Idx) (h : Hdr) (hi : i ≠ .no) : hdr (setHdr D i (some h)) j = if j = i then h else hdr D j := by
  cases i <;> cases j <;> simp_all [hdr, setHdr]
  split <;> simp_all

theorem setHdr_rest (D : Dyn) (i : Idx) (h : Option Hdr) : (setHdr D i h).seq = D.seq ∧ (setHdr D i h).countA = D.countA
    ∧ (setHdr D i h).countZ = D.countZ ∧ (setHdr D i h).stamp = D.stamp ∧ (setHdr D i h).erased = D.erased := by
  cases i <;> cases h <;> simp [setHdr]

theorem getHdr_hdr (D : Dyn) (i : Idx) (hi : i ≠ .no) : ∃ h, getHdr D i = some h ∧ h.getD ⟨none, none⟩ = hdr D i := by
  cases i with
  | no => exact absurd rfl hi
  | var => exact ⟨_, rfl, rfl⟩
  | lst => exact ⟨_, rfl, rfl⟩
  | key k => exact ⟨_, rfl, rfl⟩

/-- What `unlinkInd` does. -/
theorem unlinkInd_spec (m : Mem) (D : Dyn) (c : Nat) (C : Cl) (l : List Nat) (hnd : l.Nodup) (hc : c ∈ l)
    (harg : argOf (dt m) c = C.arg) (hcell : ce m false c = some C.ind)
    (hind : ∀ i, i ≠ .no → Chain (ce m false) (hdr D i) (withIdx (dt m) l i)) :
    ∃ m' D', unlinkInd m D c C = some (m', D') ∧ dt m' = dt m ∧ ce m' true = ce m true
      ∧ (∀ x, x ∉ l → ce m' false x = ce m false x)
      ∧ D'.seq = D.seq ∧ D'.countA = D.countA ∧ D'.countZ = D.countZ ∧ D'.stamp = D.stamp ∧ D'.erased = D.erased
      ∧ ∀ i, i ≠ .no → Chain (ce m' false) (hdr D' i) (withIdx (dt m) (l.filter (fun x => decide (x ≠ c))) i) := by
  have hother : ∀ i, i ≠ index C.arg → withIdx (dt m) (l.filter (fun x => decide (x ≠ c))) i = withIdx (dt m) l i := by
    intro i hi
    rw [withIdx_filter, List.filter_eq_self]
    intro x hx
    simp only [decide_eq_true_eq]
    rintro rfl
    have := (mem_withIdx.1 hx).2
    rw [harg] at this
    exact hi this.symm
  by_cases hno : index C.arg = .no
  · refine ⟨m, D, by simp [unlinkInd, hno, getHdr], rfl, rfl, fun _ _ => rfl, rfl, rfl, rfl, rfl, rfl, ?_⟩
    intro i hi
    rw [hother i (by rw [hno]; exact hi)]
    exact hind i hi
  · have hcw : c ∈ withIdx (dt m) l (index C.arg) := mem_withIdx.2 ⟨hc, by rw [harg]⟩
    obtain ⟨a, b, hab, hab'⟩ := split_filter (hnd.filter _) hcw
    rw [← withIdx, ← withIdx_filter] at hab'
    rw [← withIdx] at hab
    have hch := hind _ hno
    rw [hab] at hch
    obtain ⟨h, hh1, hh2⟩ := getHdr_hdr D _ hno
    have hf : (hdr D (index C.arg)).first = (a ++ c :: b).head? := hch.1
    have hhs : h = some (hdr D (index C.arg)) := by
      cases h with
      | some h => simpa using hh2
      | none =>
        rw [← hh2] at hf
        cases a <;> simp at hf
    subst hhs
    have hnd2 : (a ++ c :: b).Nodup := by rw [← hab]; exact hnd.filter _
    obtain ⟨m1, h1, r1, r2, r3, r4, r5⟩ := rem2_spec m _ c false a b hch hnd2
    have hnext := hch.next
    rw [hcell] at hnext
    have hcc : C.ind = ⟨b.head?, a.getLast?⟩ := by simpa using hnext
    have hsub : ∀ x, x ∈ a ++ c :: b → x ∈ l := by
      intro x hx; rw [← hab] at hx; exact (mem_withIdx.1 hx).1
    have hcells : ∀ x, x ∉ l → ce m1 false x = ce m false x := by
      intro x hx
      exact r4 x (fun h => hx (hsub x (by simp [h]))) (fun h => hx (hsub x (by simp [h])))
    have hchains : ∀ D', (∀ i, hdr D' i = if i = index C.arg then h1 else hdr D i) →
        ∀ i, i ≠ .no → Chain (ce m1 false) (hdr D' i) (withIdx (dt m) (l.filter (fun x => decide (x ≠ c))) i) := by
      intro D' hD' i hi
      rw [hD']
      by_cases hii : i = index C.arg
      · rw [if_pos hii, hii, hab']; exact r5
      · rw [if_neg hii, hother i hii]
        refine (hind i hi).congr (fun x hx => ?_)
        have hxa : x ∉ a ++ c :: b := by
          intro hh; rw [← hab] at hh
          exact hii ((mem_withIdx.1 hx).2.symm.trans (mem_withIdx.1 hh).2)
        exact r4 x (fun h => hxa (by simp [h])) (fun h => hxa (by simp [h]))
    have hkeep : (∃ D', unlinkInd m D c C = some (m1, D') ∧ D' = setHdr D (index C.arg) (some h1)) ∨
        (∃ k, index C.arg = .key k ∧ unlinkInd m D c C = some (m1, setHdr D (.key k) none) ∧ C.ind.prev = none
          ∧ C.ind.next = none) := by
      unfold unlinkInd
      rw [hh1]
      simp only [r1]
      cases hi : index C.arg with
      | no => exact absurd hi hno
      | var => left; exact ⟨_, rfl, rfl⟩
      | lst => left; exact ⟨_, rfl, rfl⟩
      | key k =>
        by_cases hp : C.ind.prev = none ∧ C.ind.next = none
        · right; exact ⟨k, rfl, by simp only [if_pos hp], hp.1, hp.2⟩
        · left; exact ⟨_, by simp only [if_neg hp], rfl⟩
    rcases hkeep with ⟨D', hD1, rfl⟩ | ⟨k, hk, hD1, hp1, hp2⟩
    · obtain ⟨t1, t2, t3, t4, t5⟩ := setHdr_rest D (index C.arg) (some h1)
      exact ⟨m1, _, hD1, r2, by simpa using r3, hcells, t1, t2, t3, t4, t5, hchains _ (fun i => hdr_setHdr D _ i h1 hno)⟩
    · obtain ⟨t1, t2, t3, t4, t5⟩ := setHdr_rest D (.key k) none
      refine ⟨m1, _, hD1, r2, by simpa using r3, hcells, t1, t2, t3, t4, t5, hchains _ (fun i => ?_)⟩
      have ha : a = [] := by rw [hcc] at hp1; simpa using hp1
      have hb : b = [] := by rw [hcc] at hp2; simpa using hp2
      subst ha; subst hb
      have hh1 : h1 = ⟨none, none⟩ := by
        obtain ⟨z1, z2, _⟩ := r5
        cases h1; simp at z1 z2; simp [z1, z2]
      rw [hk, hh1]
      cases i with
      | key k' => simp only [hdr, setHdr, Idx.key.injEq]; split <;> simp
      | no => simp [hdr]
      | var => simp [hdr, setHdr]
      | lst => simp [hdr, setHdr]

/-- The clauses of the predicate `d` are changed to `l`. -/
def updFull (full : Nat → List Nat) (d : Nat) (l : List Nat) : Nat → List Nat := fun e => if e = d then l else full e

/-- What `Unlink_And_Free_Clause` does. -/
theorem unlinkFree_core {s : St} {full : Nat → List Nat} (H : Core s full) {c : Nat} {X : Data} {D : Dyn}
    (hX : dt s.cl c = some X) (hD : s.dyn X.dyn = some D) :
    ∃ s' D', unlinkFree s c = some s' ∧ Core s' (updFull full X.dyn ((full X.dyn).filter (fun x => decide (x ≠ c))))
      ∧ s' = { s with cl := s'.cl, dyn := s'.dyn, nb := s.nb - 1 }
      ∧ s'.dyn = (fun e => if e = X.dyn then some D' else s.dyn e)
      ∧ (D'.erased = D.erased ∧ D'.stamp = D.stamp ∧ D'.countA = D.countA ∧ D'.countZ = D.countZ)
      ∧ dt s'.cl = fun b => if b = c then none else dt s.cl b := by
  obtain ⟨C, hC, hCX⟩ := dt_some hX
  have hdyn : C.dyn = X.dyn := by rw [← hCX]; rfl
  have hcl := (H.mem c X hX).1
  have hok := H.dyn _ D hD
  obtain ⟨a, b, hab, hab'⟩ := split_filter hok.nodup hcl
  have hnd : (a ++ c :: b).Nodup := by rw [← hab]; exact hok.nodup
  have hch := hok.seq
  rw [hab] at hch
  obtain ⟨m1, h1, r1, r2, r3, r4, r5⟩ := rem2_spec s.cl D.seq c true a b hch hnd
  simp only [Bool.not_true] at r3
  have hind : ∀ i, i ≠ .no → Chain (ce m1 false) (hdr { D with seq := h1 } i) (withIdx (dt m1) (full X.dyn) i) := by
    intro i hi
    have := hok.ind i hi
    rw [r2, r3]
    cases i <;> exact this
  obtain ⟨m2, D2, u1, u2, u3, u4, u5, u6, u7, u8, u9, u10⟩ :=
    unlinkInd_spec m1 { D with seq := h1 } c C (full X.dyn) hok.nodup hcl
      (by rw [r2, argOf_eq hX, ← hCX]; rfl) (by rw [r3]; exact ce_of false hC) hind
  have hstep : unlinkFree s c = some { s.setDyn C.dyn (some D2) with cl := setCl m2 c none, nb := s.nb - 1 } := by
    simp only [unlinkFree, hC, hdyn, hD, r1, u1]
  have hdt : dt (setCl m2 c none) = fun b => if b = c then none else dt s.cl b := by
    funext y
    by_cases hy : y = c
    · simp [hy, dt, setCl]
    · simp only [if_neg hy]
      rw [← r2, ← u2]
      simp [dt, setCl, hy]
  have hce : ∀ q y, y ≠ c → ce (setCl m2 c none) q y = ce m2 q y := by
    intro q y hy; simp [ce, setCl, hy]
  have hmemf : ∀ y, y ∈ (full X.dyn).filter (fun x => decide (x ≠ c)) → y ∈ full X.dyn ∧ y ≠ c := by
    intro y hy; simpa [List.mem_filter] using hy
  refine ⟨_, D2, hstep, ?_, rfl, ?_, ⟨u9, u8, u6, u7⟩, hdt⟩
  · refine ⟨?_, ?_, ?_, ?_⟩
    · intro e E he
      simp only [St.setDyn, hdyn] at he
      by_cases hex : e = X.dyn
      · subst hex
        simp only [if_true, Option.some.injEq] at he
        subst he
        simp only [updFull, if_true]
        refine ⟨?_, ?_, by rw [u6, u7]; exact hok.cnt, ?_, ?_⟩
        · intro y hy
          obtain ⟨hy1, hy2⟩ := hmemf y hy
          obtain ⟨Y, v1, v2, v3, v4, v5⟩ := hok.data y hy1
          refine ⟨Y, ?_, v2, by rw [u6]; exact v3, by rw [u7]; exact v4, by rw [u8]; exact v5⟩
          rw [hdt]; simp only [if_neg hy2]; exact v1
        · refine pairwise_congr (f := dt s.cl) ?_ (hok.ord.filter _)
          intro y hy
          rw [hdt]; simp only [if_neg (hmemf y hy).2]
        · rw [u5, hab']
          refine r5.congr ?_
          intro y hy
          have hyc : y ≠ c := by rw [← hab'] at hy; exact (hmemf y hy).2
          rw [hce true y hyc, u3]
        · intro i hi
          have := u10 i hi
          rw [withIdx_congr (f := dt m1) i]
          · refine this.congr (fun y hy => hce false y ?_)
            exact (hmemf y (mem_withIdx.1 hy).1).2
          · intro y hy
            rw [hdt, r2]; simp only [if_neg (hmemf y hy).2]
      · simp only [if_neg hex] at he
        simp only [updFull, if_neg hex]
        have hne : ∀ y ∈ full e, y ∉ full X.dyn := fun y hy hy2 => hex (H.disj hy hy2)
        have hyc : ∀ y ∈ full e, y ≠ c := by rintro y hy rfl; exact hne y hy hcl
        refine (H.dyn e E he).congr ?_ ?_ ?_ rfl rfl rfl rfl rfl rfl (Nat.le_refl _)
        · intro y hy; rw [hdt]; simp only [if_neg (hyc y hy)]
        · intro y hy
          rw [hce true y (hyc y hy), u3]
          have := hne y hy
          rw [hab] at this
          exact r4 y (fun h => this (by simp [h])) (fun h => this (by simp [h]))
        · intro y hy
          rw [hce false y (hyc y hy), u4 y (hne y hy), r3]
    · intro e he
      simp only [St.setDyn, hdyn] at he
      by_cases hex : e = X.dyn
      · simp [hex] at he
      · simp only [if_neg hex] at he
        simp only [updFull, if_neg hex]
        exact H.dead e he
    · intro y Y hY
      rw [hdt] at hY
      by_cases hyc : y = c
      · simp [hyc] at hY
      · simp only [if_neg hyc] at hY
        have := H.mem y Y hY
        refine ⟨?_, this.2⟩
        simp only [updFull]
        split
        · rename_i he
          rw [he] at this
          simp only [List.mem_filter]
          exact ⟨this.1, by simpa using hyc⟩
        · exact this.1
    · intro e E he
      simp only [St.setDyn, hdyn] at he
      by_cases hex : e = X.dyn
      · rw [hex]; exact H.fresh _ D hD
      · simp only [if_neg hex] at he
        exact H.fresh e E he
  · simp only [St.setDyn, hdyn]

/-! Adding a clause -/

theorem addInd_spec (m : Mem) (D : Dyn) (c : Nat) (i : Idx) (front : Bool) (f : Nat → Option Data) (l : List Nat) (hc : c ∉ l)
    (hi : index (argOf f c) = i) (hx : ∃ x, ce m false c = some x)
    (hind : ∀ j, j ≠ .no → Chain (ce m false) (hdr D j) (withIdx f l j)) :
    ∃ m' D', addInd m D c i front = some (m', D') ∧ dt m' = dt m ∧ ce m' true = ce m true
      ∧ (∀ x, x ≠ c → x ∉ l → ce m' false x = ce m false x)
      ∧ D'.seq = D.seq ∧ D'.countA = D.countA ∧ D'.countZ = D.countZ ∧ D'.stamp = D.stamp ∧ D'.erased = D.erased
      ∧ ∀ j, j ≠ .no → Chain (ce m' false) (hdr D' j) (withIdx f (if front then c :: l else l ++ [c]) j) := by
  have hw : ∀ j, withIdx f (if front then c :: l else l ++ [c]) j
      = if j = i then (if front then c :: withIdx f l j else withIdx f l j ++ [c]) else withIdx f l j := by
    intro j
    unfold withIdx
    by_cases hj : j = i
    · cases front <;> simp [List.filter_append, List.filter_cons, hi, hj]
    · cases front <;> simp [List.filter_append, List.filter_cons, hi, hj, Ne.symm hj]
  by_cases hno : i = .no
  · refine ⟨m, D, by simp [addInd, hno, getHdr], rfl, rfl, fun _ _ _ => rfl, rfl, rfl, rfl, rfl, rfl, ?_⟩
    intro j hj
    rw [hw j, if_neg (by rw [hno]; exact hj)]
    exact hind j hj
  · obtain ⟨h, hh1, hh2⟩ := getHdr_hdr D i hno
    obtain ⟨m1, h1, r1, r2, r3, r4, r5⟩ := add2_spec m (hdr D i) c false front _ (hind i hno)
      (fun hh => hc (mem_withIdx.1 hh).1) hx
    obtain ⟨t1, t2, t3, t4, t5⟩ := setHdr_rest D i (some h1)
    refine ⟨m1, setHdr D i (some h1), by simp only [addInd, hh1, hh2, r1], r2, by simpa using r3, ?_, t1, t2, t3, t4, t5, ?_⟩
    · intro x hx1 hx2
      exact r4 x hx1 (fun hh => hx2 (mem_withIdx.1 hh).1)
    · intro j hj
      rw [hw j, hdr_setHdr D i j h1 hno]
      by_cases hji : j = i
      · subst hji
        simp only [if_true]
        exact r5
      · simp only [if_neg hji]
        refine (hind j hj).congr (fun x hx => r4 x ?_ ?_)
        · intro hxc; rw [hxc] at hx; exact hc (mem_withIdx.1 hx).1
        · intro hh; exact hji ((mem_withIdx.1 hx).2.symm.trans (mem_withIdx.1 hh).2)

/-- What `Pl_Add_Dynamic_Clause` does. -/
theorem addTo_core {s : St} {full : Nat → List Nat} (H : Core s full) {d : Nat} {D : Dyn} (hD : s.dyn d = some D)
    (arg : Arg) (file : Int) (front : Bool) :
    ∃ s' D', addTo s d arg file front = some (s', s.next)
      ∧ Core s' (updFull full d (if front then s.next :: full d else full d ++ [s.next]))
      ∧ s' = { s with cl := s'.cl, dyn := s'.dyn, next := s.next + 1 }
      ∧ s'.dyn = (fun e => if e = d then some D' else s.dyn e)
      ∧ (D'.erased = D.erased ∧ D'.stamp = D.stamp
          ∧ D'.countA = (if front then D.countA - 1 else D.countA) ∧ D'.countZ = (if front then D.countZ else D.countZ + 1))
      ∧ dt s'.cl = fun b => if b = s.next then
          some ⟨d, arg, if front then D.countA else D.countZ, file, none, ENULL⟩ else dt s.cl b := by
  have hok := H.dyn d D hD
  have hnn : ∀ e, s.next ∉ full e := by
    intro e hh
    obtain ⟨_, X, _, h1, _⟩ := H.clause hh
    have := (H.mem _ X h1).2
    omega
  obtain ⟨C, hCdef⟩ : ∃ C : Cl, C = { seq := ⟨none, none⟩, ind := ⟨none, none⟩, dyn := d, arg := arg, no := if front then D.countA else D.countZ, file := file, stamp := none, nextErased := ENULL } := ⟨_, rfl⟩
  have hm0 : ∀ q y, y ≠ s.next → ce (setCl s.cl s.next (some C)) q y = ce s.cl q y := by
    intro q y hy; simp [ce, setCl, hy]
  have hd0 : dt (setCl s.cl s.next (some C)) = fun b => if b = s.next then some C.data else dt s.cl b := by
    funext y; by_cases hy : y = s.next <;> simp [dt, setCl, hy]
  obtain ⟨m1, h1, r1, r2, r3, r4, r5⟩ := add2_spec (setCl s.cl s.next (some C)) D.seq s.next true front (full d)
    (hok.seq.congr (fun y hy => hm0 true y (by rintro rfl; exact hnn d hy))) (hnn d) ⟨C.seq, by simp [ce, setCl, getCell]⟩
  simp only [Bool.not_true] at r3
  have hne : ∀ e, ∀ y ∈ full e, y ≠ s.next := by rintro e y hy rfl; exact hnn e hy
  have hdm : ∀ e, ∀ y ∈ full e, dt m1 y = dt s.cl y := by
    intro e y hy; rw [r2, hd0]; simp only [if_neg (hne e y hy)]
  have hfl : ∀ (D1 : Dyn), D1.var = D.var → D1.lst = D.lst → D1.tbl = D.tbl →
      ∀ j, j ≠ .no → Chain (ce m1 false) (hdr D1 j) (withIdx (dt m1) (full d) j) := by
    intro D1 e1 e2 e3 j hj
    rw [withIdx_congr j (hdm d)]
    have : hdr D1 j = hdr D j := by cases j <;> simp [hdr, e1, e2, e3]
    rw [this]
    refine (hok.ind j hj).congr (fun y hy => ?_)
    rw [r3]
    exact hm0 false y (hne d y (mem_withIdx.1 hy).1)
  obtain ⟨m2, D2, u1, u2, u3, u4, u5, u6, u7, u8, u9, u10⟩ :=
    addInd_spec m1 { D with seq := h1, countA := if front then D.countA - 1 else D.countA, countZ := if front then D.countZ else D.countZ + 1 } s.next (index arg) front (dt m1) (full d) (hnn d)
      (by rw [r2, hd0]; simp [argOf, Cl.data, hCdef]) ⟨C.ind, by rw [r3]; simp [ce, setCl, getCell]⟩ (hfl _ rfl rfl rfl)
  have hstep : addTo s d arg file front = some ({ s.setDyn d (some D2) with cl := m2, next := s.next + 1 }, s.next) := by
    unfold addTo
    rw [hD]
    simp only []
    rw [← hCdef, r1]
    simp only [u1]
  have hdt : dt m2 = fun b => if b = s.next then
          some ⟨d, arg, if front then D.countA else D.countZ, file, none, ENULL⟩ else dt s.cl b := by
    rw [u2, r2, hd0, hCdef]; rfl
  refine ⟨_, D2, hstep, ?_, rfl, rfl, ⟨u9, u8, u6, u7⟩, hdt⟩
  have hcnt := hok.cnt
  have hdold : ∀ e, ∀ y ∈ full e, dt m2 y = dt s.cl y := by
    intro e y hy; rw [hdt]; simp only [if_neg (hne e y hy)]
  have hnonew : noOf (dt m2) s.next = if front then D.countA else D.countZ := by rw [hdt]; simp [noOf]
  refine ⟨?_, ?_, ?_, ?_⟩
  · intro e E he
    simp only [St.setDyn] at he
    by_cases hed : e = d
    · subst hed
      simp only [if_true, Option.some.injEq] at he
      subst he
      simp only [updFull, if_true]
      have hmem : ∀ y, y ∈ (if front then s.next :: full e else full e ++ [s.next]) → y = s.next ∨ y ∈ full e := by
        intro y hy; cases front <;> simp at hy <;> grind
      refine ⟨?_, ?_, ?_, ?_, ?_⟩
      · intro y hy
        rcases hmem y hy with rfl | hy
        · refine ⟨⟨e, arg, if front then D.countA else D.countZ, file, none, ENULL⟩, by simp only [hdt, if_true], rfl, ?_, ?_, by simp⟩
          · rw [u6]; cases front <;> simp <;> omega
          · rw [u7]; cases front <;> simp <;> omega
        · obtain ⟨Y, v1, v2, v3, v4, v5⟩ := hok.data y hy
          refine ⟨Y, (hdold e y hy).trans v1, v2, ?_, ?_, by rw [u8]; exact v5⟩
          · rw [u6]; cases front <;> simp <;> omega
          · rw [u7]; cases front <;> simp <;> omega
      · have hp := pairwise_congr (hdold e) hok.ord
        have hb : ∀ y ∈ full e, D.countA < noOf (dt m2) y ∧ noOf (dt m2) y < D.countZ := by
          intro y hy
          obtain ⟨Y, v1, v2, v3, v4, v5⟩ := hok.data y hy
          rw [noOf_eq ((hdold e y hy).trans v1)]
          exact ⟨v3, v4⟩
        cases front with
        | true =>
          simp only [if_true] at hnonew ⊢
          refine List.pairwise_cons.2 ⟨fun y hy => ?_, hp⟩
          rw [hnonew]; exact (hb y hy).1
        | false =>
          simp only [Bool.false_eq_true, if_false] at hnonew ⊢
          refine List.pairwise_append.2 ⟨hp, by simp, fun y hy z hz => ?_⟩
          simp only [List.mem_singleton] at hz
          subst hz
          rw [hnonew]; exact (hb y hy).2
      · rw [u6, u7]; cases front <;> simp <;> omega
      · rw [u5, u3]; exact r5
      · intro i hi
        rw [u2]
        exact u10 i hi
    · simp only [if_neg hed] at he
      simp only [updFull, if_neg hed]
      have hnd : ∀ y ∈ full e, y ∉ full d := fun y hy hy2 => hed (H.disj hy hy2)
      refine (H.dyn e E he).congr (hdold e) ?_ ?_ rfl rfl rfl rfl rfl rfl (Nat.le_refl _)
      · intro y hy
        rw [u3, r4 y (hne e y hy) (hnd y hy), hm0 true y (hne e y hy)]
      · intro y hy
        rw [u4 y (hne e y hy) (hnd y hy), r3, hm0 false y (hne e y hy)]
  · intro e he
    simp only [St.setDyn] at he
    by_cases hed : e = d
    · simp [hed] at he
    · simp only [if_neg hed] at he
      simp only [updFull, if_neg hed]
      exact H.dead e he
  · intro y Y hY
    simp only [hdt] at hY
    by_cases hyn : y = s.next
    · simp only [if_pos hyn, Option.some.injEq] at hY
      subst hY
      refine ⟨?_, by simp only [hyn]; omega⟩
      simp only [updFull, if_true, hyn]
      cases front <;> simp
    · simp only [if_neg hyn] at hY
      have := H.mem y Y hY
      refine ⟨?_, by simp only; omega⟩
      simp only [updFull]
      split
      · rename_i he
        rw [he] at this
        cases front <;> simp [this.1]
      · exact this.1
  · intro e E he
    simp only [St.setDyn] at he
    by_cases hed : e = d
    · rw [hed]; exact H.fresh _ D hD
    · simp only [if_neg hed] at he
      exact H.fresh e E he

/-! The clauses of a predicate -/

theorem walk_chain (m : Mem) : ∀ (l : List Nat) (p : Option Nat) (fuel : Nat), l.length ≤ fuel → Seg (ce m true) p l none →
    walk m fuel l.head? = some l
  | [], _, fuel, _, _ => by cases fuel <;> simp [walk]
  | c :: l, p, 0, h, _ => by simp at h
  | c :: l, p, fuel + 1, h, hs => by
    have hc := hs.1
    unfold ce at hc
    cases hm : m c with
    | none => rw [hm] at hc; simp at hc
    | some C =>
      rw [hm] at hc
      have hc : C.seq = ⟨l.head?.or none, p⟩ := by simpa [getCell] using hc
      have ih := walk_chain m l (some c) fuel (by simpa using h) hs.2
      simp only [List.head?_cons, walk, hm, hc, Option.or_none, ih]

end Gp.Dyn
