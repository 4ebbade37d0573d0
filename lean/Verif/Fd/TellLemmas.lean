import Verif.Fd.TellSpec
namespace Gp.Fd

open Gp.FdRange

theorem listing_elems {r : Range} (hne : r.min ≤ r.max) {l : List Int} (hl : Listing r l) : l = elems r :=
  sorted_unique hl.1 (elems_listing r hne).1 (fun n => by rw [hl.2, (elems_listing r hne).2])

theorem nb_ok {r : Range} {nb : Int} (hne : r.min ≤ r.max) (h : nb = nbElem r) : ∀ l, Listing r l → nb = l.length := by
  intro l hl
  rw [h, nbElem_elems r hne, listing_elems hne hl]

theorem VarOk.nbElem {c : Cfg} {v : Fdv} (h : VarOk c v) : v.nb = nbElem v.r := by
  rw [h.nb _ (elems_listing v.r h.ne), nbElem_elems v.r h.ne]

theorem elems_filter {r r' : Range} (hne : r.min ≤ r.max) (hne' : r'.min ≤ r'.max) (hs : ∀ n, Mem r' n → Mem r n) :
    elems r' = (elems r).filter (fun n => decide (n ∈ elems r')) := by
  have h1 := elems_listing r hne
  have h2 := elems_listing r' hne'
  apply sorted_unique h2.1 (h1.1.sublist List.filter_sublist)
  intro n
  rw [List.mem_filter, decide_eq_true_eq]
  constructor
  · intro h; exact ⟨(h1.2 n).2 (hs n ((h2.2 n).1 h)), h⟩
  · intro h; exact h.2

theorem nb_le {r r' : Range} (hne : r.min ≤ r.max) (hne' : r'.min ≤ r'.max) (hs : ∀ n, Mem r' n → Mem r n) : nbElem r' ≤ nbElem r := by
  rw [nbElem_elems r hne, nbElem_elems r' hne', elems_filter hne hne' hs]
  exact Int.ofNat_le.2 (List.length_filter_le _ _)

/-- Same number of elements: same elements. -/
theorem nb_same {r r' : Range} (hne : r.min ≤ r.max) (hne' : r'.min ≤ r'.max) (hs : ∀ n, Mem r' n → Mem r n)
    (h : nbElem r = nbElem r') (n : Int) : Mem r n ↔ Mem r' n := by
  refine ⟨fun hn => ?_, hs n⟩
  rw [nbElem_elems r hne, nbElem_elems r' hne'] at h
  have h' : ((elems r).filter (fun n => decide (n ∈ elems r'))).length = (elems r).length := by
    rw [← elems_filter hne hne' hs]; omega
  rw [List.length_filter_eq_length_iff] at h'
  have := h' n (((elems_listing r hne).2 n).2 hn)
  exact ((elems_listing r' hne').2 n).1 (by simpa using this)

theorem nb_eq {r r' : Range} (hne : r.min ≤ r.max) (hne' : r'.min ≤ r'.max) (hs : ∀ n, Mem r' n ↔ Mem r n) : nbElem r = nbElem r' := by
  rw [nbElem_elems r hne, nbElem_elems r' hne']
  rw [show elems r = elems r' from sorted_unique (elems_listing r hne).1 (elems_listing r' hne').1
    (fun n => by rw [(elems_listing r hne).2, (elems_listing r' hne').2, hs])]

theorem length_remove : ∀ {l : List Int} {x : Int}, l.Pairwise (· < ·) → x ∈ l → (l.filter (fun n => decide (n ≠ x))).length + 1 = l.length
  | a :: l, x, hp, hx => by
    rw [List.pairwise_cons] at hp
    rcases List.mem_cons.1 hx with rfl | hx
    · have : l.filter (fun n => decide (n ≠ x)) = l := by
        rw [List.filter_eq_self]
        intro b hb
        have := hp.1 b hb
        simp only [ne_eq, decide_not, Bool.not_eq_true', decide_eq_false_iff_not]
        omega
      rw [List.filter_cons, if_neg (by simp), this]
      simp
    · have := hp.1 x hx
      rw [List.filter_cons, if_pos (by simp; omega)]
      simp only [List.length_cons]
      rw [length_remove hp.2 hx]

theorem nb_remove {r r' : Range} {x : Int} (hne : r.min ≤ r.max) (hne' : r'.min ≤ r'.max) (hx : Mem r x)
    (hs : ∀ n, Mem r' n ↔ Mem r n ∧ n ≠ x) : nbElem r - 1 = nbElem r' := by
  have h1 := elems_listing r hne
  have h2 := elems_listing r' hne'
  have : elems r' = (elems r).filter (fun n => decide (n ≠ x)) := by
    apply sorted_unique h2.1 (h1.1.sublist List.filter_sublist)
    intro n
    rw [List.mem_filter, decide_eq_true_eq, h2.2, h1.2, hs]
  rw [nbElem_elems r hne, nbElem_elems r' hne', this]
  have := length_remove h1.1 ((h1.2 x).2 hx)
  omega

theorem single_mem {e : Bool} {n m : Int} : Mem ⟨e, n, n, none⟩ m ↔ m = n := by
  rw [mem_none rfl]; simp only; omega

theorem single_nb {e : Bool} {n : Int} : (1 : Int) = FdRange.nbElem ⟨e, n, n, none⟩ := by simp [FdRange.nbElem]

theorem setInt_ok {c : Cfg} {v : Fdv} {n : Int} (h0 : 0 ≤ n) : VarOk c (setInt v n) where
  wf := wf_none rfl (by simp only [setInt]; omega)
  ne := by simp [setInt]
  nonneg := h0
  nb := nb_ok (by simp [setInt]) single_nb
  int := fun m h => by cases h; exact ⟨rfl, rfl, rfl⟩
  fdv := fun h => by cases h

theorem intEv_ok {c : Cfg} {v : Fdv} {n : Int} (hv : VarOk c v) (ht : v.tag = none) (hm : Mem v.r n) :
    EvOk v (setInt v n) False (intEv v n) := by
  have h1 := hv.fdv ht
  have hb := bounds_mem c v.r hv.wf hv.ne
  refine ⟨?_, ?_, ?_, ?_, ?_⟩
  · simp only [intEv, setInt, decide_eq_true_eq]; omega
  · simp only [intEv, setInt, decide_eq_true_eq]; omega
  · simp only [intEv, setInt, true_iff]
    by_cases h : v.r.min = n
    · exact Or.inr (by omega)
    · exact Or.inl (by omega)
  · simp only [intEv, setInt, true_iff]
    left
    by_cases h : v.r.min = n
    · exact ⟨v.r.max, fun hc => by rw [single_mem] at hc; have := hc.1 hb.2.1; omega⟩
    · exact ⟨v.r.min, fun hc => by rw [single_mem] at hc; have := hc.1 hb.1; omega⟩
  · simp [intEv, setInt, ht]

/-- The variable is reduced to one value of its domain. -/
theorem setInt_told {c : Cfg} {v : Fdv} {T P : Nat → Prop} {n : Int} {w : Bool} (hv : VarOk c v) (ht : v.tag = none) (h0 : 0 ≤ n)
    (hn : Mem v.r n) (hT : T n.toNat) (hP : P n.toNat)
    (hu : ∀ m : Nat, T m → P m → (m : Int) = n ∨ (c.vmax < m ∧ (w = true ∨ v.r.extra = true))) :
    ToldOk c v T P False ⟨true, setInt v n, intEv v n, w⟩ where
  fail := fun h => by cases h
  ok := fun _ => setInt_ok h0
  sound := fun _ m hm => by
    rw [setInt, single_mem] at hm
    rw [show n.toNat = m by omega] at hT hP
    rw [← hm] at hn
    exact ⟨hn, hT, hP⟩
  complete := fun _ m hT' hP' => by
    rcases hu m hT' hP' with h | h
    · left; rw [setInt, single_mem]; exact h
    · exact Or.inr h.1
  repr := fun _ hw => by
    simp only at hw
    refine ⟨?_, ?_⟩
    · intro m hm
      rw [setInt, single_mem] at hm
      rw [show n.toNat = m by omega] at hT hP
      exact ⟨hT, hP⟩
    · rintro m ⟨h1, h2⟩
      rcases hu m h1 h2 with h | ⟨h, h' | h'⟩
      · left; rw [setInt, single_mem]; exact h
      · rw [hw] at h'; cases h'
      · exact Or.inr ⟨h, h', Or.inr rfl⟩
  ev := fun _ => intEv_ok hv ht hn

theorem mem_nonneg {c : Cfg} {v : Fdv} (hv : VarOk c v) {n : Int} (h : Mem v.r n) : 0 ≤ n := by
  have := (bounds_mem c v.r hv.wf hv.ne).2.2 n h
  have := hv.nonneg
  omega

theorem mem_T {c : Cfg} {v : Fdv} {T : Nat → Prop} (hT : VRepr c v T) {n : Int} (h0 : 0 ≤ n) (h : Mem v.r n) : T n.toNat := by
  have hn : ((n.toNat : Nat) : Int) = n := by omega
  exact hT.1 _ (by rw [hn]; exact h)

/-- Nothing changes. -/
theorem same_told {c : Cfg} {v : Fdv} {T P : Nat → Prop} (hv : VarOk c v) (hT : VRepr c v T) (hP : ∀ n : Nat, Mem v.r n → P n) :
    ToldOk c v T P False ⟨true, v, Ev.empty, false⟩ where
  fail := fun h => by cases h
  ok := fun _ => hv
  sound := fun _ m hm => ⟨hm, hT.1 m hm, hP m hm⟩
  complete := fun _ m h _ => by
    rcases hT.2 m h with h | h
    · exact Or.inl h
    · exact Or.inr h.1
  repr := fun _ _ => ⟨fun m hm => ⟨hT.1 m hm, hP m hm⟩, fun m hm => hT.2 m hm.1⟩
  ev := fun _ => by constructor <;> simp [Ev.empty]

theorem tellValue_told (c : Cfg) (v : Fdv) (T : Nat → Prop) (n : Int) (hv : VarOk c v) (hT : VRepr c v T) :
    ToldOk c v T (fun m => (m : Int) = n) False (tellValue c v n) := by
  unfold tellValue
  by_cases ht : testValue v.r n = true
  · have hm := (testValue_mem c v.r hv.wf n).1 ht
    have h0 := mem_nonneg hv hm
    rw [if_neg (by simp [ht])]
    unfold Fdv.ground
    cases hg : v.tag with
    | none =>
      rw [if_neg (by simp)]
      exact setInt_told hv hg h0 hm (mem_T hT h0 hm) (by omega) (fun m _ hm => Or.inl hm)
    | some k =>
      rw [if_pos (by simp)]
      obtain ⟨h1, h2, h3⟩ := hv.int k hg
      refine same_told hv hT ?_
      intro m hm'
      have := (mem_none h1 m).1 hm'
      have := (mem_none h1 n).1 hm
      omega
  · rw [if_pos (by simpa using ht)]
    refine ⟨?_, fun h => (by cases h), fun h => (by cases h), fun h => (by cases h), fun h => (by cases h), fun h => (by cases h)⟩
    intro _ m hm hmn
    rcases hT.2 m hm with h | ⟨h1, h2, _⟩
    · rw [hmn] at h
      exact absurd ((testValue_mem c v.r hv.wf n).2 h) ht
    · refine ⟨h1, Or.inl ?_⟩
      simp only [Bool.and_eq_true, decide_eq_true_eq]
      exact ⟨h2, by omega⟩

/-- The variable is not instantiated: the representation of `FdRange`. -/
theorem vrepr_iff {c : Cfg} {v : Fdv} {T : Nat → Prop} (hw : WF c v.r) (hg : v.ground = false) :
    VRepr c v T ↔ Repr c v.r T := by
  constructor
  · rintro ⟨h1, h2⟩
    refine ⟨hw, ?_, ?_⟩
    · intro n hn
      refine ⟨fun h => ?_, h1 n⟩
      rcases h2 n h with h | ⟨h, _, h' | h'⟩
      · exact h
      · rcases hn with hn | hn
        · exact absurd hn h'
        · unfold Win at hn; unfold Cfg.vmax at h; omega
      · rw [hg] at h'; cases h'
    · intro hv he n hn
      rcases h2 n hn with h | ⟨_, h, _⟩
      · cases hv' : v.r.vec with
        | none => exact absurd hv' hv
        | some w => exact mem_win hw hv' h
      · rw [he] at h; cases h
  · rintro ⟨_, h1, h2⟩
    refine ⟨?_, ?_⟩
    · intro n hn
      refine (h1 n ?_).2 hn
      cases hv' : v.r.vec with
      | none => exact Or.inl rfl
      | some w => exact Or.inr (mem_win hw hv' hn)
    · intro n hn
      by_cases hw' : v.r.vec = none ∨ Win c n
      · exact Or.inl ((h1 n hw').1 hn)
      · right
        have h1 : v.r.vec ≠ none := fun hc => hw' (Or.inl hc)
        have h3 : ¬ Win c n := fun hc => hw' (Or.inr hc)
        refine ⟨?_, ?_, Or.inl h1⟩
        · unfold Win at h3; unfold Cfg.vmax; omega
        · cases he : v.r.extra with
          | true => rfl
          | false => exact absurd (h2 h1 he n hn) h3

/-- The variable keeps several values. -/
theorem shrink_told {c : Cfg} {v v' : Fdv} {T P : Nat → Prop} {ev : Ev} {flag : Prop} (hv' : VarOk c v')
    (hsub : ∀ n : Nat, Mem v'.r n → Mem v.r n) (hT : VRepr c v' (fun n => T n ∧ P n)) (hev : EvOk v v' flag ev) :
    ToldOk c v T P flag ⟨true, v', ev, false⟩ where
  fail := fun h => by cases h
  ok := fun _ => hv'
  sound := fun _ m hm => ⟨hsub m hm, hT.1 m hm⟩
  complete := fun _ m h1 h2 => by
    rcases hT.2 m ⟨h1, h2⟩ with h | h
    · exact Or.inl h
    · exact Or.inr h.1
  repr := fun _ _ => hT
  ev := fun _ => hev

theorem nb_two {r : Range} {c : Cfg} (hw : WF c r) (hlt : r.min < r.max) (h : nbElem r = 2) (n : Int) : Mem r n ↔ n = r.min ∨ n = r.max := by
  have hb := bounds_mem c r hw (by omega)
  have hl := elems_listing r (by omega)
  rw [nbElem_elems r (by omega)] at h
  have e : elems r = [r.min, r.max] := by
    match he : elems r, h with
    | [a, b], _ =>
      rw [he] at hl
      have h1 := (hl.2 r.min).2 hb.1
      have h2 := (hl.2 r.max).2 hb.2.1
      have h3 : a < b := by have := hl.1; simp at this; exact this
      simp at h1 h2
      rw [show a = r.min by omega, show b = r.max by omega]
  rw [← hl.2 n, e]; simp

/-- Removing a value which is not the last one. -/
theorem removeValue_told (c : Cfg) (v : Fdv) (T : Nat → Prop) (n : Int) (hv : VarOk c v) (hT : VRepr c v T) (hg : v.tag = none)
    (hm : Mem v.r n) (hn : v.r.vec = none → n = v.r.min ∨ n = v.r.max) :
    ToldOk c v T (fun m => (m : Int) ≠ n) False (removeValue c v n) := by
  have h0 := mem_nonneg hv hm
  have hb := bounds_mem c v.r hv.wf hv.ne
  have hlt := hv.fdv hg
  have hnn := hv.nonneg
  have hnb := hv.nbElem
  have hgr : v.ground = false := by unfold Fdv.ground; rw [hg]; rfl
  unfold removeValue
  by_cases h2 : v.nb = 2
  · rw [if_pos h2]
    have htwo := nb_two hv.wf hlt (by rw [← hnb]; exact h2)
    dsimp only
    have key : ∀ m, Mem v.r m → m ≠ n → (∀ k, Mem v.r k → k ≠ n → k = m) →
        ToldOk c v T (fun m => (m : Int) ≠ n) False ⟨true, setInt v m, intEv v m, false⟩ := by
      intro m hm1 hm2 hu
      have hm0 := mem_nonneg hv hm1
      refine setInt_told hv hg hm0 hm1 (mem_T hT hm0 hm1) (by omega) ?_
      intro k hk hkn
      rcases hT.2 k hk with h | h
      · exact Or.inl (hu k h hkn)
      · exact Or.inr ⟨h.1, Or.inr h.2.1⟩
    by_cases hmin : n = v.r.min
    · rw [if_pos hmin]
      exact key _ hb.2.1 (by omega) (fun k hk hkn => by rw [htwo] at hk; omega)
    · rw [if_neg hmin]
      have : n = v.r.max := by rw [htwo] at hm; omega
      exact key _ hb.1 (by omega) (fun k hk hkn => by rw [htwo] at hk; omega)
  · rw [if_neg h2]
    dsimp only
    have hge : 3 ≤ v.nb := by
      have h1 := elems_listing v.r hv.ne
      have h3 := hv.nb _ h1
      match he : elems v.r with
      | [] => rw [he] at h1; have := (h1.2 _).2 hb.1; simp at this
      | [a] =>
        rw [he] at h1
        have e1 := (h1.2 _).2 hb.1
        have e2 := (h1.2 _).2 hb.2.1
        simp at e1 e2; omega
      | [a, b] => rw [he] at h3; simp at h3; omega
      | a :: b :: d :: l => rw [he] at h3; simp at h3; omega
    have done : ∀ (v' : Fdv) (ev : Ev), v'.tag = none → v'.nb = v.nb - 1 → v'.r.extra = v.r.extra → (v'.r.vec = none ↔ v.r.vec = none) →
        WF c v'.r → v'.r.min ≤ v'.r.max → (∀ m, Mem v'.r m ↔ Mem v.r m ∧ m ≠ n) →
        (ev.min = true ↔ v'.r.min ≠ v.r.min) → (ev.max = true ↔ v'.r.max ≠ v.r.max) →
        (ev.minMax = true ↔ v'.r.min ≠ v.r.min ∨ v'.r.max ≠ v.r.max) → ev.dom = true → ev.val = false →
        ToldOk c v T (fun m => (m : Int) ≠ n) False ⟨true, v', ev, false⟩ := by
      intro v' ev t1 t2 t3 t4 t5 t6 t7 e1 e2 e3 e4 e5
      have hnb' := nb_remove hv.ne t6 hm t7
      have hb' := bounds_mem c v'.r t5 t6
      refine shrink_told ⟨t5, t6, ?_, ?_, ?_, ?_⟩ (fun m hm => ((t7 m).1 hm).1) ⟨?_, ?_⟩ ⟨e1, e2, e3, ?_, ?_⟩
      · exact mem_nonneg hv ((t7 _).1 hb'.1).1
      · exact nb_ok t6 (by rw [t2, ← hnb', ← hnb])
      · intro k hk; rw [t1] at hk; cases hk
      · intro _
        rcases Int.lt_or_eq_of_le t6 with h | h
        · exact h
        · have hl := elems_listing v'.r t6
          have : (elems v'.r).length = v.nb - 1 := by rw [← nbElem_elems v'.r t6, ← hnb', ← hnb]
          match he : elems v'.r with
          | [] => rw [he] at this; simp at this; omega
          | [a] => rw [he] at this; simp at this; omega
          | a :: b :: l =>
            rw [he] at hl
            have h1 := hb'.2.2 a ((hl.2 a).1 (by simp))
            have h2 := hb'.2.2 b ((hl.2 b).1 (by simp))
            have h3 := hl.1
            simp at h3
            omega
      · intro m hm'
        obtain ⟨h1, h2⟩ := (t7 m).1 hm'
        exact ⟨hT.1 m h1, h2⟩
      · rintro m ⟨h1, h2⟩
        rcases hT.2 m h1 with h | ⟨h, h', h'' | h''⟩
        · exact Or.inl ((t7 m).2 ⟨h, h2⟩)
        · exact Or.inr ⟨h, by rw [t3]; exact h', Or.inl (fun hc => h'' (t4.1 hc))⟩
        · rw [hgr] at h''; cases h''
      · rw [e4]; simp only [true_iff]
        exact Or.inl ⟨n, fun hc => ((t7 n).1 (hc.1 hm)).2 rfl⟩
      · rw [e5, t1]; simp
    cases hvec : v.r.vec with
    | none =>
      simp only [Option.map_none]
      rcases hn hvec with e | e
      · rw [if_pos e]
        refine done _ _ hg rfl rfl (by simp [hvec]) (wf_none rfl (by simp only; omega)) (by simp only; omega) ?_ (by simp; omega) (by simp) (by simp; omega) rfl rfl
        intro m
        rw [mem_none rfl, mem_none hvec]; simp only; omega
      · rw [if_neg (by omega), if_pos e]
        refine done _ _ hg rfl rfl (by simp [hvec]) (wf_none rfl (by simp only; omega)) (by simp only; omega) ?_ (by simp) (by simp; omega) (by simp; omega) rfl rfl
        intro m
        rw [mem_none rfl, mem_none hvec]; simp only; omega
    | some w =>
      simp only [Option.map_some]
      have hlen := (hv.wf.2 w hvec).1
      have hlen' : (resetV w n.toNat).length = c.size := by rw [resetV_len]; exact hlen
      have hbit : ∀ m : Int, 0 ≤ m → (bit (resetV w n.toNat) m.toNat = true ↔ Mem v.r m ∧ m ≠ n) := by
        intro m hm0
        rw [resetV_bit, mem_some hvec]
        simp only [Bool.and_eq_true, Bool.not_eq_true', decide_eq_false_iff_not]
        constructor
        · rintro ⟨h1, h2⟩; exact ⟨⟨hv.ne, hm0, h1⟩, by omega⟩
        · rintro ⟨⟨_, _, h1⟩, h2⟩; exact ⟨h1, by omega⟩
      have hwf : ∀ (e : Bool) (a b : Int), a ≤ b → Mem v.r a → a ≠ n → Mem v.r b → b ≠ n → (∀ m, Mem v.r m → m ≠ n → a ≤ m ∧ m ≤ b) →
          WF c ⟨e, a, b, some (resetV w n.toNat)⟩ ∧ (∀ m, Mem ⟨e, a, b, some (resetV w n.toNat)⟩ m ↔ Mem v.r m ∧ m ≠ n) := by
        intro e a b hab ha1 ha2 hb1 hb2 hall
        have hmem : ∀ m, Mem ⟨e, a, b, some (resetV w n.toNat)⟩ m ↔ Mem v.r m ∧ m ≠ n := by
          intro m
          rw [mem_some rfl]
          simp only
          constructor
          · rintro ⟨_, h1, h2⟩; exact (hbit m h1).1 h2
          · intro h
            have hm0 := mem_nonneg hv h.1
            exact ⟨hab, hm0, (hbit m hm0).2 h⟩
        refine ⟨⟨by have := mem_nonneg hv ha1; simp only; omega, ?_⟩, hmem⟩
        intro w' hw'
        cases hw'
        exact ⟨hlen', fun _ => ⟨(hmem _).2 ⟨ha1, ha2⟩, (hmem _).2 ⟨hb1, hb2⟩, fun m hm => by
          obtain ⟨h1, h2⟩ := (hmem m).1 hm; exact hall m h1 h2⟩⟩
      by_cases hmin : n = v.r.min
      · rw [if_pos hmin]
        have hs := nextAfter_spec c (resetV w n.toNat) n hlen'
        generalize hx : vecNextAfter c (resetV w n.toNat) n = x at *
        rcases hs with ⟨_, hs⟩ | ⟨s1, s2, s3, s4⟩
        · have := hs v.r.max.toNat (by omega)
          have h2 := (hbit v.r.max (by omega)).2 ⟨hb.2.1, by omega⟩
          rw [this] at h2; cases h2
        · have hxm := (hbit x s1).1 s3
          have hxb := hb.2.2 x hxm.1
          obtain ⟨w1, w2⟩ := hwf v.r.extra x v.r.max hxb.2 hxm.1 hxm.2 hb.2.1 (by omega) (fun m hm1 hm2 => by
            refine ⟨?_, (hb.2.2 m hm1).2⟩
            have hmb := hb.2.2 m hm1
            rcases Int.lt_or_le m x with h | h
            · have := s4 m.toNat (by omega) (by omega)
              have h2 := (hbit m (by omega)).2 ⟨hm1, hm2⟩
              rw [this] at h2; cases h2
            · exact h)
          exact done _ _ hg rfl rfl (by simp [hvec]) w1 hxb.2 w2 (by simp; omega) (by simp) (by simp; omega) rfl rfl
      · rw [if_neg hmin]
        by_cases hmax : n = v.r.max
        · rw [if_pos hmax]
          have hs := nextBefore_spec c (resetV w n.toNat) n hlen'
          generalize hx : vecNextBefore c (resetV w n.toNat) n = x at *
          rcases hs with ⟨_, hs⟩ | ⟨s1, s2, s3, s4⟩
          · have hvn := hv.nonneg
            have := hs v.r.min.toNat (by omega)
            have h2 := (hbit v.r.min (by omega)).2 ⟨hb.1, by omega⟩
            rw [this] at h2; cases h2
          · have hxm := (hbit x s1).1 s3
            have hxb := hb.2.2 x hxm.1
            obtain ⟨w1, w2⟩ := hwf v.r.extra v.r.min x hxb.1 hb.1 (by omega) hxm.1 hxm.2 (fun m hm1 hm2 => by
              refine ⟨(hb.2.2 m hm1).1, ?_⟩
              have hmb := hb.2.2 m hm1
              have hm0 := mem_nonneg hv hm1
              rcases Int.lt_or_le x m with h | h
              · have := s4 m.toNat (by omega) (by omega)
                have h2 := (hbit m (by omega)).2 ⟨hm1, hm2⟩
                rw [this] at h2; cases h2
              · exact h)
            exact done _ _ hg rfl rfl (by simp [hvec]) w1 hxb.1 w2 (by simp) (by simp; omega) (by simp; omega) rfl rfl
        · rw [if_neg hmax]
          obtain ⟨w1, w2⟩ := hwf v.r.extra v.r.min v.r.max hv.ne hb.1 (by omega) hb.2.1 (by omega) (fun m hm1 _ => hb.2.2 m hm1)
          exact done _ _ hg rfl rfl (by simp [hvec]) w1 hv.ne w2 (by simp) (by simp) (by simp) rfl rfl

end Gp.Fd
