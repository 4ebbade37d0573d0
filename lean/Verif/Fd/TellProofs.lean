import Verif.Fd.TellLemmas
namespace Gp.Fd

open Gp.FdRange

theorem ground_iff (v : Fdv) : v.ground = false ↔ v.tag = none := by
  unfold Fdv.ground; cases v.tag <;> simp

/-- The body of Pl_Fd_Tell_Not_Value when there is no `goto start`. -/
theorem notBody_told (c : Cfg) (v : Fdv) (T : Nat → Prop) (n : Int) (again : Fdv → Res) (hv : VarOk c v) (hT : VRepr c v T)
    (hd : v.r.vec = none → v.tag = none → n = v.r.min ∨ n = v.r.max ∨ ¬ Mem v.r n) :
    ToldOk c v T (fun m => (m : Int) ≠ n) False (notBody c n again v) := by
  unfold notBody
  by_cases ht : testValue v.r n = true
  · have hm := (testValue_mem c v.r hv.wf n).1 ht
    rw [if_neg (by simp [ht])]
    cases hg : v.ground with
    | true =>
      rw [if_pos rfl]
      refine ⟨?_, fun h => (by cases h), fun h => (by cases h), fun h => (by cases h), fun h => (by cases h), fun h => (by cases h)⟩
      intro _ m hm1 hm2
      rcases hT.2 m hm1 with h | h
      · cases hk : v.tag with
        | none => rw [(ground_iff v).2 hk] at hg; cases hg
        | some k =>
          obtain ⟨h1, h2, h3⟩ := hv.int k hk
          have := (mem_none h1 m).1 h
          have := (mem_none h1 n).1 hm
          omega
      · exact ⟨h.1, Or.inl h.2.1⟩
    | false =>
      have hg' := (ground_iff v).1 hg
      rw [if_neg (by simp)]
      have hor : v.r.vec = none → n = v.r.min ∨ n = v.r.max := by
        intro h
        rcases hd h hg' with h | h | h
        · exact Or.inl h
        · exact Or.inr h
        · exact absurd hm h
      rw [if_neg (by rintro ⟨h1, h2, h3⟩; rcases hor h1 with h | h <;> contradiction)]
      exact removeValue_told c v T n hv hT hg' hm hor
  · rw [if_pos (by simpa using ht)]
    refine same_told hv hT ?_
    intro m hm hmn
    rw [hmn] at hm
    exact ht ((testValue_mem c v.r hv.wf n).2 hm)

theorem tellNotValue_told (c : Cfg) (hc : c.Ok) (v : Fdv) (T : Nat → Prop) (n : Int) (hv : VarOk c v) (hT : VRepr c v T) :
    ToldOk c v T (fun m => (m : Int) ≠ n) False (tellNotValue c v n) := by
  unfold tellNotValue
  by_cases hd : v.r.vec = none → v.tag = none → n = v.r.min ∨ n = v.r.max ∨ ¬ Mem v.r n
  · exact notBody_told c v T n _ hv hT hd
  · -- an interval, n is strictly inside
    have hvec : v.r.vec = none := Classical.byContradiction fun h => hd (fun h' => absurd h' h)
    have hg : v.tag = none := Classical.byContradiction fun h => hd (fun _ h' => absurd h' h)
    have h1 : n ≠ v.r.min := fun h => hd (fun _ _ => Or.inl h)
    have h2 : n ≠ v.r.max := fun h => hd (fun _ _ => Or.inr (Or.inl h))
    have hm : Mem v.r n := Classical.byContradiction fun h => hd (fun _ _ => Or.inr (Or.inr h))
    have hmb := (mem_none hvec n).1 hm
    have hgr := (ground_iff v).2 hg
    have hn0 := hv.nonneg
    have hTm : ∀ m : Nat, T m → Mem v.r m := by
      intro m hm
      rcases hT.2 m hm with h | ⟨_, _, h | h⟩
      · exact h
      · exact absurd hvec h
      · rw [hgr] at h; cases h
    rw [notBody]
    rw [if_neg (by rw [(testValue_mem c v.r hv.wf n).2 hm]; simp), hgr, if_neg (by simp), if_pos ⟨hvec, h1, h2⟩]
    by_cases hgt : v.r.min > c.vmax
    · rw [if_pos hgt]
      refine ⟨?_, fun h => (by cases h), fun h => (by cases h), fun h => (by cases h), fun h => (by cases h), fun h => (by cases h)⟩
      intro _ m hm1 hm2
      have := (mem_none hvec m).1 (hTm m hm1)
      exact ⟨by omega, Or.inl rfl⟩
    · rw [if_neg hgt]
      have hbd := bounds_mem c v.r hv.wf hv.ne
      by_cases heq : v.r.min = c.vmax
      · rw [if_pos heq]
        refine setInt_told hv hg hn0 hbd.1 (mem_T hT hn0 hbd.1) (by omega) ?_
        intro m hm1 hm2
        have := (mem_none hvec m).1 (hTm m hm1)
        by_cases hmm : (m : Int) = v.r.min
        · exact Or.inl hmm
        · exact Or.inr ⟨by omega, Or.inl rfl⟩
      · rw [if_neg heq]
        dsimp only
        obtain ⟨s1, ⟨w, s2, s3⟩, s4, s5⟩ := becomesSparse_spec c hc v.r hvec
        have hvm : c.vmax = (c.size : Int) * 64 - 1 := rfl
        have hrmin : (becomesSparse c v.r).min = v.r.min := by unfold becomesSparse; simp only; rw [if_neg (by omega)]
        have hrmax : (becomesSparse c v.r).max = if v.r.max > c.vmax then c.vmax else v.r.max := rfl
        have hrm : (v.r.max > c.vmax ∧ (becomesSparse c v.r).max = c.vmax) ∨ (v.r.max ≤ c.vmax ∧ (becomesSparse c v.r).max = v.r.max) := by
          rw [hrmax]; by_cases h : v.r.max > c.vmax
          · left; rw [if_pos h]; exact ⟨h, rfl⟩
          · right; rw [if_neg h]; exact ⟨by omega, rfl⟩
        generalize hr' : becomesSparse c v.r = r' at *
        have hlt := hv.fdv hg
        have hne : r'.min < r'.max := by omega
        have hmem : ∀ m, Mem r' m ↔ v.r.min ≤ m ∧ m ≤ r'.max := by
          intro m; rw [s5, mem_none hvec]; unfold Win; omega
        have hnb : r'.max - r'.min + 1 = nbElem r' := by
          rw [show nbElem r' = nbElem (initInterval r'.min r'.max) from nb_eq (by omega) (by simp only [initInterval]; omega) (by
            intro m; rw [hmem, mem_none rfl]; simp only [initInterval]; omega)]
          rfl
        have hv' : VarOk c ⟨v.tag, r'.max - r'.min + 1, r'⟩ :=
          ⟨s1, by simp only; omega, by simp only; omega, nb_ok (by simp only; omega) hnb, fun k hk => (by rw [hg] at hk; cases hk), fun _ => hne⟩
        have hT' : VRepr c ⟨v.tag, r'.max - r'.min + 1, r'⟩ T := by
          refine ⟨?_, ?_⟩
          · intro m hm1
            exact hT.1 m ((s5 m).1 hm1).1
          · intro m hm1
            have hmv := (mem_none hvec m).1 (hTm m hm1)
            by_cases hle : (m : Int) ≤ c.vmax
            · left; simp only; rw [hmem]; omega
            · right
              refine ⟨by omega, ?_, Or.inl (by simp [s2])⟩
              simp only; rw [s4, decide_eq_true_eq]; omega
        have hsub : ∀ m, Mem r' m → Mem v.r m := fun m hm => ((s5 m).1 hm).1
        have told := notBody_told c ⟨v.tag, r'.max - r'.min + 1, r'⟩ T n (fun v => ⟨false, v, Ev.empty, false⟩) hv' hT'
          (by intro h; simp only at h; rw [s2] at h; cases h)
        -- the result of the second visit is a success, and the value is not there any more
        have hok : (notBody c n (fun v => ⟨false, v, Ev.empty, false⟩) ⟨v.tag, r'.max - r'.min + 1, r'⟩).ok = true := by
          unfold notBody
          split
          · rfl
          · unfold Fdv.ground
            simp only [hg, Option.isSome_none, Bool.false_eq_true, if_false]
            rw [if_neg (by rw [s2]; simp)]
            unfold removeValue
            dsimp only
            split
            · rfl
            · split
              · rfl
              · split <;> rfl
        generalize notBody c n (fun v => ⟨false, v, Ev.empty, false⟩) ⟨v.tag, r'.max - r'.min + 1, r'⟩ = res at *
        have hev := told.ev hok
        have hsound := told.sound hok
        have hvok := told.ok hok
        have hrb := bounds_mem c res.v.r hvok.wf hvok.ne
        have hnotn : ¬ Mem res.v.r n := by
          intro h
          have h0 : 0 ≤ n := by omega
          have := hsound n.toNat (by rw [Int.toNat_of_nonneg h0]; exact h)
          exact this.2.2 (by omega)
        have hressub : ∀ m, Mem res.v.r m → Mem r' m := by
          intro m hm'
          have h0 : 0 ≤ m := by have := hrb.2.2 m hm'; have := hvok.nonneg; omega
          have := (hsound m.toNat (by rw [Int.toNat_of_nonneg h0]; exact hm')).1
          rw [Int.toNat_of_nonneg h0] at this; exact this
        by_cases hex : r'.extra = true
        · rw [if_pos hex]
          have hbig : v.r.max > c.vmax := by rw [s4, decide_eq_true_eq] at hex; exact hex
          have hmaxle : res.v.r.max ≤ r'.max := by
            have := (hmem _).1 (hressub _ hrb.2.1); omega
          refine ⟨fun h => ?_, fun _ => hvok, ?_, fun _ => told.complete hok, fun _ => told.repr hok, fun _ => ?_⟩
          · rw [hok] at h; cases h
          · intro _ m hm'
            obtain ⟨h1, h2⟩ := hsound m hm'
            exact ⟨hsub _ h1, h2⟩
          · -- the two masks are merged
            obtain ⟨b1, b2, b3, b4, b5⟩ := hev
            refine ⟨?_, ?_, ?_, ?_, ?_⟩
            · simp only [Ev.or, Bool.or_eq_true]; rw [b1, hrmin]; simp
            · simp only [Ev.or, Bool.true_or, true_iff]; omega
            · simp only [Ev.or, Bool.true_or, true_iff]; omega
            · simp only [Ev.or, Bool.true_or, true_iff]
              exact Or.inl ⟨n, fun hc => hnotn (hc.1 hm)⟩
            · simp only [Ev.or, Bool.or_eq_true]; rw [b5]; simp
        · rw [if_neg hex]
          have hle : v.r.max ≤ c.vmax := by rw [s4, decide_eq_true_eq] at hex; omega
          have hiff : ∀ m, Mem v.r m ↔ Mem r' m := by
            intro m; rw [hmem, mem_none hvec]; omega
          refine ⟨fun h => ?_, fun _ => hvok, ?_, fun _ => told.complete hok, fun _ => told.repr hok, fun _ => ?_⟩
          · rw [hok] at h; cases h
          · intro _ m hm'
            obtain ⟨h1, h2⟩ := hsound m hm'
            exact ⟨hsub _ h1, h2⟩
          · obtain ⟨b1, b2, b3, b4, b5⟩ := hev
            simp only at b1 b2 b3 b4 b5
            refine ⟨by rw [b1, hrmin], by rw [b2]; omega, by rw [b3, hrmin]; omega, ?_, b5⟩
            rw [b4]
            simp only [hiff]

theorem intervInterv_told (c : Cfg) (v : Fdv) (T : Nat → Prop) (a b : Int) (hv : VarOk c v) (hT : VRepr c v T) (hg : v.tag = none)
    (hvec : v.r.vec = none) : ToldOk c v T (fun m => a ≤ (m : Int) ∧ (m : Int) ≤ b) False (tellIntervInterv v a b) := by
  have hgr := (ground_iff v).2 hg
  have hn0 := hv.nonneg
  have hnb := hv.nbElem
  have hlt := hv.fdv hg
  have hTm : ∀ m : Nat, T m → Mem v.r m := by
    intro m hm
    rcases hT.2 m hm with h | ⟨_, _, h | h⟩
    · exact h
    · exact absurd hvec h
    · rw [hgr] at h; cases h
  have hnb' : v.nb = v.r.max - v.r.min + 1 := by rw [hnb]; unfold nbElem; rw [hvec]
  unfold tellIntervInterv
  dsimp only
  generalize hmn : (if a ≥ v.r.min then a else v.r.min) = mn
  generalize hmx : (if b ≤ v.r.max then b else v.r.max) = mx
  have e1 : (a ≥ v.r.min ∧ mn = a) ∨ (a < v.r.min ∧ mn = v.r.min) := by
    by_cases h : a ≥ v.r.min
    · rw [if_pos h] at hmn; omega
    · rw [if_neg h] at hmn; omega
  have e2 : (b ≤ v.r.max ∧ mx = b) ∨ (b > v.r.max ∧ mx = v.r.max) := by
    by_cases h : b ≤ v.r.max
    · rw [if_pos h] at hmx; omega
    · rw [if_neg h] at hmx; omega
  by_cases h1 : mn > mx
  · rw [if_pos h1]
    refine ⟨?_, fun h => (by cases h), fun h => (by cases h), fun h => (by cases h), fun h => (by cases h), fun h => (by cases h)⟩
    intro _ m hm1 hm2
    have := (mem_none hvec m).1 (hTm m hm1)
    omega
  · rw [if_neg h1]
    by_cases h2 : mn = mx
    · rw [if_pos h2]
      have hm : Mem v.r mn := (mem_none hvec mn).2 (by omega)
      refine setInt_told hv hg (by omega) hm (mem_T hT (by omega) hm) (by omega) ?_
      intro m hm1 hm2
      have := (mem_none hvec m).1 (hTm m hm1)
      left; omega
    · rw [if_neg h2]
      unfold setInterval intervalEv
      by_cases h3 : v.nb = mx - mn + 1
      · rw [if_neg (by simpa using h3), if_neg (by simpa using h3)]
        refine same_told hv hT ?_
        intro m hm
        have := (mem_none hvec m).1 hm
        omega
      · rw [if_pos h3, if_pos h3]
        have hmem : ∀ m, Mem ⟨v.r.extra, mn, mx, v.r.vec⟩ m ↔ mn ≤ m ∧ m ≤ mx := fun m => mem_none (r := ⟨v.r.extra, mn, mx, v.r.vec⟩) hvec m
        refine shrink_told ⟨wf_none hvec (by simp only; omega), by simp only; omega, by simp only; omega, nb_ok (by simp only; omega) ?_,
          fun k hk => (by rw [hg] at hk; cases hk), fun _ => (by simp only; omega)⟩ ?_ ⟨?_, ?_⟩ ⟨?_, ?_, ?_, ?_, ?_⟩
        · unfold nbElem; simp only [hvec]
        · intro m hm
          rw [hmem] at hm
          exact (mem_none hvec m).2 (by omega)
        · intro m hm
          rw [hmem] at hm
          exact ⟨hT.1 m ((mem_none hvec m).2 (by omega)), by omega⟩
        · rintro m ⟨hm1, hm2⟩
          have := (mem_none hvec m).1 (hTm m hm1)
          left; rw [hmem]; omega
        · simp only [decide_eq_true_eq]; omega
        · simp only [decide_eq_true_eq]; omega
        · simp only [true_iff]; omega
        · simp only [true_iff]
          left
          by_cases h : mn = v.r.min
          · exact ⟨v.r.max, fun hc => by have := (hmem _).1 (hc.1 ((mem_none hvec _).2 (by omega))); omega⟩
          · exact ⟨v.r.min, fun hc => by have := (hmem _).1 (hc.1 ((mem_none hvec _).2 (by omega))); omega⟩
        · simp [hg]

/-- The flag `extra_cstr` is written only if `min` is 0, see `updRange`. -/
def FlagOk (c : Cfg) (v : Fdv) (range : Range) : Prop :=
  (∀ n, Mem v.r n → Mem range n) → (inter c range v.r).extra = v.r.extra ∨ v.r.min = 0

theorem rangeRange_told (c : Cfg) (hc : c.Ok) (v : Fdv) (T T1 : Nat → Prop) (range : Range) (hv : VarOk c v) (hT : VRepr c v T)
    (hg : v.tag = none) (hT1 : Repr c range T1) (hf : FlagOk c v range) :
    ToldOk c v T T1 (FlagOnly v (tellRangeRange c v range).v) (tellRangeRange c v range) := by
  have hgr := (ground_iff v).2 hg
  have hn0 := hv.nonneg
  have hnb := hv.nbElem
  have hlt := hv.fdv hg
  have hTr := (vrepr_iff hv.wf hgr).1 hT
  have hI := C23_inter c hc range v.r T1 T hT1 hTr
  have hw := hI.1
  have hmem := fun n => inter_mem c hc range v.r hT1.1 hv.wf n
  have hbv := bounds_mem c v.r hv.wf hv.ne
  unfold tellRangeRange
  dsimp only
  unfold FlagOk at hf
  have hkind : v.r.vec ≠ none → (inter c range v.r).vec ≠ none := by
    intro h
    rcases inter_eq c range v.r with ⟨_, e, _⟩ | ⟨_, e⟩
    · exact absurd e h
    · rw [e]
      obtain ⟨s1, ⟨v', s2, _⟩, _⟩ := sparseArg_spec c hc range hT1.1
      obtain ⟨t1, ⟨v1, t2, _⟩, _⟩ := sparseArg_spec c hc v.r hv.wf
      exact (interSS_spec c hc _ _ v' v1 s2 t2 s1 t1).2.1
  generalize hr : inter c range v.r = r at *
  have hlost : ∀ n : Nat, T n → T1 n → Mem r n ∨ (c.vmax < n ∧ r.extra = true) := by
    intro n h1 h2
    by_cases hx : r.vec = none ∨ Win c n
    · exact Or.inl ((hI.2.1 n hx).1 ⟨h2, h1⟩)
    · right
      have hx1 : r.vec ≠ none := fun h => hx (Or.inl h)
      have hx2 : ¬ Win c n := fun h => hx (Or.inr h)
      refine ⟨by unfold Win at hx2; unfold Cfg.vmax; omega, ?_⟩
      cases he : r.extra with
      | true => rfl
      | false => exact absurd (hI.2.2 hx1 he n ⟨h2, h1⟩) hx2
  have hin : ∀ n : Nat, Mem r n → T n ∧ T1 n := by
    intro n hn
    refine (hI.2.1 n ?_).2 hn |>.symm
    cases hvec : r.vec with
    | none => exact Or.inl rfl
    | some w => exact Or.inr (mem_win hw hvec hn)
  by_cases he : r.isEmpty = true
  · rw [if_pos he]
    refine ⟨?_, fun h => (by cases h), fun h => (by cases h), fun h => (by cases h), fun h => (by cases h), fun h => (by cases h)⟩
    intro _ m hm1 hm2
    rcases hlost m hm1 hm2 with h | h
    · exact absurd h (not_mem_empty ((isEmpty_iff r).1 he) _)
    · exact ⟨h.1, Or.inl h.2⟩
  · rw [if_neg he]
    have hne : r.min ≤ r.max := (isEmpty_false r).1 (by simpa using he)
    have hb := bounds_mem c r hw hne
    have hsub : ∀ n, Mem r n → Mem v.r n := fun n hn => ((hmem n).1 hn).2
    have hmn0 := mem_nonneg hv (hsub _ hb.1)
    by_cases h1 : r.min = r.max
    · rw [if_pos h1]
      have hmm := hin r.min.toNat (by rw [Int.toNat_of_nonneg hmn0]; exact hb.1)
      have told := setInt_told (c := c) (v := v) (T := T) (P := T1) (n := r.min) (w := r.extra) hv hg hmn0 (hsub _ hb.1) hmm.1 hmm.2 (by
        intro m hm1 hm2
        rcases hlost m hm1 hm2 with h | h
        · left; have := hb.2.2 _ h; omega
        · exact Or.inr ⟨h.1, Or.inl h.2⟩)
      refine ⟨told.fail, told.ok, told.sound, told.complete, told.repr, fun h => ?_⟩
      obtain ⟨b1, b2, b3, b4, b5⟩ := told.ev h
      refine ⟨b1, b2, b3, ?_, b5⟩
      rw [b4]
      constructor
      · rintro (h | h)
        · exact Or.inl h
        · exact h.elim
      · rintro (h | ⟨_, h, _⟩)
        · exact Or.inl h
        · exact absurd rfl h
    · rw [if_neg h1]
      have hTr' : VRepr c ⟨v.tag, nbElem r, r⟩ (fun n => T n ∧ T1 n) := by
        rw [vrepr_iff (v := ⟨v.tag, nbElem r, r⟩) hw ((ground_iff _).2 hg)]
        have : (fun n => T n ∧ T1 n) = (fun n => T1 n ∧ T n) := by funext n; exact propext And.comm
        rw [this]; exact hI
      have hvok : VarOk c ⟨v.tag, nbElem r, r⟩ :=
        ⟨hw, hne, hmn0, nb_ok hne rfl, fun k hk => (by rw [hg] at hk; cases hk), fun _ => (by simp only; omega)⟩
      unfold updRange
      by_cases h2 : ((rangeEv v (nbElem r) r).any || (v.r.vec.isNone && r.vec.isSome)) = true
      · rw [if_pos h2]
        refine shrink_told hvok (fun n hn => hsub n hn) hTr' ⟨?_, ?_, ?_, ?_, ?_⟩
        · simp only [rangeEv, copy, decide_eq_true_eq]; omega
        · simp only [rangeEv, copy, decide_eq_true_eq]; omega
        · simp only [rangeEv, copy, Bool.or_eq_true, decide_eq_true_eq]; omega
        · simp only [rangeEv, copy, decide_eq_true_eq]
          constructor
          · intro h
            left
            refine Classical.byContradiction fun hcon => h ?_
            rw [hnb]
            refine nb_eq hv.ne hne (fun n => Classical.byContradiction fun hn => hcon ⟨n, fun h' => hn h'.symm⟩)
          · rintro (⟨n, hn⟩ | ⟨hall, _, hk⟩) heq
            · exact hn (nb_same hv.ne hne hsub (by rw [← hnb]; exact heq) n)
            · -- the domain is not changed: the bounds are the same
              have hbmin : v.r.min = r.min := by
                have := hb.2.2 _ ((hall v.r.min).1 hbv.1); have := hbv.2.2 _ (hsub _ hb.1); omega
              have hbmax : v.r.max = r.max := by
                have := hb.2.2 _ ((hall v.r.max).1 hbv.2.1); have := hbv.2.2 _ (hsub _ hb.2.1); omega
              have hany : (rangeEv v (nbElem r) r).any = false := by
                simp [Ev.any, rangeEv, hbmin, hbmax, heq]
              rw [hany, Bool.false_or, Bool.and_eq_true] at h2
              have := hk (by simpa using h2.1)
              rw [this] at h2; simp at h2
        · simp [rangeEv, hg]
      · rw [if_neg h2]
        have h2' : (rangeEv v (nbElem r) r).any = false ∧ ¬ (v.r.vec = none ∧ r.vec ≠ none) := by
          rw [Bool.not_eq_true, Bool.or_eq_false_iff] at h2
          refine ⟨h2.1, fun h => ?_⟩
          have := h2.2
          rw [h.1] at this
          cases hx : r.vec with
          | none => exact h.2 hx
          | some w => rw [hx] at this; simp at this
        have hev0 : v.r.min = r.min ∧ v.r.max = r.max ∧ v.nb = nbElem r := by
          have := h2'.1
          simp only [Ev.any, rangeEv, Bool.or_eq_false_iff, decide_eq_false_iff_not, Decidable.not_not] at this
          exact ⟨this.1.1.1.1, this.1.1.1.2, this.1.2⟩
        have hsame : ∀ n, Mem v.r n ↔ Mem r n := nb_same hv.ne hne hsub (by rw [← hnb]; exact hev0.2.2)
        have hrep : ∀ e : Bool, (v.r.extra ≠ e → v.r.min = 0 ∧ e = r.extra) → e = r.extra → VRepr c ⟨v.tag, v.nb, ⟨e, v.r.min, v.r.max, v.r.vec⟩⟩ (fun n => T n ∧ T1 n) := by
          intro e _ he
          have hmm : ∀ n, Mem ⟨e, v.r.min, v.r.max, v.r.vec⟩ n ↔ Mem r n := fun n => by rw [← hsame]; exact Iff.rfl
          refine ⟨fun n hn => hin n ((hmm n).1 hn), ?_⟩
          rintro n ⟨hn1, hn2⟩
          rcases hTr'.2 n ⟨hn1, hn2⟩ with h | ⟨h, h', h'' | h''⟩
          · exact Or.inl ((hmm n).2 h)
          · refine Or.inr ⟨h, by simp only at h' ⊢; rw [he]; exact h', Or.inl fun hc => ?_⟩
            exact h2'.2 ⟨hc, h''⟩
          · exact Or.inr ⟨h, by simp only at h' ⊢; rw [he]; exact h', Or.inr h''⟩
        by_cases h3 : v.r.extra ≠ r.extra
        · rw [if_pos h3]
          have hz : v.r.min = 0 := by
            rcases hf (fun n hn => ((hmem n).1 ((hsame n).1 hn)).1) with h | h
            · exact absurd h.symm h3
            · exact h
          have hmm : ∀ n, Mem v.r n ↔ Mem ⟨r.extra, 0, v.r.max, v.r.vec⟩ n := fun n => by rw [← hz]; exact Iff.rfl
          have hre := hrep r.extra (fun _ => ⟨hz, rfl⟩) rfl
          rw [hz] at hre
          refine shrink_told ⟨?_, by simp only; have := hv.ne; omega, by simp only; omega, ?_, fun k hk => (by rw [hg] at hk; cases hk), fun _ => (by simp only; omega)⟩
            (fun n hn => (hmm n).2 hn) hre ⟨?_, ?_, ?_, ?_, ?_⟩
          · have := hv.wf
            refine ⟨by simp only; omega, ?_⟩
            intro w hwv
            obtain ⟨u1, u2⟩ := this.2 w hwv
            refine ⟨u1, fun h => ?_⟩
            obtain ⟨u3, u4, u5⟩ := u2 hv.ne
            rw [hz] at u3 u5
            exact ⟨(hmm _).1 u3, (hmm _).1 u4, fun n hn => u5 n ((hmm n).2 hn)⟩
          · intro l hl
            exact hv.nb l ⟨hl.1, fun n => by rw [hl.2]; exact (hmm n).symm⟩
          · simp [Ev.or, rangeEv, hev0.1.symm, hz]
          · simp [Ev.or, rangeEv, hev0.2.1.symm]
          · simp [Ev.or, rangeEv, hev0.1.symm, hev0.2.1.symm, hz]
          · simp only [Ev.or, Bool.or_true, true_iff]
            right
            exact ⟨hmm, fun h => h3 h.symm, fun h => h⟩
          · simp [Ev.or, rangeEv, hg]
        · rw [if_neg h3]
          have h3' : v.r.extra = r.extra := Decidable.not_not.1 h3
          have hre := hrep r.extra (fun h => absurd h3' h) rfl
          rw [← h3'] at hre
          refine shrink_told hv (fun n hn => hn) hre ⟨?_, ?_, ?_, ?_, ?_⟩
          · simp [rangeEv, hev0.1]
          · simp [rangeEv, hev0.2.1]
          · simp [rangeEv, hev0.1, hev0.2.1]
          · simp only [rangeEv, hev0.2.2, ne_eq, not_true_eq_false, decide_false, Bool.false_eq_true, iff_self, exists_false, false_or, false_iff]
            rintro ⟨_, h, _⟩
            exact h rfl
          · simp [rangeEv, hg]

theorem interval_repr (c : Cfg) (a b : Int) (h : -2147483648 < a) : Repr c (initInterval a b) (fun m => a ≤ (m : Int) ∧ (m : Int) ≤ b) := by
  refine ⟨wf_none rfl h, ?_, fun hx => absurd rfl hx⟩
  intro n _
  rw [mem_none rfl]; exact Iff.rfl

end Gp.Fd
