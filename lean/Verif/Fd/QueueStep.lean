import Verif.Fd.QueueLemmas
/- The steps of the propagation. -/
namespace Gp.Fd

open Gp.FdRange

/-! ### Tell on the store -/

theorem tell_ground (c : Cfg) (v : Fdv) (op : Op) (h : v.ground = true) : (tell c v op).v = v := by
  cases op with
  | value n =>
    show (tellValue c v n).v = v
    unfold tellValue
    by_cases h1 : testValue v.r n = false
    · rw [if_pos h1]
    · rw [if_neg h1, if_pos h]
  | notValue n =>
    show (notBody c n (notBody c n (fun v => ⟨false, v, Ev.empty, false⟩)) v).v = v
    generalize (notBody c n (fun v => ⟨false, v, Ev.empty, false⟩)) = again
    unfold notBody
    by_cases h1 : testValue v.r n = false
    · rw [if_pos h1]
    · rw [if_neg h1, if_pos h]
  | interval a b =>
    unfold tell tellInterval
    dsimp only
    rw [if_pos h]
  | range r =>
    unfold tell tellRange tellIntRange
    dsimp only
    rw [if_pos h]
    split <;> rfl

theorem evAt_same (i : Fin 5) (v : Fdv) : ¬ evAt i v v := by
  match i with
  | 0 => simp [evAt]
  | 1 => simp [evAt]
  | 2 => simp [evAt]
  | 3 => simp [evAt]
  | 4 => simp [evAt]

/-- If an event happened the number of elements is smaller. -/
theorem nb_events {c : Cfg} {v v' : Fdv} (hv : VarOk c v) (hv' : VarOk c v') (hs : ∀ n, Mem v'.r n → Mem v.r n) :
    v'.nb ≤ v.nb ∧ ∀ i, evAt i v v' → v'.nb < v.nb := by
  have h1 := hv.nbElem
  have h2 := hv'.nbElem
  have hle := nb_le hv.ne hv'.ne hs
  refine ⟨by omega, fun i hi => ?_⟩
  refine Int.lt_iff_le_and_ne.2 ⟨by omega, fun hc => ?_⟩
  have hsame : ∀ n, Mem v.r n ↔ Mem v'.r n := nb_same hv.ne hv'.ne hs (by omega)
  have hb := bounds_mem c v.r hv.wf hv.ne
  have hb' := bounds_mem c v'.r hv'.wf hv'.ne
  have hmin : v'.r.min = v.r.min := by
    have := hb'.2.2 _ ((hsame _).1 hb.1); have := hb.2.2 _ ((hsame _).2 hb'.1); omega
  have hmax : v'.r.max = v.r.max := by
    have := hb'.2.2 _ ((hsame _).1 hb.2.1); have := hb.2.2 _ ((hsame _).2 hb'.2.1); omega
  match i, hi with
  | 0, hi => exact hi hmin
  | 1, hi => exact hi hmax
  | 2, hi => rcases hi with h | h; exact h hmin; exact h hmax
  | 3, hi => obtain ⟨n, hn⟩ := hi; exact hn (hsame n)
  | 4, hi =>
    obtain ⟨h3, h4⟩ := hi
    have := hv.fdv h3
    cases ht : v'.tag with
    | none => exact h4 ht
    | some k => have := hv'.int k ht; omega

theorem size_le (vs : List Nat) (s : Store) (x : Nat) (v : Fdv) (h : v.nb.toNat ≤ (s x).nb.toNat) :
    size vs (upd s x v) ≤ size vs s ∧ (x ∈ vs → v.nb.toNat < (s x).nb.toNat → size vs (upd s x v) < size vs s) := by
  unfold size
  induction vs with
  | nil => simp
  | cons y vs ih =>
    simp only [List.map_cons, List.sum_cons, List.mem_cons]
    by_cases hy : y = x
    · subst hy
      rw [upd_same]
      refine ⟨by omega, fun _ hlt => by omega⟩
    · rw [upd_ne _ _ hy]
      refine ⟨by omega, fun hx hlt => ?_⟩
      rcases hx with hx | hx
      · exact absurd hx.symm hy
      · have := ih.2 hx hlt; omega

theorem stable_watch {c : Cfg} {G : Store → Prop} {vs : List Nat} {fct : Fct} {deps : List (Nat × Fin 5)} {s s' : Store}
    (hf : FctOk c G vs fct deps) (h1 : G s) (h2 : G s') (hs : Sub s' s) (hd : ∀ d ∈ deps, ¬ evAt d.2 (s d.1) (s' d.1))
    (h : Stable s fct) : Stable s' fct := by
  cases fct with
  | swt f => exact hf.watch s s' h1 h2 hs hd h
  | blk x f =>
    have ha := hf.watch s s' h1 h2 hs hd
    unfold Stable at h ⊢
    dsimp only at h ⊢
    cases e1 : f s with
    | exit => cases e2 : f s' <;> rw [e1, e2] at ha <;> first | exact ha.elim | trivial
    | fail => rw [e1] at h; exact h.elim
    | tell op =>
      rw [e1] at h ha
      cases e2 : f s' with
      | exit => trivial
      | fail => rw [e2] at ha; exact ha.elim
      | tell op' =>
        rw [e2] at ha
        intro n hn
        exact (ha n).1 (h n (hs _ _ hn))

/-! ### Steps -/

/-- What the execution of constraints does to a state. -/
structure Ext (st st' : QSt) : Prop where
  sub : Sub st'.dom st.dom
  ground : ∀ x, (st.dom x).ground = true → (st'.dom x).ground = true
  now : st'.now = st.now
  keep : st'.keep = st.keep
  frames : ∀ (id : Nat) (fr : Frame), st.frames[id]? = some fr →
    ∃ fr', st'.frames[id]? = some fr' ∧ fr'.fct = fr.fct ∧ fr'.deps = fr.deps ∧ (fr'.opt = fr.opt ∨ fr'.opt = .never)
  chains : ∀ x i id, id ∈ st.chains x i → id ∈ st'.chains x i
  mask : ∀ x i, (st.mask x).bit i = true → (st'.mask x).bit i = true

theorem Ext.refl (st : QSt) : Ext st st :=
  ⟨fun _ _ h => h, fun _ h => h, rfl, rfl, fun id fr h => ⟨fr, h, rfl, rfl, Or.inl rfl⟩, fun _ _ _ h => h, fun _ _ h => h⟩

theorem Ext.trans {a b d : QSt} (h : Ext a b) (h' : Ext b d) : Ext a d := by
  refine ⟨fun v n hn => h.sub v n (h'.sub v n hn), fun x hx => h'.ground x (h.ground x hx), h'.now.trans h.now, h'.keep.trans h.keep,
    fun id fr hfr => ?_, fun x i id hi => h'.chains x i id (h.chains x i id hi), fun x i hi => h'.mask x i (h.mask x i hi)⟩
  obtain ⟨fr1, e1, e2, e3, e4⟩ := h.frames id fr hfr
  obtain ⟨fr2, d1, d2, d3, d4⟩ := h'.frames id fr1 e1
  refine ⟨fr2, d1, d2.trans e2, d3.trans e3, ?_⟩
  rcases d4 with d4 | d4
  · rw [d4]; exact e4
  · exact Or.inr d4

theorem Ext.pend {st st' : QSt} (h : Ext st st') {id : Nat} (hp : Pend st id) : Pend st' id := by
  obtain ⟨x, i, h1, h2⟩ := hp
  exact ⟨x, i, h.mask x i h1, h.chains x i id h2⟩

/-- A correct step; `K D` is the condition for the values `D` to be kept. -/
structure Step (c : Cfg) (G : Store → Prop) (vs : List Nat) (g0 : Nat → Prop) (K : (Nat → Nat → Prop) → Prop) (st : QSt)
    (res : Bool × QSt) : Prop where
  ext : Ext st res.2
  queue : ∀ q, Q st q → ∃ q', Grow st q res.2 q'
  inv : res.1 = true → Inv c G vs g0 res.2
  wake : ∀ R, Wake g0 st R → res.1 = true → Wake g0 res.2 R
  meas : res.1 = true → meas vs res.2 < meas vs st ∨ (meas vs res.2 = meas vs st ∧ res.2.mask = st.mask ∧ res.2.tp = st.tp)
  sound : ∀ D, K D → KeepSt G D st → res.1 = true ∧ KeepSt G D res.2

theorem Step.none {c : Cfg} {G : Store → Prop} {vs : List Nat} {g0 : Nat → Prop} {K : (Nat → Nat → Prop) → Prop} {st : QSt}
    (h : Inv c G vs g0 st) : Step c G vs g0 K st (true, st) :=
  ⟨Ext.refl st, fun q hq => ⟨q, Grow.refl hq⟩, fun _ => h, fun _ hw _ => hw, fun _ => Or.inr ⟨rfl, rfl, rfl⟩, fun _ _ hk => ⟨rfl, hk⟩⟩

theorem Step.trans {c : Cfg} {G : Store → Prop} {vs : List Nat} {g0 : Nat → Prop} {K K' : (Nat → Nat → Prop) → Prop} {st st' : QSt}
    {res : Bool × QSt} (h : Step c G vs g0 K st (true, st')) (h' : Step c G vs g0 K' st' res) :
    Step c G vs g0 (fun D => K D ∧ K' D) st res := by
  refine ⟨h.ext.trans h'.ext, fun q hq => ?_, h'.inv, fun R hw => h'.wake R (h.wake R hw rfl), fun hr => ?_, fun D hK hk => ?_⟩
  · obtain ⟨q', hq'⟩ := h.queue q hq
    obtain ⟨q'', hq''⟩ := h'.queue q' hq'.isQ
    exact ⟨q'', hq'.trans hq''⟩
  · rcases h.meas rfl with h1 | ⟨h1, h2, h3⟩ <;> rcases h'.meas hr with h4 | ⟨h4, h5, h6⟩
    · exact Or.inl (by dsimp only at h1; omega)
    · exact Or.inl (by dsimp only at h1; omega)
    · exact Or.inl (by dsimp only at h1; omega)
    · exact Or.inr ⟨h4.trans h1, h5.trans h2, h6.trans h3⟩
  · exact h'.sound D hK.2 (h.sound D hK.1 hk).2

theorem Step.fail {c : Cfg} {G : Store → Prop} {vs : List Nat} {g0 : Nat → Prop} {K K' : (Nat → Nat → Prop) → Prop} {st st' : QSt}
    (h : Step c G vs g0 K st (false, st')) (hk : ∀ D, K' D → K D) : Step c G vs g0 K' st (false, st') :=
  ⟨h.ext, h.queue, fun hc => (by cases hc), fun _ _ hc => (by cases hc), fun hc => (by cases hc),
    fun D hK hk' => h.sound D (hk D hK) hk'⟩

theorem Step.mono {c : Cfg} {G : Store → Prop} {vs : List Nat} {g0 : Nat → Prop} {K K' : (Nat → Nat → Prop) → Prop} {st : QSt}
    {res : Bool × QSt} (h : Step c G vs g0 K st res) (hk : ∀ D, K' D → K D) : Step c G vs g0 K' st res :=
  ⟨h.ext, h.queue, h.inv, h.wake, h.meas, fun D hK hk' => h.sound D (hk D hK) hk'⟩

section
variable {c : Cfg} {G : Store → Prop} {vs : List Nat} {g0 : Nat → Prop}

/-- The facts about one tell. -/
theorem tellVar_fields {st : QSt} {x : Nat} {op : Op} (h : (tell c (st.dom x) op).ok = true) :
    (tellVar c st x op).1 = true ∧ (tellVar c st x op).2.dom = upd st.dom x (tell c (st.dom x) op).v ∧
    (tellVar c st x op).2.chains = st.chains ∧ (tellVar c st x op).2.frames = st.frames ∧
    (tellVar c st x op).2.now = st.now ∧ (tellVar c st x op).2.keep = st.keep ∧
    (tellVar c st x op).2.date = (setVar st x (tell c (st.dom x) op).v).date ∧
    ∀ y i, ((tellVar c st x op).2.mask y).bit i = true ↔
      (st.mask y).bit i = true ∨ (y = x ∧ (tell c (st.dom x) op).ev.bit i = true ∧ st.chains x i ≠ []) := by
  unfold tellVar
  dsimp only
  rw [if_pos h]
  obtain ⟨h1, h2, h3, h4, h5, h6⟩ := allProp_frame (setVar st x (tell c (st.dom x) op).v) x (tell c (st.dom x) op).ev
  exact ⟨rfl, h1, h4, h5, h6, h3, h2, allProp_mask _ _ _⟩

/-- If a watched event happened the constraint will be executed. -/
theorem tellVar_watch (hc : c.Ok) (hG : StoreOk c G) {st : QSt} {x : Nat} {op : Op} (hI : Inv c G vs g0 st) (hn : NoLoss c (st.dom x) op)
    (h : (tell c (st.dom x) op).ok = true) {d : Nat × Fin 5} {id : Nat}
    (he : evAt d.2 (st.dom d.1) ((tellVar c st x op).2.dom d.1)) (hw : id ∈ st.chains d.1 d.2 ∨ (st.dom d.1).ground = true) :
    Pend (tellVar c st x op).2 id := by
  obtain ⟨_, f2, f3, f4, _, _, _, f8⟩ := tellVar_fields h
  have hv := hG _ hI.good x
  have ht := (tell_exact hc hv.1 hv.2 hn).2 h
  rw [f2] at he
  by_cases hx : d.1 = x
  · rw [hx, upd_same] at he
    rcases hw with hw | hw
    · rw [hx] at hw
      refine ⟨x, d.2, (f8 x d.2).2 (Or.inr ⟨rfl, (evOk_bit ht.2.2 d.2).2 he, fun hc' => by rw [hc'] at hw; cases hw⟩), ?_⟩
      rw [f3]; exact hw
    · rw [hx] at hw
      rw [tell_ground c _ op hw] at he
      exact absurd he (evAt_same _ _)
  · rw [upd_ne _ _ hx] at he
    exact absurd he (evAt_same _ _)

theorem mem_sub {v v' : Fdv} (hv' : VarOk c v') (h : ∀ n : Nat, Mem v'.r n → Mem v.r n) (n : Int) (hn : Mem v'.r n) : Mem v.r n := by
  have h0 := mem_nonneg hv' hn
  have := h n.toNat (by rw [Int.toNat_of_nonneg h0]; exact hn)
  rwa [Int.toNat_of_nonneg h0] at this

theorem tellVar_step (hc : c.Ok) (hG : StoreOk c G) {st : QSt} {x : Nat} {op : Op} (hI : Inv c G vs g0 st) (hx : x ∈ vs)
    (hn : NoLoss c (st.dom x) op) (hg : (tell c (st.dom x) op).ok = true → G (upd st.dom x (tell c (st.dom x) op).v)) :
    Step c G vs g0 (fun D => ∀ n, D x n → opMem op n) st (tellVar c st x op) := by
  have hv := hG _ hI.good x
  have htf := tell_exact hc hv.1 hv.2 hn
  cases hok : (tell c (st.dom x) op).ok with
  | false =>
    have he : tellVar c st x op = (false, st) := by
      unfold tellVar; dsimp only; rw [if_neg (by rw [hok]; simp)]
    rw [he]
    refine ⟨Ext.refl st, fun q hq => ⟨q, Grow.refl hq⟩, fun h => (by cases h), fun _ _ h => (by cases h), fun h => (by cases h), ?_⟩
    intro D hK hk
    obtain ⟨n, hn⟩ := hk.inh x
    exact absurd (hK n hn) (htf.1 hok n (hk.below x n hn))
  | true =>
    obtain ⟨f1, f2, f3, f4, f5, f6, f7, f8⟩ := tellVar_fields hok
    have ht := htf.2 hok
    have hsubx : ∀ n, Mem (tell c (st.dom x) op).v.r n → Mem (st.dom x).r n := mem_sub ht.1 (fun n hn => ((ht.2.1 n).1 hn).1)
    have hnb := nb_events hv.1 ht.1 hsubx
    have hsub : Sub (tellVar c st x op).2.dom st.dom := by
      rw [f2]
      intro v n hm
      by_cases hvx : v = x
      · rw [hvx, upd_same] at hm; rw [hvx]; exact hsubx n hm
      · rw [upd_ne _ _ hvx] at hm; exact hm
    have hground : ∀ y, (st.dom y).ground = true → ((tellVar c st x op).2.dom y).ground = true := by
      intro y hy
      rw [f2]
      by_cases hyx : y = x
      · rw [hyx, upd_same]; rw [hyx] at hy; rw [tell_ground c _ op hy]; exact hy
      · rw [upd_ne _ _ hyx]; exact hy
    have hgood : G (tellVar c st x op).2.dom := by rw [f2]; exact hg hok
    have hext : Ext st (tellVar c st x op).2 :=
      ⟨hsub, hground, f5, f6, fun id fr h => ⟨fr, (by rw [f4]; exact h), rfl, rfl, Or.inl rfl⟩,
        fun y i id h => (by rw [f3]; exact h), fun y i h => (f8 y i).2 (Or.inl h)⟩
    refine ⟨hext, ?_, fun _ => ?_, ?_, fun _ => ?_, ?_⟩
    · intro q hq
      have hq' : Q (setVar st x (tell c (st.dom x) op).v) q := hq.congr rfl rfl rfl rfl
      obtain ⟨q', hg'⟩ := allProp_grow hq' x (tell c (st.dom x) op).ev
      refine ⟨q', ?_⟩
      have he : (tellVar c st x op).2 = allProp (setVar st x (tell c (st.dom x) op).v) x (tell c (st.dom x) op).ev := by
        unfold tellVar; dsimp only; rw [if_pos hok]
      rw [he]
      exact ⟨hg'.pre, hg'.isQ, hg'.hd0, hg'.hd1⟩
    · refine ⟨hgood, ?_, ?_, ?_, ?_, fun y hy => hground y (hI.ground y hy), by rw [f5]; exact hI.now⟩
      · rw [f4]; exact hI.frames
      · rw [f3, f4]; exact hI.ids
      · intro id fr hfr d hd
        rw [f4] at hfr
        rw [f3]
        rcases hI.wired id fr hfr d hd with h | h
        · exact Or.inl h
        · exact Or.inr (hground _ h)
      · intro y
        rw [f7, f5]
        unfold setVar
        dsimp only
        have hold : st.date y = 1#64 ∨ ((tellVar c st x op).2.dom y).ground = true ∧ (g0 y ∨ st.date y = st.now) :=
          (hI.date y).imp id fun h => ⟨hground y h.1, h.2⟩
        split
        · next hn' =>
          by_cases hyx : y = x
          · rw [hyx, upd_same]
            refine Or.inr ⟨?_, Or.inr rfl⟩
            rw [f2, upd_same]
            cases hg' : (tell c (st.dom x) op).v.ground with
            | true => rfl
            | false => exact absurd ((ground_iff _).1 hg') hn'.2
          · rw [upd_ne _ _ hyx]; exact hold
        · exact hold
    · intro R hw _ id fr hfr
      rw [f4] at hfr
      rcases hw id fr hfr with h | h | h | h
      · by_cases hd : ∀ d ∈ fr.deps, ¬ evAt d.2 (st.dom d.1) ((tellVar c st x op).2.dom d.1)
        · exact Or.inl (stable_watch (hI.frames id fr hfr) hI.good hgood hsub hd h)
        · have hd' : ∃ d ∈ fr.deps, evAt d.2 (st.dom d.1) ((tellVar c st x op).2.dom d.1) :=
            Classical.byContradiction fun hcon => hd fun d hd1 hd2 => hcon ⟨d, hd1, hd2⟩
          obtain ⟨d, hd1, hd2⟩ := hd'
          exact Or.inr (Or.inr (Or.inl (tellVar_watch hc hG hI hn hok hd2 (hI.wired id fr hfr d hd1))))
      · exact Or.inr (Or.inl h)
      · exact Or.inr (Or.inr (Or.inl (hext.pend h)))
      · exact Or.inr (Or.inr (Or.inr h))
    · have hpos : 0 ≤ (tell c (st.dom x) op).v.nb ∧ 0 ≤ (st.dom x).nb := by
        have h1 := hv.1.nb _ (elems_listing _ hv.1.ne)
        have h2 := ht.1.nb _ (elems_listing _ ht.1.ne)
        omega
      have hsz := size_le vs st.dom x (tell c (st.dom x) op).v (by have := hnb.1; omega)
      unfold Fd.meas
      rw [f2, f4]
      cases hany : (tell c (st.dom x) op).ev.any with
      | true =>
        obtain ⟨i, hi⟩ := (any_iff _).1 hany
        have := hnb.2 i ((evOk_bit ht.2.2 i).1 hi)
        have := hsz.2 hx (by omega)
        exact Or.inl (by omega)
      | false =>
        have he : (tellVar c st x op).2 = setVar st x (tell c (st.dom x) op).v := by
          unfold tellVar; dsimp only; rw [if_pos hok, allProp_none _ _ _ hany]
        rw [he]
        by_cases hlt : size vs (upd st.dom x (tell c (st.dom x) op).v) < size vs st.dom
        · exact Or.inl (by omega)
        · exact Or.inr ⟨by omega, rfl, rfl⟩
    · intro D hK hk
      refine ⟨f1, hk.inh, ?_, by rw [f4]; exact hk.frames⟩
      rw [f2]
      intro v n hm
      by_cases hvx : v = x
      · rw [hvx, upd_same]; rw [hvx] at hm
        exact (ht.2.1 n).2 ⟨hk.below x n hm, hK n hm⟩
      · rw [upd_ne _ _ hvx]; exact hk.below v n hm

/-- The function of a block. -/
theorem runBlk_step (hc : c.Ok) (hG : StoreOk c G) {st : QSt} {x : Nat} {f : Store → Act} {deps : List (Nat × Fin 5)}
    (hI : Inv c G vs g0 st) (hf : FOk c G vs x f deps) : Step c G vs g0 (fun D => KeepBlk G D x f) st (runBlk c st x f) := by
  unfold runBlk
  cases he : f st.dom with
  | exit => exact Step.none hI
  | fail =>
    refine ⟨Ext.refl st, fun q hq => ⟨q, Grow.refl hq⟩, fun h => (by cases h), fun _ _ h => (by cases h), fun h => (by cases h), ?_⟩
    intro D hK hk
    exact absurd he (hK st.dom hI.good hk.below).1
  | tell op =>
    obtain ⟨h1, h2⟩ := hf.closed st.dom op hI.good he
    have hs := tellVar_step hc hG hI hf.told h1 h2
    exact ⟨hs.ext, hs.queue, hs.inv, hs.wake, hs.meas, fun D hK hk => hs.sound D (fun n hn => (hK st.dom hI.good hk.below).2 op he n hn) hk⟩

/-- After its execution a block is stable or will be executed again. -/
theorem runBlk_self (hc : c.Ok) (hG : StoreOk c G) {st : QSt} {x : Nat} {f : Store → Act} {deps : List (Nat × Fin 5)}
    (hI : Inv c G vs g0 st) (hf : FOk c G vs x f deps) (id : Nat) (hw : ∀ d ∈ deps, id ∈ st.chains d.1 d.2 ∨ (st.dom d.1).ground = true)
    (hok : (runBlk c st x f).1 = true) : Stable (runBlk c st x f).2.dom (.blk x f) ∨ Pend (runBlk c st x f).2 id := by
  unfold runBlk at *
  cases he : f st.dom with
  | exit => left; simp only [Stable, he]
  | fail => simp only [he] at hok; cases hok
  | tell op =>
    simp only [he] at hok ⊢
    obtain ⟨h1, h2⟩ := hf.closed st.dom op hI.good he
    have hs := tellVar_step hc hG hI hf.told h1 h2
    have hok' : (tell c (st.dom x) op).ok = true := by
      cases hk : (tell c (st.dom x) op).ok with
      | true => rfl
      | false =>
        unfold tellVar at hok
        dsimp only at hok
        rw [if_neg (by rw [hk]; simp)] at hok; cases hok
    obtain ⟨f1, f2, f3, f4, f5, f6, f7, f8⟩ := tellVar_fields hok'
    by_cases hd : ∀ d ∈ deps, ¬ evAt d.2 (st.dom d.1) ((tellVar c st x op).2.dom d.1)
    · left
      have ha := hf.watch st.dom _ hI.good (hs.inv hok).good hs.ext.sub hd
      rw [he] at ha
      unfold Stable
      dsimp only
      cases e2 : f (tellVar c st x op).2.dom with
      | exit => trivial
      | fail => rw [e2] at ha; exact ha.elim
      | tell op' =>
        rw [e2] at ha
        intro n hm
        rw [f2, upd_same] at hm
        have hv := hG _ hI.good x
        exact (ha n).1 (((tell_exact hc hv.1 hv.2 h1).2 hok').2.1 n |>.1 hm).2
    · right
      have hd' : ∃ d ∈ deps, evAt d.2 (st.dom d.1) ((tellVar c st x op).2.dom d.1) :=
        Classical.byContradiction fun hcon => hd fun d hd1 hd2 => hcon ⟨d, hd1, hd2⟩
      obtain ⟨d, hd1, hd2⟩ := hd'
      exact tellVar_watch hc hG hI h1 hok' hd2 (hw d hd1)

end

end Gp.Fd
