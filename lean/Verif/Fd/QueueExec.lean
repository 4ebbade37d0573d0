import Verif.Fd.QueueStep
/- The execution of the constraints: installation, switch, chains. -/
namespace Gp.Fd

open Gp.FdRange

section
variable {c : Cfg} {G : Store → Prop} {vs : List Nat} {g0 : Nat → Prop}

/-! ### Stop -/

theorem liveSwt_modify (frs : List Frame) (id : Nat) :
    liveSwt (frs.modify id (fun fr => ⟨fr.fct, .never, fr.deps⟩)) ≤ liveSwt frs ∧
    ∀ fr f, frs[id]? = some fr → fr.fct = .swt f → fr.opt ≠ .never →
      liveSwt (frs.modify id (fun fr => ⟨fr.fct, .never, fr.deps⟩)) < liveSwt frs := by
  unfold liveSwt
  induction frs generalizing id with
  | nil => simp
  | cons a l ih =>
    cases id with
    | zero =>
      simp only [List.modify_zero_cons, List.countP_cons]
      constructor
      · simp
      · intro fr f h1 h2 h3
        simp only [List.getElem?_cons_zero, Option.some.injEq] at h1
        subst h1
        simp [h2, h3]
    | succ k =>
      simp only [List.modify_succ_cons, List.countP_cons]
      have := ih k
      refine ⟨by omega, fun fr f h1 h2 h3 => ?_⟩
      have := this.2 fr f (by simpa using h1) h2 h3
      omega

theorem stop_get (frs : List Frame) (id j : Nat) (fr : Frame) (h : (frs.modify id (fun fr => ⟨fr.fct, .never, fr.deps⟩))[j]? = some fr) :
    ∃ fr0, frs[j]? = some fr0 ∧ fr.fct = fr0.fct ∧ fr.deps = fr0.deps ∧ (fr.opt = fr0.opt ∨ fr.opt = .never) ∧ (j = id → fr.opt = .never) := by
  rw [List.getElem?_modify] at h
  cases h0 : frs[j]? with
  | none => rw [h0] at h; cases h
  | some fr0 =>
    rw [h0] at h
    simp only [Option.map_eq_map, Option.map_some, Option.some.injEq] at h
    refine ⟨fr0, rfl, ?_⟩
    by_cases hj : id = j
    · rw [if_pos hj] at h
      subst h
      exact ⟨rfl, rfl, Or.inr rfl, fun _ => rfl⟩
    · rw [if_neg hj] at h
      subst h
      exact ⟨rfl, rfl, Or.inl rfl, fun h => absurd h.symm hj⟩

theorem stop_get' (frs : List Frame) (id j : Nat) (fr : Frame) (h : frs[j]? = some fr) :
    ∃ fr', (frs.modify id (fun fr => ⟨fr.fct, .never, fr.deps⟩))[j]? = some fr' ∧ fr'.fct = fr.fct ∧ fr'.deps = fr.deps ∧
      (fr'.opt = fr.opt ∨ fr'.opt = .never) := by
  rw [List.getElem?_modify, h]
  by_cases hj : id = j
  · exact ⟨⟨fr.fct, .never, fr.deps⟩, (by simp [hj]), rfl, rfl, Or.inr rfl⟩
  · exact ⟨fr, (by simp [hj]), rfl, rfl, Or.inl rfl⟩

theorem stop_step {st : QSt} (hI : Inv c G vs g0 st) (id : Nat) : Step c G vs g0 (fun _ => True) st (true, stopCstr st id) := by
  refine ⟨⟨fun _ _ h => h, fun _ h => h, rfl, rfl, fun j fr h => stop_get' st.frames id j fr h, fun _ _ _ h => h, fun _ _ h => h⟩,
    fun q hq => ⟨q, Grow.of_same hq rfl rfl rfl rfl rfl⟩, fun _ => ?_, ?_, fun _ => ?_, ?_⟩
  · refine ⟨hI.good, ?_, ?_, ?_, hI.date, hI.ground, hI.now⟩
    · intro j fr h
      obtain ⟨fr0, h0, h1, h2, _⟩ := stop_get _ _ _ _ h
      rw [h1, h2]; exact hI.frames j fr0 h0
    · intro x i j h
      simp only [stopCstr, List.length_modify]
      exact hI.ids x i j h
    · intro j fr h d hd
      obtain ⟨fr0, h0, h1, h2, _⟩ := stop_get _ _ _ _ h
      rw [h2] at hd
      exact hI.wired j fr0 h0 d hd
  · intro R hw _ j fr h
    obtain ⟨fr0, h0, h1, h2, h3, _⟩ := stop_get _ _ _ _ h
    rcases hw j fr0 h0 with h' | h' | h' | h'
    · exact Or.inl (by rw [h1]; exact h')
    · refine Or.inr (Or.inl ?_)
      rcases h3 with h3 | h3
      · unfold Off; rw [h3]; exact h'
      · exact Or.inl h3
    · exact Or.inr (Or.inr (Or.inl h'))
    · exact Or.inr (Or.inr (Or.inr h'))
  · have := (liveSwt_modify st.frames id).1
    unfold Fd.meas stopCstr
    dsimp only
    by_cases hlt : liveSwt (st.frames.modify id fun fr => ⟨fr.fct, .never, fr.deps⟩) < liveSwt st.frames
    · exact Or.inl (by omega)
    · exact Or.inr ⟨by omega, rfl, rfl⟩
  · intro D _ hk
    refine ⟨rfl, hk.inh, hk.below, fun j fr h => ?_⟩
    obtain ⟨fr0, h0, h1, _⟩ := stop_get _ _ _ _ h
    rw [h1]; exact hk.frames j fr0 h0

theorem stops_step (ids : List Nat) : ∀ {st : QSt}, Inv c G vs g0 st → Step c G vs g0 (fun _ => True) st (true, ids.foldl stopCstr st) := by
  induction ids with
  | nil => exact fun hI => Step.none hI
  | cons id ids ih =>
    intro st hI
    have h1 := stop_step hI id
    exact (h1.trans (ih (h1.inv rfl))).mono (fun _ _ => ⟨trivial, trivial⟩)

/-! ### Installation -/

theorem addDep_fields (st : QSt) (d : Nat × Fin 5) (id : Nat) :
    (addDep st d id).dom = st.dom ∧ (addDep st d id).date = st.date ∧ (addDep st d id).mask = st.mask ∧ (addDep st d id).keep = st.keep ∧
    (addDep st d id).next = st.next ∧ (addDep st d id).nextD = st.nextD ∧ (addDep st d id).tp = st.tp ∧
    (addDep st d id).frames = st.frames ∧ (addDep st d id).now = st.now ∧
    ∀ y j k, k ∈ (addDep st d id).chains y j ↔ k ∈ st.chains y j ∨ (k = id ∧ (y, j) = d ∧ (st.dom y).ground = false) := by
  unfold addDep
  by_cases hg : (st.dom d.1).ground = true
  · rw [if_pos hg]
    refine ⟨rfl, rfl, rfl, rfl, rfl, rfl, rfl, rfl, rfl, fun y j k => ⟨Or.inl, ?_⟩⟩
    rintro (h | ⟨_, h, h'⟩)
    · exact h
    · rw [← h] at hg; rw [hg] at h'; cases h'
  · rw [if_neg hg]
    refine ⟨rfl, rfl, rfl, rfl, rfl, rfl, rfl, rfl, rfl, fun y j k => ?_⟩
    dsimp only
    by_cases hd : y = d.1 ∧ j = d.2
    · rw [if_pos hd, List.mem_cons]
      have hd' : (y, j) = d := by rw [hd.1, hd.2]
      have hg' : (st.dom y).ground = false := by rw [hd.1]; simpa using hg
      simp only [hd', hg', and_true]
      exact or_comm
    · rw [if_neg hd]
      refine ⟨Or.inl, ?_⟩
      rintro (h | ⟨_, h, _⟩)
      · exact h
      · rw [← h] at hd; exact absurd ⟨rfl, rfl⟩ hd

theorem addDeps_fields (ds : List (Nat × Fin 5)) (id : Nat) : ∀ (st : QSt),
    (addDeps st ds id).dom = st.dom ∧ (addDeps st ds id).date = st.date ∧ (addDeps st ds id).mask = st.mask ∧
    (addDeps st ds id).keep = st.keep ∧ (addDeps st ds id).next = st.next ∧ (addDeps st ds id).nextD = st.nextD ∧
    (addDeps st ds id).tp = st.tp ∧ (addDeps st ds id).frames = st.frames ∧ (addDeps st ds id).now = st.now ∧
    ∀ y j k, k ∈ (addDeps st ds id).chains y j ↔ k ∈ st.chains y j ∨ (k = id ∧ (y, j) ∈ ds ∧ (st.dom y).ground = false) := by
  induction ds with
  | nil => intro st; exact ⟨rfl, rfl, rfl, rfl, rfl, rfl, rfl, rfl, rfl, fun y j k => by simp [addDeps]⟩
  | cons d ds ih =>
    intro st
    have he : addDeps st (d :: ds) id = addDeps (addDep st d id) ds id := rfl
    rw [he]
    obtain ⟨a1, a2, a3, a4, a5, a6, a7, a8, a9, a10⟩ := addDep_fields st d id
    obtain ⟨b1, b2, b3, b4, b5, b6, b7, b8, b9, b10⟩ := ih (addDep st d id)
    refine ⟨b1.trans a1, b2.trans a2, b3.trans a3, b4.trans a4, b5.trans a5, b6.trans a6, b7.trans a7, b8.trans a8, b9.trans a9, fun y j k => ?_⟩
    rw [b10, a10, a1, List.mem_cons]
    constructor
    · rintro ((h | ⟨h1, h2, h3⟩) | ⟨h1, h2, h3⟩)
      · exact Or.inl h
      · exact Or.inr ⟨h1, Or.inl h2, h3⟩
      · exact Or.inr ⟨h1, Or.inr h2, h3⟩
    · rintro (h | ⟨h1, h2 | h2, h3⟩)
      · exact Or.inl (Or.inl h)
      · exact Or.inl (Or.inr ⟨h1, h2, h3⟩)
      · exact Or.inr ⟨h1, h2, h3⟩

/-- The state after the creation of a frame and its dependencies. -/
theorem frame_step {st : QSt} (hI : Inv c G vs g0 st) (fct : Fct) (opt : Opt) (deps : List (Nat × Fin 5)) (hf : FctOk c G vs fct deps) :
    let st' := addDeps (createFrame st fct opt deps) deps st.frames.length
    Ext st st' ∧ (∀ q, Q st q → ∃ q', Grow st q st' q') ∧ Inv c G vs g0 st' ∧
    (∀ R, Wake g0 st R → Wake g0 st' (fun j => j = st.frames.length ∨ R j)) ∧
    (∀ D, KeepFct G D fct → KeepSt G D st → KeepSt G D st') ∧ st'.mask = st.mask ∧ st'.tp = st.tp ∧ st'.dom = st.dom ∧
    st'.frames = st.frames ++ [⟨fct, opt, deps⟩] ∧
    (∀ d ∈ deps, st.frames.length ∈ st'.chains d.1 d.2 ∨ (st'.dom d.1).ground = true) := by
  intro st'
  obtain ⟨a1, a2, a3, a4, a5, a6, a7, a8, a9, a10⟩ := addDeps_fields deps st.frames.length (createFrame st fct opt deps)
  have hfr : st'.frames = st.frames ++ [⟨fct, opt, deps⟩] := a8
  have hdom : st'.dom = st.dom := a1
  have hwired : ∀ d ∈ deps, st.frames.length ∈ st'.chains d.1 d.2 ∨ (st'.dom d.1).ground = true := by
    intro d hd
    cases hg : (st'.dom d.1).ground with
    | true => exact Or.inr rfl
    | false => exact Or.inl ((a10 _ _ _).2 (Or.inr ⟨rfl, hd, by rw [hdom] at hg; exact hg⟩))
  have hold : ∀ (j : Nat) (fr : Frame), st'.frames[j]? = some fr →
      st.frames[j]? = some fr ∨ (j = st.frames.length ∧ fr = ⟨fct, opt, deps⟩) := by
    intro j fr h
    rw [hfr, List.getElem?_append] at h
    split at h
    · exact Or.inl h
    · next hj =>
      right
      have hj' : j - st.frames.length = 0 := by
        refine Classical.byContradiction fun hcon => ?_
        rw [List.getElem?_eq_none (by simp; omega)] at h; cases h
      rw [hj'] at h
      simp only [List.getElem?_cons_zero, Option.some.injEq] at h
      exact ⟨by omega, h.symm⟩
  have hnew : ∀ (j : Nat) (fr : Frame), st.frames[j]? = some fr → st'.frames[j]? = some fr := by
    intro j fr h
    rw [hfr, List.getElem?_append_left (List.getElem?_eq_some_iff.1 h).1]
    exact h
  have hch : ∀ x i id, id ∈ st.chains x i → id ∈ st'.chains x i := fun x i id h => (a10 x i id).2 (Or.inl h)
  have hext : Ext st st' := ⟨fun v n h => (by rw [hdom] at h; exact h), fun x h => (by rw [hdom]; exact h), a9, a4,
    fun j fr h => ⟨fr, hnew j fr h, rfl, rfl, Or.inl rfl⟩, hch, fun x i h => (by show (st'.mask x).bit i = true; rw [a3]; exact h)⟩
  refine ⟨hext, fun q hq => ⟨q, Grow.of_same hq a3 a4 a5 a7 a6⟩, ?_, ?_, ?_, a3, a7, hdom, hfr, hwired⟩
  · refine ⟨by rw [hdom]; exact hI.good, ?_, ?_, ?_, ?_, ?_, ?_⟩
    · intro j fr h
      rcases hold j fr h with h | ⟨_, h⟩
      · exact hI.frames j fr h
      · rw [h]; exact hf
    · intro x i j h
      rw [hfr, List.length_append]
      rcases (a10 x i j).1 h with h | ⟨h, _⟩
      · have := hI.ids x i j h; omega
      · rw [h]; simp
    · intro j fr h d hd
      rcases hold j fr h with h | ⟨h, h'⟩
      · rcases hI.wired j fr h d hd with h | h
        · exact Or.inl (hch _ _ _ h)
        · exact Or.inr (by rw [hdom]; exact h)
      · rw [h'] at hd; rw [h]; exact hwired d hd
    · intro x
      rw [hdom]
      show (st'.date x = 1#64 ∨ _)
      have e1 : st'.date = st.date := a2
      have e2 : st'.now = st.now := a9
      rw [e1, e2]; exact hI.date x
    · intro x hx; rw [hdom]; exact hI.ground x hx
    · have e2 : st'.now = st.now := a9
      rw [e2]; exact hI.now
  · intro R hw j fr h
    rcases hold j fr h with h | ⟨h, _⟩
    · rcases hw j fr h with h | h | h | h
      · exact Or.inl (by rw [hdom]; exact h)
      · exact Or.inr (Or.inl h)
      · exact Or.inr (Or.inr (Or.inl (hext.pend h)))
      · exact Or.inr (Or.inr (Or.inr (Or.inr h)))
    · exact Or.inr (Or.inr (Or.inr (Or.inl h)))
  · intro D hK hk
    refine ⟨hk.inh, by rw [hdom]; exact hk.below, fun j fr h => ?_⟩
    rcases hold j fr h with h | ⟨_, h⟩
    · exact hk.frames j fr h
    · rw [h]; exact hK

theorem liveSwt_blk (frs : List Frame) (x : Nat) (f : Store → Act) (opt : Opt) (deps : List (Nat × Fin 5)) :
    liveSwt (frs ++ [⟨.blk x f, opt, deps⟩]) = liveSwt frs := by
  unfold liveSwt
  simp [List.countP_append]

theorem instBlk_step (hc : c.Ok) (hG : StoreOk c G) {st : QSt} (hI : Inv c G vs g0 st) (b : Blk) (hb : FOk c G vs b.x b.f b.deps) :
    Step c G vs g0 (fun D => KeepBlk G D b.x b.f) st (instBlk c st b) := by
  unfold instBlk
  by_cases hd : b.deps.isEmpty = true
  · rw [if_pos hd]; exact runBlk_step hc hG hI hb
  · rw [if_neg hd]
    dsimp only
    generalize hopt : (if b.optim then Opt.date b.x else Opt.always) = opt
    obtain ⟨e1, e2, e3, e4, e5, e6, e7, e8, e9, e10⟩ := frame_step hI (.blk b.x b.f) opt b.deps hb
    generalize hst : addDeps (createFrame st (.blk b.x b.f) opt b.deps) b.deps st.frames.length = st1 at *
    have hs := runBlk_step hc hG e3 hb
    have hself := runBlk_self hc hG e3 hb st.frames.length e10
    refine ⟨e1.trans hs.ext, fun q hq => ?_, hs.inv, fun R hw hok => ?_, fun hok => ?_, fun D hK hk => ?_⟩
    · obtain ⟨q', hq'⟩ := e2 q hq
      obtain ⟨q'', hq''⟩ := hs.queue q' hq'.isQ
      exact ⟨q'', hq'.trans hq''⟩
    · have hw' := hs.wake _ (e4 R hw) hok
      intro j fr h
      rcases hw' j fr h with h' | h' | h' | h' | h'
      · exact Or.inl h'
      · exact Or.inr (Or.inl h')
      · exact Or.inr (Or.inr (Or.inl h'))
      · have h0 : st1.frames[st.frames.length]? = some ⟨.blk b.x b.f, opt, b.deps⟩ := by rw [e9]; simp
        obtain ⟨fr', g1, g2, _⟩ := hs.ext.frames _ _ h0
        rw [h', g1] at h
        simp only [Option.some.injEq] at h
        rw [← h, g2, h']
        rcases hself hok with h'' | h''
        · exact Or.inl h''
        · exact Or.inr (Or.inr (Or.inl h''))
      · exact Or.inr (Or.inr (Or.inr h'))
    · have hm : Fd.meas vs st1 = Fd.meas vs st := by
        unfold Fd.meas; rw [e8, e9, liveSwt_blk]
      rcases hs.meas hok with h | ⟨h1, h2, h3⟩
      · exact Or.inl (by omega)
      · exact Or.inr ⟨by omega, h2.trans e6, h3.trans e7⟩
    · exact hs.sound D hK (e5 D hK hk)

theorem instBlks_step (hc : c.Ok) (hG : StoreOk c G) : ∀ (bs : List Blk) {st : QSt}, Inv c G vs g0 st →
    (∀ b ∈ bs, FOk c G vs b.x b.f b.deps) → Step c G vs g0 (fun D => ∀ b ∈ bs, KeepBlk G D b.x b.f) st (instBlks c st bs)
  | [], st, hI, _ => Step.none hI
  | b :: bs, st, hI, hb => by
    have h1 := instBlk_step hc hG hI b (hb b (by simp))
    unfold instBlks
    generalize hr : instBlk c st b = r at *
    obtain ⟨ok, st1⟩ := r
    dsimp only
    cases ok with
    | false =>
      simp only [Bool.false_eq_true, if_false]
      exact h1.fail (fun D hK => hK b (by simp))
    | true =>
      simp only [if_true]
      have h2 := instBlks_step hc hG bs (h1.inv rfl) (fun b' hb' => hb b' (by simp [hb']))
      exact (h1.trans h2).mono (fun D hK => ⟨hK b (by simp), fun b' hb' => hK b' (by simp [hb'])⟩)

theorem runCase_step (hc : c.Ok) (hG : StoreOk c G) {st : QSt} (hI : Inv c G vs g0 st) (k : Case) (hk : CaseOk c G vs k) :
    Step c G vs g0 (fun D => ∀ b ∈ k.blks, KeepBlk G D b.x b.f) st (runCase c st k) := by
  unfold runCase
  have h1 : Step c G vs g0 (fun _ => True) st (true, k.stops.foldl stopCstr st) := stops_step k.stops hI
  exact (h1.trans (instBlks_step hc hG k.blks (h1.inv rfl) hk)).mono (fun D h => ⟨trivial, h⟩)

/-! ### Execution of a constraint -/

/-- The execution of the constraint `id`; it is stable, off or will be executed afterwards. -/
theorem exec_step (hc : c.Ok) (hG : StoreOk c G) {st : QSt} (hI : Inv c G vs g0 st) {id : Nat} {fr : Frame}
    (hfr : st.frames[id]? = some fr) :
    Step c G vs g0 (fun _ => True) st (exec c st id fr.fct) ∧
    (∀ R, Wake g0 st (fun j => j = id ∨ R j) → (exec c st id fr.fct).1 = true → Wake g0 (exec c st id fr.fct).2 R) := by
  have hok := hI.frames id fr hfr
  have hget : ∀ {st' : QSt}, Ext st st' → ∀ fr', st'.frames[id]? = some fr' → fr'.fct = fr.fct ∧ fr'.deps = fr.deps := by
    intro st' he fr' h
    obtain ⟨fr1, g1, g2, g3, _⟩ := he.frames id fr hfr
    rw [g1] at h
    simp only [Option.some.injEq] at h
    rw [← h]; exact ⟨g2, g3⟩
  cases hfct : fr.fct with
  | blk x f =>
    rw [hfct] at hok
    have hs := runBlk_step hc hG hI (x := x) (f := f) hok
    have hself := runBlk_self hc hG hI (x := x) (f := f) hok id (hI.wired id fr hfr)
    refine ⟨⟨hs.ext, hs.queue, hs.inv, hs.wake, hs.meas, fun D _ hk => ?_⟩, fun R hw hr => ?_⟩
    · have := hk.frames id fr hfr
      rw [hfct] at this
      exact hs.sound D this hk
    · have hw' := hs.wake _ hw hr
      intro j fr' h
      rcases hw' j fr' h with h' | h' | h' | h' | h'
      · exact Or.inl h'
      · exact Or.inr (Or.inl h')
      · exact Or.inr (Or.inr (Or.inl h'))
      · rw [h'] at h ⊢
        rw [(hget hs.ext fr' h).1, hfct]
        rcases hself hr with h'' | h''
        · exact Or.inl h''
        · exact Or.inr (Or.inr (Or.inl h''))
      · exact Or.inr (Or.inr (Or.inr h'))
  | swt f =>
    rw [hfct] at hok
    unfold exec
    dsimp only
    cases he : f st.dom with
    | none =>
      dsimp only
      refine ⟨Step.none hI, fun R hw _ j fr' h => ?_⟩
      rcases hw j fr' h with h' | h' | h' | h' | h'
      · exact Or.inl h'
      · exact Or.inr (Or.inl h')
      · exact Or.inr (Or.inr (Or.inl h'))
      · rw [h', hfr] at h
        simp only [Option.some.injEq] at h
        left; rw [← h, hfct]; exact he
      · exact Or.inr (Or.inr (Or.inr h'))
    | some k =>
      dsimp only
      have hs := runCase_step hc hG hI k (hok.cases _ _ he)
      have hsound : ∀ D, KeepSt G D st → ∀ b ∈ k.blks, KeepBlk G D b.x b.f := by
        intro D hk
        have := hk.frames id fr hfr
        rw [hfct] at this
        exact this st.dom k hI.good hk.below he
      generalize hr : runCase c st k = r at *
      obtain ⟨ok, st1⟩ := r
      cases ok with
      | false =>
        simp only [Bool.false_eq_true, if_false]
        exact ⟨⟨hs.ext, hs.queue, hs.inv, hs.wake, hs.meas, fun D _ hk => hs.sound D (hsound D hk) hk⟩, fun R _ h => by simp at h⟩
      | true =>
        simp only [if_true]
        have h2 := stop_step (hs.inv rfl) id
        have h3 := hs.trans h2
        refine ⟨⟨h3.ext, h3.queue, h3.inv, h3.wake, h3.meas, fun D _ hk => h3.sound D ⟨hsound D hk, trivial⟩ hk⟩, fun R hw _ => ?_⟩
        have hw' := h3.wake _ hw rfl
        intro j fr' h
        rcases hw' j fr' h with h' | h' | h' | h' | h'
        · exact Or.inl h'
        · exact Or.inr (Or.inl h')
        · exact Or.inr (Or.inr (Or.inl h'))
        · obtain ⟨fr0, _, _, _, _, h6⟩ := stop_get _ _ _ _ h
          exact Or.inr (Or.inl (Or.inl (h6 h')))
        · exact Or.inr (Or.inr (Or.inr h'))

/-- The constraint frames are never removed. -/
theorem ids_ext {st st' : QSt} (h : Ext st st') {id : Nat} (hid : id < st.frames.length) : id < st'.frames.length := by
  obtain ⟨fr', h1, _⟩ := h.frames id st.frames[id] (List.getElem?_eq_getElem hid)
  exact (List.getElem?_eq_some_iff.1 h1).1

/-- A constraint which is skipped is off. -/
theorem skip_off {st : QSt} (hI : Inv c G vs g0 st) (fr : Frame) (h : st.pdate fr.opt ≠ 1#64 ∧ st.pdate fr.opt ≠ st.now) : Off g0 fr := by
  unfold Off
  cases ho : fr.opt with
  | always => rw [ho] at h; exact absurd rfl h.1
  | never => exact Or.inl rfl
  | date x =>
    rw [ho] at h
    right
    refine ⟨x, rfl, ?_⟩
    rcases hI.date x with h' | ⟨_, h' | h'⟩
    · exact absurd h' h.1
    · exact h'
    · exact absurd h' h.2

/-- A stopped constraint is skipped. -/
theorem never_skipped {st : QSt} (hI : Inv c G vs g0 st) (fr : Frame) (h : fr.opt = .never) :
    st.pdate fr.opt ≠ 1#64 ∧ st.pdate fr.opt ≠ st.now := by
  rw [h]
  exact ⟨by simp [QSt.pdate], fun hc => hI.now hc.symm⟩

theorem chainLoop_step (hc : c.Ok) (hG : StoreOk c G) : ∀ (ids : List Nat) {st : QSt}, Inv c G vs g0 st →
    (∀ id ∈ ids, id < st.frames.length) →
    Step c G vs g0 (fun _ => True) st (chainLoop c st ids) ∧
    ∀ R, Wake g0 st (fun j => j ∈ ids ∨ R j) → (chainLoop c st ids).1 = true → Wake g0 (chainLoop c st ids).2 R
  | [], st, hI, _ => ⟨Step.none hI, fun R hw _ j fr h => by simpa [chainLoop] using hw j fr h⟩
  | id :: ids, st, hI, hids => by
    have hid := hids id (by simp)
    have hfr : st.frames[id]? = some st.frames[id] := List.getElem?_eq_getElem hid
    generalize st.frames[id] = fr at hfr
    unfold chainLoop
    rw [hfr]
    dsimp only
    by_cases hskip : st.pdate fr.opt ≠ 1#64 ∧ st.pdate fr.opt ≠ st.now
    · rw [if_pos hskip]
      have ih := chainLoop_step hc hG ids hI (fun j hj => hids j (by simp [hj]))
      refine ⟨ih.1, fun R hw => ih.2 R fun j fr' h => ?_⟩
      rcases hw j fr' h with h' | h' | h' | h' | h'
      · exact Or.inl h'
      · exact Or.inr (Or.inl h')
      · exact Or.inr (Or.inr (Or.inl h'))
      · rcases List.mem_cons.1 h' with h' | h'
        · rw [h', hfr] at h
          simp only [Option.some.injEq] at h
          exact Or.inr (Or.inl (h ▸ skip_off hI fr hskip))
        · exact Or.inr (Or.inr (Or.inr (Or.inl h')))
      · exact Or.inr (Or.inr (Or.inr (Or.inr h')))
    · rw [if_neg hskip]
      have hs := exec_step hc hG hI hfr
      generalize hr : exec c st id fr.fct = r at *
      obtain ⟨ok, st1⟩ := r
      cases ok with
      | false =>
        simp only [Bool.false_eq_true, if_false]
        exact ⟨hs.1, fun R _ h => by simp at h⟩
      | true =>
        simp only [if_true]
        have ih := chainLoop_step hc hG ids (hs.1.inv rfl) (fun j hj => ids_ext hs.1.ext (hids j (by simp [hj])))
        refine ⟨(hs.1.trans ih.1).mono (fun _ _ => ⟨trivial, trivial⟩), fun R hw => ih.2 R (hs.2 _ ?_ rfl)⟩
        intro j fr' h
        rcases hw j fr' h with h' | h' | h' | h' | h'
        · exact Or.inl h'
        · exact Or.inr (Or.inl h')
        · exact Or.inr (Or.inr (Or.inl h'))
        · rcases List.mem_cons.1 h' with h' | h'
          · exact Or.inr (Or.inr (Or.inr (Or.inl h')))
          · exact Or.inr (Or.inr (Or.inr (Or.inr (Or.inl h'))))
        · exact Or.inr (Or.inr (Or.inr (Or.inr (Or.inr h'))))

theorem bitsLoop_step (hc : c.Ok) (hG : StoreOk c G) (x : Nat) (p : Ev) : ∀ (is : List (Fin 5)) {st : QSt}, Inv c G vs g0 st →
    Step c G vs g0 (fun _ => True) st (bitsLoop c x p st is) ∧
    ∀ R, Wake g0 st (fun j => (∃ i ∈ is, p.bit i = true ∧ j ∈ st.chains x i) ∨ R j) → (bitsLoop c x p st is).1 = true →
      Wake g0 (bitsLoop c x p st is).2 R
  | [], st, hI => ⟨Step.none hI, fun R hw _ j fr h => by simpa [bitsLoop] using hw j fr h⟩
  | i :: is, st, hI => by
    unfold bitsLoop
    cases hb : p.bit i with
    | false =>
      simp only [Bool.false_eq_true, if_false]
      have ih := bitsLoop_step hc hG x p is hI
      refine ⟨ih.1, fun R hw => ih.2 R fun j fr h => ?_⟩
      rcases hw j fr h with h' | h' | h' | ⟨i', h1, h2, h3⟩ | h'
      · exact Or.inl h'
      · exact Or.inr (Or.inl h')
      · exact Or.inr (Or.inr (Or.inl h'))
      · rcases List.mem_cons.1 h1 with h1 | h1
        · rw [h1, hb] at h2; cases h2
        · exact Or.inr (Or.inr (Or.inr (Or.inl ⟨i', h1, h2, h3⟩)))
      · exact Or.inr (Or.inr (Or.inr (Or.inr h')))
    | true =>
      simp only [if_true]
      have hs := chainLoop_step hc hG (st.chains x i) hI (fun id h => hI.ids x i id h)
      generalize hr : chainLoop c st (st.chains x i) = r at *
      obtain ⟨ok, st1⟩ := r
      cases ok with
      | false =>
        simp only [Bool.false_eq_true, if_false]
        exact ⟨hs.1, fun R _ h => by simp at h⟩
      | true =>
        simp only [if_true]
        have ih := bitsLoop_step hc hG x p is (hs.1.inv rfl)
        refine ⟨(hs.1.trans ih.1).mono (fun _ _ => ⟨trivial, trivial⟩), fun R hw => ih.2 R (hs.2 _ ?_ rfl)⟩
        intro j fr h
        rcases hw j fr h with h' | h' | h' | ⟨i', h1, h2, h3⟩ | h'
        · exact Or.inl h'
        · exact Or.inr (Or.inl h')
        · exact Or.inr (Or.inr (Or.inl h'))
        · rcases List.mem_cons.1 h1 with h1 | h1
          · rw [h1] at h3; exact Or.inr (Or.inr (Or.inr (Or.inl h3)))
          · exact Or.inr (Or.inr (Or.inr (Or.inr (Or.inl ⟨i', h1, h2, hs.1.ext.chains _ _ _ h3⟩))))
        · exact Or.inr (Or.inr (Or.inr (Or.inr (Or.inr h'))))

end

end Gp.Fd
