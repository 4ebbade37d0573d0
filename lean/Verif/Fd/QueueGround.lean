import Verif.Fd.QueueLoop
/-
The constraints without a switch: their frames stay, and when the variables of such a constraint become instantiated its blocks have
been checked (although the blocks of the instantiated variables are not executed any more).
-/
namespace Gp.Fd

open Gp.FdRange

/-- No switch and no stopped constraint. -/
def NoSwt (frs : List Frame) : Prop := ∀ fr ∈ frs, (∃ x f, fr.fct = .blk x f) ∧ fr.opt ≠ .never

/-- The frame of a block (none if it has no dependency). -/
def frameOf (b : Blk) : List Frame := if b.deps.isEmpty then [] else [⟨.blk b.x b.f, if b.optim then .date b.x else .always, b.deps⟩]

theorem frameOf_noSwt (b : Blk) : NoSwt (frameOf b) := by
  intro fr hfr
  unfold frameOf at hfr
  split at hfr
  · cases hfr
  · simp only [List.mem_singleton] at hfr
    rw [hfr]
    refine ⟨⟨b.x, b.f, rfl⟩, ?_⟩
    dsimp only
    split <;> simp

section
variable {c : Cfg}

theorem runBlk_frames (st : QSt) (x : Nat) (f : Store → Act) : (runBlk c st x f).2.frames = st.frames := by
  unfold runBlk
  cases f st.dom with
  | exit => rfl
  | fail => rfl
  | tell op =>
    dsimp only
    cases h : (tell c (st.dom x) op).ok with
    | true => exact (tellVar_fields h).2.2.2.1
    | false => unfold tellVar; dsimp only; rw [if_neg (by rw [h]; simp)]

theorem instBlk_frames (st : QSt) (b : Blk) : (instBlk c st b).2.frames = st.frames ++ frameOf b := by
  unfold instBlk frameOf
  by_cases hd : b.deps.isEmpty = true
  · rw [if_pos hd, if_pos hd, runBlk_frames]; simp
  · rw [if_neg hd, if_neg hd]
    dsimp only
    rw [runBlk_frames]
    obtain ⟨_, _, _, _, _, _, _, a8, _⟩ := addDeps_fields b.deps st.frames.length
      (createFrame st (.blk b.x b.f) (if b.optim then .date b.x else .always) b.deps)
    rw [a8]; rfl

theorem instBlks_frames : ∀ (bs : List Blk) (st : QSt), (instBlks c st bs).1 = true →
    (instBlks c st bs).2.frames = st.frames ++ bs.flatMap frameOf := by
  intro bs
  induction bs with
  | nil => intro st _; simp [instBlks]
  | cons b bs ih =>
    intro st h
    have hb := instBlk_frames (c := c) st b
    unfold instBlks at h ⊢
    generalize instBlk c st b = r at *
    obtain ⟨ok, st1⟩ := r
    cases ok with
    | false => cases h
    | true =>
      simp only [if_true] at h ⊢
      rw [ih st1 h]
      dsimp only at hb
      rw [hb]
      simp

theorem chainLoop_frames : ∀ (ids : List Nat) (st : QSt), NoSwt st.frames → (chainLoop c st ids).2.frames = st.frames := by
  intro ids
  induction ids with
  | nil => intro st _; simp [chainLoop]
  | cons id ids ih =>
    intro st h
    unfold chainLoop
    cases hf : st.frames[id]? with
    | none => rfl
    | some fr =>
      dsimp only
      split
      · exact ih st h
      · obtain ⟨⟨x, f, hx⟩, _⟩ := h fr (List.mem_of_getElem? hf)
        have he : exec c st id fr.fct = runBlk c st x f := by rw [hx]; rfl
        rw [he]
        have hr := runBlk_frames (c := c) st x f
        generalize runBlk c st x f = r at *
        obtain ⟨ok, st1⟩ := r
        dsimp only at hr
        cases ok with
        | false => exact hr
        | true =>
          show (chainLoop c st1 ids).2.frames = _
          rw [ih st1 (by rw [hr]; exact h), hr]

theorem bitsLoop_frames (x : Nat) (p : Ev) : ∀ (is : List (Fin 5)) (st : QSt), NoSwt st.frames → (bitsLoop c x p st is).2.frames = st.frames := by
  intro is
  induction is with
  | nil => intro st _; simp [bitsLoop]
  | cons i is ih =>
    intro st h
    unfold bitsLoop
    split
    · have hr := chainLoop_frames (c := c) (st.chains x i) st h
      generalize chainLoop c st (st.chains x i) = r at *
      obtain ⟨ok, st1⟩ := r
      dsimp only at hr
      cases ok with
      | false => exact hr
      | true =>
        show (bitsLoop c x p st1 is).2.frames = _
        rw [ih st1 (by rw [hr]; exact h), hr]
    · exact ih st h

theorem body_frames (st : QSt) (bp : Nat) (h : NoSwt st.frames) : (body c st bp).2.frames = st.frames := by
  unfold body
  dsimp only
  have hr := bitsLoop_frames (c := c) bp (st.mask bp) allBits { st with mask := upd st.mask bp Ev.empty, keep := upd st.keep bp true } h
  generalize bitsLoop c bp (st.mask bp) { st with mask := upd st.mask bp Ev.empty, keep := upd st.keep bp true } allBits = r at *
  obtain ⟨ok, st1⟩ := r
  cases ok <;> exact hr

theorem mainLoop_frames : ∀ (n : Nat) (st : QSt) (bp : Nat) (st' : QSt), NoSwt st.frames → mainLoop c n st bp = some (true, st') →
    st'.frames = st.frames := by
  intro n
  induction n with
  | zero => intro st bp st' _ h; cases h
  | succ n ih =>
    intro st bp st' hn h
    unfold mainLoop at h
    have hr := body_frames (c := c) st bp hn
    generalize body c st bp = r at *
    obtain ⟨ok, st1⟩ := r
    dsimp only at h hr
    cases ok with
    | false =>
      rw [if_pos rfl] at h
      unfold failQueue at h
      cases hq : clearQueue n { st1 with nextD := bp } with
      | none => rw [hq] at h; cases h
      | some q => rw [hq] at h; cases h
    | true =>
      rw [if_neg (by simp)] at h
      have hn1 : NoSwt st1.frames := by rw [hr]; exact hn
      split at h
      · split at h
        · cases h; exact hr
        · rw [ih _ _ _ hn1 h, hr]
      · rw [ih _ _ _ hn1 h, hr]

theorem post_frames {n : Nat} {st st' : QSt} {u : UserCstr} (hu : u.swt = none) (hn : NoSwt st.frames)
    (h : post c n st u = some (true, st')) :
    st'.frames = st.frames ++ u.blks.flatMap frameOf ∧ (instBlks c (beforeAdd st) u.blks).1 = true ∧
    install c (beforeAdd st) u = instBlks c (beforeAdd st) u.blks := by
  have hi : install c (beforeAdd st) u = instBlks c (beforeAdd st) u.blks := by
    unfold install
    rw [hu]
    generalize instBlks c (beforeAdd st) u.blks = r
    obtain ⟨ok, st1⟩ := r
    cases ok <;> rfl
  unfold post at h
  rw [hi] at h
  have hf := instBlks_frames (c := c) u.blks (beforeAdd st)
  refine ⟨?_, ?_, hi⟩
  all_goals
    generalize instBlks c (beforeAdd st) u.blks = r at *
    obtain ⟨ok, st1⟩ := r
    dsimp only at h hf
    unfold afterAdd at h
    cases ok with
    | false =>
      rw [if_pos rfl] at h
      unfold failQueue at h
      cases hq : clearQueue n st1 with
      | none => rw [hq] at h; cases h
      | some q => rw [hq] at h; cases h
    | true => ?_
  · rw [if_neg (by simp)] at h
    have hf := hf rfl
    have hn1 : NoSwt st1.frames := by
      rw [hf]
      intro fr hfr
      rcases List.mem_append.1 hfr with h1 | h1
      · exact hn fr h1
      · obtain ⟨b, _, hb⟩ := List.mem_flatMap.1 h1
        exact frameOf_noSwt b fr hb
    split at h
    · cases h; exact hf
    · rw [mainLoop_frames _ _ _ _ hn1 h, hf]; rfl
  · rfl

end

section
variable {c : Cfg} {G : Store → Prop} {vs : List Nat} {g0 : Nat → Prop}

/-- A successful execution of a block from the store `s` to the store `s'`. -/
def RunAt (c : Cfg) (s s' : Store) (b : Blk) : Prop :=
  (b.f s = .exit ∧ s' = s) ∨
  ∃ op, b.f s = .tell op ∧ (tell c (s b.x) op).ok = true ∧ s' = upd s b.x (tell c (s b.x) op).v

theorem instBlk_run {st : QSt} (b : Blk) (h : (instBlk c st b).1 = true) : RunAt c st.dom (instBlk c st b).2.dom b := by
  have key : ∀ st1 : QSt, st1.dom = st.dom → (runBlk c st1 b.x b.f).1 = true → RunAt c st.dom (runBlk c st1 b.x b.f).2.dom b := by
    intro st1 hd hok
    unfold runBlk at hok ⊢
    rw [hd] at hok ⊢
    cases he : b.f st.dom with
    | exit => exact Or.inl ⟨he, hd⟩
    | fail => rw [he] at hok; cases hok
    | tell op =>
      rw [he] at hok
      dsimp only at hok ⊢
      cases ho : (tell c (st1.dom b.x) op).ok with
      | false => unfold tellVar at hok; dsimp only at hok; rw [if_neg (by rw [ho]; simp)] at hok; cases hok
      | true =>
        have := (tellVar_fields ho).2.1
        rw [hd] at ho this
        exact Or.inr ⟨op, he, ho, this⟩
  unfold instBlk at h ⊢
  split at h
  · next hd => rw [if_pos hd]; exact key st rfl h
  · next hd =>
    rw [if_neg hd]
    refine key _ ?_ h
    obtain ⟨a1, _⟩ := addDeps_fields b.deps st.frames.length
      (createFrame st (.blk b.x b.f) (if b.optim then .date b.x else .always) b.deps)
    rw [a1]; rfl

/-- Every block of an installed constraint has been executed. -/
theorem instBlks_run (hc : c.Ok) (hG : StoreOk c G) : ∀ (bs : List Blk) {st : QSt}, Inv c G vs g0 st →
    (∀ b ∈ bs, FOk c G vs b.x b.f b.deps) → (instBlks c st bs).1 = true → ∀ b ∈ bs, ∃ s1 s2, RunAt c s1 s2 b ∧ G s1 ∧ G s2 ∧
      Sub s1 st.dom ∧ (∀ x, (st.dom x).ground = true → (s1 x).ground = true) ∧ Sub (instBlks c st bs).2.dom s2 := by
  intro bs
  induction bs with
  | nil => intro st _ _ _ b hb; cases hb
  | cons b0 bs ih =>
    intro st hI hf hok b hb
    have h1 := instBlk_step hc hG hI b0 (hf b0 (by simp))
    have hrun := instBlk_run (c := c) (st := st) b0
    unfold instBlks at hok ⊢
    generalize instBlk c st b0 = r at *
    obtain ⟨ok, st1⟩ := r
    cases ok with
    | false => cases hok
    | true =>
      simp only [if_true] at hok ⊢
      have hI1 := h1.inv rfl
      have hs := instBlks_step hc hG bs hI1 (fun b hb => hf b (by simp [hb]))
      rcases List.mem_cons.1 hb with hb | hb
      · rw [hb]
        exact ⟨st.dom, st1.dom, hrun rfl, hI.good, hI1.good, fun _ _ h => h, fun _ h => h, hs.ext.sub⟩
      · obtain ⟨s1, s2, e1, e2, e3, e4, e5, e6⟩ := ih hI1 (fun b hb => hf b (by simp [hb])) hok b hb
        exact ⟨s1, s2, e1, e2, e3, fun v n hn => h1.ext.sub v n (e4 v n hn), fun x hx => e5 x (h1.ext.ground x hx), e6⟩

theorem run_mem (hc : c.Ok) (hG : StoreOk c G) {s1 s2 : Store} {b : Blk} (hb : FOk c G vs b.x b.f b.deps) (h1 : G s1) (hr : RunAt c s1 s2 b) :
    Sub s2 s1 ∧ ∀ op, b.f s1 = .tell op → ∀ n : Nat, Mem (s2 b.x).r n → opMem op n := by
  rcases hr with ⟨he, h⟩ | ⟨op, he, hok, h⟩
  · rw [h]
    exact ⟨fun _ _ h => h, fun op ho => by rw [he] at ho; cases ho⟩
  · have hv := hG _ h1 b.x
    have ht := (tell_exact hc hv.1 hv.2 (hb.closed s1 op h1 he).1).2 hok
    have hm : ∀ n : Nat, Mem (s2 b.x).r n ↔ Mem (s1 b.x).r n ∧ opMem op n := by
      intro n; rw [h, upd_same]; exact ht.2.1 n
    refine ⟨fun v n hn => ?_, fun op' ho n hn => ?_⟩
    · by_cases hx : v = b.x
      · rw [hx] at hn ⊢
        rw [h, upd_same] at hn
        have h0 := mem_nonneg ht.1 hn
        have := (ht.2.1 n.toNat).1 (by rw [Int.toNat_of_nonneg h0]; exact hn)
        rw [Int.toNat_of_nonneg h0] at this
        exact this.1
      · rw [h, upd_ne _ _ hx] at hn; exact hn
    · rw [he] at ho; cases ho
      exact ((hm n).1 hn).2

/-- A block of an instantiated variable which has been executed is stable. -/
theorem run_stable (hc : c.Ok) (hG : StoreOk c G) {s1 s2 : Store} {b : Blk} (hb : FOk c G vs b.x b.f b.deps) (h1 : G s1)
    (hr : RunAt c s1 s2 b) (hg : (s1 b.x).ground = true) : Stable s1 (.blk b.x b.f) := by
  have hm := (run_mem hc hG hb h1 hr).2
  unfold Stable
  dsimp only
  rcases hr with ⟨he, _⟩ | ⟨op, he, _, h⟩
  · rw [he]; trivial
  · rw [he]
    intro n hn
    refine hm op he n ?_
    rw [h, upd_same, tell_ground c _ op hg]
    exact hn

/-- A block with no dependency is stable once it has been executed. -/
theorem run_nodeps (hc : c.Ok) (hG : StoreOk c G) {s1 s2 s : Store} {b : Blk} (hb : FOk c G vs b.x b.f b.deps) (hd : b.deps = []) (h1 : G s1)
    (hr : RunAt c s1 s2 b) (hs : G s) (hsub : Sub s s2) : Stable s (.blk b.x b.f) := by
  obtain ⟨hsub1, hm⟩ := run_mem hc hG hb h1 hr
  have ha := hb.watch s1 s h1 hs (fun v n hn => hsub1 v n (hsub v n hn)) (by rw [hd]; intro d hd'; cases hd')
  unfold Stable
  dsimp only
  rcases hr with ⟨he, _⟩ | ⟨op, he, _, h⟩
  · rw [he] at ha
    cases e2 : b.f s <;> rw [e2] at ha <;> first | exact ha.elim | trivial
  · rw [he] at ha
    cases e2 : b.f s with
    | exit => trivial
    | fail => rw [e2] at ha; exact ha.elim
    | tell op' =>
      rw [e2] at ha
      intro n hn
      exact (ha n).1 (hm op he n (hsub _ _ hn))

/-- The constraint `u` has been posted. -/
structure Posted (st : QSt) (u : UserCstr) : Prop where
  frames : ∀ b ∈ u.blks, ∀ fr ∈ frameOf b, fr ∈ st.frames
  nodeps : ∀ b ∈ u.blks, b.deps = [] → Stable st.dom (.blk b.x b.f)

/-- The constraint `u` on the variables `V` has been checked: for every set `S` of variables, if all the variables out of `S` are
instantiated then the blocks of one of them were stable in states where they were all instantiated already. -/
def Checked (G : Store → Prop) (V : List Nat) (u : UserCstr) (st : QSt) : Prop :=
  ∀ S : Nat → Prop, (∃ y ∈ V, ¬ S y) → (∀ y ∈ V, ¬ S y → (st.dom y).ground = true) →
    ∃ y ∈ V, ¬ S y ∧ ∀ b ∈ u.blks, b.x = y →
      ∃ s, G s ∧ Sub st.dom s ∧ (∀ y ∈ V, ¬ S y → (s y).ground = true) ∧ Stable s (.blk b.x b.f)

theorem posted_new (hc : c.Ok) (hG : StoreOk c G) {st st' : QSt} (hR : Ready c G vs st) (hn : NoSwt st.frames) {u : UserCstr} (hu : UserOk c G vs u)
    (hs : u.swt = none) {n : Nat} (hp : post c n st u = some (true, st')) (hR' : Ready c G vs st')
    (hx : Ext' (install c (beforeAdd st) u).2 st') :
    Posted st' u ∧ ∀ (V : List Nat) (S : Nat → Prop), (∃ y ∈ V, ¬ S y) → (∀ y ∈ V, ¬ S y → (st.dom y).ground = true) →
      ∃ y ∈ V, ¬ S y ∧ ∀ b ∈ u.blks, b.x = y →
        ∃ s, G s ∧ Sub st'.dom s ∧ (∀ y ∈ V, ¬ S y → (s y).ground = true) ∧ Stable s (.blk b.x b.f) := by
  obtain ⟨h1, h2, h3⟩ := post_frames hs hn hp
  have hI : Inv c G vs (fun x => (st.dom x).ground = true) (beforeAdd st) := by
    refine ⟨hR.good, hR.frames, hR.ids, hR.wired, fun x => ?_, fun x hx => hx, beforeAdd_now st⟩
    rcases hR.date x with h | h
    · exact Or.inl h
    · exact Or.inr ⟨h, Or.inl h⟩
  have hrun := instBlks_run hc hG u.blks hI hu.blks h2
  rw [h3] at hx
  refine ⟨⟨fun b hb fr hfr => ?_, fun b hb hd => ?_⟩, fun V S ⟨y, hy, hyS⟩ hg => ⟨y, hy, hyS, fun b hb hbx => ?_⟩⟩
  · rw [h1]
    exact List.mem_append.2 (Or.inr (List.mem_flatMap.2 ⟨b, hb, hfr⟩))
  · obtain ⟨s1, s2, e1, e2, e3, e4, e5, e6⟩ := hrun b hb
    exact run_nodeps hc hG (hu.blks b hb) hd e2 e1 hR'.good (fun v n hn => e6 v n (hx.sub v n hn))
  · obtain ⟨s1, s2, e1, e2, e3, e4, e5, e6⟩ := hrun b hb
    have hm := (run_mem hc hG (hu.blks b hb) e2 e1).1
    refine ⟨s1, e2, fun v n hn => hm v n (e6 v n (hx.sub v n hn)), fun z hz hzS => e5 z (hg z hz hzS), ?_⟩
    refine run_stable hc hG (hu.blks b hb) e2 e1 (e5 _ ?_)
    rw [hbx]; exact hg y hy hyS

/-- One post: the constraints posted before and the new one are checked. -/
theorem post_checked (hc : c.Ok) (hG : StoreOk c G) {st st' : QSt} (hR : Ready c G vs st) (hn : NoSwt st.frames) {u : UserCstr}
    (hu : UserOk c G vs u) (hs : u.swt = none) {n : Nat} (hp : post c n st u = some (true, st')) :
    NoSwt st'.frames ∧ Posted st' u ∧ (∀ V, Checked G V u st') ∧
    ∀ w, UserOk c G vs w → Posted st w → Posted st' w ∧ ∀ V, Checked G V w st → Checked G V w st' := by
  obtain ⟨n0, res, p1, p2, p3, p4, p5, p6, p7, p8, p9⟩ := post_ok hc hG hR u hu
  have hres : res = (true, st') := by
    have h1 := p1 (n0 + n) (by omega)
    -- the result does not depend on the fuel
    have hm : ∀ (k : Nat) (q : QSt) (b : Nat) (q' : QSt), mainLoop c k q b = some (true, q') → ∀ j, mainLoop c (k + j) q b = some (true, q') := by
      intro k
      induction k with
      | zero => intro q b q' h; cases h
      | succ k ih =>
        intro q b q' h j
        rw [show k + 1 + j = (k + j) + 1 by omega]
        unfold mainLoop at h ⊢
        generalize body c q b = r at *
        obtain ⟨ok, q1⟩ := r
        dsimp only at h ⊢
        cases ok with
        | false =>
          rw [if_pos rfl] at h
          unfold failQueue at h
          cases hq : clearQueue k { q1 with nextD := b } with
          | none => rw [hq] at h; cases h
          | some q => rw [hq] at h; cases h
        | true =>
          rw [if_neg (by simp)] at h ⊢
          split at h
          · next hc1 =>
            rw [if_pos hc1]
            split at h
            · next hc2 => rw [if_pos hc2]; exact h
            · next hc2 => rw [if_neg hc2]; exact ih _ _ _ h j
          · next hc1 => rw [if_neg hc1]; exact ih _ _ _ h j
    have h2 : post c (n0 + n) st u = some (true, st') := by
      unfold post at hp ⊢
      generalize install c (beforeAdd st) u = r at *
      obtain ⟨ok, q1⟩ := r
      dsimp only at hp ⊢
      unfold afterAdd at hp ⊢
      cases ok with
      | false =>
        rw [if_pos rfl] at hp
        unfold failQueue at hp
        cases hq : clearQueue n q1 with
        | none => rw [hq] at hp; cases hp
        | some q => rw [hq] at hp; cases hp
      | true =>
        rw [if_neg (by simp)] at hp ⊢
        cases htp : q1.tp with
        | none => rw [htp] at hp; exact hp
        | some t =>
          rw [htp] at hp
          dsimp only at hp ⊢
          rw [Nat.add_comm]
          exact hm _ _ _ _ hp n0
    rw [h2] at h1
    exact (Option.some.inj h1).symm
  rw [hres] at p2 p3 p5 p8
  obtain ⟨hR', hset⟩ := p5 rfl
  obtain ⟨f1, _, _⟩ := post_frames hs hn hp
  have hn' : NoSwt st'.frames := by
    rw [f1]
    intro fr hfr
    rcases List.mem_append.1 hfr with h1 | h1
    · exact hn fr h1
    · obtain ⟨b, _, hb⟩ := List.mem_flatMap.1 h1
      exact frameOf_noSwt b fr hb
  obtain ⟨g1, g2⟩ := posted_new hc hG hR hn hu hs hp hR' p8
  -- a block of a variable not instantiated before is stable now
  have key : ∀ w, Posted st' w → ∀ b ∈ w.blks, (st.dom b.x).ground ≠ true → Stable st'.dom (.blk b.x b.f) := by
    intro w hw b hb hgr
    by_cases hd : b.deps.isEmpty = true
    · exact hw.nodeps b hb (List.isEmpty_iff.1 hd)
    · have hfr := hw.frames b hb ⟨.blk b.x b.f, if b.optim then .date b.x else .always, b.deps⟩ (by unfold frameOf; rw [if_neg hd]; simp)
      obtain ⟨id, hid⟩ := List.mem_iff_getElem?.1 hfr
      rcases hset id _ hid with h | h | ⟨x, h, h'⟩
      · exact h
      · exact absurd h (hn' _ hfr).2
      · dsimp only at h
        split at h
        · cases h; exact absurd h' hgr
        · cases h
  have step : ∀ (w : UserCstr) (V : List Nat), Posted st' w →
      (∀ S : Nat → Prop, (∃ y ∈ V, ¬ S y) → (∀ y ∈ V, ¬ S y → (st.dom y).ground = true) →
        ∃ y ∈ V, ¬ S y ∧ ∀ b ∈ w.blks, b.x = y →
          ∃ s, G s ∧ Sub st'.dom s ∧ (∀ y ∈ V, ¬ S y → (s y).ground = true) ∧ Stable s (.blk b.x b.f)) →
      Checked G V w st' := by
    intro w V hw hold S hy hg
    by_cases hall : ∀ y ∈ V, ¬ S y → (st.dom y).ground = true
    · exact hold S hy hall
    · have : ∃ y ∈ V, ¬ S y ∧ (st.dom y).ground ≠ true := by
        apply Classical.byContradiction
        intro hne
        apply hall
        intro y hy hyS
        apply Classical.byContradiction
        intro hgy
        exact hne ⟨y, hy, hyS, hgy⟩
      obtain ⟨y, hy, hyS, hgy⟩ := this
      exact ⟨y, hy, hyS, fun b hb hbx => ⟨st'.dom, hR'.good, fun _ _ h => h, hg, key w hw b hb (by rw [hbx]; exact hgy)⟩⟩
  refine ⟨hn', g1, fun V => step u V g1 (g2 V), fun w hwu hw => ?_⟩
  have hw' : Posted st' w := by
    refine ⟨fun b hb fr hfr => ?_, fun b hb hd => ?_⟩
    · rw [f1]; exact List.mem_append.2 (Or.inl (hw.frames b hb fr hfr))
    · exact stable_watch (fct := .blk b.x b.f) (hwu.blks b hb) hR.good hR'.good p2 (by rw [hd]; intro d hd'; cases hd') (hw.nodeps b hb hd)
  refine ⟨hw', fun V hck => step w V hw' (fun S hy hg => ?_)⟩
  obtain ⟨y, hy, hyS, h⟩ := hck S hy hg
  refine ⟨y, hy, hyS, fun b hb hbx => ?_⟩
  obtain ⟨s, e1, e2, e3, e4⟩ := h b hb hbx
  exact ⟨s, e1, fun v n hn => e2 v n (p2 v n hn), e3, e4⟩

end

end Gp.Fd
