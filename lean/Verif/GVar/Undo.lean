import Verif.GVar.Grow
/-
A failure: the undo records are popped.
-/
namespace Gp.GVar

/-- The newest undo record is popped; the blocks of `F` are freed. -/
structure Popped (st st' : St) (own : Nat → Addr) (born : Nat → Nat) (u : Nat) (t : List Nat) (F : Nat → Prop) : Prop where
  val : ∀ x, st'.val x = if on st.rcd x u then (st.rcd u).save else st.val x
  undo : ∀ x, st'.undo x = if on st.rcd x u then (st.rcd u).next else st.undo x
  rcd : ∀ w, (st'.rcd w).elem = (st.rcd w).elem ∧ (st'.rcd w).save = (st.rcd w).save ∧ (st'.rcd w).next = (st.rcd w).next ∧
    (st'.rcd w).prev = if (st.rcd u).next = some w then none else (st.rcd w).prev
  gen : st'.gen = st.gen
  len : st'.len = st.len
  nb : st'.nb = st.nb
  nu : st'.nu = st.nu
  trail : st'.trail = t
  cps : st'.cps = st.cps
  live : ∀ d, st'.live d = true ↔ st.live d = true ∧ ¬ F d
  new : ∀ d, F d → u ≤ born d
  under : ∀ d, F d → (∃ d' i, own d = .cell d' i ∧ F d') ∨ ∃ a, on st.rcd a u = true ∧ own d = a ∧ (st.val a).blk = some d

theorem popped_core {st st' own born sp u t F} (h : CoreE st own born none_) (hr : Rel st sp none_) (ht : st.trail = u :: t)
    (hc : ∀ c ∈ st.cps, c ≤ t.length) (p : Popped st st' own born u t F) :
    CoreE st' own born none_ ∧ Rel st' { sp with cur := fun x => (st'.val x).abs } none_ := by
  have hs := h.sorted
  rw [ht, List.pairwise_cons] at hs
  have int : ∀ w, w ∈ t → w ∈ st.trail := fun w hw => by rw [ht]; exact List.mem_cons_of_mem _ hw
  have ltu : ∀ w, w ∈ st.trail → w < u → w ∈ t := fun w hw hl => by
    rw [ht] at hw
    rcases List.mem_cons.1 hw with k | k
    · omega
    · exact k
  have inn : ∀ x, st'.inner x ↔ st.inner x := fun x => by cases x <;> simp [St.inner, p.len]
  have okx : ∀ x, st'.okA x → st.okA x := fun x hx => by
    cases x with
    | root k => trivial
    | cell b i => exact ⟨((p.live b).1 hx.1).1, by have := hx.2; rwa [p.len] at this⟩
  have genx : ∀ x, st'.genA x = st.genA x := fun x => by cases x <;> simp [St.genA, p.gen]
  have ono : ∀ x w, on st'.rcd x w = on st.rcd x w := fun x w => on_eq (p.rcd w).1
  have T' : ∀ x, st'.T x = t.filter (on st.rcd x) := fun x => by
    unfold St.T
    rw [p.trail]
    exact List.filter_congr (fun w _ => ono x w)
  have Ton : ∀ x, on st.rcd x u = true → st.T x = u :: st'.T x := fun x hx => by
    rw [T']
    unfold St.T
    rw [ht, List.filter_cons_of_pos hx]
  have Toff : ∀ x, on st.rcd x u = false → st.T x = st'.T x := fun x hx => by
    rw [T']
    unfold St.T
    rw [ht, List.filter_cons_of_neg (by rw [hx]; simp)]
  have mapS : ∀ l : List Nat, l.map (fun w => (st'.rcd w).save) = l.map (fun w => (st.rcd w).save) := fun l =>
    List.map_congr_left fun w _ => (p.rcd w).2.1
  have von : ∀ x, on st.rcd x u = true → st.vers x = st.val x :: st'.vers x := fun x hx => by
    unfold St.vers
    rw [p.val, if_pos hx, Ton x hx, mapS]
    rfl
  have voff : ∀ x, on st.rcd x u = false → st'.vers x = st.vers x := fun x hx => by
    unfold St.vers
    rw [p.val, if_neg (by rw [hx]; simp), Toff x hx, mapS]
  have vsub : ∀ x, ∀ v ∈ st'.vers x, v ∈ st.vers x := fun x v hv => by
    cases e : on st.rcd x u with
    | true => rw [von x e]; exact List.mem_cons_of_mem _ hv
    | false => rw [← voff x e]; exact hv
  refine ⟨⟨?_, ?_, ?_, ?_, ?_, ?_, ?_, ?_, ?_, ?_, ?_⟩, ⟨?_, ?_, ?_, ?_, ?_, ?_⟩⟩
  · rw [p.trail]; exact hs.2
  · intro w hw; rw [p.trail] at hw; rw [p.nu]; exact h.lt w (int w hw)
  · intro w hw q hq
    rw [p.trail] at hw
    rw [(p.rcd w).1] at hq
    obtain ⟨k1, k2, k3, k4⟩ := h.elem w (int w hw) q hq
    refine ⟨?_, (inn _).2 k2, by rw [genx]; exact k3, k4⟩
    cases hq1 : q.1 with
    | root k => trivial
    | cell b i =>
      rw [hq1] at k1 k4
      refine ⟨(p.live b).2 ⟨k1.1, fun hf => ?_⟩, by rw [p.len]; exact k1.2⟩
      have := p.new b hf
      have := hs.1 w hw
      have : born b ≤ w := k4
      omega
  · intro x hx
    have k := h.link x (okx x hx)
    rw [p.undo]
    cases e : on st.rcd x u with
    | true =>
      rw [Ton x e] at k
      exact linked_congr (fun w _ => (p.rcd w).2.2.1) k.2
    | false =>
      rw [Toff x e] at k
      exact linked_congr (fun w _ => (p.rcd w).2.2.1) k
  · intro w hw z hz
    rw [p.trail] at hw ⊢
    rw [(p.rcd w).2.2.1] at hz
    obtain ⟨k1, k2⟩ := h.next w (int w hw) z hz
    have := hs.1 w hw
    exact ⟨ltu z k1 (by omega), k2⟩
  · intro w hw z hz
    rw [p.trail] at hw ⊢
    rw [(p.rcd w).2.2.2] at hz
    rw [(p.rcd z).2.2.1]
    split at hz
    · cases hz
    · rename_i hne
      obtain ⟨k1, k2, k3⟩ := h.prev w (int w hw) z hz
      refine ⟨?_, k2, k3⟩
      rw [ht] at k1
      rcases List.mem_cons.1 k1 with e | e
      · subst e; exact absurd k3 hne
      · exact e
  · intro x hx _ v hv
    have k := h.vers x (okx x hx) (fun k => k) v (vsub x v hv)
    refine ⟨fun e => by rw [inn x]; exact k.imp e, fun c g n e => ?_⟩
    obtain ⟨v1, v2, v3, v4, v5, v6, v7⟩ := k.arr c g n e
    refine ⟨(inn x).2 v1, (p.live c).2 ⟨v2, fun hf => ?_⟩, by rw [p.gen]; exact v3, by rw [p.len]; exact v4, v5, v6, v7⟩
    rcases p.under c hf with ⟨d', i, q1, q2⟩ | ⟨a, q1, q2, q3⟩
    · rw [v6] at q1
      subst q1
      exact ((p.live d').1 hx.1).2 q2
    · rw [v6] at q2
      subst q2
      have nd := h.nodup x (okx x hx) (fun k => k)
      rw [von x q1, List.filterMap_cons_some q3, List.nodup_cons] at nd
      exact nd.1 (List.mem_filterMap.2 ⟨v, hv, by rw [e]; rfl⟩)
  · intro x hx _
    have nd := h.nodup x (okx x hx) (fun k => k)
    cases e : on st.rcd x u with
    | true =>
      rw [von x e] at nd
      exact nd.sublist (List.Sublist.filterMap _ (List.sublist_cons_self _ _))
    | false => rw [voff x e]; exact nd
  · intro x hx _
    have af := h.after x (okx x hx) (fun k => k)
    rw [p.val]
    have go : ∀ v l, After st.rcd born v l → After st'.rcd born v l := fun v l k =>
      after_congr (fun w _ => (p.rcd w).2.1) (fun _ _ => Nat.le_refl _) (fun _ _ _ _ => Nat.le_refl _) k
    cases e : on st.rcd x u with
    | true => rw [Ton x e] at af; exact go _ _ af.2
    | false => rw [Toff x e] at af; exact go _ _ af
  · intro c hc; rw [p.nb]; exact h.lt_nb c ((p.live c).1 hc).1
  · intro c hc; rw [p.nu]; exact h.born c ((p.live c).1 hc).1
  · rw [p.nb]; exact hr.next
  · intro b hb; rw [p.len]; exact hr.len b ((p.live b).1 hb).1
  · intro b hb
    have hb' := ((p.live b).1 hb).1
    have e : on st.rcd (.cell b (sp.len b)) u = false := by
      cases q : on st.rcd (.cell b (sp.len b)) u with
      | false => rfl
      | true =>
        have : u ∈ st.T (.cell b (sp.len b)) := List.mem_filter.2 ⟨by rw [ht]; exact List.mem_cons_self, q⟩
        obtain ⟨z1, z, z2, z3⟩ := mem_T.1 this
        have := (h.elem u z1 z z2).2.1
        rw [z3] at this
        have : sp.len b + 1 < st.len b := this
        have := hr.len b hb'
        omega
    show st'.val (.cell b (sp.len b)) = match sp.dflt b with | none => Val.imp | some d => Val.term d
    rw [p.val, if_neg (by rw [e]; simp)]
    exact hr.dflt b hb'
  · intro x _ _ _; rfl
  · rw [p.cps, p.trail]
    have : ∀ (l : List (Addr → SV)) (l' : List Nat), (∀ c ∈ l', c ≤ t.length) →
        Forall₂ (fun s trb => trb ≤ st.trail.length ∧ ∀ x, st.okA x → st.inner x → ¬ none_ x →
          s x = (oldVal st.rcd x (st.trail.take (st.trail.length - trb)) (st.val x)).abs) l l' →
        Forall₂ (fun s trb => trb ≤ t.length ∧ ∀ x, st'.okA x → st'.inner x → ¬ none_ x →
          s x = (oldVal st'.rcd x (t.take (t.length - trb)) (st'.val x)).abs) l l' := by
      intro l l' hl k
      induction k with
      | nil => exact .nil
      | @cons s trb l l' k1 k2 ih =>
        have hb := hl trb (by simp)
        refine .cons ⟨hb, fun x hx hi hn => ?_⟩ (ih (fun c hc => hl c (by simp [hc])))
        rw [k1.2 x (okx x hx) ((inn x).1 hi) hn, ht]
        have et : (u :: t).take ((u :: t).length - trb) = u :: t.take (t.length - trb) := by
          rw [show (u :: t).length - trb = (t.length - trb) + 1 by simp; omega]
          rfl
        rw [et, p.val, oldVal_congr (rcd := st.rcd) (rcd' := st'.rcd) (fun w _ => ⟨ono x w, (p.rcd w).2.1⟩)]
        rfl
    exact this _ _ hc hr.sh
  · rw [p.cps]; exact hr.cps

/-- One undo record. -/
theorem untrail_core {st own born sp u t} (h : CoreE st own born none_) (hr : Rel st sp none_) (ht : st.trail = u :: t)
    (hc : ∀ c ∈ st.cps, c ≤ t.length) :
    ∃ st' c, untrail st = some st' ∧ CoreE st' own born none_ ∧ Rel st' { sp with cur := c } none_ ∧ st'.trail = t ∧ st'.cps = st.cps := by
  have hu : u ∈ st.trail := by rw [ht]; exact List.mem_cons_self
  have hs := h.sorted
  rw [ht, List.pairwise_cons] at hs
  have pn : (st.rcd u).prev = none := by
    cases e : (st.rcd u).prev with
    | none => rfl
    | some w =>
      obtain ⟨k1, k2, _⟩ := h.prev u hu w e
      rw [ht] at k1
      rcases List.mem_cons.1 k1 with k | k
      · omega
      · have := hs.1 w k; omega
  have nx : ∀ w, (st.rcd u).next = some w → t.contains w = true := fun w hw => by
    obtain ⟨k1, k2⟩ := h.next u hu w hw
    rw [ht] at k1
    rcases List.mem_cons.1 k1 with k | k
    · omega
    · simpa using k
  -- the free
  have fr : ∃ (st1 : St) (F : Nat → Prop), ((∀ p, (st.rcd u).elem = some p →
        (freeElt (st.nb + 1) false st p).map (fun s : St => { s with val := upd s.val p.1 (st.rcd u).save }) = some st1) ∧
      ((st.rcd u).elem = none → st1 = st)) ∧
      (∀ x, st1.val x = if on st.rcd x u then (st.rcd u).save else st.val x) ∧ st1.undo = st.undo ∧ st1.rcd = st.rcd ∧ st1.gen = st.gen ∧
      st1.len = st.len ∧ st1.nb = st.nb ∧ st1.nu = st.nu ∧ st1.cps = st.cps ∧ (∀ d, st1.live d = true ↔ st.live d = true ∧ ¬ F d) ∧
      (∀ d, F d → u ≤ born d) ∧
      (∀ d, F d → (∃ d' i, own d = .cell d' i ∧ F d') ∨ ∃ a, on st.rcd a u = true ∧ own d = a ∧ (st.val a).blk = some d) := by
    cases he : (st.rcd u).elem with
    | none =>
      refine ⟨st, fun _ => False, ⟨(fun p k => by cases k), fun _ => rfl⟩, fun x => ?_, rfl, rfl, rfl, rfl, rfl, rfl, rfl, fun d => by simp, fun _ k => k.elim, fun _ k => k.elim⟩
      unfold on
      rw [he]; rfl
    | some p =>
      obtain ⟨a, g⟩ := p
      obtain ⟨k1, k2, k3, k4⟩ := h.elem u hu _ he
      dsimp only at k1 k2 k3 k4
      obtain ⟨st1, F, e, f, un, bl, nf⟩ := free_spec own born false (st.nb + 1) st a g none_ h.sub k1 k3 (fun k => k) (fun _ k => k.elim) (by omega)
      have onx : ∀ x, on st.rcd x u = decide (a = x) := fun x => by unfold on; rw [he]
      have r : st1.rcd = st.rcd := funext fun w => f.rc2 w (fun _ k => by cases k)
      have ud : st1.undo = st.undo := funext fun x => f.un2 x (fun k => by cases k)
      have af := h.after a k1 (fun k => k)
      have Ta : st.T a = u :: t.filter (on st.rcd a) := by
        unfold St.T
        rw [ht, List.filter_cons_of_pos (by rw [onx]; simp)]
      rw [Ta] at af
      refine ⟨{ st1 with val := upd st1.val a (st.rcd u).save }, F,
        ⟨(fun p k => by injection k with k; subst k; simp only [e, Option.map_some]), (fun k => by cases k)⟩, fun x => ?_, ud, r, f.gen, f.len, f.nb, f.nu, f.cps, f.live, ?_, ?_⟩
      · rw [onx]
        show upd st1.val a _ x = _
        by_cases q : x = a
        · subst q; rw [upd_same]; simp
        · rw [upd_ne _ _ q, f.val, if_neg (by simpa using fun k : a = x => q k.symm)]
      · intro d hd
        cases hv : st.val a with
        | term y => exact absurd hd (nf (by rw [hv]; rfl) d)
        | imp => exact absurd hd (nf (by rw [hv]; rfl) d)
        | arr c g' n =>
          have := (bl c g' n hv d hd).1
          have := af.1 c (by rw [hv]; rfl)
          omega
      · intro d hd
        cases hv : st.val a with
        | term y => exact absurd hd (nf (by rw [hv]; rfl) d)
        | imp => exact absurd hd (nf (by rw [hv]; rfl) d)
        | arr c g' n =>
          rcases (bl c g' n hv d hd).2 with q | q
          · refine .inr ⟨a, by rw [onx]; simp, ?_, by rw [hv, q]; rfl⟩
            rw [q]
            exact ((h.vers a k1 (fun k => k) _ List.mem_cons_self).arr c g' n hv).2.2.2.2.2.1
          · exact .inl q
  obtain ⟨st1, F, e1, a1, a2, a3, a4, a5, a6, a7, a8, a9, a10, a11⟩ := fr
  have key : ∃ st', untrail st = some st' ∧ Popped st st' own born u t F := by
    unfold untrail
    rw [ht]
    dsimp only
    have rcN : ∀ w, (st.rcd u).next = none → (st1.rcd w).elem = (st.rcd w).elem ∧ (st1.rcd w).save = (st.rcd w).save ∧
        (st1.rcd w).next = (st.rcd w).next ∧ (st1.rcd w).prev = if (st.rcd u).next = some w then none else (st.rcd w).prev := by
      intro w hn
      rw [a3, hn]; exact ⟨rfl, rfl, rfl, rfl⟩
    have rcS : ∀ z, (st.rcd u).next = some z → ∀ w, (upd st1.rcd z { st1.rcd z with prev := none } w).elem = (st.rcd w).elem ∧
        (upd st1.rcd z { st1.rcd z with prev := none } w).save = (st.rcd w).save ∧
        (upd st1.rcd z { st1.rcd z with prev := none } w).next = (st.rcd w).next ∧
        (upd st1.rcd z { st1.rcd z with prev := none } w).prev = if (st.rcd u).next = some w then none else (st.rcd w).prev := by
      intro z hn w
      rw [a3, hn]
      by_cases q : w = z
      · subst q
        rw [upd_same, if_pos rfl]; exact ⟨rfl, rfl, rfl, rfl⟩
      · rw [upd_ne _ _ q, if_neg (fun k => q (by injection k with k; exact k.symm))]; exact ⟨rfl, rfl, rfl, rfl⟩
    have unS : ∀ p, (st.rcd u).elem = some p → ∀ x, upd st1.undo p.1 (st.rcd u).next x =
        if on st.rcd x u then (st.rcd u).next else st.undo x := by
      intro p he x
      unfold on
      rw [he, a2]
      unfold upd
      by_cases q : x = p.1
      · rw [if_pos q]; simp [q]
      · rw [if_neg q, if_neg (by simpa using fun k : p.1 = x => q k.symm)]
    have unN : (st.rcd u).elem = none → ∀ x, st1.undo x = if on st.rcd x u then (st.rcd u).next else st.undo x := by
      intro he x
      unfold on
      rw [he, a2]; rfl
    cases he : (st.rcd u).elem with
    | none =>
      have := (e1.2 he).symm
      subst this
      dsimp only
      cases hn : (st.rcd u).next with
      | none =>
        dsimp only
        rw [pn]
        exact ⟨_, rfl, ⟨a1, unN he, fun w => rcN w hn, a4, a5, a6, a7, rfl, a8, a9, a10, a11⟩⟩
      | some z =>
        dsimp only
        rw [if_pos (nx z hn)]
        dsimp only
        rw [pn]
        exact ⟨_, rfl, ⟨a1, unN he, rcS z hn, a4, a5, a6, a7, rfl, a8, a9, a10, a11⟩⟩
    | some p =>
      dsimp only
      rw [e1.1 p he]
      dsimp only
      have un := unS p he
      cases hn : (st.rcd u).next with
      | none =>
        dsimp only
        rw [pn]
        refine ⟨_, rfl, ⟨a1, ?_, fun w => rcN w hn, a4, a5, a6, a7, rfl, a8, a9, a10, a11⟩⟩
        rw [hn] at un ⊢
        exact un
      | some z =>
        dsimp only
        rw [if_pos (nx z hn)]
        dsimp only
        rw [pn]
        refine ⟨_, rfl, ⟨a1, ?_, rcS z hn, a4, a5, a6, a7, rfl, a8, a9, a10, a11⟩⟩
        rw [hn] at un ⊢
        exact un
  obtain ⟨st', e, p⟩ := key
  obtain ⟨c1, c2⟩ := popped_core h hr ht hc p
  exact ⟨st', _, e, c1, c2, p.trail, p.cps⟩

theorem untrailN_core {own born} : ∀ (k : Nat) (st : St) (sp : Spec), CoreE st own born none_ → Rel st sp none_ → k ≤ st.trail.length →
    (∀ c ∈ st.cps, c ≤ st.trail.length - k) →
    ∃ st' c, untrailN k st = some st' ∧ CoreE st' own born none_ ∧ Rel st' { sp with cur := c } none_ ∧ st'.trail = st.trail.drop k ∧
      st'.cps = st.cps
  | 0, st, sp, h, hr, _, _ => ⟨st, sp.cur, rfl, h, hr, rfl, rfl⟩
  | k + 1, st, sp, h, hr, hk, hc => by
    cases ht : st.trail with
    | nil => rw [ht] at hk; simp at hk
    | cons u t =>
      rw [ht] at hk hc
      obtain ⟨st1, c1, e1, h1, hr1, t1, p1⟩ := untrail_core h hr ht (fun c q => by have := hc c q; simp at this; omega)
      obtain ⟨st2, c2, e2, h2, hr2, t2, p2⟩ := untrailN_core k st1 _ h1 hr1 (by rw [t1]; simpa using hk)
        (fun c q => by rw [p1] at q; have := hc c q; rw [t1]; simp at this; omega)
      refine ⟨st2, c2, ?_, h2, hr2, ?_, p2.trans p1⟩
      · unfold untrailN
        rw [e1]
        exact e2
      · rw [t2, t1]; rfl

end Gp.GVar
