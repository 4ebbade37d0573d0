import Verif.Fd.QueueExec
/- The main loop of the propagation, the clearing of the queue, the posting of a constraint. -/
namespace Gp.Fd

open Gp.FdRange

/-- The queue is empty: no variable is marked and TP is null. -/
structure Clean (st : QSt) : Prop where
  notIn : ∀ x, st.inQ x = false
  tp : st.tp = none

/-- The fields which are not those of the queue are the same. -/
structure Same (st st' : QSt) : Prop where
  dom : st'.dom = st.dom
  date : st'.date = st.date
  chains : st'.chains = st.chains
  frames : st'.frames = st.frames
  now : st'.now = st.now

/-- What the propagation does to a state, apart from the queue. -/
structure Ext' (st st' : QSt) : Prop where
  sub : Sub st'.dom st.dom
  ground : ∀ x, (st.dom x).ground = true → (st'.dom x).ground = true
  now : st'.now = st.now
  frames : ∀ (id : Nat) (fr : Frame), st.frames[id]? = some fr →
    ∃ fr', st'.frames[id]? = some fr' ∧ fr'.fct = fr.fct ∧ fr'.deps = fr.deps ∧ (fr'.opt = fr.opt ∨ fr'.opt = .never)
  chains : ∀ x i id, id ∈ st.chains x i → id ∈ st'.chains x i

theorem Ext.weak {st st' : QSt} (h : Ext st st') : Ext' st st' := ⟨h.sub, h.ground, h.now, h.frames, h.chains⟩

theorem Same.ext {st st' : QSt} (h : Same st st') : Ext' st st' :=
  ⟨fun v n hn => (by rw [h.dom] at hn; exact hn), fun x hx => (by rw [h.dom]; exact hx), h.now,
    fun id fr hf => ⟨fr, by rw [h.frames]; exact hf, rfl, rfl, Or.inl rfl⟩, fun x i id hi => by rw [h.chains]; exact hi⟩

theorem Ext'.trans {a b d : QSt} (h : Ext' a b) (h' : Ext' b d) : Ext' a d := by
  refine ⟨fun v n hn => h.sub v n (h'.sub v n hn), fun x hx => h'.ground x (h.ground x hx), h'.now.trans h.now,
    fun id fr hfr => ?_, fun x i id hi => h'.chains x i id (h.chains x i id hi)⟩
  obtain ⟨fr1, e1, e2, e3, e4⟩ := h.frames id fr hfr
  obtain ⟨fr2, d1, d2, d3, d4⟩ := h'.frames id fr1 e1
  refine ⟨fr2, d1, d2.trans e2, d3.trans e3, ?_⟩
  rcases d4 with d4 | d4
  · rw [d4]; exact e4
  · exact Or.inr d4

section
variable {c : Cfg} {G : Store → Prop} {vs : List Nat} {g0 : Nat → Prop}

theorem Inv.same {st st' : QSt} (h : Inv c G vs g0 st) (hs : Same st st') : Inv c G vs g0 st' := by
  obtain ⟨d1, d2, d3, d4, d5⟩ := hs
  exact ⟨by rw [d1]; exact h.good, by rw [d4]; exact h.frames, by rw [d3, d4]; exact h.ids, by rw [d1, d3, d4]; exact h.wired,
    by rw [d1, d2, d5]; exact h.date, by rw [d1]; exact h.ground, by rw [d5]; exact h.now⟩

theorem KeepSt.same {D : Nat → Nat → Prop} {st st' : QSt} (h : KeepSt G D st) (hs : Same st st') : KeepSt G D st' :=
  ⟨h.inh, by rw [hs.dom]; exact h.below, by rw [hs.frames]; exact h.frames⟩

/-! ### Clear_Queue -/

theorem clearLoop_ok : ∀ (rest : List Nat) (st : QSt) (bp : Nat), (bp :: rest).Nodup → st.tp = (bp :: rest).getLast? →
    (∀ a b l1 l2, bp :: rest = l1 ++ a :: b :: l2 → st.next a = b) → (∀ x, st.inQ x = true → x ∈ bp :: rest) →
    ∃ st', Same st st' ∧ Clean st' ∧ ∀ n, rest.length < n → clearLoop n st bp = some st' := by
  intro rest
  induction rest with
  | nil =>
    intro st bp _ htp _ hm
    refine ⟨{ st with mask := upd st.mask bp Ev.empty, keep := upd st.keep bp false, tp := none }, ⟨rfl, rfl, rfl, rfl, rfl⟩, ⟨fun x => ?_, rfl⟩, ?_⟩
    · unfold QSt.inQ
      dsimp only
      by_cases hx : x = bp
      · rw [hx, upd_same, upd_same]; rfl
      · rw [upd_ne _ _ hx, upd_ne _ _ hx]
        cases hq : st.inQ x with
        | false => exact hq
        | true => exact absurd (by simpa using hm x hq) hx
    · intro n hn
      cases n with
      | zero => simp at hn
      | succ n =>
        unfold clearLoop
        dsimp only
        rw [if_pos (by rw [htp]; rfl)]
  | cons y rest ih =>
    intro st bp hnd htp hl hm
    have hne : some bp ≠ st.tp := by
      rw [htp]
      intro hc
      have : bp ∈ y :: rest := by
        have : (bp :: y :: rest).getLast? = (y :: rest).getLast? := by simp [List.getLast?_cons]
        rw [this] at hc
        exact List.mem_of_getLast? hc.symm
      exact (List.nodup_cons.1 hnd).1 this
    have hnext : st.next bp = y := hl bp y [] rest rfl
    obtain ⟨st', h1, h2, h3⟩ := ih { st with mask := upd st.mask bp Ev.empty, keep := upd st.keep bp false } y (List.nodup_cons.1 hnd).2
      (by dsimp only; rw [htp]; simp [List.getLast?_cons])
      (fun a b l1 l2 h => hl a b (bp :: l1) l2 (by rw [h]; rfl))
      (fun x hx => by
        unfold QSt.inQ at hx
        dsimp only at hx
        by_cases hxb : x = bp
        · rw [hxb, upd_same, upd_same] at hx; cases hx
        · rw [upd_ne _ _ hxb, upd_ne _ _ hxb] at hx
          rcases List.mem_cons.1 (hm x hx) with h | h
          · exact absurd h hxb
          · exact h)
    refine ⟨st', ⟨h1.dom, h1.date, h1.chains, h1.frames, h1.now⟩, h2, fun n hn => ?_⟩
    cases n with
    | zero => simp at hn
    | succ n =>
      unfold clearLoop
      dsimp only
      rw [if_neg hne, hnext]
      exact h3 n (by simp at hn; omega)

/-- A failure empties the queue. -/
theorem failQueue_ok {st : QSt} {q : List Nat} (hq : Q st q) (hd : ∀ h, q.head? = some h → st.nextD = h) :
    ∃ st', Same st st' ∧ Clean st' ∧ ∀ n, q.length ≤ n → failQueue n st = some (false, st') := by
  cases q with
  | nil =>
    have htp : st.tp = none := hq.tp
    refine ⟨st, ⟨rfl, rfl, rfl, rfl, rfl⟩, ⟨fun x => ?_, htp⟩, fun n _ => ?_⟩
    · cases h : st.inQ x with
      | false => rfl
      | true => exact absurd ((hq.mem x).1 h) (by simp)
    · unfold failQueue clearQueue
      rw [htp]; rfl
  | cons bp rest =>
    obtain ⟨st', h1, h2, h3⟩ := clearLoop_ok rest st bp hq.nodup hq.tp hq.links (fun x hx => (hq.mem x).1 hx)
    refine ⟨st', h1, h2, fun n hn => ?_⟩
    have htp : ∃ t, st.tp = some t := by
      rw [hq.tp, List.getLast?_cons]; exact ⟨_, rfl⟩
    obtain ⟨t, ht⟩ := htp
    unfold failQueue clearQueue
    rw [ht, hd bp rfl]
    dsimp only
    rw [h3 n (by simp at hn; omega)]; rfl

/-! ### The body of the main loop -/

theorem body_ok (hc : c.Ok) (hG : StoreOk c G) {st : QSt} {bp : Nat} {q0 : List Nat} (hI : Inv c G vs g0 st) (hq : Q st (bp :: q0))
    (hw : Wake g0 st (fun _ => False)) (hk : ∀ x, st.keep x = false) :
    ((body c st bp).1 = false → Ext' st (body c st bp).2 ∧ (∃ q1, Q (body c st bp).2 (bp :: q1)) ∧ ∀ D, ¬ KeepSt G D st) ∧
    ((body c st bp).1 = true → Ext' st (body c st bp).2 ∧ Inv c G vs g0 (body c st bp).2 ∧ Wake g0 (body c st bp).2 (fun _ => False) ∧
      (∀ x, (body c st bp).2.keep x = false) ∧ (∀ D, KeepSt G D st → KeepSt G D (body c st bp).2) ∧
      ∃ q1, (bp :: q1).Nodup ∧ (body c st bp).2.tp = (bp :: q1).getLast? ∧
        (∀ a b l1 l2, bp :: q1 = l1 ++ a :: b :: l2 → (body c st bp).2.next a = b) ∧
        (∀ x, x ≠ bp → ((body c st bp).2.inQ x = true ↔ x ∈ q1)) ∧
        (meas vs (body c st bp).2 < meas vs st ∨
          (meas vs (body c st bp).2 = meas vs st ∧ ((body c st bp).2.mask bp).any = false ∧ q1 = q0))) := by
  have hI0 : Inv c G vs g0 { st with mask := upd st.mask bp Ev.empty, keep := upd st.keep bp true } :=
    hI.same ⟨rfl, rfl, rfl, rfl, rfl⟩
  have hq0 : Q { st with mask := upd st.mask bp Ev.empty, keep := upd st.keep bp true } (bp :: q0) := by
    refine ⟨hq.nodup, hq.tp, hq.links, fun x => ?_⟩
    unfold QSt.inQ
    dsimp only
    by_cases hx : x = bp
    · rw [hx, upd_same, upd_same]; simp [Ev.any]
    · rw [upd_ne _ _ hx, upd_ne _ _ hx]; exact hq.mem x
  have hw0 : Wake g0 { st with mask := upd st.mask bp Ev.empty, keep := upd st.keep bp true }
      (fun j => (∃ i ∈ allBits, (st.mask bp).bit i = true ∧ j ∈ st.chains bp i) ∨ False) := by
    intro j fr h
    rcases hw j fr h with h' | h' | ⟨x, i, h1, h2⟩ | h'
    · exact Or.inl h'
    · exact Or.inr (Or.inl h')
    · by_cases hx : x = bp
      · rw [hx] at h1 h2
        refine Or.inr (Or.inr (Or.inr (Or.inl ⟨i, ?_, h1, h2⟩)))
        match i with
        | 0 => decide
        | 1 => decide
        | 2 => decide
        | 3 => decide
        | 4 => decide
      · refine Or.inr (Or.inr (Or.inl ⟨x, i, ?_, h2⟩))
        dsimp only
        rw [upd_ne _ _ hx]; exact h1
    · exact h'.elim
  have hs := bitsLoop_step hc hG bp (st.mask bp) allBits hI0
  have hm0 : meas vs { st with mask := upd st.mask bp Ev.empty, keep := upd st.keep bp true } = meas vs st := rfl
  have hsame0 : Same st { st with mask := upd st.mask bp Ev.empty, keep := upd st.keep bp true } := ⟨rfl, rfl, rfl, rfl, rfl⟩
  have hmb : ({ st with mask := upd st.mask bp Ev.empty, keep := upd st.keep bp true } : QSt).mask bp = Ev.empty := upd_same _ _ _
  have hkb : ({ st with mask := upd st.mask bp Ev.empty, keep := upd st.keep bp true } : QSt).keep = upd st.keep bp true := rfl
  unfold body
  dsimp only
  generalize ({ st with mask := upd st.mask bp Ev.empty, keep := upd st.keep bp true } : QSt) = st0 at *
  generalize hr : bitsLoop c bp (st.mask bp) st0 allBits = r at *
  obtain ⟨ok, st1⟩ := r
  obtain ⟨hs, hw1⟩ := hs
  obtain ⟨q', hg⟩ := hs.queue _ hq0
  obtain ⟨t, ht⟩ := hg.pre
  cases ok with
  | false =>
    simp only [Bool.false_eq_true, if_false]
    refine ⟨fun _ => ⟨hsame0.ext.trans hs.ext.weak, ⟨q0 ++ t, ?_⟩, fun D hD => ?_⟩, fun h => (by cases h)⟩
    · have := hg.isQ; rw [← ht] at this; exact this
    · have := (hs.sound D trivial (hD.same hsame0)).1
      cases this
  | true =>
    simp only [if_true]
    refine ⟨fun h => (by cases h), fun _ => ?_⟩
    have hsame2 : Same st1 { st1 with keep := upd st1.keep bp false } := ⟨rfl, rfl, rfl, rfl, rfl⟩
    have hchains : ∀ i, st0.chains bp i = st.chains bp i := fun i => by rw [hsame0.chains]
    have hkeep : st1.keep = upd st.keep bp true := hs.ext.keep.trans hkb
    refine ⟨(hsame0.ext.trans hs.ext.weak).trans hsame2.ext, (hs.inv rfl).same hsame2, ?_, ?_, ?_, q0 ++ t, ?_, ?_, ?_, ?_, ?_⟩
    · intro j fr h
      exact hw1 (fun _ => False) (by simpa only [hchains] using hw0) rfl j fr h
    · intro x
      show upd st1.keep bp false x = false
      rw [hkeep]
      by_cases hx : x = bp
      · rw [hx, upd_same]
      · rw [upd_ne _ _ hx, upd_ne _ _ hx]; exact hk x
    · intro D hD
      exact ((hs.sound D trivial (hD.same hsame0)).2).same hsame2
    · have := hg.isQ.nodup; rw [← ht] at this; exact this
    · have := hg.isQ.tp; rw [← ht] at this; exact this
    · have := hg.isQ.links; rw [← ht] at this; exact this
    · intro x hx
      have := hg.isQ.mem x
      rw [← ht] at this
      unfold QSt.inQ at this ⊢
      show ((st1.mask x).any || upd st1.keep bp false x) = true ↔ _
      rw [upd_ne _ _ hx, this]
      simp [hx]
    · rcases hs.meas rfl with h | ⟨h1, h2, h3⟩
      · exact Or.inl (by rw [hm0] at h; exact h)
      · refine Or.inr ⟨h1.trans hm0, ?_, ?_⟩
        · show (st1.mask bp).any = false
          rw [h2, hmb]; rfl
        · have hnd := hg.isQ.nodup
          have hmem := hg.isQ.mem
          rw [← ht] at hnd hmem
          cases t with
          | nil => simp
          | cons y t =>
            exfalso
            have h4 : y ∈ bp :: q0 := by
              have h5 := (hmem y).2 (by simp)
              refine (hq0.mem y).1 ?_
              unfold QSt.inQ at h5 ⊢
              rw [h2, hs.ext.keep] at h5
              exact h5
            rw [List.nodup_append] at hnd
            exact hnd.2.2 y h4 y (by simp) rfl

/-! ### The main loop -/

/-- A correct result of the propagation from `st`. -/
structure Done (c : Cfg) (G : Store → Prop) (vs : List Nat) (g0 : Nat → Prop) (st : QSt) (res : Bool × QSt) : Prop where
  ext : Ext' st res.2
  clean : Clean res.2
  inv : res.1 = true → Inv c G vs g0 res.2
  settled : res.1 = true → ∀ (id : Nat) (fr : Frame), res.2.frames[id]? = some fr → Stable res.2.dom fr.fct ∨ Off g0 fr
  sound : ∀ D, KeepSt G D st → res.1 = true ∧ KeepSt G D res.2

theorem Clean.settled {st : QSt} (h : Clean st) (hw : Wake g0 st (fun _ => False)) (id : Nat) (fr : Frame)
    (hf : st.frames[id]? = some fr) : Stable st.dom fr.fct ∨ Off g0 fr := by
  rcases hw id fr hf with h' | h' | ⟨x, i, h1, _⟩ | h'
  · exact Or.inl h'
  · exact Or.inr h'
  · have := h.notIn x
    unfold QSt.inQ at this
    rw [(any_iff _).2 ⟨i, h1⟩] at this
    cases this
  · exact h'.elim

theorem mainLoop_ok (hc : c.Ok) (hG : StoreOk c G) : ∀ (m k : Nat) (st : QSt) (bp : Nat) (q0 : List Nat), meas vs st = m → q0.length = k →
    Inv c G vs g0 st → Q st (bp :: q0) → Wake g0 st (fun _ => False) → (∀ x, st.keep x = false) →
    ∃ n0 res, Done c G vs g0 st res ∧ ∀ n, n0 ≤ n → mainLoop c n st bp = some res := by
  intro m
  induction m using Nat.strongRecOn with
  | ind m ihm =>
    intro k
    induction k using Nat.strongRecOn with
    | ind k ihk =>
      intro st bp q0 hm hk hI hq hw hkeep
      obtain ⟨hF, hT⟩ := body_ok hc hG hI hq hw hkeep
      have hstep : ∀ n, mainLoop c (n + 1) st bp =
          (if (body c st bp).1 = false then failQueue n { (body c st bp).2 with nextD := bp }
          else if ((body c st bp).2.mask bp).any = false then
            if some bp = (body c st bp).2.tp then some (true, { (body c st bp).2 with tp := none })
            else mainLoop c n (body c st bp).2 ((body c st bp).2.next bp)
          else mainLoop c n (body c st bp).2 bp) := fun n => rfl
      generalize hr : body c st bp = r at *
      obtain ⟨ok, st1⟩ := r
      dsimp only at hF hT hstep
      cases ok with
      | false =>
        obtain ⟨e1, ⟨q1, hq1⟩, e3⟩ := hF rfl
        have hq2 : Q { st1 with nextD := bp } (bp :: q1) := hq1.congr rfl rfl rfl rfl
        obtain ⟨st2, h1, h2, h3⟩ := failQueue_ok hq2 (fun h hh => by simpa using hh)
        refine ⟨(bp :: q1).length + 1, (false, st2), ⟨(e1.trans (⟨h1.dom, h1.date, h1.chains, h1.frames, h1.now⟩ : Same st1 st2).ext), h2,
          fun h => (by cases h), fun h => (by cases h), fun D hD => absurd hD (e3 D)⟩, fun n hn => ?_⟩
        cases n with
        | zero => omega
        | succ n =>
          rw [hstep, if_pos rfl]
          exact h3 n (by omega)
      | true =>
        obtain ⟨e1, e2, e3, e4, e5, q1, f1, f2, f3, f4, f5⟩ := hT rfl
        cases hmb : (st1.mask bp).any with
        | true =>
          have hq1 : Q st1 (bp :: q1) := by
            refine ⟨f1, f2, f3, fun x => ?_⟩
            by_cases hx : x = bp
            · rw [hx]; simp [QSt.inQ, hmb]
            · rw [f4 x hx]; simp [hx]
          have hlt : meas vs st1 < m := by
            rcases f5 with h | ⟨_, h, _⟩
            · omega
            · rw [hmb] at h; cases h
          obtain ⟨n0, res, hd, hn⟩ := ihm _ hlt _ st1 bp q1 rfl rfl e2 hq1 e3 e4
          refine ⟨n0 + 1, res, ⟨e1.trans hd.ext, hd.clean, hd.inv, hd.settled, fun D hD => hd.sound D (e5 D hD)⟩, fun n hle => ?_⟩
          cases n with
          | zero => omega
          | succ n =>
            rw [hstep, if_neg (by simp), if_neg (by rw [hmb]; simp)]
            exact hn n (by omega)
        | false =>
          cases q1 with
          | nil =>
            have hcl : Clean { st1 with tp := none } := by
              refine ⟨fun x => ?_, rfl⟩
              show st1.inQ x = false
              by_cases hx : x = bp
              · rw [hx]; simp [QSt.inQ, hmb, e4 bp]
              · cases h : st1.inQ x with
                | false => rfl
                | true => exact absurd ((f4 x hx).1 h) (by simp)
            have hs : Same st1 { st1 with tp := none } := ⟨rfl, rfl, rfl, rfl, rfl⟩
            refine ⟨1, (true, { st1 with tp := none }), ⟨e1.trans hs.ext, hcl, fun _ => e2.same hs, fun _ => hcl.settled e3,
              fun D hD => ⟨rfl, (e5 D hD).same hs⟩⟩, fun n hn => ?_⟩
            cases n with
            | zero => omega
            | succ n =>
              rw [hstep, if_neg (by simp), if_pos hmb, if_pos (by rw [f2]; rfl)]
          | cons y q2 =>
            have hnext : st1.next bp = y := f3 bp y [] q2 rfl
            have hbp : bp ∉ y :: q2 := (List.nodup_cons.1 f1).1
            have htp' : st1.tp = (y :: q2).getLast? := by rw [f2]; simp [List.getLast?_cons]
            have htp : some bp ≠ st1.tp := by
              rw [htp']
              intro hcc
              exact hbp (List.mem_of_getLast? hcc.symm)
            have hq1 : Q st1 (y :: q2) := by
              refine ⟨(List.nodup_cons.1 f1).2, htp', fun a b l1 l2 h => f3 a b (bp :: l1) l2 (by rw [h]; rfl), fun x => ?_⟩
              by_cases hx : x = bp
              · rw [hx]
                refine ⟨fun h => ?_, fun h => absurd h hbp⟩
                simp [QSt.inQ, hmb, e4 bp] at h
              · exact f4 x hx
            have hres : ∃ n0 res, Done c G vs g0 st1 res ∧ ∀ n, n0 ≤ n → mainLoop c n st1 y = some res := by
              rcases f5 with h | ⟨h1, _, h3⟩
              · exact ihm _ (by omega) _ st1 y q2 rfl rfl e2 hq1 e3 e4
              · exact ihk q2.length (by rw [← hk, ← h3]; simp) st1 y q2 (by omega) rfl e2 hq1 e3 e4
            obtain ⟨n0, res, hd, hn⟩ := hres
            refine ⟨n0 + 1, res, ⟨e1.trans hd.ext, hd.clean, hd.inv, hd.settled, fun D hD => hd.sound D (e5 D hD)⟩, fun n hle => ?_⟩
            cases n with
            | zero => omega
            | succ n =>
              rw [hstep, if_neg (by simp), if_pos hmb, if_neg htp, hnext]
              exact hn n (by omega)

/-! ### Posting a constraint -/

theorem instSwt_step (hc : c.Ok) (hG : StoreOk c G) {st : QSt} (hI : Inv c G vs g0 st) (f : Store → Option Case)
    (deps : List (Nat × Fin 5)) (hf : SwtOk c G vs f deps) :
    Ext st (instSwt c st f deps).2 ∧ (∀ q, Q st q → ∃ q', Grow st q (instSwt c st f deps).2 q') ∧
    ((instSwt c st f deps).1 = true → Inv c G vs g0 (instSwt c st f deps).2) ∧
    (∀ R, Wake g0 st R → (instSwt c st f deps).1 = true → Wake g0 (instSwt c st f deps).2 R) ∧
    (∀ D, KeepFct G D (.swt f) → KeepSt G D st → (instSwt c st f deps).1 = true ∧ KeepSt G D (instSwt c st f deps).2) := by
  unfold instSwt
  by_cases hd : deps.isEmpty = true
  · rw [if_pos hd]
    cases he : f st.dom with
    | none =>
      have h : Step c G vs g0 (fun _ => True) st (true, st) := Step.none hI
      exact ⟨h.ext, h.queue, h.inv, h.wake, fun D _ hk => h.sound D trivial hk⟩
    | some k =>
      have h := runCase_step hc hG hI k (hf.cases _ _ he)
      exact ⟨h.ext, h.queue, h.inv, h.wake, fun D hK hk => h.sound D (hK st.dom k hI.good hk.below he) hk⟩
  · rw [if_neg hd]
    dsimp only
    obtain ⟨e1, e2, e3, e4, e5, e6, e7, e8, e9, e10⟩ := frame_step hI (.swt f) .always deps hf
    generalize hst : addDeps (createFrame st (.swt f) .always deps) deps st.frames.length = st1 at *
    have h0 : st1.frames[st.frames.length]? = some ⟨.swt f, .always, deps⟩ := by rw [e9]; simp
    have hs := exec_step hc hG e3 h0
    refine ⟨e1.trans hs.1.ext, fun q hq => ?_, hs.1.inv, fun R hw hok => hs.2 R (e4 R hw) hok, fun D hK hk => hs.1.sound D trivial (e5 D hK hk)⟩
    obtain ⟨q', hq'⟩ := e2 q hq
    obtain ⟨q'', hq''⟩ := hs.1.queue q' hq'.isQ
    exact ⟨q'', hq'.trans hq''⟩

/-- A user constraint whose blocks and switch are correct. -/
structure UserOk (c : Cfg) (G : Store → Prop) (vs : List Nat) (u : UserCstr) : Prop where
  blks : ∀ b ∈ u.blks, FOk c G vs b.x b.f b.deps
  swt : ∀ f deps, u.swt = some (f, deps) → SwtOk c G vs f deps

/-- The values `D` are kept by the constraint. -/
structure KeepUser (G : Store → Prop) (D : Nat → Nat → Prop) (u : UserCstr) : Prop where
  blks : ∀ b ∈ u.blks, KeepBlk G D b.x b.f
  swt : ∀ f deps, u.swt = some (f, deps) → KeepFct G D (.swt f)

theorem install_step (hc : c.Ok) (hG : StoreOk c G) {st : QSt} (hI : Inv c G vs g0 st) (u : UserCstr) (hu : UserOk c G vs u) :
    Ext st (install c st u).2 ∧ (∀ q, Q st q → ∃ q', Grow st q (install c st u).2 q') ∧
    ((install c st u).1 = true → Inv c G vs g0 (install c st u).2) ∧
    (∀ R, Wake g0 st R → (install c st u).1 = true → Wake g0 (install c st u).2 R) ∧
    (∀ D, KeepUser G D u → KeepSt G D st → (install c st u).1 = true ∧ KeepSt G D (install c st u).2) := by
  have h1 := instBlks_step hc hG u.blks hI hu.blks
  unfold install
  generalize hr : instBlks c st u.blks = r at *
  obtain ⟨ok, st1⟩ := r
  cases ok with
  | false =>
    exact ⟨h1.ext, h1.queue, h1.inv, h1.wake, fun D hK hk => h1.sound D hK.blks hk⟩
  | true =>
    simp only [if_true]
    cases hsw : u.swt with
    | none => exact ⟨h1.ext, h1.queue, h1.inv, h1.wake, fun D hK hk => h1.sound D hK.blks hk⟩
    | some p =>
      obtain ⟨f, deps⟩ := p
      dsimp only
      obtain ⟨e1, e2, e3, e4, e5⟩ := instSwt_step hc hG (h1.inv rfl) f deps (hu.swt f deps hsw)
      refine ⟨h1.ext.trans e1, fun q hq => ?_, e3, fun R hw => e4 R (h1.wake R hw rfl), fun D hK hk => e5 D (hK.swt f deps hsw) (h1.sound D hK.blks hk).2⟩
      obtain ⟨q', hq'⟩ := h1.queue q hq
      obtain ⟨q'', hq''⟩ := e2 q' hq'.isQ
      exact ⟨q'', hq'.trans hq''⟩

/-- The state between two constraints. -/
structure Ready (c : Cfg) (G : Store → Prop) (vs : List Nat) (st : QSt) : Prop where
  good : G st.dom
  frames : ∀ (id : Nat) (fr : Frame), st.frames[id]? = some fr → FctOk c G vs fr.fct fr.deps
  ids : ∀ x i id, id ∈ st.chains x i → id < st.frames.length
  wired : ∀ (id : Nat) (fr : Frame), st.frames[id]? = some fr → ∀ d ∈ fr.deps, id ∈ st.chains d.1 d.2 ∨ (st.dom d.1).ground = true
  date : ∀ x, st.date x = 1#64 ∨ (st.dom x).ground = true
  notIn : ∀ x, st.inQ x = false
  settled : ∀ (id : Nat) (fr : Frame), st.frames[id]? = some fr →
    Stable st.dom fr.fct ∨ Off (fun x => (st.dom x).ground = true) fr

theorem beforeAdd_now (st : QSt) : (beforeAdd st).now ≠ 0#64 := by
  unfold beforeAdd
  dsimp only
  split
  · next h =>
    intro hc
    have : st.now + 2#64 = st.now + 1#64 + 1#64 := by rw [BitVec.add_assoc]; rfl
    rw [this, h] at hc
    exact absurd hc (by decide)
  · next h => exact h

theorem post_ok (hc : c.Ok) (hG : StoreOk c G) {st : QSt} (hR : Ready c G vs st) (u : UserCstr) (hu : UserOk c G vs u) :
    ∃ n0 res, (∀ n, n0 ≤ n → post c n st u = some res) ∧ Sub res.2.dom st.dom ∧
      (∀ x, (st.dom x).ground = true → (res.2.dom x).ground = true) ∧ Clean res.2 ∧
      (res.1 = true → Ready c G vs res.2 ∧ ∀ (id : Nat) (fr : Frame), res.2.frames[id]? = some fr →
        Stable res.2.dom fr.fct ∨ Off (fun x => (st.dom x).ground = true) fr) ∧
      (∀ D, KeepUser G D u → KeepSt G D st → res.1 = true ∧ KeepSt G D res.2) ∧
      Ext (beforeAdd st) (install c (beforeAdd st) u).2 ∧
      (Ext' (install c (beforeAdd st) u).2 res.2 ∧ ((install c (beforeAdd st) u).1 = false → res.1 = false)) := by
  have hI : Inv c G vs (fun x => (st.dom x).ground = true) (beforeAdd st) := by
    refine ⟨hR.good, hR.frames, hR.ids, hR.wired, fun x => ?_, fun x hx => hx, beforeAdd_now st⟩
    rcases hR.date x with h | h
    · exact Or.inl h
    · exact Or.inr ⟨h, Or.inl h⟩
  have hq : Q (beforeAdd st) [] := by
    refine ⟨by simp, rfl, fun a b l1 l2 h => ?_, fun x => ?_⟩
    · have := congrArg List.length h; simp at this
    · have := hR.notIn x
      show st.inQ x = true ↔ _
      rw [this]; simp
  have hw : Wake (fun x => (st.dom x).ground = true) (beforeAdd st) (fun _ => False) := by
    intro id fr h
    rcases hR.settled id fr h with h' | h'
    · exact Or.inl h'
    · exact Or.inr (Or.inl h')
  have hkeep : ∀ x, (beforeAdd st).keep x = false := by
    intro x
    have := hR.notIn x
    unfold QSt.inQ at this
    rw [Bool.or_eq_false_iff] at this
    exact this.2
  obtain ⟨e1, e2, e3, e4, e5⟩ := install_step hc hG hI u hu
  have hready : ∀ res : Bool × QSt, Clean res.2 → Inv c G vs (fun x => (st.dom x).ground = true) res.2 →
      (∀ x, (st.dom x).ground = true → (res.2.dom x).ground = true) →
      (∀ (id : Nat) (fr : Frame), res.2.frames[id]? = some fr → Stable res.2.dom fr.fct ∨ Off (fun x => (st.dom x).ground = true) fr) →
      Ready c G vs res.2 := by
    intro res hcl hi hg hs
    refine ⟨hi.good, hi.frames, hi.ids, hi.wired, fun x => ?_, hcl.notIn, fun id fr h => ?_⟩
    · rcases hi.date x with h | h
      · exact Or.inl h
      · exact Or.inr h.1
    · rcases hs id fr h with h' | h' | ⟨x, h1, h2⟩
      · exact Or.inl h'
      · exact Or.inr (Or.inl h')
      · exact Or.inr (Or.inr ⟨x, h1, hg x h2⟩)
  have hkb : ∀ D, KeepSt G D st → KeepSt G D (beforeAdd st) := fun D hD => ⟨hD.inh, hD.below, hD.frames⟩
  unfold post
  generalize hr : install c (beforeAdd st) u = r at *
  obtain ⟨ok, st1⟩ := r
  dsimp only
  obtain ⟨q1, hg⟩ := e2 [] hq
  cases ok with
  | false =>
    obtain ⟨st2, h1, h2, h3⟩ := failQueue_ok hg.isQ (fun h hh => hg.hd0 rfl h hh)
    refine ⟨q1.length, (false, st2), fun n hn => ?_, ?_, ?_, h2, fun h => (by cases h), fun D hK hk => ?_, e1, h1.ext, fun _ => rfl⟩
    · unfold afterAdd; rw [if_pos rfl]; exact h3 n hn
    · exact (e1.weak.trans h1.ext).sub
    · exact (e1.weak.trans h1.ext).ground
    · have := (e5 D hK (hkb D hk)).1
      cases this
  | true =>
    cases q1 with
    | nil =>
      have hcl : Clean st1 := by
        refine ⟨fun x => ?_, hg.isQ.tp⟩
        cases h : st1.inQ x with
        | false => rfl
        | true => exact absurd ((hg.isQ.mem x).1 h) (by simp)
      have hs := hcl.settled (e4 _ hw rfl)
      refine ⟨0, (true, st1), fun n hn => ?_, e1.sub, e1.ground, hcl, fun _ => ⟨hready (true, st1) hcl (e3 rfl) e1.ground hs, hs⟩,
        fun D hK hk => e5 D hK (hkb D hk), e1, (Ext.refl st1).weak, fun h => (by cases h)⟩
      unfold afterAdd
      rw [if_neg (by simp), hcl.tp]
    | cons bp q0 =>
      obtain ⟨n0, res, hd, hn⟩ := mainLoop_ok hc hG (meas vs st1) q0.length st1 bp q0 rfl rfl (e3 rfl) hg.isQ (e4 _ hw rfl)
        (fun x => by rw [e1.keep]; exact hkeep x)
      have hx := e1.weak.trans hd.ext
      refine ⟨n0, res, fun n hle => ?_, hx.sub, hx.ground, hd.clean, fun h => ⟨hready res hd.clean (hd.inv h) hx.ground (hd.settled h), hd.settled h⟩,
        fun D hK hk => hd.sound D (e5 D hK (hkb D hk)).2, e1, hd.ext, fun h => (by cases h)⟩
      have htp : ∃ t, st1.tp = some t := by
        rw [hg.isQ.tp, List.getLast?_cons]; exact ⟨_, rfl⟩
      obtain ⟨t, ht⟩ := htp
      unfold afterAdd
      rw [if_neg (by simp), ht]
      dsimp only
      rw [hg.hd0 rfl bp rfl]
      exact hn n hle

end

end Gp.Fd
