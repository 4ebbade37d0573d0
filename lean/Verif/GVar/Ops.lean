import Verif.GVar.Lemmas
/-
The invariant is kept by the operations; the memory represents the store (`Rel`).
-/
namespace Gp.GVar

/-- The value in the store. -/
def Val.abs : Val → SV
  | .term x => .term x
  | .imp => .term 0
  | .arr b _ _ => .arr b

/-- The value of `x` when the entries `seg` are undone. -/
def oldVal (rcd : Nat → Rec) (x : Addr) : List Nat → Val → Val
  | [], v => v
  | u :: l, v => oldVal rcd x l (if on rcd x u then (rcd u).save else v)

theorem oldVal_congr {rcd rcd' : Nat → Rec} {x : Addr} : ∀ {l : List Nat} {v : Val},
    (∀ u ∈ l, on rcd' x u = on rcd x u ∧ (rcd' u).save = (rcd u).save) → oldVal rcd' x l v = oldVal rcd x l v
  | [], _, _ => rfl
  | u :: l, v, h => by
    unfold oldVal
    rw [(h u (by simp)).1, (h u (by simp)).2]
    exact oldVal_congr (fun w hw => h w (by simp [hw]))

theorem oldVal_none {rcd : Nat → Rec} {x : Addr} : ∀ {l : List Nat} {v : Val}, (∀ u ∈ l, on rcd x u = false) → oldVal rcd x l v = v
  | [], _, _ => rfl
  | u :: l, v, h => by
    unfold oldVal
    rw [h u (by simp)]
    exact oldVal_none (fun w hw => h w (by simp [hw]))

/-- Two lists of the same length whose elements are related. -/
inductive Forall₂ {α β : Type} (R : α → β → Prop) : List α → List β → Prop where
  | nil : Forall₂ R [] []
  | cons {a b l l'} : R a b → Forall₂ R l l' → Forall₂ R (a :: l) (b :: l')

/-- The memory represents the store, except the elements of `E`. -/
structure Rel (st : St) (sp : Spec) (E : Addr → Prop) : Prop where
  next : sp.next = st.nb
  len : ∀ b, st.live b = true → st.len b = sp.len b + 1
  dflt : ∀ b, st.live b = true → st.val (.cell b (sp.len b)) = (match sp.dflt b with | none => .imp | some d => .term d)
  cur : ∀ x, st.okA x → st.inner x → ¬ E x → sp.cur x = (st.val x).abs
  sh : Forall₂ (fun s trb => trb ≤ st.trail.length ∧ ∀ x, st.okA x → st.inner x → ¬ E x →
    s x = (oldVal st.rcd x (st.trail.take (st.trail.length - trb)) (st.val x)).abs) sp.sh st.cps
  cps : st.cps.Pairwise (· ≥ ·)

abbrev none_ : Addr → Prop := fun _ => False

theorem T_nil_on {st : St} {x : Addr} (h : st.T x = []) : ∀ u ∈ st.trail, on st.rcd x u = false := by
  intro u hu
  cases e : on st.rcd x u with
  | false => rfl
  | true =>
    have : u ∈ st.T x := List.mem_filter.2 ⟨hu, e⟩
    rw [h] at this
    exact absurd this List.not_mem_nil

theorem forall₂_mono {α β : Type} {R S : α → β → Prop} : ∀ {l : List α} {l' : List β}, (∀ a b, R a b → S a b) → Forall₂ R l l' →
    Forall₂ S l l'
  | _, _, _, .nil => .nil
  | _, _, h, .cons a b => .cons (h _ _ a) (forall₂_mono h b)

theorem forall₂_map {α β : Type} {R S : α → β → Prop} {f : α → α} : ∀ {l : List α} {l' : List β}, (∀ a b, R a b → S (f a) b) →
    Forall₂ R l l' → Forall₂ S (l.map f) l'
  | _, _, _, .nil => .nil
  | _, _, h, .cons a b => .cons (h _ _ a) (forall₂_map h b)

/-- After `G_Free_Element(a, TRUE)` all is as before, except `a`. -/
theorem free_core {st own born sp} (h : CoreE st own born none_) (hr : Rel st sp none_) (a : Addr) (ha : st.okA a) :
    ∃ st', freeElt (st.nb + 1) true st (a, st.genA a) = some st' ∧ CoreE st' own born (fun x => x = a) ∧ Rel st' sp (fun x => x = a) ∧
      st'.T a = [] ∧ st'.okA a ∧ st'.genA a = st.genA a ∧ (st'.inner a ↔ st.inner a) ∧ st'.nb = st.nb ∧ st'.nu = st.nu ∧
      st'.live st.nb = false := by
  obtain ⟨st', F, e, f, u, _⟩ := free_spec own born true (st.nb + 1) st a _ none_ h.sub ha rfl (fun k => k) (fun _ k => k.elim) (by omega)
  have aF : ∀ d i, a = .cell d i → ¬ F d := fun d i e k => by
    subst e
    have := u.lo d k
    have : d + 1 ≤ d := this
    omega
  have inn : ∀ x, st'.inner x ↔ st.inner x := fun x => by cases x <;> simp [St.inner, f.len]
  have nIn : ∀ x, st'.okA x → x ≠ a → ¬ In st (fun x => x = a) F x := by
    rintro x hx hne (k | ⟨b, i, e, k, _⟩)
    · exact hne k
    · subst e
      exact ((f.live b).1 hx.1).2 k
  have ain : In st (fun x => x = a) F a := .inl rfl
  have onx : ∀ x, st'.okA x → x ≠ a → ∀ w ∈ st.trail, on st'.rcd x w = on st.rcd x w := by
    intro x hx hne w hw
    by_cases q : ∃ p, (st.rcd w).elem = some p ∧ In st (fun x => x = a) F p.1
    · obtain ⟨p, hp, hi⟩ := q
      unfold on
      rw [f.rc1 w hw p hp hi rfl, hp]
      have : p.1 ≠ x := fun e => nIn x hx hne (e ▸ hi)
      simp [this]
    · rw [on_eq]
      rw [f.rc2 w (fun _ _ p hp hi => q ⟨p, hp, hi⟩)]
  have vx : ∀ x, st'.okA x → x ≠ a → st'.vers x = st.vers x := by
    intro x hx hne
    unfold St.vers
    rw [f.val, f.T x (fun _ => nIn x hx hne)]
    congr 1
    apply List.map_congr_left
    intro w _
    rw [(f.nexts w).2.1]
  have okl : st'.okA a := by
    cases a with
    | root k => trivial
    | cell b i => exact ⟨(f.live b).2 ⟨ha.1, aF b i rfl⟩, by rw [f.len]; exact ha.2⟩
  refine ⟨st', e, ⟨f.trail ▸ h.sorted, ?_, ?_, f.link h.link, ?_, ?_, ?_, ?_, ?_, ?_, ?_⟩, ⟨?_, ?_, ?_, ?_, ?_, ?_⟩, f.Tin a ain, okl, ?_, inn a, f.nb, f.nu, ?_⟩
  · intro w hw; rw [f.nu]; exact h.lt w (f.trail ▸ hw)
  · intro w hw p hp
    have hw' : w ∈ st.trail := f.trail ▸ hw
    have : ¬ ∃ p, (st.rcd w).elem = some p ∧ In st (fun x => x = a) F p.1 := by
      rintro ⟨p', hp', hi⟩
      rw [f.rc1 w hw' p' hp' hi rfl] at hp
      cases hp
    have e2 := f.rc2 w (fun _ _ p hp hi => this ⟨p, hp, hi⟩)
    rw [e2] at hp
    obtain ⟨k1, k2, k3, k4⟩ := h.elem w hw' p hp
    have ni : ¬ In st (fun x => x = a) F p.1 := fun hi => this ⟨p, hp, hi⟩
    refine ⟨?_, (inn _).2 k2, ?_, k4⟩
    · cases hp1 : p.1 with
      | root k => trivial
      | cell b i =>
        rw [hp1] at k1 ni
        exact ⟨(f.live b).2 ⟨k1.1, fun k => ni (.inr ⟨b, i, rfl, k, k1.2⟩)⟩, by rw [f.len]; exact k1.2⟩
    · rw [k3]; cases p.1 <;> simp [St.genA, f.gen]
  · intro w hw x hx
    rw [(f.nexts w).1] at hx
    rw [f.trail] at hw ⊢
    exact h.next w hw x hx
  · intro w hw x hx
    rw [(f.nexts w).2.2] at hx
    rw [f.trail] at hw ⊢
    rw [(f.nexts x).1]
    exact h.prev w hw x hx
  · intro x hx hne v hv
    rw [vx x hx hne] at hv
    have k := h.vers x (f.okA x hx) (fun k => k) v hv
    refine ⟨fun e => by rw [inn x]; exact k.imp e, fun c g n e => ?_⟩
    obtain ⟨v1, v2, v3, v4, v5, v6, v7⟩ := k.arr c g n e
    refine ⟨(inn x).2 v1, (f.live c).2 ⟨v2, fun hf => ?_⟩, by rw [f.gen]; exact v3, by rw [f.len]; exact v4, v5, v6, v7⟩
    rcases u.own c hf with k | ⟨d, i, e1, e2, _⟩
    · exact hne (by rw [← v6]; exact k)
    · rw [v6] at e1
      subst e1
      exact ((f.live d).1 hx.1).2 e2
  · intro x hx hne
    rw [vx x hx hne]
    exact h.nodup x (f.okA x hx) (fun k => k)
  · intro x hx hne
    rw [f.val, f.T x (fun _ => nIn x hx hne)]
    exact after_congr (fun w _ => (f.nexts w).2.1) (fun _ _ => Nat.le_refl _) (fun _ _ _ _ => Nat.le_refl _) (h.after x (f.okA x hx) (fun k => k))
  · intro c hc; rw [f.nb]; exact h.lt_nb c ((f.live c).1 hc).1
  · intro c hc; rw [f.nu]; exact h.born c ((f.live c).1 hc).1
  · rw [f.nb]; exact hr.next
  · intro b hb; rw [f.len]; exact hr.len b ((f.live b).1 hb).1
  · intro b hb; rw [f.val]; exact hr.dflt b ((f.live b).1 hb).1
  · intro x hx hi hne; rw [f.val]; exact hr.cur x (f.okA x hx) ((inn x).1 hi) (fun k => k)
  · rw [f.cps]
    refine forall₂_mono (fun s trb k => ?_) hr.sh
    rw [f.trail, f.val]
    refine ⟨k.1, fun x hx hi hne => ?_⟩
    rw [k.2 x (f.okA x hx) ((inn x).1 hi) (fun k => k)]
    congr 1
    exact (oldVal_congr fun w hw => ⟨onx x hx hne w (List.mem_of_mem_take hw), (f.nexts w).2.1⟩).symm
  · rw [f.cps]; exact hr.cps
  · cases a <;> simp [St.genA, f.gen]
  · cases q : st'.live st.nb with
    | false => rfl
    | true => exact absurd (h.lt_nb _ ((f.live _).1 q).1) (by omega)

theorem abs_upd {f : Addr → SV} {a x : Addr} {v : SV} (h : x ≠ a) : upd f a v x = f x := if_neg h

/-- A value is stored in `a`, which has no undo record. -/
theorem put_core {st own born sp} {a : Addr} (h : CoreE st own born (fun x => x = a)) (hr : Rel st sp (fun x => x = a)) (hT : st.T a = [])
    (hi : st.inner a) (v : Val) (hv : VOk st own born a v) :
    CoreE { st with val := upd st.val a v } own born none_ ∧ Rel { st with val := upd st.val a v } (sp.put a v.abs false) none_ := by
  have vx : ∀ x, x ≠ a → St.vers { st with val := upd st.val a v } x = st.vers x := fun x hx => by
    unfold St.vers
    show upd st.val a v x :: _ = _
    rw [upd_ne _ _ hx]
    rfl
  have va : St.vers { st with val := upd st.val a v } a = [v] := by
    unfold St.vers
    show upd st.val a v a :: (st.T a).map _ = _
    rw [upd_same, hT]; rfl
  have last : ∀ b, st.live b = true → (.cell b (sp.len b) : Addr) ≠ a := fun b hb e => by
    subst e
    have := hr.len b hb
    have : sp.len b + 1 < st.len b := hi
    omega
  refine ⟨⟨h.sorted, h.lt, h.elem, h.link, h.next, h.prev, ?_, ?_, ?_, h.lt_nb, h.born⟩, ⟨hr.next, hr.len, ?_, ?_, ?_, hr.cps⟩⟩
  · intro x hx _ w hw
    by_cases e : x = a
    · subst e
      rw [va] at hw
      have : w = v := by simpa using hw
      subst this
      exact ⟨hv.imp, hv.arr⟩
    · rw [vx x e] at hw
      have k := h.vers x hx e w hw
      exact ⟨k.imp, k.arr⟩
  · intro x hx _
    by_cases e : x = a
    · subst e
      rw [va]
      cases hvb : v.blk with
      | none => rw [List.filterMap_cons_none hvb]; exact List.nodup_nil
      | some c => rw [List.filterMap_cons_some hvb]; exact List.pairwise_singleton _ _
    · rw [vx x e]; exact h.nodup x hx e
  · intro x hx _
    by_cases e : x = a
    · subst e
      show After _ _ _ (st.T _)
      rw [hT]; trivial
    · show After st.rcd born (upd st.val a v x) (st.T x)
      rw [upd_ne _ _ e]
      exact h.after x hx e
  · intro b hb
    show upd st.val a v (.cell b (sp.len b)) = match sp.dflt b with | none => Val.imp | some d => Val.term d
    rw [upd_ne _ _ (last b hb)]
    exact hr.dflt b hb
  · intro x hx hix _
    show upd sp.cur a v.abs x = (upd st.val a v x).abs
    by_cases e : x = a
    · subst e; rw [upd_same, upd_same]
    · rw [upd_ne _ _ e, upd_ne _ _ e]; exact hr.cur x hx hix e
  · refine forall₂_map (fun s trb k => ⟨k.1, fun x hx hix _ => ?_⟩) hr.sh
    show upd s a v.abs x = (oldVal st.rcd x (st.trail.take (st.trail.length - trb)) (upd st.val a v x)).abs
    by_cases e : x = a
    · subst e
      rw [upd_same, upd_same, oldVal_none (fun w hw => T_nil_on hT w (List.mem_of_mem_take hw))]
    · rw [upd_ne _ _ e, upd_ne _ _ e]; exact k.2 x hx hix e

/-- A value is stored in `a` with an undo record. -/
theorem putb_core {st own born sp} {a : Addr} (h : CoreE st own born none_) (hr : Rel st sp none_) (ha : st.okA a)
    (hi : st.inner a) (v : Val) (hv : VOk st own born a v) (hb : ∀ c, v.blk = some c → st.nu ≤ born c)
    (hf : ∀ c, v.blk = some c → c ∉ (st.vers a).filterMap Val.blk) :
    CoreE (trailElt { st with val := upd st.val a v } (a, st.genA a) (st.val a)) own born none_ ∧
      Rel (trailElt { st with val := upd st.val a v } (a, st.genA a) (st.val a)) (sp.put a v.abs true) none_ := by
  generalize e : trailElt { st with val := upd st.val a v } (a, st.genA a) (st.val a) = st'
  have nuN : st.nu ∉ st.trail := fun k => by have := h.lt _ k; omega
  have hlink := h.link a ha
  have ew : ∀ w, st.undo a = some w → w ∈ st.T a := fun w hw => by
    cases hT : st.T a with
    | nil => rw [hT] at hlink; have : st.undo a = none := hlink; rw [this] at hw; cases hw
    | cons u l =>
      rw [hT] at hlink
      have := hlink.1
      rw [this] at hw
      injection hw with hw
      rw [← hw]; simp
  have eval : st'.val = upd st.val a v := by subst e; rfl
  have etr : st'.trail = st.nu :: st.trail := by subst e; rfl
  have enu : st'.nu = st.nu + 1 := by subst e; rfl
  have eun : st'.undo = upd st.undo a (some st.nu) := by subst e; rfl
  have elen : st'.len = st.len := by subst e; rfl
  have egen : st'.gen = st.gen := by subst e; rfl
  have elive : st'.live = st.live := by subst e; rfl
  have enb : st'.nb = st.nb := by subst e; rfl
  have ecps : st'.cps = st.cps := by subst e; rfl
  have ern : (st'.rcd st.nu).elem = some (a, st.genA a) ∧ (st'.rcd st.nu).save = st.val a ∧ (st'.rcd st.nu).next = st.undo a ∧
      (st'.rcd st.nu).prev = none := by
    subst e
    unfold trailElt
    dsimp only
    cases hu : st.undo a with
    | none => dsimp only; rw [upd_same]; exact ⟨rfl, rfl, rfl, rfl⟩
    | some w =>
      have : st.nu ≠ w := fun k => nuN (k ▸ (mem_T.1 (ew w hu)).1)
      dsimp only
      rw [upd_ne _ _ this, upd_same]; exact ⟨rfl, rfl, rfl, rfl⟩
  have ero : ∀ u, u ≠ st.nu → (st'.rcd u).elem = (st.rcd u).elem ∧ (st'.rcd u).save = (st.rcd u).save ∧
      (st'.rcd u).next = (st.rcd u).next ∧ ((st'.rcd u).prev = (st.rcd u).prev ∨ (st'.rcd u).prev = some st.nu ∧ st.undo a = some u) := by
    intro u hne
    subst e
    unfold trailElt
    dsimp only
    cases hu : st.undo a with
    | none => dsimp only; rw [upd_ne _ _ hne]; exact ⟨rfl, rfl, rfl, .inl rfl⟩
    | some w =>
      dsimp only
      by_cases k : u = w
      · subst k
        rw [upd_same, upd_ne _ _ hne]
        exact ⟨rfl, rfl, rfl, .inr ⟨rfl, rfl⟩⟩
      · rw [upd_ne _ _ k, upd_ne _ _ hne]
        exact ⟨rfl, rfl, rfl, .inl rfl⟩
  have inn : ∀ x, st'.inner x ↔ st.inner x := fun x => by cases x <;> simp [St.inner, elen]
  have okx : ∀ x, st'.okA x ↔ st.okA x := fun x => by cases x <;> simp [St.okA, elen, elive]
  have genx : ∀ x, st'.genA x = st.genA x := fun x => by cases x <;> simp [St.genA, egen]
  have onn : ∀ x, on st'.rcd x st.nu = decide (a = x) := fun x => by unfold on; rw [ern.1]
  have ono : ∀ x, ∀ u ∈ st.trail, on st'.rcd x u = on st.rcd x u := fun x u hu => on_eq (ero u (fun k => nuN (k ▸ hu))).1
  have fx : ∀ x, st.trail.filter (on st'.rcd x) = st.T x := fun x => List.filter_congr (ono x)
  have Ta : st'.T a = st.nu :: st.T a := by
    unfold St.T
    rw [etr, List.filter_cons_of_pos (by rw [onn]; simp), fx a]; rfl
  have Tx : ∀ x, x ≠ a → st'.T x = st.T x := fun x hx => by
    show st'.trail.filter _ = _
    rw [etr, List.filter_cons_of_neg (by rw [onn]; simpa using fun k : a = x => hx k.symm), fx x]
  have inT : ∀ x, ∀ u ∈ st.T x, u ≠ st.nu := fun x u hu k => nuN (k ▸ (mem_T.1 hu).1)
  have mapS : ∀ x, (st.T x).map (fun u => (st'.rcd u).save) = (st.T x).map (fun u => (st.rcd u).save) := fun x =>
    List.map_congr_left fun u hu => (ero u (inT x u hu)).2.1
  have va : st'.vers a = v :: st.vers a := by
    unfold St.vers
    rw [eval, upd_same, Ta, List.map_cons, ern.2.1, mapS]
  have vx : ∀ x, x ≠ a → st'.vers x = st.vers x := fun x hx => by
    unfold St.vers
    rw [eval, upd_ne _ _ hx, Tx x hx, mapS]
  have vok : ∀ x w, VOk st own born x w → VOk st' own born x w := fun x w k => by
    refine ⟨fun e => by rw [inn x]; exact k.imp e, fun c g n e => ?_⟩
    obtain ⟨v1, v2, v3, v4, v5⟩ := k.arr c g n e
    exact ⟨(inn x).2 v1, by rw [elive]; exact v2, by rw [egen]; exact v3, by rw [elen]; exact v4, v5⟩
  have last : ∀ b, st.live b = true → (.cell b (sp.len b) : Addr) ≠ a := fun b hb e => by
    subst e
    have := hr.len b hb
    have : sp.len b + 1 < st.len b := hi
    omega
  have afx : ∀ x, After st.rcd born (st.val x) (st.T x) → After st'.rcd born (st.val x) (st.T x) := fun x k =>
    after_congr (fun u hu => (ero u (inT x u hu)).2.1) (fun _ _ => Nat.le_refl _) (fun _ _ _ _ => Nat.le_refl _) k
  have lnx : ∀ x, Linked st.rcd (st.undo x) (st.T x) → Linked st'.rcd (st.undo x) (st.T x) := fun x k =>
    linked_congr (fun u hu => (ero u (inT x u hu)).2.2.1) k
  have ba : bornA born a ≤ st.nu := by
    cases a with
    | root k => exact Nat.zero_le _
    | cell b i => exact h.born b ha.1
  refine ⟨⟨?_, ?_, ?_, ?_, ?_, ?_, ?_, ?_, ?_, ?_, ?_⟩, ⟨?_, ?_, ?_, ?_, ?_, ?_⟩⟩
  · rw [etr, List.pairwise_cons]; exact ⟨fun w hw => h.lt w hw, h.sorted⟩
  · intro u hu
    rw [etr] at hu
    rw [enu]
    rcases List.mem_cons.1 hu with k | k
    · omega
    · have := h.lt u k; omega
  · intro u hu p hp
    rw [etr] at hu
    rw [okx, inn, genx]
    rcases List.mem_cons.1 hu with k | k
    · subst k
      rw [ern.1] at hp
      injection hp with hp
      subst hp
      exact ⟨ha, hi, rfl, ba⟩
    · rw [(ero u (fun q => nuN (q ▸ k))).1] at hp
      exact h.elem u k p hp
  · intro x hx
    rw [okx] at hx
    rw [eun]
    by_cases q : x = a
    · subst q
      rw [upd_same, Ta]
      refine ⟨rfl, ?_⟩
      rw [ern.2.2.1]
      exact lnx x (h.link x hx)
    · rw [upd_ne _ _ q, Tx x q]
      exact lnx x (h.link x hx)
  · intro u hu w hw
    rw [etr] at hu ⊢
    rcases List.mem_cons.1 hu with k | k
    · subst k
      rw [ern.2.2.1] at hw
      have := (mem_T.1 (ew w hw)).1
      exact ⟨List.mem_cons_of_mem _ this, h.lt w this⟩
    · rw [(ero u (fun q => nuN (q ▸ k))).2.2.1] at hw
      obtain ⟨k1, k2⟩ := h.next u k w hw
      exact ⟨List.mem_cons_of_mem _ k1, k2⟩
  · intro u hu w hw
    rw [etr] at hu ⊢
    rcases List.mem_cons.1 hu with k | k
    · subst k
      rw [ern.2.2.2] at hw; cases hw
    · rcases (ero u (fun q => nuN (q ▸ k))).2.2.2 with q | ⟨q1, q2⟩
      · rw [q] at hw
        obtain ⟨k1, k2, k3⟩ := h.prev u k w hw
        exact ⟨List.mem_cons_of_mem _ k1, k2, by rw [(ero w (fun q => nuN (q ▸ k1))).2.2.1]; exact k3⟩
      · rw [q1] at hw
        injection hw with hw
        subst hw
        exact ⟨List.mem_cons_self, h.lt u k, by rw [ern.2.2.1]; exact q2⟩
  · intro x hx _ w hw
    rw [okx] at hx
    apply vok
    by_cases q : x = a
    · subst q
      rw [va] at hw
      rcases List.mem_cons.1 hw with k | k
      · subst k; exact hv
      · exact h.vers x hx (fun k => k) w k
    · rw [vx x q] at hw; exact h.vers x hx (fun k => k) w hw
  · intro x hx _
    rw [okx] at hx
    by_cases q : x = a
    · subst q
      rw [va]
      cases hvb : v.blk with
      | none => rw [List.filterMap_cons_none hvb]; exact h.nodup x hx (fun k => k)
      | some c => rw [List.filterMap_cons_some hvb, List.nodup_cons]; exact ⟨hf c hvb, h.nodup x hx (fun k => k)⟩
    · rw [vx x q]; exact h.nodup x hx (fun k => k)
  · intro x hx _
    rw [okx] at hx
    rw [eval]
    by_cases q : x = a
    · subst q
      rw [upd_same, Ta]
      refine ⟨hb, ?_⟩
      rw [ern.2.1]
      exact afx x (h.after x hx (fun k => k))
    · rw [upd_ne _ _ q, Tx x q]; exact afx x (h.after x hx (fun k => k))
  · intro c hc; rw [elive] at hc; rw [enb]; exact h.lt_nb c hc
  · intro c hc; rw [elive] at hc; rw [enu]; have := h.born c hc; omega
  · rw [enb]; exact hr.next
  · intro b hb; rw [elive] at hb; rw [elen]; exact hr.len b hb
  · intro b hb
    rw [elive] at hb
    rw [eval]
    have := last b hb
    show upd st.val a v (.cell b (sp.len b)) = match sp.dflt b with | none => Val.imp | some d => Val.term d
    rw [upd_ne _ _ this]; exact hr.dflt b hb
  · intro x hx hix _
    rw [okx] at hx
    rw [inn] at hix
    rw [eval]
    show upd sp.cur a v.abs x = _
    by_cases q : x = a
    · subst q; rw [upd_same, upd_same]
    · rw [upd_ne _ _ q, upd_ne _ _ q]; exact hr.cur x hx hix (fun k => k)
  · rw [ecps, etr, eval]
    refine forall₂_mono (fun s trb k => ⟨by simp; omega, fun x hx hix _ => ?_⟩) hr.sh
    rw [okx] at hx
    rw [inn] at hix
    have et : (st.nu :: st.trail).take ((st.nu :: st.trail).length - trb) = st.nu :: st.trail.take (st.trail.length - trb) := by
      have := k.1
      rw [show (st.nu :: st.trail).length - trb = (st.trail.length - trb) + 1 by simp; omega]
      rfl
    rw [et]
    unfold oldVal
    rw [onn, ern.2.1, oldVal_congr (rcd := st.rcd) (fun w hw => ⟨ono x w (List.mem_of_mem_take hw),
      (ero w (fun q => nuN (q ▸ List.mem_of_mem_take hw))).2.1⟩)]
    rw [k.2 x hx hix (fun k => k)]
    by_cases q : x = a
    · subst q; simp
    · rw [upd_ne _ _ q, if_neg (by simpa using fun k : a = x => q k.symm)]
  · rw [ecps]; exact hr.cps

end Gp.GVar
