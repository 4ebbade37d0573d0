import Verif.GVar.Undo
/-
All operations keep the invariant and act as in the store.
-/
namespace Gp.GVar

theorem pow2_eq : ∀ (f k i : Nat), i < 2 ^ (k + f) → pow2 i f (2 ^ k) = if i < 2 ^ k then 2 ^ k else 2 ^ (Nat.log2 i + 1)
  | 0, k, i, h => by
    unfold pow2
    rw [if_pos (by simpa using h)]
  | f + 1, k, i, h => by
    unfold pow2
    by_cases q : 2 ^ k ≤ i
    · rw [if_pos q, if_neg (by omega), show 2 * 2 ^ k = 2 ^ (k + 1) by rw [Nat.pow_succ]; omega,
        pow2_eq f (k + 1) i (by rw [show k + 1 + f = k + (f + 1) by omega]; exact h)]
      by_cases r : i < 2 ^ (k + 1)
      · rw [if_pos r]
        have : Nat.log2 i = k := by
          have hi : i ≠ 0 := by have := Nat.two_pow_pos k; omega
          exact (Nat.log2_eq_iff hi).2 ⟨q, r⟩
        rw [this]
      · rw [if_neg r]
    · rw [if_neg q, if_pos (by omega)]

theorem pow2_above (i : Nat) (h : i ≤ maxAuto) : pow2 i 22 1 = powAbove i ∧ i < powAbove i := by
  have := pow2_eq 22 0 i (by unfold maxAuto at h; omega)
  rw [show (1 : Nat) = 2 ^ 0 from rfl, this]
  unfold powAbove
  by_cases q : i = 0
  · subst q; decide
  · rw [if_neg q, if_neg (by omega)]
    exact ⟨rfl, Nat.lt_log2_self⟩

theorem forall₂_right {α β : Type} {R : α → β → Prop} {P : β → Prop} (hp : ∀ a b, R a b → P b) : ∀ {l : List α} {l' : List β},
    Forall₂ R l l' → ∀ b ∈ l', P b
  | _, _, .nil, _, hb => absurd hb List.not_mem_nil
  | _, _, .cons h t, b, hb => by
    rcases List.mem_cons.1 hb with e | e
    · rw [e]; exact hp _ _ h
    · exact forall₂_right hp t b e

theorem forall₂_drop {α β : Type} {R : α → β → Prop} : ∀ (n : Nat) {l : List α} {l' : List β}, Forall₂ R l l' → Forall₂ R (l.drop n) (l'.drop n)
  | 0, _, _, h => h
  | _ + 1, _, _, .nil => .nil
  | n + 1, _, _, .cons _ t => forall₂_drop n t

section
variable {own : Nat → Addr} {born : Nat → Nat}

/-- `Get_Target_From_Gvar` follows the store. -/
theorem target_core : ∀ (path : List Nat) (st : St) (sp : Spec) (a : Addr), CoreE st own born none_ → Rel st sp none_ → st.okA a → st.inner a →
    ∃ st' sp' r, getTarget st (a, st.genA a) path = some (st', r.map fun x => (x, st'.genA x)) ∧ sp.target a path = (sp', r) ∧
      CoreE st' own born none_ ∧ Rel st' sp' none_ ∧ ∀ x, r = some x → st'.okA x ∧ st'.inner x
  | [], st, sp, a, h, hr, ha, hi => ⟨st, sp, some a, rfl, rfl, h, hr, fun x e => by injection e with e; subst e; exact ⟨ha, hi⟩⟩
  | i :: path, st, sp, a, h, hr, ha, hi => by
    have hok : ¬ (st.ok (a, st.genA a) = false) := by rw [(ok_iff st a _ rfl).2 ha]; simp
    have hcur := hr.cur a ha hi (fun k => k)
    have vok := h.vers a ha (fun k => k) _ List.mem_cons_self
    cases hv : st.val a with
    | term x =>
      refine ⟨st, sp, none, ?_, ?_, h, hr, fun x e => by cases e⟩
      · unfold getTarget; rw [if_neg hok]; dsimp only; rw [hv]; rfl
      · unfold Spec.target; rw [hcur, hv]; rfl
    | imp => exact absurd hi (vok.imp hv)
    | arr b g n =>
      obtain ⟨v1, v2, v3, v4, v5, v6, v7⟩ := vok.arr b g n hv
      have lb : sp.len b = n := by have := hr.len b v2; omega
      rw [hv] at hcur
      have hcur : sp.cur a = .arr b := hcur
      by_cases q : i ≥ n
      · have okn : st.ok (.cell b n, g) = true := (ok_iff st (.cell b n) g v3).2 ⟨v2, by omega⟩
        have hd := hr.dflt b v2
        rw [lb] at hd
        cases hdf : sp.dflt b with
        | none =>
          rw [hdf] at hd
          refine ⟨st, sp, none, ?_, ?_, h, hr, fun x e => by cases e⟩
          · unfold getTarget; rw [if_neg hok]; dsimp only; rw [hv]; dsimp only
            rw [if_pos q, if_neg (by rw [okn]; simp), if_pos (.inl hd)]; rfl
          · unfold Spec.target; rw [hcur]; dsimp only
            rw [if_neg (by omega), hdf]
        | some d =>
          rw [hdf] at hd
          dsimp only at hd
          by_cases mx : i > maxAuto
          · refine ⟨st, sp, none, ?_, ?_, h, hr, fun x e => by cases e⟩
            · unfold getTarget; rw [if_neg hok]; dsimp only; rw [hv]; dsimp only
              rw [if_pos q, if_neg (by rw [okn]; simp), if_pos (.inr mx)]; rfl
            · unfold Spec.target; rw [hcur]; dsimp only
              rw [if_neg (by omega), hdf]; dsimp only; rw [if_pos mx]
          · obtain ⟨pe, pl⟩ := pow2_above i (by omega)
            have hn : n ≤ powAbove i := by omega
            obtain ⟨gc, gr⟩ := grow_core (ini := fun _ => d) h hr ha hv hn
            have an : ∀ i, a ≠ .cell b i := fun i e => by
              subst e
              have : b + 1 ≤ b := v5
              omega
            have okg : (growBlk st a b g n (powAbove i) (fun _ => d)).okA (.cell b i) := ⟨v2, by
              show i < upd st.len b (powAbove i + 1) b; rw [upd_same]; omega⟩
            obtain ⟨st', sp', r, e1, e2, e3, e4, e5⟩ := target_core path (growBlk st a b g n (powAbove i) (fun _ => d)) _ (.cell b i) gc gr okg
              (by show i + 1 < upd st.len b (powAbove i + 1) b; rw [upd_same]; omega)
            refine ⟨st', sp', r, ?_, ?_, e3, e4, e5⟩
            · unfold getTarget; rw [if_neg hok]; dsimp only; rw [hv]; dsimp only
              rw [if_pos q, if_neg (by rw [okn]; simp), if_neg (by rw [hd]; rintro (k | k); cases k; exact mx k), pe,
                alloc_grow h ha hv hn]
              dsimp only
              rw [iter_copy b (g + 1) (powAbove i) d]
              · dsimp only
                have : (growBlk st a b g n (powAbove i) (fun _ => d)).genA (.cell b i) = g + 1 := upd_same _ _ _
                rw [this] at e1
                exact e1
              · intro j h1 h2
                refine (ok_iff _ (.cell b j) (g + 1) (upd_same _ _ _).symm).2 ⟨v2, ?_⟩
                show j < upd st.len b (powAbove i + 1) b
                rw [upd_same]; omega
              · refine (ok_iff _ (.cell b _) (g + 1) (upd_same _ _ _).symm).2 ⟨v2, ?_⟩
                show powAbove i < upd st.len b (powAbove i + 1) b
                rw [upd_same]; omega
              · show upd (upd st.val _ _) a _ (.cell b (powAbove i)) = _
                rw [upd_ne _ _ (fun k => an _ k.symm), upd_same, hd]
              · omega
            · unfold Spec.target; rw [hcur]; dsimp only
              rw [if_neg (by omega), hdf]; dsimp only; rw [if_neg mx]; exact e2
      · obtain ⟨st', sp', r, e1, e2, e3, e4, e5⟩ := target_core path st sp (.cell b i) h hr ⟨v2, by omega⟩ (by show i + 1 < st.len b; omega)
        refine ⟨st', sp', r, ?_, ?_, e3, e4, e5⟩
        · unfold getTarget; rw [if_neg hok]; dsimp only; rw [hv]; dsimp only
          rw [if_neg q, v3]
          exact e1
        · unfold Spec.target; rw [hcur]; dsimp only
          rw [if_pos (by omega)]; exact e2

theorem newBlk_upd {s : St} {a : Addr} (na : ∀ i, a ≠ .cell s.nb i) (n : Nat) (ini : Nat → Int) (d : Option Int) (y v : Val) :
    ({ newBlk { s with val := upd s.val a y } n ini d with val := upd (newBlk { s with val := upd s.val a y } n ini d).val a v } : St) =
      { newBlk s n ini d with val := upd (newBlk s n ini d).val a v } := by
  have : upd (newBlk { s with val := upd s.val a y } n ini d).val a v = upd (newBlk s n ini d).val a v := by
    funext x
    by_cases e : x = a
    · subst e; rw [upd_same, upd_same]
    · rw [upd_ne _ _ e, upd_ne _ _ e]
      show upd (fillV s.nb 0 n ini (upd s.val a y)) (.cell s.nb n) (lastV d) x = upd (fillV s.nb 0 n ini s.val) (.cell s.nb n) (lastV d) x
      by_cases e2 : x = .cell s.nb n
      · subst e2; rw [upd_same, upd_same]
      · rw [upd_ne _ _ e2, upd_ne _ _ e2]
        cases x with
        | root k => unfold fillV; dsimp only; rw [upd_ne _ _ e]
        | cell b i => unfold fillV; dsimp only; rw [upd_ne _ _ e]
  simp only [this]
  rfl

theorem VOk.newBlk {st : St} {E} (h : CoreE st own born E) {a : Addr} (ha : st.okA a) (hi : st.inner a) (n : Nat) (ini : Nat → Int) (d : Option Int) :
    VOk (GVar.newBlk st n ini d) (upd own st.nb a) (upd born st.nb st.nu) a (.arr st.nb 0 n) := by
  refine ⟨(fun e => by cases e), fun c g m e => ?_⟩
  injection e with e1 e2 e3
  subst e1; subst e2; subst e3
  refine ⟨?_, upd_same _ _ _, (upd_same _ _ _).symm, upd_same _ _ _, ?_, upd_same _ _ _, ?_⟩
  · cases a with
    | root k => trivial
    | cell b i =>
      have := h.lt_nb b ha.1
      show i + 1 < upd st.len st.nb (n + 1) b
      rw [upd_ne _ _ (by omega)]; exact hi
  · cases a with
    | root k => exact Nat.zero_le _
    | cell b i => exact h.lt_nb b ha.1
  · rw [upd_same]
    cases a with
    | root k => exact Nat.zero_le _
    | cell b i =>
      have := h.lt_nb b ha.1
      show upd born st.nb st.nu b ≤ _
      rw [upd_ne _ _ (by omega)]
      exact h.born b ha.1

/-- `G_Assign_Element` assigns in the store. -/
theorem assign_core {st : St} {sp : Spec} (h : CoreE st own born none_) (hr : Rel st sp none_) {a : Addr} (ha : st.okA a) (hi : st.inner a)
    (v : New) (bt : Bool) (hb : ∀ k n ini d, v = .arr k n ini d → bt = true → (st.val a).isArr = false)
    (he : ∀ n ini d, v = .arr .extend n ini d → bt = false → (st.val a).size ≤ n) :
    ∃ st' own' born', assignElt st (a, st.genA a) v bt = some st' ∧ CoreE st' own' born' none_ ∧ Rel st' (sp.assign a bt v) none_ := by
  have hok : ¬ (st.ok (a, st.genA a) = false) := by rw [(ok_iff st a _ rfl).2 ha]; simp
  have hcur := hr.cur a ha hi (fun k => k)
  have na : ∀ i, a ≠ .cell st.nb i := fun i e => by
    subst e
    have := h.lt_nb _ ha.1
    omega
  cases v with
  | term x =>
    cases bt with
    | true =>
      obtain ⟨c, r⟩ := putb_core h hr ha hi (.term x) ⟨(fun e => by cases e), (fun _ _ _ e => by cases e)⟩ (fun _ e => by cases e)
        (fun _ e => by cases e)
      refine ⟨_, own, born, ?_, c, r⟩
      unfold assignElt
      rw [if_neg hok]
      rfl
    | false =>
      obtain ⟨s, e, c, r, hT, _, _, hin, _, _, _⟩ := free_core h hr a ha
      obtain ⟨c', r'⟩ := put_core c r hT (hin.2 hi) (.term x) ⟨(fun e => by cases e), (fun _ _ _ e => by cases e)⟩
      refine ⟨_, own, born, ?_, c', r'⟩
      unfold assignElt
      rw [if_neg hok]
      simp only [e]
      rfl
  | arr kind n ini d =>
    by_cases ext : kind = .extend ∧ (st.val a).isArr = true
    · -- the array is extended
      obtain ⟨e1, e2⟩ := ext
      subst e1
      have e3 : bt = false := by
        cases bt with
        | false => rfl
        | true => rw [hb _ _ _ _ rfl rfl] at e2; cases e2
      subst e3
      cases hv : st.val a with
      | term x => rw [hv] at e2; cases e2
      | imp => rw [hv] at e2; cases e2
      | arr b g m =>
        have hm : m ≤ n := by have := he n ini d rfl rfl; rw [hv] at this; exact this
        obtain ⟨v1, v2, v3, v4, v5, v6, v7⟩ := (h.vers a ha (fun k => k) _ List.mem_cons_self).arr b g m hv
        obtain ⟨c, r⟩ := grow_core (ini := ini) h hr ha hv hm
        refine ⟨_, own, born, ?_, c, ?_⟩
        · unfold assignElt
          rw [if_neg hok]
          dsimp only
          unfold assignArray
          have k1 : (if Kind.extend = .extend ∧ (st.val a).isArr = false then Kind.fixed else .extend) = .extend := by
            rw [if_neg]; rintro ⟨_, k⟩; rw [e2] at k; cases k
          dsimp only
          rw [k1]
          simp only [ne_eq, not_true, false_and, if_false, if_true]
          unfold fillArray
          rw [alloc_grow h ha hv hm]
          dsimp only
          rw [iter_wr]
          · simp only [hv, Val.size, reduceCtorEq, if_false, Bool.false_eq_true]
            rfl
          · rw [hv]
            intro j h1 h2
            refine (ok_iff _ (.cell b j) (g + 1) (upd_same _ _ _).symm).2 ⟨v2, ?_⟩
            show j < upd st.len b (n + 1) b
            rw [upd_same]
            have : m + (n - m) = n := by omega
            simp only [Val.size] at h2
            omega
        · rw [hv] at hcur
          show Rel _ (match Kind.extend, sp.cur a with
            | .extend, .arr b => sp.grow b n ini
            | _, _ => _) none_
          rw [hcur]
          exact r
    · -- a new array
      have hsp : sp.assign a bt (.arr kind n ini d) = (sp.new n ini (if kind = .auto then some d else none)).put a (.arr sp.next) bt := by
        unfold Spec.assign
        dsimp only
        cases kind with
        | fixed => rfl
        | auto => rfl
        | extend =>
          rw [hcur]
          cases hv : st.val a with
          | arr _ _ _ => exact absurd ⟨rfl, by rw [hv]; rfl⟩ ext
          | term x => rfl
          | imp => rfl
      rw [hsp, hr.next]
      have hk : ∃ kind', (if kind = .extend ∧ (st.val a).isArr = false then Kind.fixed else kind) = kind' ∧ kind' ≠ .extend ∧
          (kind' = .auto ↔ kind = .auto) := by
        cases kind with
        | fixed => exact ⟨_, rfl, by simp, by simp⟩
        | auto => exact ⟨_, rfl, by simp, by simp⟩
        | extend =>
          have : (st.val a).isArr = false := by
            cases q : (st.val a).isArr with
            | false => rfl
            | true => exact absurd ⟨rfl, q⟩ ext
          refine ⟨.fixed, by rw [if_pos ⟨rfl, this⟩], by simp, by simp⟩
      obtain ⟨kind', k1, k2, k3⟩ := hk
      have kd : (if kind = .auto then some d else none) = if kind' = .auto then some d else none := by
        by_cases q : kind = .auto
        · rw [if_pos q, if_pos (k3.2 q)]
        · rw [if_neg q, if_neg (fun z => q (k3.1 z))]
      rw [kd]
      cases bt with
      | true =>
        have hna := hb kind n ini d rfl rfl
        obtain ⟨c, r⟩ := newBlk_core h hr a n ini (if kind' = .auto then some d else none)
        have nT : ∀ x, (newBlk st n ini (if kind' = .auto then some d else none)).T x = st.T x := fun _ => rfl
        have nv : (newBlk st n ini (if kind' = .auto then some d else none)).val a = st.val a := newBlk_val na
        have ng : (newBlk st n ini (if kind' = .auto then some d else none)).genA a = st.genA a := by
          cases a with
          | root k => rfl
          | cell b i => exact upd_ne _ _ (fun e => na i (by rw [e]))
        have nok : (newBlk st n ini (if kind' = .auto then some d else none)).okA a := by
          cases a with
          | root k => trivial
          | cell b i =>
            have nb : b ≠ st.nb := fun e => na i (by rw [e])
            exact ⟨by show upd st.live st.nb true b = true; rw [upd_ne _ _ nb]; exact ha.1,
              by show i < upd st.len st.nb (n + 1) b; rw [upd_ne _ _ nb]; exact ha.2⟩
        have vo := VOk.newBlk h ha hi n ini (if kind' = .auto then some d else none)
        obtain ⟨c', r'⟩ := putb_core c r nok ((vo.arr _ _ _ rfl).1) (.arr st.nb 0 n) vo
          (fun z e => by injection e with e; subst e; rw [upd_same]; exact Nat.le_refl _)
          (fun z e k => by
            injection e with e
            subst e
            obtain ⟨w, w1, w2⟩ := List.mem_filterMap.1 k
            have ev : (newBlk st n ini (if kind' = .auto then some d else none)).vers a = st.vers a := by
              unfold St.vers; rw [nv]; rfl
            rw [ev] at w1
            cases w with
            | term _ => cases w2
            | imp => cases w2
            | arr b g m =>
              injection w2 with w2
              subst w2
              have := h.lt_nb _ ((h.vers a ha (fun k => k) _ w1).arr _ _ _ rfl).2.1
              omega)
        refine ⟨_, _, _, ?_, c', r'⟩
        unfold assignElt
        rw [if_neg hok]
        dsimp only
        unfold assignArray
        have := newArr (fun c hc => h.lt_nb c hc) a ha hna kind' n ini d true
        simp only [k1, k2, ne_eq, not_false_eq_true, true_and, Bool.true_eq_false, if_false, if_true]
        rw [this]
        simp only [nv, ng]
      | false =>
        obtain ⟨s, e, c, r, hT, sok, sg, hin, snb, snu, sl⟩ := free_core h hr a ha
        obtain ⟨c', r'⟩ := newBlk_core c r a n ini (if kind' = .auto then some d else none)
        have vo := VOk.newBlk c sok (hin.2 hi) n ini (if kind' = .auto then some d else none)
        have := put_core c' r' hT ((vo.arr _ _ _ rfl).1) (.arr s.nb 0 n) vo
        rw [← snb]
        refine ⟨_, _, _, ?_, this.1, this.2⟩
        unfold assignElt
        rw [if_neg hok]
        dsimp only
        unfold assignArray
        have nw := newArr (st := { s with val := upd s.val a (.term 0) }) (fun z hz => c.lt_nb z hz) a (by
          cases a with
          | root k => trivial
          | cell b i => exact sok) (by show (upd s.val a (.term 0) a).isArr = false; rw [upd_same]; rfl) kind' n ini d false
        have g2 : St.genA { s with val := upd s.val a (.term 0) } a = st.genA a := by rw [← sg]; cases a <;> rfl
        rw [g2] at nw
        simp only [k1, k2, ne_eq, not_false_eq_true, and_self, if_true, e, Option.map_some, if_false, Bool.false_eq_true]
        rw [nw, newBlk_upd (by rw [snb]; exact na)]

/-- `g_inc`. -/
theorem inc_core {st : St} {sp : Spec} (h : CoreE st own born none_) (hr : Rel st sp none_) {a : Addr} (ha : st.okA a) (hi : st.inner a)
    (x : Int) (hu : st.undo a = none) :
    ∃ st', incElt st (a, st.genA a) x = some st' ∧ CoreE st' own born none_ ∧ Rel st' (sp.inc a x) none_ := by
  have hok : ¬ (st.ok (a, st.genA a) = false) := by rw [(ok_iff st a _ rfl).2 ha]; simp
  have hcur := hr.cur a ha hi (fun k => k)
  have hT : st.T a = [] := by
    have := h.link a ha
    rw [hu] at this
    cases hT : st.T a with
    | nil => rfl
    | cons u l => rw [hT] at this; cases this.1
  unfold incElt
  rw [if_neg hok]
  dsimp only
  unfold Spec.inc
  rw [hcur]
  cases hv : st.val a with
  | imp => exact absurd hi ((h.vers a ha (fun k => k) _ List.mem_cons_self).imp hv)
  | arr b g n => exact ⟨st, rfl, h, hr⟩
  | term y =>
    have c : CoreE st own born (fun x => x = a) := ⟨h.sorted, h.lt, h.elem, h.link, h.next, h.prev, fun x hx _ => h.vers x hx (fun k => k),
      fun x hx _ => h.nodup x hx (fun k => k), fun x hx _ => h.after x hx (fun k => k), h.lt_nb, h.born⟩
    have r : Rel st sp (fun x => x = a) := ⟨hr.next, hr.len, hr.dflt, fun x hx hi _ => hr.cur x hx hi (fun k => k),
      forall₂_mono (fun s trb k => ⟨k.1, fun x hx hi _ => k.2 x hx hi (fun k => k)⟩) hr.sh, hr.cps⟩
    obtain ⟨c', r'⟩ := put_core c r hT hi (.term (y + x)) ⟨(fun e => by cases e), (fun _ _ _ e => by cases e)⟩
    exact ⟨_, rfl, c', r'⟩

end

/-- The failure to the newest choice point. -/
theorem fail_core {own born} {st : St} {sp : Spec} (h : CoreE st own born none_) (hr : Rel st sp none_) {trb : Nat} {cps : List Nat}
    (hc : st.cps = trb :: cps) : ∃ s l st', sp.sh = s :: l ∧ untrailN (st.trail.length - trb) st = some st' ∧ CoreE st' own born none_ ∧
      Rel st' { sp with cur := s } none_ ∧ st'.cps = st.cps := by
  have hsh := hr.sh
  rw [hc] at hsh
  cases hs : sp.sh with
  | nil => rw [hs] at hsh; cases hsh
  | cons s l =>
    rw [hs] at hsh
    cases hsh with
    | cons k1 k2 =>
      have hp := hr.cps
      rw [hc, List.pairwise_cons] at hp
      have hle := k1.1
      obtain ⟨st', c, e, h', r', t', p'⟩ := untrailN_core (st.trail.length - trb) st sp h hr (by omega) (fun z hz => by
        rw [hc] at hz
        rcases List.mem_cons.1 hz with q | q
        · omega
        · have := hp.1 z q; omega)
      refine ⟨s, l, st', rfl, e, h', ⟨r'.next, r'.len, r'.dflt, ?_, hs ▸ r'.sh, r'.cps⟩, p'⟩
      intro x hx hix hn
      have sh' := r'.sh
      rw [p', hc] at sh'
      have sh' : Forall₂ _ sp.sh _ := sh'
      rw [hs] at sh'
      cases sh' with
      | cons q1 q2 =>
        have := q1.2 x hx hix hn
        have el : st'.trail.length - trb = 0 := by rw [t', List.length_drop]; omega
        rw [el] at this
        exact this

/-- No operation is undefined, and the memory still represents the store. -/
theorem step_core {own born} {st : St} {sp : Spec} (h : CoreE st own born none_) (hr : Rel st sp none_) (op : Op) (ho : OpOk st op) :
    ∃ st' own' born', step st op = some st' ∧ CoreE st' own' born' none_ ∧ Rel st' (sp.step op) none_ := by
  have tgt : ∀ (k : Nat) (path : List Nat) (f : St → Ptr → Option St) (F : Spec → Addr → Spec),
      (∀ s sp a, getTarget st (.root k, 0) path = some (s, some (a, s.genA a)) → CoreE s own born none_ → Rel s sp none_ → s.okA a → s.inner a →
        ∃ st' own' born', f s (a, s.genA a) = some st' ∧ CoreE st' own' born' none_ ∧ Rel st' (F sp a) none_) →
      ∃ st' own' born', withTarget st k path f = some st' ∧ CoreE st' own' born' none_ ∧ Rel st' (sp.withTarget k path F) none_ := by
    intro k path f F hf
    obtain ⟨s, sp', r, e1, e2, c, rl, e3⟩ := target_core path st sp (.root k) h hr trivial trivial
    have e1 : getTarget st (.root k, 0) path = _ := e1
    unfold withTarget Spec.withTarget
    rw [e1, e2]
    cases r with
    | none => exact ⟨s, own, born, rfl, c, rl⟩
    | some a => exact hf s sp' a e1 c rl (e3 a rfl).1 (e3 a rfl).2
  cases op with
  | assign k path v =>
    refine tgt k path _ _ fun s sp a e c r ha hi => ?_
    cases v.good with
    | false => exact ⟨s, own, born, rfl, c, r⟩
    | true =>
      refine assign_core c r ha hi v false (fun _ _ _ _ _ k => by cases k) (fun n ini d ev _ => ?_)
      subst ev
      exact ho s _ e
  | assignb k path v =>
    refine tgt k path _ _ fun s sp a e c r ha hi => ?_
    cases v.good with
    | false => exact ⟨s, own, born, rfl, c, r⟩
    | true =>
      refine assign_core c r ha hi v true (fun _ _ _ _ ev _ => ?_) (fun _ _ _ _ k => by cases k)
      subst ev
      exact ho s _ e
  | read k path => exact tgt k path _ _ fun s sp a e c r ha hi => ⟨s, own, born, rfl, c, r⟩
  | inc k path x =>
    refine tgt k path _ _ fun s sp a e c r ha hi => ?_
    obtain ⟨st', e', c', r'⟩ := inc_core c r ha hi x (ho s _ e)
    exact ⟨st', own, born, e', c', r'⟩
  | create =>
    refine ⟨_, own, born, rfl, ⟨h.sorted, h.lt, h.elem, h.link, h.next, h.prev, fun x hx hn v hv => ⟨(h.vers x hx hn v hv).imp, (h.vers x hx hn v hv).arr⟩, h.nodup, h.after, h.lt_nb, h.born⟩,
      ⟨hr.next, hr.len, hr.dflt, hr.cur, .cons ⟨Nat.le_refl _, fun x hx hi hn => ?_⟩ hr.sh, ?_⟩⟩
    · have := hr.cur x hx hi hn
      rw [Nat.sub_self]
      exact this
    · rw [List.pairwise_cons]
      exact ⟨forall₂_right (fun _ _ k => k.1) hr.sh, hr.cps⟩
  | retry =>
    show ∃ st' own' born', (match st.cps with
      | [] => some st
      | trb :: _ => untrailN (st.trail.length - trb) st) = some st' ∧ _
    unfold Spec.step
    dsimp only
    cases hc : st.cps with
    | nil =>
      have := hr.sh
      rw [hc] at this
      cases hs : sp.sh with
      | nil => exact ⟨st, own, born, rfl, h, hr⟩
      | cons s l => rw [hs] at this; cases this
    | cons trb cps =>
      obtain ⟨s, l, st', e0, e1, e2, e3, _⟩ := fail_core h hr hc
      rw [e0]
      exact ⟨st', own, born, e1, e2, by rw [e0] at e3; exact e3⟩
  | trust =>
    show ∃ st' own' born', (match st.cps with
      | [] => some st
      | trb :: cps => (untrailN (st.trail.length - trb) st).map (fun s : St => { s with cps := cps })) = some st' ∧ _
    unfold Spec.step
    dsimp only
    cases hc : st.cps with
    | nil =>
      have := hr.sh
      rw [hc] at this
      cases hs : sp.sh with
      | nil => exact ⟨st, own, born, rfl, h, hr⟩
      | cons s l => rw [hs] at this; cases this
    | cons trb cps =>
      obtain ⟨s, l, st', e0, e1, e2, e3, e4⟩ := fail_core h hr hc
      rw [e0]
      dsimp only
      rw [e1]
      have sh := e3.sh
      have cp := e3.cps
      rw [e4, hc] at sh cp
      have sh : Forall₂ _ sp.sh _ := sh
      rw [e0] at sh
      rw [List.pairwise_cons] at cp
      cases sh with
      | cons q1 q2 =>
        exact ⟨_, own, born, rfl, ⟨e2.sorted, e2.lt, e2.elem, e2.link, e2.next, e2.prev,
          fun x hx hn v hv => ⟨(e2.vers x hx hn v hv).imp, (e2.vers x hx hn v hv).arr⟩, e2.nodup, e2.after, e2.lt_nb, e2.born⟩,
          ⟨e3.next, e3.len, e3.dflt, e3.cur, q2, cp.2⟩⟩
  | cut n =>
    exact ⟨_, own, born, rfl, ⟨h.sorted, h.lt, h.elem, h.link, h.next, h.prev, fun x hx hn v hv => ⟨(h.vers x hx hn v hv).imp, (h.vers x hx hn v hv).arr⟩, h.nodup, h.after, h.lt_nb, h.born⟩,
      ⟨hr.next, hr.len, hr.dflt, hr.cur, forall₂_drop n hr.sh, hr.cps.sublist (List.drop_sublist _ _)⟩⟩

theorem reach_core {st : St} {sp : Spec} (h : Reach st sp) : ∃ own born, CoreE st own born none_ ∧ Rel st sp none_ := by
  induction h with
  | init =>
    refine ⟨fun _ => .root 0, fun _ => 0, ⟨.nil, ?_, ?_, ?_, ?_, ?_, ?_, ?_, ?_, ?_, ?_⟩, ⟨rfl, ?_, ?_, fun _ _ _ _ => rfl, .nil, .nil⟩⟩
    · intro u hu; exact absurd hu List.not_mem_nil
    · intro u hu; exact absurd hu List.not_mem_nil
    · intro x _; rfl
    · intro u hu; exact absurd hu List.not_mem_nil
    · intro u hu; exact absurd hu List.not_mem_nil
    · intro x hx _ v hv
      have : v = .term 0 := by simpa [St.vers, St.T, init] using hv
      subst this
      exact ⟨(fun e => by cases e), (fun _ _ _ e => by cases e)⟩
    · intro x _ _; exact List.nodup_nil
    · intro x _ _; trivial
    · intro c hc; cases hc
    · intro c hc; cases hc
    · intro b hb; cases hb
    · intro b hb; cases hb
  | @step st sp st' op _ ho e ih =>
    obtain ⟨own, born, h, hr⟩ := ih
    obtain ⟨s, own', born', e', h', hr'⟩ := step_core h hr op ho
    rw [e] at e'
    injection e' with e'
    subst e'
    exact ⟨own', born', h', hr'⟩

/-- The value read is that of the store. -/
theorem read_core {own born} {st : St} {sp : Spec} (h : CoreE st own born none_) (hr : Rel st sp none_) : ∀ (f : Nat) (a : Addr), st.okA a → st.inner a →
    st.nb - ordA a < f → ∃ t, readElt f st (a, st.genA a) = some t ∧ Reads sp.cur sp.len (sp.cur a) t := by
  intro f
  induction f with
  | zero => intro _ _ _ h; omega
  | succ f ih =>
    intro a ha hi hf
    have hok : ¬ (st.ok (a, st.genA a) = false) := by rw [(ok_iff st a _ rfl).2 ha]; simp
    have vok := h.vers a ha (fun k => k) _ List.mem_cons_self
    unfold readElt
    rw [if_neg hok, hr.cur a ha hi (fun k => k)]
    dsimp only
    cases hv : st.val a with
    | term x => exact ⟨_, rfl, .term⟩
    | imp => exact absurd hi (vok.imp hv)
    | arr b g n =>
      obtain ⟨v1, v2, v3, v4, v5, v6, v7⟩ := vok.arr b g n hv
      have lb : sp.len b = n := by have := hr.len b v2; omega
      have lt := h.lt_nb b v2
      have go : ∀ k i, i + k = n → ∃ l, mapM (fun i => readElt f st (.cell b i, g)) i k = some l ∧ ReadsL sp.cur sp.len b i k l := by
        intro k
        induction k with
        | zero => intro i _; exact ⟨[], rfl, .nil⟩
        | succ k ihk =>
          intro i hik
          obtain ⟨t, t1, t2⟩ := ih (.cell b i) ⟨v2, by omega⟩ (by show i + 1 < st.len b; omega) (by show st.nb - (b + 1) < f; omega)
          obtain ⟨l, l1, l2⟩ := ihk (i + 1) (by omega)
          refine ⟨t :: l, ?_, .cons t2 l2⟩
          unfold mapM
          rw [show (st.genA (.cell b i)) = g from v3.symm] at t1
          rw [t1, l1]
      obtain ⟨l, l1, l2⟩ := go n 0 (by omega)
      refine ⟨.node l, ?_, .arr (by rw [lb]; exact l2)⟩
      dsimp only
      rw [l1]; rfl

end Gp.GVar
