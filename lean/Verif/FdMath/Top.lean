import Verif.FdMath.Main

/-! # The relations -/

namespace Gp.FdMath

/-- The relation of a difference with zero. -/
def Rel.zero : Rel → Int → Prop
  | .eq, d => d = 0
  | .neq, d => d ≠ 0
  | .lt, d => d < 0
  | .lte, d => d ≤ 0

theorem loadPoly_pref {m v st} : (loadPoly m (some v) st).1 = v := by
  unfold loadPoly; split <;> rfl

theorem leftRight_same {E p st a b} (hc : p.c = 0) (hl : (leftRight E true p st).1.l = some a)
    (hr : (leftRight E true p st).1.r = some b) : a = b := by
  unfold leftRight at hl hr
  generalize splitPoly E p st = lr at *
  obtain ⟨l, r⟩ := lr
  simp only at *
  by_cases h0 : l = []
  · subst h0
    have e : loadLeft true p.c [] r st = (none, none, st) := rfl
    rw [e] at hl
    cases r <;> simp at hl
  · rw [loadLeft_eq h0] at hl hr
    cases r with
    | nil => simp at hr
    | cons q r =>
      simp only at hl hr
      cases hq : prefOf true p.c (q :: r) with
      | some x =>
        rw [hq] at hl hr
        simp only [Option.some.injEq, loadPoly_pref] at hl hr
        rw [← hl, ← hr]
      | none =>
        rw [hq] at hl hr
        simp only [Option.some.injEq] at hl hr
        rw [if_pos ⟨trivial, hc⟩, loadPoly_pref] at hr
        rw [← hl, ← hr]

section
variable {rel : Rel} {lr : LR} {st st' : St} {τ : Var → Int} {L R : Int}

theorem satAll_one {c} : satAll τ [c] ↔ c.sat τ := by simp

theorem relPost_grow (h : relPost rel lr st = .ok () st') : Grow st st' := by
  cases rel <;> simp only [relPost, eqPost, neqPost, ltPost, ltePost] at h <;> split at h <;>
    (repeat' split at h) <;> first
    | (cases h; done)
    | (simp only [Res.ok.injEq, true_and] at h; subst h
       first | exact Grow.refl _ | exact Grow.post _ _)

theorem sat_post1 {c} : Sat τ (st.post [c]) ↔ Sat τ st ∧ c.sat τ := by
  rw [sat_post, satAll_one]

theorem relPost_sat (d : Dom τ) (q : LRsem τ lr L R) (hc : -MAX < lr.c ∧ lr.c < MAX) (hs : Sat τ st)
    (same : rel = .eq → lr.c = 0 → ∀ a b, lr.l = some a → lr.r = some b → a = b)
    (h : relPost rel lr st = .ok () st') : Sat τ st' ↔ rel.zero (lr.c + (L - R)) := by
  obtain ⟨c, l, r⟩ := lr
  simp only at *
  have c1 : clamp c = c := clamp_id (by omega)
  have c2 : clamp (-c) = -c := clamp_id (by omega)
  have c3 : clamp (c + 1) = c + 1 := clamp_id (by omega)
  have c4 : clamp (-c - 1) = -c - 1 := clamp_id (by omega)
  cases l with
  | none =>
    have eL := q.ln rfl
    cases r with
    | none =>
      have eR := q.rn rfl
      cases rel <;> simp only [relPost, eqPost, neqPost, ltPost, ltePost] at h <;> split at h <;>
        first
        | (cases h; done)
        | (simp only [Res.ok.injEq, true_and] at h; subst h
           simp only [Rel.zero, hs, true_iff]; omega)
    | some r =>
      have eR := q.rs r rfl
      have := (d r).1
      cases rel <;> simp only [relPost, eqPost, neqPost, ltPost, ltePost] at h <;> split at h <;>
        first
        | (cases h; done)
        | (simp only [Res.ok.injEq, true_and] at h; subst h
           simp only [sat_post1, Rel.zero, hs, true_and, Cstr.sat, W.val, c1, c2, c3, c4, true_iff]; omega)
  | some l =>
    have eL := q.ls l rfl
    have := (d l).1
    cases r with
    | none =>
      have eR := q.rn rfl
      cases rel <;> simp only [relPost, eqPost, neqPost, ltPost, ltePost] at h <;> split at h <;>
        first
        | (cases h; done)
        | (simp only [Res.ok.injEq, true_and] at h; subst h
           simp only [sat_post1, Rel.zero, hs, true_and, Cstr.sat, W.val, c1, c2, c3, c4, true_iff]; omega)
    | some r =>
      have eR := q.rs r rfl
      have := (d r).1
      cases rel <;> simp only [relPost, eqPost, neqPost, ltPost, ltePost] at h <;> split at h <;>
        (try split at h) <;>
        first
        | (cases h; done)
        | (simp only [Res.ok.injEq, true_and] at h; subst h
           simp only [sat_post1, Rel.zero, hs, true_and, Cstr.sat, W.val, c1, c2, c3, c4]; omega)
        | (simp only [Res.ok.injEq, true_and] at h; subst h
           have h0 : c = 0 := by omega
           have := same rfl h0 l r rfl rfl
           subst this
           simp only [Rel.zero, hs, true_iff]; omega)

theorem relPost_fail (d : Dom τ) (q : LRsem τ lr L R) (h : relPost rel lr st = .fail) :
    ¬ rel.zero (lr.c + (L - R)) := by
  obtain ⟨c, l, r⟩ := lr
  simp only at *
  cases l with
  | none =>
    have eL := q.ln rfl
    cases r with
    | none =>
      have eR := q.rn rfl
      cases rel <;> simp only [relPost, eqPost, neqPost, ltPost, ltePost] at h <;> split at h <;>
        first | (cases h; done) | (simp only [Rel.zero]; omega)
    | some r =>
      have eR := q.rs r rfl
      have := (d r).1
      cases rel <;> simp only [relPost, eqPost, neqPost, ltPost, ltePost] at h <;> split at h <;>
        first | (cases h; done) | (simp only [Rel.zero]; omega)
  | some l =>
    have eL := q.ls l rfl
    have := (d l).1
    cases r with
    | none =>
      have eR := q.rn rfl
      cases rel <;> simp only [relPost, eqPost, neqPost, ltPost, ltePost] at h <;> split at h <;>
        first | (cases h; done) | (simp only [Rel.zero]; omega)
    | some r =>
      cases rel <;> simp only [relPost, eqPost, neqPost, ltPost, ltePost] at h <;> split at h <;>
        (try split at h) <;> cases h

theorem sat_flush' : satAll τ st.flush.posted ↔ Sat τ st := by
  simp only [St.flush, Sat, satAll, List.mem_append, List.mem_flatMap]
  constructor
  · intro h
    exact ⟨fun c hc => h c (.inl hc), fun d hd c hc => h c (.inr ⟨d, hd, hc⟩)⟩
  · rintro ⟨h1, h2⟩ c (hc | ⟨d, hd, hc⟩)
    · exact h1 c hc
    · exact h2 d hd c hc

end

section
variable {E : Env} {w : Nat → Nat} {store : (Nat → Int) → Prop}

/-- The difference of the two sides as a polynomial. -/
def diff (E : Env) (le re : Tm) : Res Poly :=
  (normalize E le 1 .new .init).bind fun p st => normalize E re (-1) p st

theorem good_init : Good .init := ⟨fun c hc => by simp [St.init] at hc, fun d hd => by simp [St.init] at hd⟩

theorem diff_OpS (c : Ctx E w store) {le re} (hf : fits2 w le re) :
    OpS w store (fun σ => (eval σ le).bind fun x => (eval σ re).map fun y => x - y)
      (mag w le + mag w re) .init .new (diff E le re) := by
  obtain ⟨f1, f2, f3⟩ := hf
  refine ((normalize_OpS c le 1 .new .init sgn_one good_init (new_PA _) f1 (by omega)).seq
    (fun p1 st1 _ _ g h => normalize_OpS c re (-1) p1 st1 sgn_one.neg g h f2 (by omega))).conv
    (funext fun σ => ?_) rfl
  cases eval σ le <;> cases eval σ re <;> simp
  omega

theorem translate_sound (c : Ctx E w store) {rel le re st'} (hf : fits2 w le re)
    (h : translate E rel le re = .ok () st') {τ} (d : Dom τ) (hst : store (org τ))
    (hs : satAll τ st'.posted) :
    ∃ x y, eval (org τ) le = some x ∧ eval (org τ) re = some y ∧ rel.zero (x - y) := by
  have op := diff_OpS c hf
  obtain ⟨_, _, f3⟩ := hf
  obtain ⟨p, st, e1, e2⟩ := Res.bind_ok.mp h
  obtain ⟨_, st2, e3, e4⟩ := Res.bind_ok.mp e2
  simp only [Res.ok.injEq, true_and] at e4
  subst e4
  rw [sat_flush'] at hs
  obtain ⟨_, a2, a3, a4⟩ := op.stat _ _ e1
  rw [new_nrm, nrm_parts] at a4
  obtain ⟨g1, g2, _, _, g5, _⟩ := leftRight_all (optim := decide (rel = .eq)) c.hE a2 a3 (by omega)
  have hs1 := hs.mono (relPost_grow e3)
  obtain ⟨v, v1, v2, _⟩ := op.sound _ _ e1 τ d hst (hs1.mono g1)
  have q := g5 τ hs1
  have hc : (leftRight E (decide (rel = .eq)) p st).1.c = p.c := leftRight_c
  have := (relPost_sat d q (by rw [hc]; omega) hs1 (by
    rintro rfl h0 a b ha hb
    exact leftRight_same (by rw [← h0]; exact leftRight_c.symm) ha hb) e3).mp hs
  rw [hc] at this
  have sp := (split_ok c.hE p st).eval τ
  have ev : p.eval τ = v := by rw [v2, new_eval]; omega
  simp only [Poly.eval, sp] at ev
  rw [ev] at this
  obtain ⟨x, hx, h2⟩ := Option.bind_eq_some_iff.mp v1
  obtain ⟨y, hy, rfl⟩ := Option.map_eq_some_iff.mp h2
  exact ⟨x, y, hx, hy, this⟩

theorem translate_ext (c : Ctx E w store) {rel le re} (hf : fits2 w le re) {σ : Nat → Int}
    (hst : store σ) (hw : ∀ n, 0 ≤ σ n ∧ σ n ≤ (w n : Int) ∧ σ n ≤ MAX) {x y}
    (hx : eval σ le = some x) (hy : eval σ re = some y) (hz : rel.zero (x - y)) :
    translate E rel le re ≠ .fail ∧
    ∀ st', translate E rel le re = .ok () st' →
      ∃ τ, org τ = σ ∧ Dom τ ∧ satAll τ st'.posted := by
  have op := diff_OpS c hf
  obtain ⟨_, _, f3⟩ := hf
  -- the starting assignment
  let τ : Var → Int := fun v => match v with
    | .orig n => σ n
    | _ => 0
  have d : Dom τ := by
    intro v
    cases v with
    | orig n => exact ⟨(hw n).1, (hw n).2.2⟩
    | heap n => exact ⟨Int.le_refl 0, show (0 : Int) ≤ MAX by decide⟩
    | fd n => exact ⟨Int.le_refl 0, show (0 : Int) ≤ MAX by decide⟩
  have ho : org τ = σ := rfl
  have u : Under w τ := fun n => (hw n).2.1
  have s0 : Sat τ .init := ⟨fun c hc => by simp [St.init] at hc, fun c hc => by simp [St.init] at hc⟩
  obtain ⟨n1, n2⟩ := op.ext τ d (by rw [ho]; exact hst) u s0 (x - y) (by simp [ho, hx, hy])
  have key : ∀ p st, diff E le re = .ok p st →
      ∃ τ2, Ext .init τ (leftRight E (decide (rel = .eq)) p st).2 τ2 ∧
        LRsem τ2 (leftRight E (decide (rel = .eq)) p st).1 (evalM τ2 (splitPoly E p st).1)
          (evalM τ2 (splitPoly E p st).2) ∧
        -MAX < (leftRight E (decide (rel = .eq)) p st).1.c ∧
        (leftRight E (decide (rel = .eq)) p st).1.c < MAX ∧
        (leftRight E (decide (rel = .eq)) p st).1.c +
          (evalM τ2 (splitPoly E p st).1 - evalM τ2 (splitPoly E p st).2) = x - y := by
    intro p st e1
    obtain ⟨a1, a2, a3, a4⟩ := op.stat _ _ e1
    rw [new_nrm, nrm_parts] at a4
    obtain ⟨τ1, x1⟩ := n2 _ _ e1
    have o1 := org_agree x1.agree
    obtain ⟨v, v1, v2, v3⟩ := op.sound _ _ e1 τ1 x1.dom (by rw [o1]; exact hst) x1.sat
    have v3 := v3 (u.agree x1.agree)
    rw [new_nrm, nrm_parts] at v3
    rw [o1, ho] at v1
    simp only [hx, hy, Option.bind_some, Option.map_some, Option.some.injEq] at v1
    rw [new_eval, ← v1] at v2
    obtain ⟨g1, g2, _, _, g5, g6⟩ := leftRight_all (optim := decide (rel = .eq)) c.hE a2 a3 (by omega)
    obtain ⟨τ2, x2⟩ := g6 τ1 x1.dom x1.sat (by omega) (by
      intro h
      have hr : rel = .eq := of_decide_eq_true h
      rw [hr] at hz
      simp only [Rel.zero] at hz
      omega)
    have hc : (leftRight E (decide (rel = .eq)) p st).1.c = p.c := leftRight_c
    refine ⟨τ2, x1.trans a1 x2, g5 τ2 x2.sat, by rw [hc]; omega, by rw [hc]; omega, ?_⟩
    have sp := (split_ok c.hE p st).eval τ2
    have e2 : p.eval τ1 = p.eval τ2 := eval_agree x2.agree a3
    rw [e2] at v2
    simp only [Poly.eval, sp] at v2
    rw [hc]; omega
  refine ⟨fun e => ?_, fun st' e => ?_⟩
  · rcases Res.bind_fail.mp e with e | ⟨p, st, e1, e2⟩
    · exact n1 e
    · obtain ⟨τ2, x2, q, c1, c2, hv⟩ := key p st e1
      rcases Res.bind_fail.mp e2 with e2 | ⟨_, st2, _, e2⟩
      · refine relPost_fail x2.dom q e2 ?_
        rw [hv]; exact hz
      · cases e2
  · obtain ⟨p, st, e1, e2⟩ := Res.bind_ok.mp e
    obtain ⟨_, st2, e3, e4⟩ := Res.bind_ok.mp e2
    simp only [Res.ok.injEq, true_and] at e4
    subst e4
    obtain ⟨τ2, x2, q, c1, c2, hv⟩ := key p st e1
    refine ⟨τ2, org_agree x2.agree, x2.dom, sat_flush'.mpr ?_⟩
    refine (relPost_sat x2.dom q ⟨c1, c2⟩ x2.sat (by
      rintro rfl h0 a b ha hb
      exact leftRight_same (by rw [← h0]; exact leftRight_c.symm) ha hb) e3).mpr ?_
    rw [hv]; exact hz

end

end Gp.FdMath
