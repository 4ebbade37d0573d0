import Verif.FdMath.Bin

/-! # `Normalize` against the meaning of expressions -/

namespace Gp.FdMath

/-- The values of the user's variables. -/
def org (τ : Var → Int) : Nat → Int := fun n => τ (.orig n)

theorem org_agree {st τ τ'} (a : Agree st τ τ') : org τ' = org τ := by
  funext n; exact (a (.orig n) trivial).symm

/-- The setting of a translation. -/
structure Ctx (E : Env) (w : Nat → Nat) (store : (Nat → Int) → Prop) : Prop where
  hE : SortOk E
  hI : InstOk E w
  hS : InstSound E store
  hw : ∀ n, 1 ≤ w n

/-- The values are within the weights. -/
def Under (w : Nat → Nat) (τ : Var → Int) : Prop := ∀ n, τ (.orig n) ≤ (w n : Int)

theorem Under.agree {w st τ τ'} (a : Agree st τ τ') (h : Under w τ) : Under w τ' := fun n =>
  (a (.orig n) trivial) ▸ h n

structure OpS (w : Nat → Nat) (store : (Nat → Int) → Prop) (V : (Nat → Int) → Option Int) (B : Nat)
    (st : St) (p : Poly) (r : Res Poly) : Prop where
  stat : ∀ p' st', r = .ok p' st' →
    Grow st st' ∧ Good st' ∧ PA st' p' ∧ p'.nrm one ≤ p.nrm one + B
  sound : ∀ p' st', r = .ok p' st' → ∀ τ, Dom τ → store (org τ) → Sat τ st' →
    ∃ x, V (org τ) = some x ∧ p'.eval τ = p.eval τ + x ∧
      (Under w τ → p'.nrm (nv τ) ≤ p.nrm (nv τ) + B)
  ext : ∀ τ, Dom τ → store (org τ) → Under w τ → Sat τ st → ∀ x, V (org τ) = some x →
      r ≠ .fail ∧ ∀ p' st', r = .ok p' st' → ∃ τ', Ext st τ st' τ'

structure WS (w : Nat → Nat) (store : (Nat → Int) → Prop) (V : (Nat → Int) → Option Int) (B : Nat)
    (st : St) (r : Res W) : Prop where
  stat : ∀ a st', r = .ok a st' → Grow st st' ∧ Good st' ∧ WAlloc st' a ∧ WB B a
  sound : ∀ a st', r = .ok a st' → ∀ τ, Dom τ → store (org τ) → Sat τ st' →
    ∃ x, V (org τ) = some x ∧ 0 ≤ x ∧ a.iv τ = x
  ext : ∀ τ, Dom τ → store (org τ) → Under w τ → Sat τ st → ∀ x, V (org τ) = some x → 0 ≤ x →
      r ≠ .fail ∧ ∀ a st', r = .ok a st' → ∃ τ', Ext st τ st' τ'

section
variable {E : Env} {w : Nat → Nat} {store : (Nat → Int) → Prop}
variable {V V1 V2 V3 : (Nat → Int) → Option Int} {B B1 B2 B3 : Nat} {st : St} {p : Poly} {s : Int}

theorem OpS.conv {r} (h : OpS w store V1 B1 st p r) (hV : V1 = V2) (hB : B1 = B2) :
    OpS w store V2 B2 st p r := hV ▸ hB ▸ h

/-- The flag that asks for sorting does not matter. -/
theorem OpS.flag {r b} (h : OpS w store V B { st with sort := b } p r) : OpS w store V B st p r :=
  ⟨fun p' st' e => ⟨⟨(h.stat p' st' e).1.posted, (h.stat p' st' e).1.delayed, (h.stat p' st' e).1.h,
    (h.stat p' st' e).1.cs⟩, (h.stat p' st' e).2⟩, h.sound, fun τ a b c d x hx =>
    ⟨(h.ext τ a b c d x hx).1, fun p' st' e =>
      let ⟨τ', k⟩ := (h.ext τ a b c d x hx).2 p' st' e
      ⟨τ', fun v hv => k.agree v (by cases v <;> exact hv), k.dom, k.sat⟩⟩⟩

theorem WS.flag {r b} (h : WS w store V B { st with sort := b } r) : WS w store V B st r :=
  ⟨fun p' st' e => ⟨⟨(h.stat p' st' e).1.posted, (h.stat p' st' e).1.delayed, (h.stat p' st' e).1.h,
    (h.stat p' st' e).1.cs⟩, (h.stat p' st' e).2⟩, h.sound, fun τ a b c d x hx hx0 =>
    ⟨(h.ext τ a b c d x hx hx0).1, fun p' st' e =>
      let ⟨τ', k⟩ := (h.ext τ a b c d x hx hx0).2 p' st' e
      ⟨τ', fun v hv => k.agree v (by cases v <;> exact hv), k.dom, k.sat⟩⟩⟩

theorem pnrm_agree {τ τ'} (a : Agree st τ τ') (h : PA st p) : p.nrm (nv τ') = p.nrm (nv τ) := by
  simp only [Poly.nrm, nrm_nv_agree a h]

/-- One after the other. -/
theorem OpS.seq {r f} (h : OpS w store V1 B1 st p r)
    (k : ∀ p1 st1, r = .ok p1 st1 → Grow st st1 → Good st1 → PA st1 p1 →
      OpS w store V2 B2 st1 p1 (f p1 st1)) :
    OpS w store (fun σ => (V1 σ).bind fun x => (V2 σ).map fun y => x + y) (B1 + B2) st p (r.bind f) := by
  refine ⟨fun p' st' e => ?_, fun p' st' e τ d hst sa => ?_, fun τ d hst u sa x hx =>
    ⟨fun e => ?_, fun p' st' e => ?_⟩⟩
  · obtain ⟨p1, st1, e1, e2⟩ := Res.bind_ok.mp e
    obtain ⟨a1, a2, a3, a4⟩ := h.stat _ _ e1
    obtain ⟨b1, b2, b3, b4⟩ := (k _ _ e1 a1 a2 a3).stat _ _ e2
    exact ⟨a1.trans b1, b2, b3, by omega⟩
  · obtain ⟨p1, st1, e1, e2⟩ := Res.bind_ok.mp e
    obtain ⟨a1, a2, a3, a4⟩ := h.stat _ _ e1
    have kk := k _ _ e1 a1 a2 a3
    obtain ⟨b1, b2, b3, b4⟩ := kk.stat _ _ e2
    obtain ⟨x, x1, x2, x3⟩ := h.sound _ _ e1 τ d hst (sa.mono b1)
    obtain ⟨y, y1, y2, y3⟩ := kk.sound _ _ e2 τ d hst sa
    refine ⟨x + y, by simp [x1, y1], by omega, fun u => ?_⟩
    have := x3 u; have := y3 u; omega
  · obtain ⟨x1, hx1, hx⟩ := Option.bind_eq_some_iff.mp hx
    obtain ⟨y1, hy1, rfl⟩ := Option.map_eq_some_iff.mp hx
    obtain ⟨n1, n2⟩ := h.ext τ d hst u sa x1 hx1
    rcases Res.bind_fail.mp e with e | ⟨p1, st1, e1, e2⟩
    · exact n1 e
    · obtain ⟨a1, a2, a3, a4⟩ := h.stat _ _ e1
      obtain ⟨τ1, ex1⟩ := n2 _ _ e1
      have o := org_agree ex1.agree
      exact ((k _ _ e1 a1 a2 a3).ext τ1 ex1.dom (by rw [o]; exact hst) (u.agree ex1.agree) ex1.sat y1
        (by rw [o]; exact hy1)).1 e2
  · obtain ⟨p1, st1, e1, e2⟩ := Res.bind_ok.mp e
    obtain ⟨x1, hx1, hx⟩ := Option.bind_eq_some_iff.mp hx
    obtain ⟨y1, hy1, rfl⟩ := Option.map_eq_some_iff.mp hx
    obtain ⟨a1, a2, a3, a4⟩ := h.stat _ _ e1
    obtain ⟨τ1, ex1⟩ := (h.ext τ d hst u sa x1 hx1).2 _ _ e1
    have o := org_agree ex1.agree
    obtain ⟨τ2, ex2⟩ := ((k _ _ e1 a1 a2 a3).ext τ1 ex1.dom (by rw [o]; exact hst)
      (u.agree ex1.agree) ex1.sat y1 (by rw [o]; exact hy1)).2 _ _ e2
    exact ⟨τ2, ex1.trans a1 ex2⟩

theorem new_nrm (u) : Poly.new.nrm u = 0 := rfl
theorem new_eval (τ) : Poly.new.eval τ = 0 := rfl
theorem new_PA (st) : PA st Poly.new := fun q hq => by simp [Poly.new] at hq

theorem toWord_int_nonneg {lr st n st'} (h : toWord lr st = .ok (.int n) st') : 0 ≤ n := by
  obtain ⟨c, l, r⟩ := lr
  cases l <;> cases r <;> simp only [toWord] at h
  · split at h
    · cases h
    · simp only [Res.ok.injEq, W.int.injEq] at h; omega
  all_goals
    first
    | (split at h <;> first | (cases h; done) | (split at h <;> first | (cases h; done) | (split at h <;> cases h)))
    | cases h

/-- Loading an expression in a word. -/
theorem OpS.load {r} (c : Ctx E w store) (h : OpS w store V B st .new r) (hB : (B : Int) ≤ MAX) :
    WS w store V B st (loadFin E r) := by
  have hf : loadFin E r = r.bind (loadP E) := rfl
  rw [hf]
  have key : ∀ p1 st1, r = .ok p1 st1 → Grow st st1 ∧ Good st1 ∧ PA st1 p1 ∧ p1.nrm one ≤ B := by
    intro p1 st1 e
    obtain ⟨a1, a2, a3, a4⟩ := h.stat _ _ e
    exact ⟨a1, a2, a3, by rw [new_nrm] at a4; omega⟩
  refine ⟨fun a st' e => ?_, fun a st' e τ d hst sa => ?_, fun τ d hst u sa x hx hx0 =>
    ⟨fun e => ?_, fun a st' e => ?_⟩⟩
  · obtain ⟨p1, st1, e1, e2⟩ := Res.bind_ok.mp e
    obtain ⟨a1, a2, a3, a4⟩ := key _ _ e1
    obtain ⟨b1, b2, b3, b4⟩ := loadP_stat c.hE a2 a3 (by omega) e2
    refine ⟨a1.trans b1, b2, b3, ?_⟩
    rintro n rfl
    have h0 := toWord_int_nonneg e2
    have := b4 n rfl
    rw [nrm_parts] at a4
    omega
  · obtain ⟨p1, st1, e1, e2⟩ := Res.bind_ok.mp e
    obtain ⟨a1, a2, a3, a4⟩ := key _ _ e1
    obtain ⟨b1, b2, b3, b4⟩ := loadP_stat c.hE a2 a3 (by omega) e2
    obtain ⟨k1, k2⟩ := loadP_sound c.hE a2 a3 (by omega) e2 d sa
    obtain ⟨x, x1, x2, _⟩ := h.sound _ _ e1 τ d hst (sa.mono b1)
    rw [new_eval] at x2
    exact ⟨x, x1, by omega, by omega⟩
  · obtain ⟨n1, n2⟩ := h.ext τ d hst u sa x hx
    rcases Res.bind_fail.mp e with e | ⟨p1, st1, e1, e2⟩
    · exact n1 e
    · obtain ⟨a1, a2, a3, a4⟩ := key _ _ e1
      obtain ⟨τ1, ex1⟩ := n2 _ _ e1
      have o := org_agree ex1.agree
      obtain ⟨x', x1, x2, x3⟩ := h.sound _ _ e1 τ1 ex1.dom (by rw [o]; exact hst) ex1.sat
      rw [o, hx] at x1; cases x1
      rw [new_eval] at x2
      have x3 := x3 (u.agree ex1.agree)
      rw [new_nrm] at x3
      exact (loadP_ext c.hE a2 a3 (by omega) ex1.dom ex1.sat (by omega) (by omega)).1 e2
  · obtain ⟨p1, st1, e1, e2⟩ := Res.bind_ok.mp e
    obtain ⟨a1, a2, a3, a4⟩ := key _ _ e1
    obtain ⟨τ1, ex1⟩ := (h.ext τ d hst u sa x hx).2 _ _ e1
    have o := org_agree ex1.agree
    obtain ⟨x', x1, x2, x3⟩ := h.sound _ _ e1 τ1 ex1.dom (by rw [o]; exact hst) ex1.sat
    rw [o, hx] at x1; cases x1
    rw [new_eval] at x2
    have x3 := x3 (u.agree ex1.agree)
    rw [new_nrm] at x3
    obtain ⟨τ2, ex2⟩ :=
      (loadP_ext c.hE a2 a3 (by omega) ex1.dom ex1.sat (by omega) (by omega)).2 _ _ e2
    exact ⟨τ2, ex1.trans a1 ex2⟩

theorem natOpd_some {o : Option Int} {x} : natOpd o = some x ↔ o = some x ∧ 0 ≤ x := by
  cases o with
  | none => simp [natOpd]
  | some n =>
    simp only [natOpd]
    split
    · simp only [Option.some.injEq]; constructor
      · rintro rfl; exact ⟨rfl, by assumption⟩
      · exact fun h => h.1
    · simp only [reduceCtorEq, Option.some.injEq, false_iff, not_and]
      rintro rfl; assumption

/-- An operator on two loaded words. -/
theorem OpS.bin {r1 : Res W} {r2 : St → Res W} {f : W → W → St → Res Poly} {G} (hp : PA st p)
    (h1 : WS w store V1 B1 st r1)
    (h2 : ∀ a1 st1, r1 = .ok a1 st1 → Grow st st1 → Good st1 → WS w store V2 B2 st1 (r2 st1))
    (h3 : ∀ a1 a2 st2, Good st2 → PA st2 p → WAlloc st2 a1 → WAlloc st2 a2 → WB B1 a1 → WB B2 a2 →
      BinS (f a1 a2 st2) st2 p s a1 a2 B G)
    (hBM : (B : Int) ≤ MAX)
    (hbd : ∀ σ x y z, (∀ n, 0 ≤ σ n ∧ σ n ≤ (w n : Int)) → natOpd (V1 σ) = some x →
      natOpd (V2 σ) = some y → G x y = some z → 0 ≤ z ∧ z ≤ (B : Int)) :
    OpS w store (fun σ => ((natOpd (V1 σ)).bind fun x => (natOpd (V2 σ)).bind fun y => G x y).map
        fun z => s * z) B st p
      (r1.bind fun a1 st1 => (r2 st1).bind fun a2 st2 => f a1 a2 st2) := by
  have hbd' : ∀ τ x y z, Dom τ → Under w τ → natOpd (V1 (org τ)) = some x →
      natOpd (V2 (org τ)) = some y → G x y = some z → 0 ≤ z ∧ z ≤ (B : Int) :=
    fun τ x y z d u => hbd (org τ) x y z (fun n => ⟨(d _).1, u n⟩)
  have split : ∀ p' st', (r1.bind fun a1 st1 => (r2 st1).bind fun a2 st2 => f a1 a2 st2) = .ok p' st' →
      ∃ a1 st1 a2 st2, r1 = .ok a1 st1 ∧ r2 st1 = .ok a2 st2 ∧ f a1 a2 st2 = .ok p' st' ∧
        Grow st st1 ∧ Grow st1 st2 ∧ Good st1 ∧ Good st2 ∧ WAlloc st1 a1 ∧ WAlloc st2 a2 ∧
        WS w store V2 B2 st1 (r2 st1) ∧ BinS (f a1 a2 st2) st2 p s a1 a2 B G := by
    intro p' st' e
    obtain ⟨a1, st1, e1, e⟩ := Res.bind_ok.mp e
    obtain ⟨a2, st2, e2, e3⟩ := Res.bind_ok.mp e
    obtain ⟨g1, g2, g3, g4⟩ := h1.stat _ _ e1
    have hh := h2 _ _ e1 g1 g2
    obtain ⟨k1, k2, k3, k4⟩ := hh.stat _ _ e2
    exact ⟨a1, st1, a2, st2, e1, e2, e3, g1, k1, g2, k2, g3, k3, hh,
      h3 a1 a2 st2 k2 (hp.mono (g1.trans k1)) (g3.mono k1) k3 g4 k4⟩
  refine ⟨fun p' st' e => ?_, fun p' st' e τ d hst sa => ?_, fun τ d hst u sa v hv =>
    ⟨fun e => ?_, fun p' st' e => ?_⟩⟩
  · obtain ⟨a1, st1, a2, st2, e1, e2, e3, g1, k1, _, _, _, _, _, b⟩ := split p' st' e
    obtain ⟨b1, b2, b3, b4⟩ := b.stat _ _ e3
    exact ⟨(g1.trans k1).trans b1, b2, b3, b4⟩
  · obtain ⟨a1, st1, a2, st2, e1, e2, e3, g1, k1, _, _, wa, _, hh, b⟩ := split p' st' e
    obtain ⟨b1, b2, b3, b4⟩ := b.stat _ _ e3
    have s2 := sa.mono b1
    obtain ⟨x, x1, x2, x3⟩ := h1.sound _ _ e1 τ d hst (s2.mono k1)
    obtain ⟨y, y1, y2, y3⟩ := hh.sound _ _ e2 τ d hst s2
    obtain ⟨z, z1, z2, z3⟩ := b.sound _ _ e3 τ d (by omega) (by omega) sa
    rw [x3, y3] at z1
    have nx := natOpd_some.mpr ⟨x1, x2⟩
    have ny := natOpd_some.mpr ⟨y1, y2⟩
    refine ⟨s * z, by simp [nx, ny, z1], z2, fun u => ?_⟩
    have := hbd' τ x y z d u nx ny z1
    exact z3 (by omega)
  all_goals
    obtain ⟨z, hz, rfl⟩ := Option.map_eq_some_iff.mp hv
    obtain ⟨x, nx, hz⟩ := Option.bind_eq_some_iff.mp hz
    obtain ⟨y, ny, hz⟩ := Option.bind_eq_some_iff.mp hz
    obtain ⟨x1, x2⟩ := natOpd_some.mp nx
    obtain ⟨y1, y2⟩ := natOpd_some.mp ny
    obtain ⟨n1, n2⟩ := h1.ext τ d hst u sa x x1 x2
    have zb := hbd' τ x y z d u nx ny hz
    -- the chain of extensions
    have chain : ∀ a1 st1, r1 = .ok a1 st1 → ∃ τ1, Ext st τ st1 τ1 ∧ r2 st1 ≠ .fail ∧
        ∀ a2 st2, r2 st1 = .ok a2 st2 → ∃ τ2, Ext st τ st2 τ2 ∧ f a1 a2 st2 ≠ .fail ∧
          ∀ p' st', f a1 a2 st2 = .ok p' st' → ∃ τ3, Ext st τ st' τ3 := by
      intro a1 st1 e1
      obtain ⟨g1, g2, g3, g4⟩ := h1.stat _ _ e1
      have hh := h2 _ _ e1 g1 g2
      obtain ⟨τ1, ex1⟩ := n2 _ _ e1
      have o1 := org_agree ex1.agree
      obtain ⟨m1, m2⟩ := hh.ext τ1 ex1.dom (by rw [o1]; exact hst) (u.agree ex1.agree) ex1.sat y
        (by rw [o1]; exact y1) y2
      refine ⟨τ1, ex1, m1, fun a2 st2 e2 => ?_⟩
      obtain ⟨k1, k2, k3, k4⟩ := hh.stat _ _ e2
      obtain ⟨τ2, ex2⟩ := m2 _ _ e2
      have ex12 := ex1.trans g1 ex2
      have o2 := org_agree ex12.agree
      have hst2 : store (org τ2) := by rw [o2]; exact hst
      have b := h3 a1 a2 st2 k2 (hp.mono (g1.trans k1)) (g3.mono k1) k3 g4 k4
      obtain ⟨x', i1, i2, i3⟩ := h1.sound _ _ e1 τ2 ex2.dom hst2 (ex2.sat.mono k1)
      obtain ⟨y', j1, j2, j3⟩ := hh.sound _ _ e2 τ2 ex2.dom hst2 ex2.sat
      rw [o2, x1] at i1; cases i1
      rw [o2, y1] at j1; cases j1
      obtain ⟨l1, l2⟩ := b.ext τ2 ex2.dom ex2.sat (by omega) (by omega) z (by rw [i3, j3]; exact hz)
        zb.1 (by omega)
      refine ⟨τ2, ex12, l1, fun p' st' e3 => ?_⟩
      obtain ⟨τ3, ex3⟩ := l2 _ _ e3
      exact ⟨τ3, ex12.trans (g1.trans k1) ex3⟩
  · rcases Res.bind_fail.mp e with e | ⟨a1, st1, e1, e⟩
    · exact n1 e
    · obtain ⟨_, _, q1, q2⟩ := chain _ _ e1
      rcases Res.bind_fail.mp e with e | ⟨a2, st2, e2, e⟩
      · exact q1 e
      · obtain ⟨_, _, q3, _⟩ := q2 _ _ e2
        exact q3 e
  · obtain ⟨a1, st1, e1, e⟩ := Res.bind_ok.mp e
    obtain ⟨a2, st2, e2, e3⟩ := Res.bind_ok.mp e
    obtain ⟨_, _, q1, q2⟩ := chain _ _ e1
    obtain ⟨_, _, q3, q4⟩ := q2 _ _ e2
    exact q4 _ _ e3

end

end Gp.FdMath
