import Verif.FdMath.Norm

/-! # `Normalize` against the meaning of expressions: the induction -/

namespace Gp.FdMath

section
variable {E : Env} {w : Nat → Nat} {store : (Nat → Int) → Prop}
variable {V V1 V2 V3 : (Nat → Int) → Option Int} {B B1 B2 B3 : Nat} {st : St} {p : Poly} {s : Int}

/-- The value of a term is at most its magnitude. -/
theorem eval_mag {σ : Nat → Int} (hσ : ∀ n, 0 ≤ σ n ∧ σ n ≤ (w n : Int)) (e : Tm) :
    ∀ x, eval σ e = some x → x.natAbs ≤ mag w e := by
  have two : ∀ {a b : Tm} {f : Int → Int → Option Int} {x},
      ((natOpd (eval σ a)).bind fun x => (natOpd (eval σ b)).bind fun y => f x y) = some x →
      ∃ u v, eval σ a = some u ∧ 0 ≤ u ∧ eval σ b = some v ∧ 0 ≤ v ∧ f u v = some x := by
    intro a b f x h
    obtain ⟨u, h1, h⟩ := Option.bind_eq_some_iff.mp h
    obtain ⟨v, h2, h⟩ := Option.bind_eq_some_iff.mp h
    exact ⟨u, v, (natOpd_some.mp h1).1, (natOpd_some.mp h1).2, (natOpd_some.mp h2).1,
      (natOpd_some.mp h2).2, h⟩
  have two' : ∀ {a b : Tm} {f : Int → Int → Int} {x},
      ((natOpd (eval σ a)).bind fun x => (natOpd (eval σ b)).map fun y => f x y) = some x →
      ∃ u v, eval σ a = some u ∧ 0 ≤ u ∧ eval σ b = some v ∧ 0 ≤ v ∧ x = f u v := by
    intro a b f x h
    obtain ⟨u, h1, h⟩ := Option.bind_eq_some_iff.mp h
    obtain ⟨v, h2, h⟩ := Option.map_eq_some_iff.mp h
    exact ⟨u, v, (natOpd_some.mp h1).1, (natOpd_some.mp h1).2, (natOpd_some.mp h2).1,
      (natOpd_some.mp h2).2, h.symm⟩
  have two'' : ∀ {a b : Tm} {f : Int → Int → Int} {x},
      ((eval σ a).bind fun x => (eval σ b).map fun y => f x y) = some x →
      ∃ u v, eval σ a = some u ∧ eval σ b = some v ∧ x = f u v := by
    intro a b f x h
    obtain ⟨u, h1, h⟩ := Option.bind_eq_some_iff.mp h
    obtain ⟨v, h2, h⟩ := Option.map_eq_some_iff.mp h
    exact ⟨u, v, h1, h2, h.symm⟩
  have dv : ∀ (u v : Int) (A : Nat), u.natAbs ≤ A → (u / v).natAbs ≤ Max.max 1 A := by
    intro u v A h
    have := Int.natAbs_ediv_le_natAbs u v; omega
  have md : ∀ (u v : Int) (A : Nat), 0 ≤ u → 0 ≤ v → v ≠ 0 → u.natAbs ≤ A →
      (u % v).natAbs ≤ Max.max 1 A := by
    intro u v A hu hv hv0 h
    have h1 := Int.emod_nonneg u hv0
    have h2 := Int.mul_ediv_add_emod u v
    have h3 : 0 ≤ v * (u / v) := Int.mul_nonneg hv (Int.ediv_nonneg hu hv)
    omega
  induction e with
  | var n => intro x h; cases h; have := hσ n; simp only [mag]; omega
  | int n => intro x h; cases h; exact Nat.le_refl _
  | atom => intro x h; cases h
  | bad => intro x h; cases h
  | pos a ih => exact ih
  | neg a ih =>
    intro x h
    obtain ⟨u, h1, rfl⟩ := Option.map_eq_some_iff.mp h
    have := ih u h1
    simp only [mag]; omega
  | add a b iha ihb =>
    intro x h
    obtain ⟨u, v, h1, h2, rfl⟩ := two'' h
    have := iha u h1; have := ihb v h2
    simp only [mag]; omega
  | sub a b iha ihb =>
    intro x h
    obtain ⟨u, v, h1, h2, rfl⟩ := two'' h
    have := iha u h1; have := ihb v h2
    simp only [mag]; omega
  | mul a b iha ihb =>
    intro x h
    obtain ⟨u, v, h1, h2, rfl⟩ := two'' h
    rw [Int.natAbs_mul]
    exact Nat.mul_le_mul (iha u h1) (ihb v h2)
  | pow a b iha ihb =>
    intro x h
    obtain ⟨u, v, h1, p1, h2, p2, rfl⟩ := two' h
    rw [Int.natAbs_pow]
    have := ihb v h2
    exact pow_le_max (iha u h1) (by omega)
  | min a b iha ihb =>
    intro x h
    obtain ⟨u, v, h1, p1, h2, p2, rfl⟩ := two' h
    have := iha u h1; have := ihb v h2
    simp only [mag]; omega
  | max a b iha ihb =>
    intro x h
    obtain ⟨u, v, h1, p1, h2, p2, rfl⟩ := two' h
    have := iha u h1; have := ihb v h2
    simp only [mag]; omega
  | dist a b iha ihb =>
    intro x h
    obtain ⟨u, v, h1, p1, h2, p2, rfl⟩ := two' h
    have := iha u h1; have := ihb v h2
    simp only [mag]; omega
  | quot a b iha ihb =>
    intro x h
    obtain ⟨u, v, h1, p1, h2, p2, h⟩ := two h
    split at h
    · cases h
    · cases h; exact dv _ _ _ (iha u h1)
  | rem a b iha ihb =>
    intro x h
    obtain ⟨u, v, h1, p1, h2, p2, h⟩ := two h
    split at h
    · cases h
    · rename_i hv; cases h; exact md _ _ _ p1 p2 hv (iha u h1)
  | quotRem a b c iha ihb _ =>
    intro x h
    obtain ⟨u, v, h1, p1, h2, p2, h⟩ := two h
    obtain ⟨z, _, h⟩ := Option.bind_eq_some_iff.mp h
    split at h
    · cases h; exact dv _ _ _ (iha u h1)
    · cases h
  | div a b iha ihb =>
    intro x h
    obtain ⟨u, v, h1, p1, h2, p2, h⟩ := two h
    split at h
    · cases h; exact dv _ _ _ (iha u h1)
    · cases h

/-- A constant. -/
theorem OpS.const {n : Int} (hs : Sgn s) (g : Good st) (hp : PA st p) (hn : n.natAbs ≤ B)
    (hV : ∀ τ, Dom τ → store (org τ) → satAll τ st.posted → V (org τ) = some (s * n)) :
    OpS w store V B st p (.ok (p.addCst s n) (st.noteCoef n)) := by
  refine ⟨fun p' st' h => ?_, fun p' st' h τ d hst sa => ?_, fun τ d hst u sa x hx =>
    ⟨by simp, fun p' st' h => ?_⟩⟩ <;> simp only [Res.ok.injEq] at h <;> obtain ⟨rfl, rfl⟩ := h
  · refine ⟨Grow.noteCoef _ _, g.noteCoef _, hp.mono (Grow.noteCoef _ _), ?_⟩
    have := addCst_nrm p hs n one; omega
  · refine ⟨s * n, hV τ d hst sa.1, addCst_eval _ _ _ _, fun _ => ?_⟩
    have := addCst_nrm p hs n (nv τ); omega
  · exact ⟨τ, fun _ _ => rfl, d, sa⟩

/-- A variable with a coefficient. -/
theorem OpS.monom {a : Int} {v} (hs : Sgn s) (g : Good st) (hp : PA st p) (hw : 1 ≤ w v)
    (hB : a.natAbs * w v ≤ B)
    (hV : ∀ τ, Dom τ → store (org τ) → satAll τ st.posted → V (org τ) = some (s * (a * τ (.orig v)))) :
    OpS w store V B st p (addMonom p s a (.orig v) st) := by
  refine ⟨fun p' st' h => ?_, fun p' st' h τ d hst sa => ?_, fun τ d hst u sa x hx =>
    ⟨addMonom_not_fail, fun p' st' h => ?_⟩⟩ <;> obtain ⟨rfl, e2, e3, e4⟩ := addMonom_ok hs h
  · refine ⟨Grow.refl _, g, e4 _ hp trivial, ?_⟩
    have := e3 one
    have h1 : a.natAbs * 1 ≤ a.natAbs * w v := Nat.mul_le_mul (Nat.le_refl _) hw
    simp only [one] at this ⊢; omega
  · refine ⟨_, hV τ d hst sa.1, e2 τ, fun u => ?_⟩
    have := e3 (nv τ)
    have h0 : nv τ (.orig v) ≤ w v := by have := u v; simp only [nv]; omega
    have h1 : a.natAbs * nv τ (.orig v) ≤ a.natAbs * w v := Nat.mul_le_mul (Nat.le_refl _) h0
    omega
  · exact ⟨τ, Ext.refl d sa⟩

/-- A product. -/
theorem OpS.mul {r1 : Res Poly} {r2 : St → Res Poly} (hs : Sgn s) (hp : PA st p)
    (h1 : OpS w store V1 B1 st .new r1)
    (h2 : ∀ p1 st1, r1 = .ok p1 st1 → Good st1 → OpS w store V2 B2 st1 .new (r2 st1))
    (hM : ((B1 * B2 : Nat) : Int) ≤ MAX) :
    OpS w store (fun σ => ((V1 σ).bind fun x => (V2 σ).map fun y => x * y).map fun z => s * z)
      (B1 * B2) st p
      (r1.bind fun p1 st1 => (r2 st1).bind fun p2 st2 => mulPoly s p1 p2 p st2) := by
  have key : ∀ p1 st1 p2 st2, r1 = .ok p1 st1 → r2 st1 = .ok p2 st2 →
      Grow st st1 ∧ Grow st1 st2 ∧ Good st2 ∧ PA st2 p1 ∧ PA st2 p2 ∧ PA st2 p ∧ p1.nrm one ≤ B1 ∧
        p2.nrm one ≤ B2 ∧ OpS w store V2 B2 st1 .new (r2 st1) := by
    intro p1 st1 p2 st2 e1 e2
    obtain ⟨a1, a2, a3, a4⟩ := h1.stat _ _ e1
    have hh := h2 _ _ e1 a2
    obtain ⟨b1, b2, b3, b4⟩ := hh.stat _ _ e2
    rw [new_nrm] at a4 b4
    exact ⟨a1, b1, b2, a3.mono b1, b3, hp.mono (a1.trans b1), by omega, by omega, hh⟩
  refine ⟨fun p' st' e => ?_, fun p' st' e τ d hst sa => ?_, fun τ d hst u sa v hv =>
    ⟨fun e => ?_, fun p' st' e => ?_⟩⟩
  · obtain ⟨p1, st1, e1, e⟩ := Res.bind_ok.mp e
    obtain ⟨p2, st2, e2, e3⟩ := Res.bind_ok.mp e
    obtain ⟨g1, g2, gd, q1, q2, q3, n1, n2, _⟩ := key _ _ _ _ e1 e2
    obtain ⟨m1, m2, m3⟩ := mulPoly_MulS hs gd q3 q1 q2
    obtain ⟨k1, k2, k3, k4, k5⟩ := m1 _ _ e3
    refine ⟨(g1.trans g2).trans k1, k2, k3, ?_⟩
    have := k4 one (uok_one _)
    have := Nat.mul_le_mul n1 n2
    omega
  · obtain ⟨p1, st1, e1, e⟩ := Res.bind_ok.mp e
    obtain ⟨p2, st2, e2, e3⟩ := Res.bind_ok.mp e
    obtain ⟨g1, g2, gd, q1, q2, q3, n1, n2, hh⟩ := key _ _ _ _ e1 e2
    obtain ⟨m1, m2, m3⟩ := mulPoly_MulS hs gd q3 q1 q2
    obtain ⟨k1, k2, k3, k4, k5⟩ := m1 _ _ e3
    have s2 := sa.mono k1
    obtain ⟨x, x1, x2, x3⟩ := h1.sound _ _ e1 τ d hst (s2.mono g2)
    obtain ⟨y, y1, y2, y3⟩ := hh.sound _ _ e2 τ d hst s2
    rw [new_eval, Int.zero_add] at x2 y2
    rw [new_nrm] at x3 y3
    refine ⟨s * (x * y), by simp [x1, y1], by rw [k5 τ sa, x2, y2], fun u => ?_⟩
    have := k4 (nv τ) (uok_sat d sa)
    have a1 := x3 u; have a2 := y3 u
    have := Nat.mul_le_mul (show p1.nrm (nv τ) ≤ B1 by omega) (show p2.nrm (nv τ) ≤ B2 by omega)
    omega
  all_goals
    obtain ⟨z, hz, rfl⟩ := Option.map_eq_some_iff.mp hv
    obtain ⟨x, x1, hz⟩ := Option.bind_eq_some_iff.mp hz
    obtain ⟨y, y1, hz⟩ := Option.map_eq_some_iff.mp hz
    obtain ⟨n1, n2⟩ := h1.ext τ d hst u sa x x1
  · rcases Res.bind_fail.mp e with e | ⟨p1, st1, e1, e⟩
    · exact n1 e
    · obtain ⟨a1, a2, a3, a4⟩ := h1.stat _ _ e1
      have hh := h2 _ _ e1 a2
      obtain ⟨τ1, ex1⟩ := n2 _ _ e1
      have o1 := org_agree ex1.agree
      rcases Res.bind_fail.mp e with e | ⟨p2, st2, e2, e⟩
      · exact (hh.ext τ1 ex1.dom (by rw [o1]; exact hst) (u.agree ex1.agree) ex1.sat y
          (by rw [o1]; exact y1)).1 e
      · obtain ⟨g1, g2, gd, q1, q2, q3, n1, n2, hh⟩ := key _ _ _ _ e1 e2
        exact (mulPoly_MulS hs gd q3 q1 q2).2.1 e
  · obtain ⟨p1, st1, e1, e⟩ := Res.bind_ok.mp e
    obtain ⟨p2, st2, e2, e3⟩ := Res.bind_ok.mp e
    obtain ⟨g1, g2, gd, q1, q2, q3, _, _, hh⟩ := key _ _ _ _ e1 e2
    obtain ⟨τ1, ex1⟩ := n2 _ _ e1
    have o1 := org_agree ex1.agree
    obtain ⟨τ2, ex2⟩ := (hh.ext τ1 ex1.dom (by rw [o1]; exact hst) (u.agree ex1.agree) ex1.sat y
          (by rw [o1]; exact y1)).2 _ _ e2
    have ex12 := ex1.trans g1 ex2
    have o2 := org_agree ex12.agree
    have hst2 : store (org τ2) := by rw [o2]; exact hst
    have u2 := u.agree ex12.agree
    obtain ⟨_, _, _, x3⟩ := h1.sound _ _ e1 τ2 ex2.dom hst2 (ex2.sat.mono g2)
    obtain ⟨_, _, _, y3⟩ := hh.sound _ _ e2 τ2 ex2.dom hst2 ex2.sat
    have a1 := x3 u2; have a2 := y3 u2
    rw [new_nrm] at a1 a2
    have := Nat.mul_le_mul (show p1.nrm (nv τ2) ≤ B1 by omega) (show p2.nrm (nv τ2) ≤ B2 by omega)
    obtain ⟨τ3, ex3⟩ := (mulPoly_MulS hs gd q3 q1 q2).2.2 _ _ e3 τ2 ex2.dom ex2.sat (by omega)
    exact ⟨τ3, ex12.trans (g1.trans g2) ex3⟩

/-- `//` and `rem`. -/
theorem OpS.qr2 {r1 : Res W} {r2 : St → Res W} {f : W → W → St → Res Poly} {k : QR}
    (hk : k ≠ .quotRem) (g : Good st) (hp : PA st p)
    (h1 : WS w store V1 B1 st.pushCell r1)
    (h2 : ∀ a1 st1, r1 = .ok a1 st1 → Good st1 → WS w store V2 B2 st1 (r2 st1))
    (h3 : ∀ a1 a2 st2, Good st2 → PA st2 p → WAlloc st2 a1 → WAlloc st2 a2 →
      WAlloc st2 (.var (.heap st.h)) → WB B1 a1 → WB B2 a2 →
      QrS k (f a1 a2 st2) st2 p s a1 a2 (.var (.heap st.h)) B)
    (hBM : (B1 : Int) ≤ MAX)
    (hbd : ∀ σ x, (∀ n, 0 ≤ σ n ∧ σ n ≤ (w n : Int)) → V1 σ = some x → x.natAbs ≤ B1)
    (hB : B = Max.max 1 B1) :
    OpS w store (fun σ => ((natOpd (V1 σ)).bind fun x => (natOpd (V2 σ)).bind fun y =>
        if y = 0 then none else some (k.val x y)).map fun z => s * z) B st p
      (r1.bind fun a1 st1 => (r2 st1).bind fun a2 st2 => f a1 a2 st2) := by
  have hbd' : ∀ τ x, Dom τ → Under w τ → V1 (org τ) = some x → x.natAbs ≤ B1 :=
    fun τ x d u => hbd (org τ) x (fun n => ⟨(d _).1, u n⟩)
  have val_le : ∀ x y : Int, 0 ≤ x → 0 ≤ y → y ≠ 0 → x.natAbs ≤ B1 →
      (k.val x y).natAbs ≤ B ∧ x % y ≤ B1 ∧ x / y ≤ B1 ∧ 0 ≤ x % y := by
    intro x y hx hy hy0 h
    have h1 := Int.emod_nonneg x hy0
    have h2 := Int.mul_ediv_add_emod x y
    have h3 : 0 ≤ y * (x / y) := Int.mul_nonneg hy (Int.ediv_nonneg hx hy)
    have h4 := Int.natAbs_ediv_le_natAbs x y
    refine ⟨?_, by omega, by omega, h1⟩
    cases k <;> simp only [QR.val] <;> omega
  have key : ∀ a1 st1 a2 st2, r1 = .ok a1 st1 → r2 st1 = .ok a2 st2 →
      Grow st.pushCell st1 ∧ Grow st1 st2 ∧ WS w store V2 B2 st1 (r2 st1) ∧ WAlloc st1 a1 ∧
      QrS k (f a1 a2 st2) st2 p s a1 a2 (.var (.heap st.h)) B := by
    intro a1 st1 a2 st2 e1 e2
    obtain ⟨g1, g2, g3, g4⟩ := h1.stat _ _ e1
    have hh := h2 _ _ e1 g2
    obtain ⟨k1, k2, k3, k4⟩ := hh.stat _ _ e2
    have gr := (Grow.pushCell st).trans (g1.trans k1)
    exact ⟨g1, k1, hh, g3, h3 a1 a2 st2 k2 (hp.mono gr) (g3.mono k1) k3
      (show st.h < st2.h from Nat.lt_of_lt_of_le (Nat.lt_succ_self _) (g1.trans k1).h) g4 k4⟩
  refine ⟨fun p' st' e => ?_, fun p' st' e τ d hst sa => ?_, fun τ d hst u sa v hv =>
    ?_⟩
  · obtain ⟨a1, st1, e1, e⟩ := Res.bind_ok.mp e
    obtain ⟨a2, st2, e2, e3⟩ := Res.bind_ok.mp e
    obtain ⟨g1, k1, hh, _, b⟩ := key _ _ _ _ e1 e2
    obtain ⟨b1, b2, b3, b4⟩ := b.stat _ _ e3
    exact ⟨((Grow.pushCell st).trans (g1.trans k1)).trans b1, b2, b3, b4⟩
  · obtain ⟨a1, st1, e1, e⟩ := Res.bind_ok.mp e
    obtain ⟨a2, st2, e2, e3⟩ := Res.bind_ok.mp e
    obtain ⟨g1, k1, hh, _, b⟩ := key _ _ _ _ e1 e2
    obtain ⟨b1, b2, b3, b4⟩ := b.stat _ _ e3
    have s2 := sa.mono b1
    obtain ⟨x, x1, x2, x3⟩ := h1.sound _ _ e1 τ d hst (s2.mono k1)
    obtain ⟨y, y1, y2, y3⟩ := hh.sound _ _ e2 τ d hst s2
    obtain ⟨z1, _, z2, z3⟩ := b.sound _ _ e3 τ d (by omega) (by omega) (d _).1 sa
    rw [x3, y3] at z2 z3
    rw [y3] at z1
    have nx := natOpd_some.mpr ⟨x1, x2⟩
    have ny := natOpd_some.mpr ⟨y1, y2⟩
    refine ⟨s * k.val x y, by simp [nx, ny, z1], z2, fun u => ?_⟩
    exact z3 (val_le x y x2 y2 z1 (hbd' τ x d u x1)).1
  · obtain ⟨z, hz, rfl⟩ := Option.map_eq_some_iff.mp hv
    obtain ⟨x, nx, hz⟩ := Option.bind_eq_some_iff.mp hz
    obtain ⟨y, ny, hz⟩ := Option.bind_eq_some_iff.mp hz
    obtain ⟨x1, x2⟩ := natOpd_some.mp nx
    obtain ⟨y1, y2⟩ := natOpd_some.mp ny
    have hy : y ≠ 0 := by
      intro h; rw [if_pos h] at hz; cases hz
    obtain ⟨v1, v2, v3, v4⟩ := val_le x y x2 y2 hy (hbd' τ x d u x1)
    have ex0 := Ext.pushCell (st := st) (n := x % y) d g sa ⟨v4, by omega⟩
    have a0 := ex0.agree
    have hval : upd τ (.heap st.h) (x % y) (.heap st.h) = x % y := upd_same _ _ _
    generalize upd τ (.heap st.h) (x % y) = τ0 at ex0 a0 hval
    have o0 := org_agree a0
    obtain ⟨n1, n2⟩ := h1.ext τ0 ex0.dom (by rw [o0]; exact hst) (u.agree a0) ex0.sat x
      (by rw [o0]; exact x1) x2
    have chain : ∀ a1 st1, r1 = .ok a1 st1 → r2 st1 ≠ .fail ∧
        ∀ a2 st2, r2 st1 = .ok a2 st2 → f a1 a2 st2 ≠ .fail ∧
          ∀ p' st', f a1 a2 st2 = .ok p' st' → ∃ τ3, Ext st τ st' τ3 := by
      intro a1 st1 e1
      obtain ⟨g1, g2, g3, g4⟩ := h1.stat _ _ e1
      have hh := h2 _ _ e1 g2
      obtain ⟨τ1, ex1⟩ := n2 _ _ e1
      have ex01 := ex0.trans (Grow.pushCell st) ex1
      have o1 := org_agree ex01.agree
      obtain ⟨m1, m2⟩ := hh.ext τ1 ex1.dom (by rw [o1]; exact hst) (u.agree ex01.agree) ex1.sat y
        (by rw [o1]; exact y1) y2
      refine ⟨m1, fun a2 st2 e2 => ?_⟩
      obtain ⟨_, k1, _, _, b⟩ := key _ _ _ _ e1 e2
      obtain ⟨τ2, ex2⟩ := m2 _ _ e2
      have ex12 := ex1.trans g1 ex2
      have gr := (Grow.pushCell st).trans (g1.trans k1)
      have ex02 := ex0.trans (Grow.pushCell st) ex12
      have o2 := org_agree ex02.agree
      have hst2 : store (org τ2) := by rw [o2]; exact hst
      obtain ⟨x', i1, i2, i3⟩ := h1.sound _ _ e1 τ2 ex2.dom hst2 (ex2.sat.mono k1)
      obtain ⟨y', j1, j2, j3⟩ := hh.sound _ _ e2 τ2 ex2.dom hst2 ex2.sat
      rw [o2, x1] at i1; cases i1
      rw [o2, y1] at j1; cases j1
      have hc : (W.var (.heap st.h)).iv τ2 = x % y := by
        show τ2 (.heap st.h) = x % y
        rw [← ex12.agree (.heap st.h) (Nat.lt_succ_self _), hval]
      obtain ⟨l1, l2⟩ := b.ext τ2 ex2.dom ex2.sat (by omega) (by omega) (by omega)
        (by rw [hc, i3, j3]) (by rw [i3, j3]; omega)
      refine ⟨l1, fun p' st' e3 => ?_⟩
      obtain ⟨τ3, ex3⟩ := l2 _ _ e3
      exact ⟨τ3, ex02.trans gr ex3⟩
    refine ⟨fun e => ?_, fun p' st' e => ?_⟩
    · rcases Res.bind_fail.mp e with e | ⟨a1, st1, e1, e⟩
      · exact n1 e
      · obtain ⟨q1, q2⟩ := chain _ _ e1
        rcases Res.bind_fail.mp e with e | ⟨a2, st2, e2, e⟩
        · exact q1 e
        · exact (q2 _ _ e2).1 e
    · obtain ⟨a1, st1, e1, e⟩ := Res.bind_ok.mp e
      obtain ⟨a2, st2, e2, e3⟩ := Res.bind_ok.mp e
      exact ((chain _ _ e1).2 _ _ e2).2 _ _ e3

/-- `quot_rem`. -/
theorem OpS.qr3 {r1 : Res W} {r2 r3 : St → Res W} {f : W → W → W → St → Res Poly}
    (hp : PA st p)
    (h1 : WS w store V1 B1 st r1)
    (h2 : ∀ a1 st1, r1 = .ok a1 st1 → Good st1 → WS w store V2 B2 st1 (r2 st1))
    (h2' : ∀ a2 st1 st2, r2 st1 = .ok a2 st2 → Good st2 → WS w store V3 B3 st2 (r3 st2))
    (h3 : ∀ a1 a2 a3 st2, Good st2 → PA st2 p → WAlloc st2 a1 → WAlloc st2 a2 → WAlloc st2 a3 →
      WB B1 a1 → WB B2 a2 → WB B3 a3 → QrS .quotRem (f a1 a2 a3 st2) st2 p s a1 a2 a3 B)
    (hBM : (B1 : Int) ≤ MAX)
    (hbd : ∀ σ x, (∀ n, 0 ≤ σ n ∧ σ n ≤ (w n : Int)) → V1 σ = some x → x.natAbs ≤ B1)
    (hB : B = Max.max 1 B1) :
    OpS w store (fun σ => ((natOpd (V1 σ)).bind fun x => (natOpd (V2 σ)).bind fun y =>
        (natOpd (V3 σ)).bind fun z =>
        if y ≠ 0 ∧ z = x % y then some (x / y) else none).map fun z => s * z) B st p
      (r1.bind fun a1 st1 => (r2 st1).bind fun a2 st2 => (r3 st2).bind fun a3 st3 =>
        f a1 a2 a3 st3) := by
  have hbd' : ∀ τ x, Dom τ → Under w τ → V1 (org τ) = some x → x.natAbs ≤ B1 :=
    fun τ x d u => hbd (org τ) x (fun n => ⟨(d _).1, u n⟩)
  have val_le : ∀ x y : Int, x.natAbs ≤ B1 → (x / y).natAbs ≤ B1 := by
    intro x y h
    have h4 := Int.natAbs_ediv_le_natAbs x y
    omega
  have key : ∀ a1 st1 a2 st2 a3 st3, r1 = .ok a1 st1 → r2 st1 = .ok a2 st2 → r3 st2 = .ok a3 st3 →
      Grow st st1 ∧ Grow st1 st2 ∧ Grow st2 st3 ∧ WS w store V2 B2 st1 (r2 st1) ∧
      WS w store V3 B3 st2 (r3 st2) ∧
      QrS .quotRem (f a1 a2 a3 st3) st3 p s a1 a2 a3 B := by
    intro a1 st1 a2 st2 a3 st3 e1 e2 e3
    obtain ⟨g1, g2, g3, g4⟩ := h1.stat _ _ e1
    have hh := h2 _ _ e1 g2
    obtain ⟨k1, k2, k3, k4⟩ := hh.stat _ _ e2
    have hh' := h2' _ _ _ e2 k2
    obtain ⟨l1, l2, l3, l4⟩ := hh'.stat _ _ e3
    exact ⟨g1, k1, l1, hh, hh', h3 a1 a2 a3 st3 l2 (hp.mono (g1.trans (k1.trans l1)))
      (g3.mono (k1.trans l1)) (k3.mono l1) l3 g4 k4 l4⟩
  refine ⟨fun p' st' e => ?_, fun p' st' e τ d hst sa => ?_, fun τ d hst u sa v hv =>
    ?_⟩
  · obtain ⟨a1, st1, e1, e⟩ := Res.bind_ok.mp e
    obtain ⟨a2, st2, e2, e⟩ := Res.bind_ok.mp e
    obtain ⟨a3, st3, e3, e4⟩ := Res.bind_ok.mp e
    obtain ⟨g1, k1, l1, _, _, b⟩ := key _ _ _ _ _ _ e1 e2 e3
    obtain ⟨b1, b2, b3, b4⟩ := b.stat _ _ e4
    exact ⟨(g1.trans (k1.trans l1)).trans b1, b2, b3, b4⟩
  · obtain ⟨a1, st1, e1, e⟩ := Res.bind_ok.mp e
    obtain ⟨a2, st2, e2, e⟩ := Res.bind_ok.mp e
    obtain ⟨a3, st3, e3, e4⟩ := Res.bind_ok.mp e
    obtain ⟨g1, k1, l1, hh, hh', b⟩ := key _ _ _ _ _ _ e1 e2 e3
    obtain ⟨b1, b2, b3, b4⟩ := b.stat _ _ e4
    have s3 := sa.mono b1
    have s2 := s3.mono l1
    obtain ⟨x, x1, x2, x3⟩ := h1.sound _ _ e1 τ d hst (s2.mono k1)
    obtain ⟨y, y1, y2, y3⟩ := hh.sound _ _ e2 τ d hst s2
    obtain ⟨z, w1, w2, w3⟩ := hh'.sound _ _ e3 τ d hst s3
    obtain ⟨z1, z0, z2, z3⟩ := b.sound _ _ e4 τ d (by omega) (by omega) (by omega) sa
    rw [x3, y3] at z2 z3
    rw [x3, y3, w3] at z0
    rw [y3] at z1
    have nx := natOpd_some.mpr ⟨x1, x2⟩
    have ny := natOpd_some.mpr ⟨y1, y2⟩
    have nz := natOpd_some.mpr ⟨w1, w2⟩
    refine ⟨s * (x / y), by simp [nx, ny, nz, z1, z0], z2, fun u => z3 ?_⟩
    have := val_le x y (hbd' τ x d u x1)
    show (x / y).natAbs ≤ B
    omega
  · obtain ⟨q, hz, rfl⟩ := Option.map_eq_some_iff.mp hv
    obtain ⟨x, nx, hz⟩ := Option.bind_eq_some_iff.mp hz
    obtain ⟨y, ny, hz⟩ := Option.bind_eq_some_iff.mp hz
    obtain ⟨z, nz, hz⟩ := Option.bind_eq_some_iff.mp hz
    obtain ⟨x1, x2⟩ := natOpd_some.mp nx
    obtain ⟨y1, y2⟩ := natOpd_some.mp ny
    obtain ⟨z1, z2⟩ := natOpd_some.mp nz
    have hy : y ≠ 0 ∧ z = x % y := by
      refine Classical.not_not.mp fun h => ?_
      rw [if_neg h] at hz; cases hz
    have v1 := val_le x y (hbd' τ x d u x1)
    obtain ⟨n1, n2⟩ := h1.ext τ d hst u sa x x1 x2
    have chain : ∀ a1 st1, r1 = .ok a1 st1 → r2 st1 ≠ .fail ∧
        ∀ a2 st2, r2 st1 = .ok a2 st2 → r3 st2 ≠ .fail ∧
          ∀ a3 st3, r3 st2 = .ok a3 st3 → f a1 a2 a3 st3 ≠ .fail ∧
          ∀ p' st', f a1 a2 a3 st3 = .ok p' st' → ∃ τ3, Ext st τ st' τ3 := by
      intro a1 st1 e1
      obtain ⟨g1, g2, g3, g4⟩ := h1.stat _ _ e1
      have hh := h2 _ _ e1 g2
      obtain ⟨τ1, ex1⟩ := n2 _ _ e1
      have o1 := org_agree ex1.agree
      obtain ⟨m1, m2⟩ := hh.ext τ1 ex1.dom (by rw [o1]; exact hst) (u.agree ex1.agree) ex1.sat y
        (by rw [o1]; exact y1) y2
      refine ⟨m1, fun a2 st2 e2 => ?_⟩
      obtain ⟨k1, k2, k3, k4⟩ := hh.stat _ _ e2
      have hh' := h2' _ _ _ e2 k2
      obtain ⟨τ2, ex2⟩ := m2 _ _ e2
      have ex12 := ex1.trans g1 ex2
      have o2 := org_agree ex12.agree
      obtain ⟨p1, p2⟩ := hh'.ext τ2 ex2.dom (by rw [o2]; exact hst) (u.agree ex12.agree) ex2.sat z
        (by rw [o2]; exact z1) z2
      refine ⟨p1, fun a3 st3 e3 => ?_⟩
      obtain ⟨_, _, l1, _, _, b⟩ := key _ _ _ _ _ _ e1 e2 e3
      obtain ⟨τ3, ex3⟩ := p2 _ _ e3
      have ex13 := ex12.trans (g1.trans k1) ex3
      have o3 := org_agree ex13.agree
      have hst3 : store (org τ3) := by rw [o3]; exact hst
      have s2 := ex3.sat.mono l1
      obtain ⟨x', i1, i2, i3⟩ := h1.sound _ _ e1 τ3 ex3.dom hst3 (s2.mono k1)
      obtain ⟨y', j1, j2, j3⟩ := hh.sound _ _ e2 τ3 ex3.dom hst3 s2
      obtain ⟨z', t1, t2, t3⟩ := hh'.sound _ _ e3 τ3 ex3.dom hst3 ex3.sat
      rw [o3, x1] at i1; cases i1
      rw [o3, y1] at j1; cases j1
      rw [o3, z1] at t1; cases t1
      obtain ⟨w1, w2⟩ := b.ext τ3 ex3.dom ex3.sat (by omega) (by omega) (by omega)
        (by rw [i3, j3, t3]; exact hy.2) (by rw [i3, j3]; omega)
      refine ⟨w1, fun p' st' e4 => ?_⟩
      obtain ⟨τ4, ex4⟩ := w2 _ _ e4
      exact ⟨τ4, ex13.trans (g1.trans (k1.trans l1)) ex4⟩
    refine ⟨fun e => ?_, fun p' st' e => ?_⟩
    · rcases Res.bind_fail.mp e with e | ⟨a1, st1, e1, e⟩
      · exact n1 e
      · obtain ⟨q1, q2⟩ := chain _ _ e1
        rcases Res.bind_fail.mp e with e | ⟨a2, st2, e2, e⟩
        · exact q1 e
        · obtain ⟨q3, q4⟩ := q2 _ _ e2
          rcases Res.bind_fail.mp e with e | ⟨a3, st3, e3, e⟩
          · exact q3 e
          · exact (q4 _ _ e3).1 e
    · obtain ⟨a1, st1, e1, e⟩ := Res.bind_ok.mp e
      obtain ⟨a2, st2, e2, e⟩ := Res.bind_ok.mp e
      obtain ⟨a3, st3, e3, e4⟩ := Res.bind_ok.mp e
      exact (((chain _ _ e1).2 _ _ e2).2 _ _ e3).2 _ _ e4

/-! ## The induction -/

theorem rd_int {a : Tm} {n} (h : rd E st a = .int n) :
    a = .int n ∨ ∃ m, a = .var m ∧ E.inst st.posted m = some n := by
  cases a <;> simp only [rd] at h <;> try (cases h; done)
  · split at h
    · rename_i k hk; simp only [Tm.int.injEq] at h; subst h; exact .inr ⟨_, rfl, hk⟩
    · cases h
  · exact .inl h

theorem rd_var {a : Tm} {v} (h : rd E st a = .var v) : a = .var v := by
  cases a <;> simp only [rd] at h <;> try (cases h; done)
  split at h
  · cases h
  · exact h

theorem ctx_inst (c : Ctx E w store) {n k τ} (h : E.inst st.posted n = some k) (d : Dom τ)
    (hst : store (org τ)) (sa : satAll τ st.posted) : org τ n = k := c.hS _ _ _ h τ d hst sa

theorem map_one (o : Option Int) : (o.map fun x => 1 * x) = o := by
  cases o <;> simp

/-- A word for a subexpression. -/
theorem word_of (c : Ctx E w store) {a : Tm} (hM : (mag w a : Int) ≤ MAX)
    (h : OpS w store (fun σ => (eval σ a).map fun x => 1 * x) (mag w a) st.unsorted .new
      (normalize E a 1 .new st.unsorted)) :
    WS w store (fun σ => eval σ a) (mag w a) st
      (loadFin E (normalize E a 1 .new st.unsorted)) := by
  have := (OpS.load c h hM).flag
  rwa [show (fun σ => (eval σ a).map fun x => 1 * x) = fun σ => eval σ a from
    funext fun σ => map_one _] at this

theorem sgn_one : Sgn 1 := .inl rfl

theorem normalize_OpS (c : Ctx E w store) (e : Tm) : ∀ s p st, Sgn s → Good st → PA st p →
    fits w e → (mag w e : Int) ≤ MAX →
    OpS w store (fun σ => (eval σ e).map fun x => s * x) (mag w e) st p (normalize E e s p st) := by
  induction e with
  | var n =>
    intro s p st hs g hp _ _
    simp only [normalize]
    split
    · rename_i k hk
      refine OpS.const hs g hp ?_ (fun τ d hst sa => ?_)
      · have := c.hI _ _ _ hk; simp only [mag]; omega
      · simp only [eval, ctx_inst c hk d hst sa, Option.map_some]
    · exact OpS.monom hs g hp (c.hw n) (by simp [mag]) (fun τ _ _ _ => by simp [eval, org])
  | int n =>
    intro s p st hs g hp _ _
    exact OpS.const hs g hp (Nat.le_refl _) (fun _ _ _ _ => rfl)
  | atom =>
    intro s p st hs g hp _ _
    exact ⟨by simp [normalize], by simp [normalize], fun _ _ _ _ _ x hx => by simp [eval] at hx⟩
  | bad =>
    intro s p st hs g hp _ _
    exact ⟨by simp [normalize], by simp [normalize], fun _ _ _ _ _ x hx => by simp [eval] at hx⟩
  | pos a ih =>
    intro s p st hs g hp hf hM
    exact ih s p st hs g hp hf.1 hf.2
  | neg a ih =>
    intro s p st hs g hp hf hM
    refine (ih (-s) p st hs.neg g hp hf.1 hf.2).conv (funext fun σ => ?_) rfl
    simp only [eval, Option.map_map]
    congr 1; funext x; simp [Int.neg_mul, Int.mul_neg]
  | add a b iha ihb =>
    intro s p st hs g hp hf hM
    obtain ⟨f1, f2, m1, m2⟩ := hf
    simp only [normalize]
    split
    · refine ((ihb s p st hs g hp f2 m2).seq (fun p1 st1 _ _ g1 h1 =>
        iha s p1 st1 hs g1 h1 f1 m1)).conv (funext fun σ => ?_) (by simp only [mag]; omega)
      simp only [eval]
      cases eval σ a <;> cases eval σ b <;> simp [Int.mul_add, Int.add_comm]
    · refine ((iha s p st hs g hp f1 m1).seq (fun p1 st1 _ _ g1 h1 =>
        ihb s p1 st1 hs g1 h1 f2 m2)).conv (funext fun σ => ?_) (by simp only [mag])
      simp only [eval]
      cases eval σ a <;> cases eval σ b <;> simp [Int.mul_add]
  | sub a b iha ihb =>
    intro s p st hs g hp hf hM
    obtain ⟨f1, f2, m1, m2⟩ := hf
    simp only [normalize]
    split
    · refine ((ihb (-s) p st hs.neg g hp f2 m2).seq (fun p1 st1 _ _ g1 h1 =>
        iha s p1 st1 hs g1 h1 f1 m1)).conv (funext fun σ => ?_) (by simp only [mag]; omega)
      simp only [eval]
      cases eval σ a <;> cases eval σ b <;> simp [Int.mul_sub, Int.neg_mul]
      omega
    · refine ((iha s p st hs g hp f1 m1).seq (fun p1 st1 _ _ g1 h1 =>
        ihb (-s) p1 st1 hs.neg g1 h1 f2 m2)).conv (funext fun σ => ?_) (by simp only [mag])
      simp only [eval]
      cases eval σ a <;> cases eval σ b <;> simp [Int.mul_sub, Int.neg_mul]
      omega
  | mul a b iha ihb =>
    intro s p st hs g hp hf hM
    obtain ⟨f1, f2, m1, m2⟩ := hf
    have any : ∀ st, Good st → PA st p → OpS w store (fun σ => (eval σ (.mul a b)).map fun x => s * x)
        (mag w (.mul a b)) st p
        ((normalize E a 1 .new st).bind fun p1 st =>
          (normalize E b 1 .new st).bind fun p2 st => mulPoly s p1 p2 p st) := by
      intro st g hp
      refine (OpS.mul (r2 := fun st => normalize E b 1 .new st) hs hp
        (iha 1 .new st sgn_one g (new_PA _) f1 m1)
        (fun p1 st1 _ g1 => ihb 1 .new st1 sgn_one g1 (new_PA _) f2 m2) hM).conv (funext fun σ => ?_) rfl
      simp only [eval, map_one]
    simp only [normalize]
    split
    · rename_i n hr
      split
      · rename_i v hv
        have hb := rd_var hv; subst hb
        refine (OpS.monom (st := st.noteCoef n) hs (g.noteCoef n) (hp.mono (Grow.noteCoef _ _)) (c.hw v) ?_
          (fun τ d hst sa => ?_)).flag
        · simp only [mag]
          refine Nat.mul_le_mul ?_ (Nat.le_refl _)
          rcases rd_int hr with rfl | ⟨m, rfl, hi⟩
          · exact Nat.le_refl _
          · have := c.hI _ _ _ hi; simp only [mag]; omega
        · have : eval (org τ) a = some n := by
            rcases rd_int hr with rfl | ⟨m, rfl, hi⟩
            · rfl
            · simp only [eval, ctx_inst c hi d hst sa]
          simp [eval, this, org]
      · exact (any (st.noteCoef n) (g.noteCoef n) (hp.mono (Grow.noteCoef _ _))).flag
    · exact any st g hp
  | pow a b iha ihb =>
    intro s p st hs g hp hf hM
    obtain ⟨f1, f2, m1, m2, m3⟩ := hf
    refine (OpS.bin (G := fun x y => some (x ^ y.toNat)) (B := mag w (.pow a b)) hp
      (word_of c m1 (iha 1 .new _ sgn_one g.unsorted (new_PA _) f1 m1))
      (fun _ st1 _ _ g1 => word_of c m2 (ihb 1 .new _ sgn_one g1.unsorted (new_PA _) f2 m2))
      (fun a1 a2 st2 g2 h2 w1 w2 b1 b2 => powW_spec hs g2 h2 w1 w2 b1 b2 m1 m2 m3) hM
      ?_).conv (funext fun σ => ?_) rfl
    · intro σ x y z hσ hx hy hz
      have := eval_mag hσ (.pow a b) z (by
        simp only [eval, hx, hy, Option.bind_some, Option.map_some]; exact hz)
      have h0 := (natOpd_some.mp hx).2
      cases hz
      have h3 : 0 ≤ x ^ y.toNat := Int.pow_nonneg h0
      omega
    · simp only [eval, Option.map_eq_bind, Function.comp_def]
  | min a b iha ihb =>
    intro s p st hs g hp hf hM
    obtain ⟨f1, f2, m1, m2⟩ := hf
    refine (OpS.bin (G := fun x y => some (Min.min x y)) (B := mag w (.min a b)) hp
      (word_of c m1 (iha 1 .new _ sgn_one g.unsorted (new_PA _) f1 m1))
      (fun _ st1 _ _ g1 => word_of c m2 (ihb 1 .new _ sgn_one g1.unsorted (new_PA _) f2 m2))
      (fun a1 a2 st2 g2 h2 w1 w2 b1 b2 => minW_spec hs g2 h2 w1 w2 b1 b2 m1 m2) hM
      ?_).conv (funext fun σ => ?_) rfl
    · intro σ x y z hσ hx hy hz
      have := eval_mag hσ (.min a b) z (by
        simp only [eval, hx, hy, Option.bind_some, Option.map_some]; exact hz)
      have h0 := (natOpd_some.mp hx).2
      have h1 := (natOpd_some.mp hy).2
      cases hz
      omega
    · simp only [eval, Option.map_eq_bind, Function.comp_def]
  | max a b iha ihb =>
    intro s p st hs g hp hf hM
    obtain ⟨f1, f2, m1, m2⟩ := hf
    refine (OpS.bin (G := fun x y => some (Max.max x y)) (B := mag w (.max a b)) hp
      (word_of c m1 (iha 1 .new _ sgn_one g.unsorted (new_PA _) f1 m1))
      (fun _ st1 _ _ g1 => word_of c m2 (ihb 1 .new _ sgn_one g1.unsorted (new_PA _) f2 m2))
      (fun a1 a2 st2 g2 h2 w1 w2 b1 b2 => maxW_spec hs g2 h2 w1 w2 b1 b2 m1 m2) hM
      ?_).conv (funext fun σ => ?_) rfl
    · intro σ x y z hσ hx hy hz
      have := eval_mag hσ (.max a b) z (by
        simp only [eval, hx, hy, Option.bind_some, Option.map_some]; exact hz)
      have h0 := (natOpd_some.mp hx).2
      cases hz
      omega
    · simp only [eval, Option.map_eq_bind, Function.comp_def]
  | dist a b iha ihb =>
    intro s p st hs g hp hf hM
    obtain ⟨f1, f2, m1, m2⟩ := hf
    refine (OpS.bin (G := fun x y => some ((x - y).natAbs : Int)) (B := mag w (.dist a b)) hp
      (word_of c m1 (iha 1 .new _ sgn_one g.unsorted (new_PA _) f1 m1))
      (fun _ st1 _ _ g1 => word_of c m2 (ihb 1 .new _ sgn_one g1.unsorted (new_PA _) f2 m2))
      (fun a1 a2 st2 g2 h2 w1 w2 b1 b2 => distW_spec hs g2 h2 w1 w2 b1 b2 m1 m2) hM
      ?_).conv (funext fun σ => ?_) rfl
    · intro σ x y z hσ hx hy hz
      have := eval_mag hσ (.dist a b) z (by
        simp only [eval, hx, hy, Option.bind_some, Option.map_some]; exact hz)
      cases hz
      omega
    · simp only [eval, Option.map_eq_bind, Function.comp_def]
  | div a b iha ihb =>
    intro s p st hs g hp hf hM
    obtain ⟨f1, f2, m1, m2⟩ := hf
    refine (OpS.bin (G := divG) (B := mag w (.div a b)) hp
      (word_of c m1 (iha 1 .new _ sgn_one g.unsorted (new_PA _) f1 m1))
      (fun _ st1 _ _ g1 => word_of c m2 (ihb 1 .new _ sgn_one g1.unsorted (new_PA _) f2 m2))
      (fun a1 a2 st2 g2 h2 w1 w2 b1 b2 => divW_spec hs g2 h2 w1 w2 b1 b2 m1 m2) hM
      ?_).conv (funext fun σ => ?_) rfl
    · intro σ x y z hσ hx hy hz
      have := eval_mag hσ (.div a b) z (by
        simp only [eval, hx, hy, Option.bind_some]; exact hz)
      have h0 := (natOpd_some.mp hx).2
      have h1 := (natOpd_some.mp hy).2
      simp only [divG] at hz
      split at hz
      · cases hz; have := Int.ediv_nonneg h0 h1; omega
      · cases hz
    · simp only [eval, divG]
  | quot a b iha ihb =>
    intro s p st hs g hp hf hM
    obtain ⟨f1, f2, m1, m2⟩ := hf
    refine (OpS.qr2 (k := .quot) (B := mag w (.quot a b)) (by simp) g hp
      (word_of c m1 (iha 1 .new _ sgn_one g.pushCell.unsorted (new_PA _) f1 m1))
      (fun _ st1 _ g1 => word_of c m2 (ihb 1 .new _ sgn_one g1.unsorted (new_PA _) f2 m2))
      (fun a1 a2 st2 g2 h2 w1 w2 w3 b1 b2 => qrW_spec (B3 := 0) hs g2 h2 w1 w2 w3 b1 b2
        (fun n h => by cases h) m1 m2 (by decide) (by simp)) m1
      (fun σ x hσ hx => eval_mag hσ a x hx) rfl).conv rfl rfl
  | rem a b iha ihb =>
    intro s p st hs g hp hf hM
    obtain ⟨f1, f2, m1, m2⟩ := hf
    refine (OpS.qr2 (k := .rem) (B := mag w (.rem a b)) (by simp) g hp
      (word_of c m1 (iha 1 .new _ sgn_one g.pushCell.unsorted (new_PA _) f1 m1))
      (fun _ st1 _ g1 => word_of c m2 (ihb 1 .new _ sgn_one g1.unsorted (new_PA _) f2 m2))
      (fun a1 a2 st2 g2 h2 w1 w2 w3 b1 b2 => qrW_spec (B3 := 0) hs g2 h2 w1 w2 w3 b1 b2
        (fun n h => by cases h) m1 m2 (by decide) (fun _ => ⟨_, rfl⟩)) m1
      (fun σ x hσ hx => eval_mag hσ a x hx) rfl).conv rfl rfl
  | quotRem a b r iha ihb ihr =>
    intro s p st hs g hp hf hM
    obtain ⟨f1, f2, f3, m1, m2, m3⟩ := hf
    refine (OpS.qr3 (B := mag w (.quotRem a b r)) hp
      (word_of c m1 (iha 1 .new _ sgn_one g.unsorted (new_PA _) f1 m1))
      (fun _ st1 _ g1 => word_of c m2 (ihb 1 .new _ sgn_one g1.unsorted (new_PA _) f2 m2))
      (fun _ _ st2 _ g1 => word_of c m3 (ihr 1 .new _ sgn_one g1.unsorted (new_PA _) f3 m3))
      (fun a1 a2 a3 st2 g2 h2 w1 w2 w3 b1 b2 b3 => qrW_spec hs g2 h2 w1 w2 w3 b1 b2 b3
        m1 m2 m3 (by simp)) m1
      (fun σ x hσ hx => eval_mag hσ a x hx) rfl).conv rfl rfl

end

end Gp.FdMath
