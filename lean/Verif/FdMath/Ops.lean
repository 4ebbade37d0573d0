import Verif.FdMath.Load

/-! # Products and the other operators -/

namespace Gp.FdMath

/-- The table only has variables that have been made. -/
def PA (st : St) (p : Poly) : Prop := ∀ q ∈ p.m, Alloc st q.2

theorem PA.mono {st st' p} (g : Grow st st') (h : PA st p) : PA st' p :=
  fun q hq => (h q hq).mono g

/-- `Push_Delayed_Cstr` and `Add_Monom` of the result. -/
def pushAdd (d : NL) (a s : Int) (p : Poly) (st : St) : Res Poly :=
  (push d st).bind fun z st => addMonom p s a z st

theorem pushAdd_ok {d a s p st p' st'} (hs : Sgn s) (h : pushAdd d a s p st = .ok p' st') :
    ∃ z, push d st = .ok z st' ∧ (∀ τ : Var → Int, p'.eval τ = p.eval τ + s * (a * τ z)) ∧
      (∀ u : Var → Nat, p'.nrm u ≤ p.nrm u + a.natAbs * u z) ∧
      (PA st p → PA st' p') := by
  obtain ⟨z, st1, h1, h2⟩ := Res.bind_ok.mp h
  obtain ⟨rfl, e1, e2, e3⟩ := addMonom_ok hs h2
  exact ⟨z, h1, e1, e2, fun hp => e3 _ (hp.mono (push_grow h1)) (push_alloc h1)⟩

theorem pushAdd_not_fail {d a s p st} : pushAdd d a s p st ≠ .fail := by
  intro h
  rcases Res.bind_fail.mp h with h | ⟨_, _, _, h⟩
  · exact push_not_fail h
  · exact addMonom_not_fail h

/-! ## Products -/

/-- The weights of result cells of products are bounded by the product of the weights. -/
def UOk (u : Var → Nat) (st : St) : Prop :=
  (∀ x z, (NL.x2 (.var x), W.var z) ∈ st.delayed → u z ≤ u x * u x) ∧
  ∀ x y z, (NL.xy (.var x) (.var y), W.var z) ∈ st.delayed → u z ≤ u x * u y

theorem UOk.mono {u st st'} (g : Grow st st') (h : UOk u st') : UOk u st := by
  obtain ⟨l, e⟩ := g.delayed
  exact ⟨fun x z hx => h.1 x z (by rw [e]; exact List.mem_append_left _ hx),
    fun x y z hx => h.2 x y z (by rw [e]; exact List.mem_append_left _ hx)⟩

theorem uok_one (st) : UOk one st := ⟨fun _ _ _ => Nat.le_refl _, fun _ _ _ _ => Nat.le_refl _⟩

theorem uok_sat {τ st} (d : Dom τ) (s : Sat τ st) : UOk (nv τ) st := by
  constructor
  · intro x z h
    have := s.2 _ h
    simp only [NL.post, satAll_cons, satAll_nil, and_true, Cstr.sat, W.val] at this
    simp only [nv, this]
    rw [Int.toNat_mul (d x).1 (d x).1]; exact Nat.le_refl _
  · intro x y z h
    have := s.2 _ h
    simp only [NL.post, satAll_cons, satAll_nil, and_true, Cstr.sat, W.val] at this
    simp only [nv, ← this]
    rw [Int.toNat_mul (d x).1 (d y).1]; exact Nat.le_refl _

/-- The delayed constraint for a product of two variables. -/
def prodNL (x y : Var) : NL := if x = y then .x2 (.var x) else .xy (.var x) (.var y)

theorem addMul_eq {p s m1 m2 st} : addMul p s m1 m2 st =
    if m1.1 * m2.1 = 0 then .ok p st else pushAdd (prodNL m1.2 m2.2) (m1.1 * m2.1) s p st := rfl

theorem prodNL_words {x y : Var} {st} (hx : Alloc st x) (hy : Alloc st y) :
    ∀ w ∈ (prodNL x y).words, WAlloc st w := by
  intro w hw
  unfold prodNL at hw
  split at hw <;> simp only [NL.words, List.mem_cons, List.not_mem_nil, or_false] at hw
  · subst hw; exact hx
  · rcases hw with rfl | rfl <;> assumption

theorem prodNL_sat {x y z : Var} {τ} : satAll τ ((prodNL x y).post (.var z)) ↔ τ z = τ x * τ y := by
  unfold prodNL
  split
  · rename_i h; subst h
    simp only [NL.post, satAll_cons, satAll_nil, and_true, Cstr.sat, W.val]
  · simp only [NL.post, satAll_cons, satAll_nil, and_true, Cstr.sat, W.val]
    exact eq_comm

theorem prodNL_u {x y z : Var} {u st st'} (h : push (prodNL x y) st = .ok z st') (hu : UOk u st') :
    u z ≤ u x * u y := by
  obtain ⟨rfl, rfl⟩ := push_ok h
  by_cases e : x = y
  · subst e
    refine hu.1 x _ ?_
    simp [prodNL]
  · refine hu.2 x y _ ?_
    simp [prodNL, e]

/-- What a step of the product does. -/
structure MulS (st : St) (p : Poly) (s : Int) (r : Res Poly) (N : (Var → Nat) → Nat)
    (V : (Var → Int) → Int) : Prop where
  ok : ∀ p' st', r = .ok p' st' → Grow st st' ∧ Good st' ∧ PA st' p' ∧
    (∀ u, UOk u st' → p'.nrm u ≤ p.nrm u + N u) ∧
    (∀ τ, Sat τ st' → p'.eval τ = p.eval τ + s * V τ)
  nofail : r ≠ .fail
  ext : ∀ p' st', r = .ok p' st' → ∀ τ, Dom τ → Sat τ st → (N (nv τ) : Int) ≤ MAX →
    ∃ τ', Ext st τ st' τ'

theorem addMonom_MulS {st p s a x} (hs : Sgn s) (g : Good st) (hp : PA st p) (hx : Alloc st x) :
    MulS st p s (addMonom p s a x st) (fun u => a.natAbs * u x) (fun τ => a * τ x) := by
  refine ⟨fun p' st' h => ?_, addMonom_not_fail, fun p' st' h τ d s _ => ?_⟩
  · obtain ⟨rfl, e1, e2, e3⟩ := addMonom_ok hs h
    exact ⟨Grow.refl _, g, e3 _ hp hx, fun u _ => e2 u, fun τ _ => e1 τ⟩
  · obtain ⟨rfl, _⟩ := addMonom_ok hs h
    exact ⟨τ, Ext.refl d s⟩

theorem addMul_MulS {st p s} {m1 m2 : Int × Var} (hs : Sgn s) (g : Good st) (hp : PA st p) (h1 : Alloc st m1.2)
    (h2 : Alloc st m2.2) :
    MulS st p s (addMul p s m1 m2 st) (fun u => m1.1.natAbs * u m1.2 * (m2.1.natAbs * u m2.2))
      (fun τ => m1.1 * τ m1.2 * (m2.1 * τ m2.2)) := by
  rw [addMul_eq]
  split
  · rename_i h0
    refine ⟨fun p' st' h => ?_, by simp, fun p' st' h τ d s _ => ?_⟩
    · simp only [Res.ok.injEq] at h
      obtain ⟨rfl, rfl⟩ := h
      refine ⟨Grow.refl _, g, hp, fun u _ => Nat.le_add_right _ _, fun τ _ => ?_⟩
      have : m1.1 * τ m1.2 * (m2.1 * τ m2.2) = m1.1 * m2.1 * (τ m1.2 * τ m2.2) := by
        rw [Int.mul_assoc, Int.mul_assoc, Int.mul_left_comm (τ m1.2)]
      rw [this, h0]; simp
    · simp only [Res.ok.injEq] at h
      obtain ⟨rfl, rfl⟩ := h
      exact ⟨τ, Ext.refl d s⟩
  · rename_i h0
    refine ⟨fun p' st' h => ?_, pushAdd_not_fail, fun p' st' h τ d sa hb => ?_⟩
    · obtain ⟨z, k1, k2, k3, k4⟩ := pushAdd_ok hs h
      refine ⟨push_grow k1, push_good k1 g (prodNL_words h1 h2), k4 hp, fun u hu => ?_, fun τ hτ => ?_⟩
      · have a := k3 u
        have b := prodNL_u k1 hu
        have c : (m1.1 * m2.1).natAbs * u z ≤ (m1.1 * m2.1).natAbs * (u m1.2 * u m2.2) :=
          Nat.mul_le_mul_left _ b
        rw [Int.natAbs_mul, Nat.mul_assoc, Nat.mul_assoc, Nat.mul_left_comm m2.1.natAbs] at c
        rw [Int.natAbs_mul, Nat.mul_assoc] at a
        show _ ≤ _ + m1.1.natAbs * u m1.2 * (m2.1.natAbs * u m2.2)
        rw [Nat.mul_assoc]
        omega
      · have a := k2 τ
        have b := prodNL_sat.mp (push_sat k1 hτ)
        rw [a, b]
        congr 2
        rw [Int.mul_assoc, Int.mul_assoc, Int.mul_left_comm (τ m1.2)]
    · obtain ⟨z, k1, k2, k3, k4⟩ := pushAdd_ok hs h
      have n1 : 1 ≤ m1.1.natAbs * m2.1.natAbs := by
        rw [← Int.natAbs_mul]; omega
      have n2 : nv τ m1.2 * nv τ m2.2 ≤ m1.1.natAbs * nv τ m1.2 * (m2.1.natAbs * nv τ m2.2) := by
        rw [Nat.mul_mul_mul_comm]
        exact Nat.le_mul_of_pos_left _ n1
      have n3 : ((nv τ m1.2 * nv τ m2.2 : Nat) : Int) = τ m1.2 * τ m2.2 := by
        simp only [nv]
        rw [Int.natCast_mul, Int.toNat_of_nonneg (d _).1, Int.toNat_of_nonneg (d _).1]
      refine ⟨_, push_ext (n := τ m1.2 * τ m2.2) k1 g d sa
        ⟨Int.mul_nonneg (d _).1 (d _).1, by rw [← n3]; omega⟩ ?_⟩
      rw [prodNL_sat, upd_same, upd_ne (push_new k1 h1), upd_ne (push_new k1 h2)]

theorem MulS.bind {st p s r N1 V1 f N2 V2}
    (h1 : MulS st p s r N1 V1)
    (h2 : ∀ p1 st1, r = .ok p1 st1 → Grow st st1 → Good st1 → PA st1 p1 →
      MulS st1 p1 s (f p1 st1) N2 V2)
    (hN : ∀ τ τ', Agree st τ τ' → N2 (nv τ') = N2 (nv τ)) :
    MulS st p s (r.bind f) (fun u => N1 u + N2 u) (fun τ => V1 τ + V2 τ) := by
  refine ⟨fun p' st' h => ?_, fun h => ?_, fun p' st' h τ d sa hb => ?_⟩
  · obtain ⟨p1, st1, e1, e2⟩ := Res.bind_ok.mp h
    obtain ⟨a1, a2, a3, a4, a5⟩ := h1.ok p1 st1 e1
    obtain ⟨b1, b2, b3, b4, b5⟩ := (h2 p1 st1 e1 a1 a2 a3).ok p' st' e2
    refine ⟨a1.trans b1, b2, b3, fun u hu => ?_, fun τ hτ => ?_⟩
    · have := a4 u (hu.mono b1)
      have := b4 u hu
      omega
    · rw [b5 τ hτ, a5 τ (hτ.mono b1), Int.mul_add]; omega
  · rcases Res.bind_fail.mp h with h | ⟨p1, st1, e1, e2⟩
    · exact h1.nofail h
    · obtain ⟨a1, a2, a3, _⟩ := h1.ok p1 st1 e1
      exact (h2 p1 st1 e1 a1 a2 a3).nofail e2
  · obtain ⟨p1, st1, e1, e2⟩ := Res.bind_ok.mp h
    obtain ⟨a1, a2, a3, _⟩ := h1.ok p1 st1 e1
    obtain ⟨τ1, x1⟩ := h1.ext p1 st1 e1 τ d sa (by omega)
    obtain ⟨τ2, x2⟩ := (h2 p1 st1 e1 a1 a2 a3).ext p' st' e2 τ1 x1.dom x1.sat (by
      rw [hN τ τ1 x1.agree]; omega)
    exact ⟨τ2, x1.trans a1 x2⟩

theorem nv_agree {st τ τ' v} (a : Agree st τ τ') (h : Alloc st v) : nv τ' v = nv τ v := by
  simp only [nv, a v h]

theorem nrm_nv_agree {st τ τ'} {m : List (Int × Var)} (a : Agree st τ τ') (h : ∀ q ∈ m, Alloc st q.2) :
    nrm (nv τ') m = nrm (nv τ) m := by
  induction m with
  | nil => rfl
  | cons q l ih =>
    simp only [nrm_cons]
    rw [nv_agree a (h q (by simp)), ih (fun q hq => h q (List.mem_cons_of_mem _ hq))]

theorem MulS.congr {st p s r N V N' V'} (h : MulS st p s r N V) (hN : ∀ u, N u = N' u)
    (hV : ∀ τ, V τ = V' τ) : MulS st p s r N' V' := by
  have e1 : N = N' := funext hN
  have e2 : V = V' := funext hV
  subst e1; subst e2; exact h

theorem mulS_ok {st p s} (g : Good st) (hp : PA st p) :
    MulS st p s (.ok p st) (fun _ => 0) (fun _ => 0) := by
  refine ⟨fun p' st' h => ?_, by simp, fun p' st' h τ d s _ => ?_⟩
  · simp only [Res.ok.injEq] at h
    obtain ⟨rfl, rfl⟩ := h
    exact ⟨Grow.refl _, g, hp, fun _ _ => Nat.le_refl _, fun _ _ => by simp⟩
  · simp only [Res.ok.injEq] at h
    obtain ⟨rfl, rfl⟩ := h
    exact ⟨τ, Ext.refl d s⟩

theorem mulRow_MulS {s} {m1 : Int × Var} (hs : Sgn s) (l : List (Int × Var)) :
    ∀ {p st}, Good st → PA st p → Alloc st m1.2 → (∀ q ∈ l, Alloc st q.2) →
    MulS st p s (mulRow s m1 l p st) (fun u => m1.1.natAbs * u m1.2 * nrm u l)
      (fun τ => m1.1 * τ m1.2 * evalM τ l) := by
  induction l with
  | nil => intro p st g hp _ _; exact (mulS_ok g hp).congr (by simp) (by simp)
  | cons m2 l ih =>
    intro p st g hp h1 hl
    have hl2 : ∀ q ∈ l, Alloc st q.2 := fun q hq => hl q (List.mem_cons_of_mem _ hq)
    refine ((addMul_MulS hs g hp h1 (hl m2 (by simp))).bind
      (f := fun p st => mulRow s m1 l p st)
      (N2 := fun u => m1.1.natAbs * u m1.2 * nrm u l) (V2 := fun τ => m1.1 * τ m1.2 * evalM τ l)
      ?_ ?_).congr ?_ ?_
    · intro p1 st1 _ gr g1 hp1
      exact ih g1 hp1 (h1.mono gr) (fun q hq => (hl2 q hq).mono gr)
    · intro τ τ' a
      simp only [nv_agree a h1, nrm_nv_agree a hl2]
    · intro u; simp only [nrm_cons, Nat.mul_add]
    · intro τ; simp only [evalM_cons, Int.mul_add]

theorem mulRows_MulS {s} {p2 : Poly} (hs : Sgn s) (l : List (Int × Var)) :
    ∀ {p st}, Good st → PA st p → PA st p2 → (∀ q ∈ l, Alloc st q.2) →
    MulS st p s (mulRows s p2 l p st) (fun u => nrm u l * p2.nrm u)
      (fun τ => evalM τ l * p2.eval τ) := by
  induction l with
  | nil => intro p st g hp _ _; exact (mulS_ok g hp).congr (by simp) (by simp)
  | cons m1 l ih =>
    intro p st g hp h2 hl
    have h1 := hl m1 (by simp)
    have hl2 : ∀ q ∈ l, Alloc st q.2 := fun q hq => hl q (List.mem_cons_of_mem _ hq)
    refine ((addMonom_MulS (a := m1.1 * p2.c) hs g hp h1).bind
      (f := fun p st => (mulRow s m1 p2.m p st).bind fun p st => mulRows s p2 l p st)
      (N2 := fun u => m1.1.natAbs * u m1.2 * nrm u p2.m + nrm u l * p2.nrm u)
      (V2 := fun τ => m1.1 * τ m1.2 * evalM τ p2.m + evalM τ l * p2.eval τ)
      ?_ ?_).congr ?_ ?_
    · intro p1 st1 _ gr g1 hp1
      refine (mulRow_MulS hs p2.m g1 hp1 (h1.mono gr) (h2.mono gr)).bind ?_ ?_
      · intro p3 st3 _ gr3 g3 hp3
        exact ih g3 hp3 ((h2.mono gr).mono gr3) (fun q hq => ((hl2 q hq).mono gr).mono gr3)
      · intro τ τ' a
        simp only [Poly.nrm, nrm_nv_agree a (h2.mono gr),
          nrm_nv_agree a (fun q hq => (hl2 q hq).mono gr)]
    · intro τ τ' a
      simp only [Poly.nrm, nv_agree a h1, nrm_nv_agree a hl2, nrm_nv_agree a h2]
    · intro u
      simp only [nrm_cons, Poly.nrm, Nat.add_mul, Nat.mul_add, Int.natAbs_mul]
      rw [Nat.mul_right_comm]; omega
    · intro τ
      simp only [evalM_cons, Poly.eval, Int.add_mul, Int.mul_add]
      rw [Int.mul_right_comm]; omega

theorem mulLast_MulS {s c1} (hs : Sgn s) (l : List (Int × Var)) :
    ∀ {p st}, Good st → PA st p → (∀ q ∈ l, Alloc st q.2) →
    MulS st p s (mulLast s c1 l p st) (fun u => c1.natAbs * nrm u l)
      (fun τ => c1 * evalM τ l) := by
  induction l with
  | nil => intro p st g hp _; exact (mulS_ok g hp).congr (by simp) (by simp)
  | cons m2 l ih =>
    intro p st g hp hl
    have hl2 : ∀ q ∈ l, Alloc st q.2 := fun q hq => hl q (List.mem_cons_of_mem _ hq)
    refine ((addMonom_MulS (a := m2.1 * c1) hs g hp (hl m2 (by simp))).bind
      (f := fun p st => mulLast s c1 l p st)
      (N2 := fun u => c1.natAbs * nrm u l) (V2 := fun τ => c1 * evalM τ l) ?_ ?_).congr ?_ ?_
    · intro p1 st1 _ gr g1 hp1
      exact ih g1 hp1 (fun q hq => (hl2 q hq).mono gr)
    · intro τ τ' a
      simp only [nrm_nv_agree a hl2]
    · intro u; simp only [nrm_cons, Nat.mul_add, Int.natAbs_mul]
      rw [Nat.mul_comm m2.1.natAbs, Nat.mul_assoc]
    · intro τ; simp only [evalM_cons, Int.mul_add]
      rw [Int.mul_comm m2.1, Int.mul_assoc]

theorem mulPoly_MulS {s p1 p2 p st} (hs : Sgn s) (g : Good st) (hp : PA st p) (h1 : PA st p1)
    (h2 : PA st p2) :
    (∀ p' st', mulPoly s p1 p2 p st = .ok p' st' → Grow st st' ∧ Good st' ∧ PA st' p' ∧
      (∀ u, UOk u st' → p'.nrm u ≤ p.nrm u + p1.nrm u * p2.nrm u) ∧
      (∀ τ, Sat τ st' → p'.eval τ = p.eval τ + s * (p1.eval τ * p2.eval τ))) ∧
    mulPoly s p1 p2 p st ≠ .fail ∧
    (∀ p' st', mulPoly s p1 p2 p st = .ok p' st' → ∀ τ, Dom τ → Sat τ st →
      ((p1.nrm (nv τ) * p2.nrm (nv τ) : Nat) : Int) ≤ MAX → ∃ τ', Ext st τ st' τ') := by
  have key := (mulRows_MulS (p2 := p2) hs p1.m g (p := p.addCst s (p1.c * p2.c)) hp h2 h1).bind
    (f := fun p st => mulLast s p1.c p2.m p st) (fun p3 st3 _ gr g3 hp3 =>
      mulLast_MulS (c1 := p1.c) hs p2.m g3 hp3 (h2.mono gr)) (by
      intro τ τ' a; simp only [nrm_nv_agree a h2])
  have eN : ∀ u, p1.nrm u * p2.nrm u =
      p1.c.natAbs * p2.c.natAbs + (nrm u p1.m * p2.nrm u + p1.c.natAbs * nrm u p2.m) := by
    intro u; simp only [Poly.nrm, Nat.add_mul, Nat.mul_add]; omega
  have eV : ∀ τ, p1.eval τ * p2.eval τ =
      p1.c * p2.c + (evalM τ p1.m * p2.eval τ + p1.c * evalM τ p2.m) := by
    intro τ; simp only [Poly.eval, Int.add_mul, Int.mul_add]; omega
  refine ⟨fun p' st' h => ?_, key.nofail, fun p' st' h τ d sa hb => ?_⟩
  · obtain ⟨a1, a2, a3, a4, a5⟩ := key.ok p' st' h
    refine ⟨a1, a2, a3, fun u hu => ?_, fun τ hτ => ?_⟩
    · have := a4 u hu
      have := addCst_nrm p hs (p1.c * p2.c) u
      rw [Int.natAbs_mul] at this
      rw [eN]; omega
    · rw [a5 τ hτ, addCst_eval, eV, Int.mul_add s (p1.c * p2.c)]; omega
  · refine key.ext p' st' h τ d sa ?_
    rw [eN] at hb
    omega

end Gp.FdMath
