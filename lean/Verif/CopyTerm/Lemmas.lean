import Verif.CopyTerm.Spec
import Verif.Unify.Lemmas
namespace Gp.CopyTerm
open Gp.Heap
open Gp.Unify (set_same set_other deref_ref deref_nonref)

/-! Terms -/

theorem rename_congr {φ ψ : Adr → Adr} (t : CT) (h : ∀ a ∈ t.vars, φ a = ψ a) : t.rename φ = t.rename ψ := by
  induction t using CT.rename.induct with
  | case1 a => simp only [CT.rename]; rw [h a (by simp [CT.vars])]
  | case2 a d => simp only [CT.rename]; rw [h a (by simp [CT.vars])]
  | case3 | case4 | case5 => simp only [CT.rename]
  | case6 x y ih1 ih2 =>
    simp only [CT.rename]
    rw [ih1 (fun a ha => h a (by simp [CT.vars, ha])), ih2 (fun a ha => h a (by simp [CT.vars, ha]))]
  | case7 f l ih =>
    simp only [CT.rename]
    congr 1
    apply List.map_congr_left
    intro t ht
    exact ih t ht (fun a ha => h a (by simp only [CT.vars, List.mem_flatMap]; exact ⟨t, ht, ha⟩))

theorem size_pos (vs : Nat) (t : CT) : 0 < t.size vs := by
  cases t <;> simp only [CT.size] <;> omega

theorem sum_range_succ' (f : Nat → Nat) (k : Nat) :
    ((List.range (k + 1)).map f).sum = f 0 + ((List.range k).map fun i => f (i + 1)).sum := by
  rw [List.range_succ_eq_map]
  simp [Function.comp_def]

theorem le_sum (f : Nat → Nat) (k i : Nat) (hi : i < k) : f i ≤ ((List.range k).map f).sum := by
  induction k generalizing f i with
  | zero => omega
  | succ k ih =>
    rw [sum_range_succ']
    cases i with
    | zero => omega
    | succ i => have := ih (fun i => f (i + 1)) i (by omega); omega

/-! Reading -/

theorem FdAt.mono {vs : Nat} {ok ok' : Adr → Prop} {m m' : Mem} {a : Adr} {d : Dom} (h : FdAt vs ok m a d)
    (hok : ∀ x, ok x → ok' x) (hm : ∀ x, ok x → m' x = m x) : FdAt vs ok' m' a d where
  tag := by rw [hm _ h.oks.1]; exact h.tag
  nb := by rw [hm _ h.oks.2.1]; exact h.nb
  r0 := by rw [hm _ h.oks.2.2.1]; exact h.r0
  r1 := by rw [hm _ h.oks.2.2.2.1]; exact h.r1
  oks := by obtain ⟨h1, h2, h3, h4, h5⟩ := h.oks; exact ⟨hok _ h1, hok _ h2, hok _ h3, hok _ h4, hok _ h5⟩
  vec := by
    have hv := h.vec
    cases hd : d.vec with
    | none => rw [hd] at hv; simp only at hv ⊢; rw [hm _ h.oks.2.2.2.2]; exact hv
    | some l =>
      rw [hd] at hv
      obtain ⟨v, h1, h2, h3⟩ := hv
      refine ⟨v, by rw [hm _ h.oks.2.2.2.2]; exact h1, h2, ?_⟩
      intro i hi
      obtain ⟨k1, k2⟩ := h3 i hi
      exact ⟨by rw [hm _ k2]; exact k1, hok _ k2⟩

theorem OwnFd.congr {m m' : Mem} {x : Adr} (h : OwnFd m x) (he : m' x = m x) : OwnFd m' x := by
  intro a ha; rw [he] at ha; exact h a ha

theorem Rd.mono {vs : Nat} {ok ok' : Adr → Prop} {m m' : Mem} {w : Cell} {t : CT} (h : Rd vs ok m w t)
    (hok : ∀ x, ok x → ok' x) (hm : ∀ x, ok x → m' x = m x) : Rd vs ok' m' w t := by
  induction h with
  | var h1 h2 => exact .var (hok _ h1) (by rw [hm _ h1]; exact h2)
  | bound h1 h2 h3 _ ih =>
    refine .bound (hok _ h1) (by rw [hm _ h1]; exact h2) (h3.congr (hm _ h1)) ?_
    rw [hm _ h1]; exact ih
  | fd h => exact .fd (h.mono hok hm)
  | atm => exact .atm
  | int => exact .int
  | flt h1 h2 => exact .flt (hok _ h1) (by rw [hm _ h1]; exact h2)
  | lst h1 h2 h3 h4 _ _ ih1 ih2 =>
    refine .lst (hok _ h1) (hok _ h2) (h3.congr (hm _ h1)) (h4.congr (hm _ h2)) ?_ ?_
    · rw [hm _ h1]; exact ih1
    · rw [hm _ h2]; exact ih2
  | stc h1 h2 h3 h4 h5 _ ih =>
    refine .stc (hok _ h1) (by rw [hm _ h1]; exact h2) h3 (fun i hi => hok _ (h4 i hi))
      (fun i hi => (h5 i hi).congr (hm _ (h4 i hi))) ?_
    intro i hi
    rw [hm _ (h4 i hi)]; exact ih i hi

/-! Cells of a term -/

theorem Rd.sub {vs : Nat} {ok : Adr → Prop} {m : Mem} {w : Cell} {t : CT} {y y' : Adr} (h : Rd vs ok m w t) (hw : m y = w)
    (hs : Sub m y y') : ok y' ∧ ∃ t', Rd vs ok m (m y') t' := by
  cases hs with
  | car h1 =>
    rw [hw] at h1; subst h1
    cases h with
    | lst h1 h2 h3 h4 h5 h6 => exact ⟨h1, _, h5⟩
  | cdr h1 =>
    rw [hw] at h1; subst h1
    cases h with
    | lst h1 h2 h3 h4 h5 h6 => exact ⟨h2, _, h6⟩
  | arg h1 h2 h3 =>
    rw [hw] at h1; subst h1
    cases h with
    | stc k1 k2 k3 k4 k5 k6 =>
      rw [h2] at k2
      simp only [Cell.fn.injEq] at k2
      obtain ⟨_, rfl⟩ := k2
      exact ⟨k4 _ h3, _, k6 _ h3⟩
  | fwd h1 h2 =>
    rw [hw] at h1; subst h1
    cases h with
    | var k1 k2 => exact ⟨k1, _, by rw [k2]; exact .var k1 k2⟩
    | bound k1 k2 k3 k4 => exact ⟨k1, _, k4⟩

theorem Rd.fn_ok {vs : Nat} {ok : Adr → Prop} {m : Mem} {a : Adr} {t : CT} (h : Rd vs ok m (.stc a) t) : ok a := by
  cases h with
  | stc k1 => exact k1

theorem Sub.mono {vs : Nat} {ok : Adr → Prop} {m m' : Mem} {t : CT} {y y' : Adr} (h : Rd vs ok m (m y) t) (hy : ok y)
    (hm : ∀ x, ok x → m' x = m x) (hs : Sub m y y') : Sub m' y y' := by
  cases hs with
  | car h1 => exact .car (by rw [hm y hy]; exact h1)
  | cdr h1 => exact .cdr (by rw [hm y hy]; exact h1)
  | arg h1 h2 h3 =>
    rw [h1] at h
    exact .arg (by rw [hm y hy]; exact h1) (by rw [hm _ h.fn_ok]; exact h2) h3
  | fwd h1 h2 => exact .fwd (by rw [hm y hy]; exact h1) h2

theorem TC.rd {vs : Nat} {ok : Adr → Prop} {m : Mem} {y z : Adr} (h : TC m y z) {t : CT} (hr : Rd vs ok m (m y) t)
    (hy : ok y) : ok z ∧ ∃ t', Rd vs ok m (m z) t' := by
  induction h generalizing t with
  | self => exact ⟨hy, t, hr⟩
  | step hs _ ih =>
    obtain ⟨h1, t', h2⟩ := hr.sub rfl hs
    exact ih h2 h1

theorem TC.mono {vs : Nat} {ok : Adr → Prop} {m m' : Mem} {y z : Adr} (h : TC m y z) {t : CT} (hr : Rd vs ok m (m y) t)
    (hy : ok y) (hm : ∀ x, ok x → m' x = m x) : TC m' y z := by
  induction h generalizing t with
  | self => exact .self
  | step hs _ ih =>
    obtain ⟨h1, t', h2⟩ := hr.sub rfl hs
    exact .step (hs.mono hr hy hm) (ih h2 h1)

theorem TC.trans {m : Mem} {x y z : Adr} (h : TC m x y) (h' : TC m y z) : TC m x z := by
  induction h with
  | self => exact h'
  | step hs _ ih => exact .step hs (ih h')

/-! Copy of a FD variable -/

/-- What the copy of a FD variable does. -/
theorem fdCopy_spec {c : Cfg} {m : Mem} {q a : Adr} {d : Dom} {L : Adr} (h : FdAt c.vs (Out' q L) m a d)
    (hL : q + (CT.fd a d).size c.vs - 1 ≤ L) :
    (fdCopy c m q a).2 = (CT.fd a d).size c.vs - 1 ∧
    (∀ x, ¬ Seg q (q + (fdCopy c m q a).2) x → (fdCopy c m q a).1 x = m x) ∧
    FdAt c.vs (Seg q (q + (fdCopy c m q a).2)) (fdCopy c m q a).1 q d ∧
    NoCstr (Seg q (q + (fdCopy c m q a).2)) (fdCopy c m q a).1 q := by
  have hsz : (CT.fd a d).size c.vs - 1 = 17 + d.vecWords c.vs := by
    simp only [CT.size]; omega
  have hsz' := size_pos c.vs (CT.fd a d)
  replace hL : q + (17 + d.vecWords c.vs) ≤ L := by omega
  rw [hsz]
  have hL17 : q + 17 ≤ L := by omega
  have out : ∀ x, Out' q L x → ¬ (q ≤ x ∧ x < q + 17) := fun x hx h => hx ⟨h.1, by omega⟩
  obtain ⟨o1, o2, o3, o4, o5⟩ := h.oks
  -- the new frame
  have new_out : ∀ x, ¬ (q ≤ x ∧ x < q + 17) → fdNew c m q x = m x := by
    intro x hx
    simp only [fdNew]
    rw [if_neg (by omega), if_neg (by omega)]
  have new_q : fdNew c m q q = .fdv q := by simp [fdNew]
  have new_zero : ∀ i, 10 ≤ i → i < 17 → fdNew c m q (q + i) = .raw 0 := by
    intro i h1 h2
    simp only [fdNew]
    rw [if_neg (by omega), if_pos (by omega), show q + i - q = i by omega]
    have : i = 10 ∨ i = 11 ∨ i = 12 ∨ i = 13 ∨ i = 14 ∨ i = 15 ∨ i = 16 := by omega
    rcases this with rfl | rfl | rfl | rfl | rfl | rfl | rfl <;> rfl
  generalize hm1 : fdNew c m q = m1 at new_out new_q new_zero
  have e5 : m1 (a + 5) = .raw d.nb := by rw [new_out _ (out _ o2)]; exact h.nb
  have hne : ∀ x i, Out' q L x → i < 17 → x ≠ q + i := by
    intro x i hx hi he; exact hx ⟨by omega, by omega⟩
  generalize hm2 : m1.set (q + 5) (.raw d.nb) = m2
  have e6 : m2 (a + 6) = .raw d.r0 := by
    rw [← hm2, set_other _ _ _ _ (hne _ _ o3 (by omega)), new_out _ (out _ o3)]; exact h.r0
  have e7 : (m2.set (q + 6) (.raw d.r0)) (a + 7) = .raw d.r1 := by
    rw [set_other _ _ _ _ (hne _ _ o4 (by omega)), ← hm2, set_other _ _ _ _ (hne _ _ o4 (by omega)), new_out _ (out _ o4)]
    exact h.r1
  have e7' : m2 (a + 7) = .raw d.r1 := by
    rw [← hm2, set_other _ _ _ _ (hne _ _ o4 (by omega)), new_out _ (out _ o4)]
    exact h.r1
  generalize hm3 : (m2.set (q + 6) (.raw d.r0)).set (q + 7) (.raw d.r1) = m3
  have m3_out : ∀ x, ¬ (q ≤ x ∧ x < q + 17) → m3 x = m x := by
    intro x hx
    rw [← hm3, set_other _ _ _ _ (by omega), set_other _ _ _ _ (by omega), ← hm2, set_other _ _ _ _ (by omega), new_out x hx]
  have e8 : m3 (a + 8) = m (a + 8) := m3_out _ (out _ o5)
  have e8' : m2 (a + 8) = m (a + 8) := by
    rw [← hm2, set_other _ _ _ _ (hne _ _ o5 (by omega)), new_out _ (out _ o5)]
  have f0 : m3 q = .fdv q := by
    rw [← hm3, set_other _ _ _ _ (by omega), set_other _ _ _ _ (by omega), ← hm2, set_other _ _ _ _ (by omega), new_q]
  have f5 : m3 (q + 5) = .raw d.nb := by
    rw [← hm3, set_other _ _ _ _ (by omega), set_other _ _ _ _ (by omega), ← hm2, set_same]
  have f6 : m3 (q + 6) = .raw d.r0 := by rw [← hm3, set_other _ _ _ _ (by omega), set_same]
  have f7 : m3 (q + 7) = .raw d.r1 := by rw [← hm3, set_same]
  have fz : ∀ i, 10 ≤ i → i < 17 → m3 (q + i) = .raw 0 := by
    intro i h1 h2
    rw [← hm3, set_other _ _ _ _ (by omega), set_other _ _ _ _ (by omega), ← hm2, set_other _ _ _ _ (by omega)]
    exact new_zero i h1 h2
  have hcopy : fdCopy c m q a =
      (rangeVec c m3 q (m (a + 8)), if m (a + 8) = .raw 0 then frameSize else frameSize + c.vs) := by
    simp only [fdCopy, hm1, e5, hm2, rangeCopy, fdSize, e6, e7', hm3, e8, e8']
  rw [hcopy]
  have hv := h.vec
  cases hd : d.vec with
  | none =>
    have hw : d.vecWords c.vs = 0 := by simp only [Dom.vecWords, hd]
    rw [hd] at hv
    simp only at hv
    rw [hv, hw]
    simp only [if_true, rangeVec]
    refine ⟨trivial, ?_, ?_, ?_⟩
    · intro x hx
      rw [set_other _ _ _ _ (by rintro rfl; exact hx ⟨by omega, by omega⟩)]
      exact m3_out x hx
    · refine ⟨?_, ?_, ?_, ?_, ?_, ?_⟩
      · rw [set_other _ _ _ _ (by omega), f0]
      · rw [set_other _ _ _ _ (by omega), f5]
      · rw [set_other _ _ _ _ (by omega), f6]
      · rw [set_other _ _ _ _ (by omega), f7]
      · simp only [Seg]; omega
      · rw [hd]; exact set_same _ _ _
    · intro i h1 h2
      exact ⟨by rw [set_other _ _ _ _ (by omega), fz i h1 h2], by simp only [Seg]; omega⟩
  | some l =>
    have hw : d.vecWords c.vs = c.vs := by simp only [Dom.vecWords, hd]
    rw [hd] at hv
    obtain ⟨v, v1, v2, v3⟩ := hv
    rw [v1]
    rw [hw] at hL ⊢
    rw [if_neg (by simp)]
    simp only [rangeVec]
    have hvec : ∀ x, ¬ (q + 17 ≤ x ∧ x < q + 17 + c.vs) →
        vecCopy (m3.set (q + 8) (.int (q + 17 : Nat))) c.vs (q + 17) (v : Int).toNat x =
          (m3.set (q + 8) (.int (q + 17 : Nat))) x := by
      intro x hx; simp only [vecCopy]; rw [if_neg hx]
    refine ⟨trivial, ?_, ?_, ?_⟩
    · intro x hx
      rw [hvec _ (by intro h; exact hx ⟨by omega, by omega⟩),
        set_other _ _ _ _ (by rintro rfl; exact hx ⟨by omega, by omega⟩)]
      exact m3_out x (fun h => hx ⟨by omega, by omega⟩)
    · refine ⟨?_, ?_, ?_, ?_, ?_, ?_⟩
      · rw [hvec _ (by omega), set_other _ _ _ _ (by omega), f0]
      · rw [hvec _ (by omega), set_other _ _ _ _ (by omega), f5]
      · rw [hvec _ (by omega), set_other _ _ _ _ (by omega), f6]
      · rw [hvec _ (by omega), set_other _ _ _ _ (by omega), f7]
      · simp only [Seg]; omega
      · rw [hd]
        refine ⟨q + 17, ?_, v2, ?_⟩
        · rw [hvec _ (by omega), set_same]
        · intro i hi
          refine ⟨?_, by simp only [Seg]; omega⟩
          obtain ⟨k1, k2⟩ := v3 i hi
          simp only [vecCopy]
          rw [if_pos (by omega), show (v : Int).toNat + (q + 17 + i - (q + 17)) = v + i by omega,
            set_other _ _ _ _ (hne _ _ k2 (by omega)), m3_out _ (out _ k2), k1]
    · intro i h1 h2
      exact ⟨by rw [hvec _ (by omega), set_other _ _ _ _ (by omega), fz i h1 h2], by simp only [Seg]; omega⟩

end Gp.CopyTerm
