import Verif.CodeGen.Lemmas20
namespace Gp.CodeGen
open Gp.Heap Gp.Unify Gp.ListBip
open Gp.Term (isNaN fkey deq)

variable {N nY e c c' : Nat} {V V' V'' : St} {X X' X'' : Var → Cell} {g g' g'' : G}
  {A B C : (Var → T) → (Adr → T) → Prop} {E : Env} {O : Opts} {m m1 m2 m' : M}

/-! ## The argument registers are forgotten -/

/-- The same values but in the argument registers. -/
def SameBut (β β' : Var → T) : Prop := ∀ v : Var, v.isArg = false → β v = β' v

theorem noarg_of {v : Var} (hn : NoArg g) (hv : g.info v ≠ none) : v.isArg = false := by
  cases v with
  | arg i => exact absurd (hn i) hv
  | _ => rfl

theorem holds_but {β β' : Var → T} {ρ : Adr → T} (hn : NoArg g) (hb : SameBut β β') (h : Holds e V X g β ρ) : Holds e V X g β' ρ := by
  intro v hv
  rw [← hb v (noarg_of hn hv)]; exact h v hv

theorem RunOk.erase {A' : (Var → T) → (Adr → T) → Prop} {res : Option M} (hn : NoArg g) (h : RunOk c N nY m m.s g g' A (fun _ _ => True) res)
    (h1 : ∀ β β' ρ, SameBut β β' → A β ρ → A' β' ρ) (h2 : ∀ β ρ, A' β ρ → ∃ β', SameBut β β' ∧ A β' ρ) :
    RunOk c N nY m m.s g g'.toBody A' (fun _ _ => True) res := by
  cases res with
  | none =>
    intro ρ β hρ hh hA
    obtain ⟨β', b1, b2⟩ := h2 β ρ hA
    exact h ρ β' hρ (holds_but hn b1 hh) b2
  | some m' =>
    obtain ⟨t, he, hee⟩ := h
    refine ⟨⟨toBody_inv t.inv, t.lssa, t.grow, t.regs, fun v i hv => ?_, t.low, fun ee k1 k2 k3 => toBody_safe (t.safe ee k1 k2 k3), fun ρ hρ => ?_,
      fun ρ β hρ hh hA => ?_⟩, he, hee⟩
    · have := noarg_of hn (v := v) (by rw [hv]; simp)
      simp only [G.toBody, this]; exact t.info v i hv
    · obtain ⟨k1, k2⟩ := t.down ρ hρ
      refine ⟨k1, fun β hh _ => ?_⟩
      obtain ⟨a1, a2⟩ := k2 (withArgs m' β ρ) (by rw [← he] at hh ⊢; exact holds_toBody hh) trivial
      have hb : SameBut (withArgs m' β ρ) β := fun v hv => by cases v <;> first | rfl | cases hv
      exact ⟨holds_but hn hb a1, h1 _ _ _ hb a2⟩
    · obtain ⟨β1, b1, b2⟩ := h2 β ρ hA
      obtain ⟨ρ', β2, a1, a2, a3, a4, _⟩ := t.up ρ β1 hρ (holds_but hn b1 hh) b2
      refine ⟨ρ', fun v => if v.isArg then β v else β2 v, a1, a2, fun v hv => ?_, fun v hv => ?_, trivial⟩
      · simp only
        split
        · rfl
        · rw [a3 v hv, b1 v (by simp_all)]
      · have ha : v.isArg = false := noarg_of (toBody_noarg g') hv
        simp only [ha]
        exact a4 v (fun h => hv (by simp [G.toBody, ha, h]))

theorem den_but {β β' : Var → T} {a : Arg} (hs : Src nY a) (hb : SameBut β β') (t : T) : Den β a t ↔ Den β' a t := by
  refine den_occ a t (fun v hv => hb v ?_)
  rcases occ_src a hs hv with ⟨n, rfl⟩ | ⟨i, rfl, _⟩ <;> rfl

theorem eqA_but {β β' : Var → T} {a b : Arg} (ha : Src nY a) (hb : Src nY b) (h : SameBut β β') : EqA β a b ↔ EqA β' a b :=
  exists_congr fun t => and_congr (den_but ha h t) (den_but hb h t)

theorem RunOk.eraseEq {a b : Arg} {res : Option M} (hn : NoArg g) (ha : Src nY a) (hb : Src nY b)
    (h : RunOk c N nY m m.s g g' (fun β _ => EqA β a b) (fun _ _ => True) res) :
    RunOk c N nY m m.s g g'.toBody (fun β _ => EqA β a b) (fun _ _ => True) res :=
  h.erase hn (fun _ _ _ hs h => (eqA_but ha hb hs).mp h) (fun β _ h => ⟨β, fun _ _ => rfl, h⟩)

/-! ## One variable -/

/-- get_value of two known variables. -/
theorem getValue_run (hi : Inv N nY m.e m.s m.X g) {v r : Var} (hvk : g.info v ≠ none) (hr : g.info r ≠ none)
    {res : Option M} (h : exec E [.getValue v r] m = some res) :
    RunOk c N nY m m.s g g (fun β _ => β r = β v) (fun _ _ => True) res := by
  obtain ⟨g1, g2⟩ := get_valid hi (see_self m) rfl hr
  have h := exec_one h
  obtain ⟨k1, k2⟩ := get_valid hi (see_self m) rfl hvk
  simp only [step] at h
  refine ret_run hi (P := fun ρ => eval m.s.mem ρ (m.get v) = eval m.s.mem ρ (m.get r)) ?_ h ?_
  · intro ρ β hρ hh
    rw [g2 ρ hρ, k2 ρ hρ, ← hh r hr, ← hh v hvk]; exact eq_comm
  · intro o ho
    cases hu : unify false E.fd E.fuel m.s (m.get v) (m.get r) with
    | none => rw [hu] at ho; cases ho
    | some q =>
      obtain ⟨ok, s'⟩ := q
      rw [hu] at ho
      cases ok with
      | false => cases ho; exact ⟨fun _ => unify_none hi.ok k1 g1 hu, fun _ h => by cases h⟩
      | true =>
        cases ho
        exact ⟨fun h => (by cases h), fun V' h => by cases h; exact unify_chg hi.ok k1 g1 hu⟩

/-- gen_unif_arg with a variable which is known, or an argument which is not a variable. -/
theorem unifKnown_ok {a : Arg} {r : Var} {res : Option M} (hs : Src nY a) (hi : Inv N nY m.e m.s m.X g) (hr : g.info r ≠ none)
    (hk : knownVar O g a = true) (h : exec E (genUnif O a r g).1 m = some res) :
    RunOk g.tmp N nY m m.s g (genUnif O a r g).2 (fun β _ => Den β a (β r)) (fun _ _ => True) res := by
  by_cases hv : ∃ w, a = .var w
  · obtain ⟨w, rfl⟩ := hv
    simp only [knownVar] at hk
    cases hw : g.info w with
    | none =>
      rw [hw] at hk
      simp only [Option.isSome_none, Bool.false_or, Bool.and_eq_true] at hk
      obtain ⟨hb, hy⟩ := hk
      cases w with
      | y i =>
        obtain ⟨g1, g2⟩ := get_valid hi (see_self m) rfl hr
        simp only [genUnif, genUnifVar, hw, hb, hy, Bool.and_self, if_true] at h ⊢
        have h := exec_one h
        simp only [step, Option.some.injEq] at h
        subst h
        refine ⟨(yvar_tr hi hs hw g1 (fun h => by cases h) (fun h => by cases h)).conseq (fun ρ β hρ hh => ?_) (fun _ _ _ _ => Iff.rfl), rfl, rfl⟩
        rw [g2 ρ hρ, ← hh r hr]; exact eq_comm
      | _ => cases hy
    | some i =>
      simp only [genUnif, genUnifVar, hw] at h ⊢
      exact getValue_run hi (by rw [hw]; simp) hr h
  · exact unif_ok O E a r g m res hs hi hr (fun v h => absurd ⟨v, h⟩ hv) h

theorem fail_run {a : Arg} {res : Option M} (hA : ∀ ρ β, ¬ A β ρ) (h : exec E [.fail] m = some res) :
    RunOk c N nY m m.s g g' A (fun _ _ => True) res := by
  have h := exec_one h
  simp only [step, Option.some.injEq] at h
  subst h
  exact fun ρ β _ _ hA' => hA ρ β hA'

theorem eqReg_ok {v : Var} {a : Arg} {code : List Ins} {res : Option M} (hs : Src nY a) (hv : Src nY (.var v)) (hy : v.isY = false) (hvoid : a ≠ .void)
    (hne : a ≠ .var v)
    (hi : Inv N nY m.e m.s m.X g) (hn : NoArg g) (h : eqReg O v a g = some (code, g', true)) (hx : exec E code m = some res) :
    RunOk g.tmp N nY m m.s g g' (fun β _ => EqA β (.var v) a) (fun _ _ => True) res ∧ NoArg g' ∧ g.tmp ≤ g'.tmp := by
  have hva : v.isArg = false := by
    cases v with
    | arg i => exact hv.elim
    | _ => rfl
  unfold eqReg at h
  cases hin : g.info v with
  | some i =>
    rw [hin] at h
    simp only [Option.some.injEq, Prod.mk.injEq, and_true] at h
    obtain ⟨rfl, rfl⟩ := h
    refine ⟨RunOk.eraseEq hn hv hs ?_, toBody_noarg _, genUnif_tmp O a v g⟩
    refine (unif_ok O E a v g m res hs hi (by rw [hin]; simp) (fun _ _ => ⟨hy, hi.nouns v hy hva⟩) hx).conseq (fun ρ β _ _ => eqA_var.symm) (fun _ _ => Iff.rfl)
  | none =>
    rw [hin] at h
    by_cases hw : ∃ w, a = .var w
    · obtain ⟨w, rfl⟩ := hw
      simp only at h
      split at h
      · cases h
      · simp only [Option.some.injEq, Prod.mk.injEq, decide_eq_true_eq] at h
        obtain ⟨rfl, rfl, hwh⟩ := h
        simp only [genLoadVar, hwh] at hx ⊢
        have hwk : g.info w ≠ none := by rw [hwh]; simp
        obtain ⟨g1, g2⟩ := get_valid hi (see_self m) rfl hwk
        have hx := exec_one hx
        simp only [step, Option.some.injEq] at hx
        subst hx
        refine ⟨RunOk.eraseEq hn hv hs ?_, toBody_noarg _, Nat.le_refl _⟩
        rw [put_nonY hy]
        refine ⟨(reg_tr hi (v := v) (i := .inHeap) hy hin (fun n hn => ?_) g1 (fun _ => get_global hi (see_self m) rfl hwh)
          (fun h => by cases h) (fun h => by cases h)).conseq (fun ρ β hρ hh => ?_) (fun _ _ _ _ => Iff.rfl), rfl, rfl⟩
        · subst hn; exact hv.elim
        · rw [eqA_var, g2 ρ hρ, ← hh w hwk]; exact Iff.rfl
    · have hh : (if occursIn v a = true then eqFail g else some ((genLoad O a v g).1, (genLoad O a v g).2.toBody, true)) = some (code, g', true) := by
        cases a with
        | var w => exact absurd ⟨w, rfl⟩ hw
        | _ => exact h
      by_cases ho : occursIn v a = true
      · rw [if_pos ho] at hh
        simp only [eqFail, Option.some.injEq, Prod.mk.injEq, and_true] at hh
        obtain ⟨rfl, rfl⟩ := hh
        refine ⟨fail_run (a := a) (fun ρ β hA => ?_) hx, hn, Nat.le_refl _⟩
        have := (occ_size (β := β) a _ ((occursIn_iff v a).mp ho) (eqA_var.mp hA)).2 (fun u hu => hw ⟨u, hu⟩)
        omega
      · rw [if_neg ho] at hh
        simp only [Option.some.injEq, Prod.mk.injEq, and_true] at hh
        obtain ⟨rfl, rfl⟩ := hh
        have hd : Dest g v := ⟨hy, hin, fun j hj => by subst hj; exact hv.elim⟩
        obtain ⟨m', r1, t, e1, e2, _⟩ := load_ok O E a v g m res hs hi hd (fun w h => absurd ⟨w, h⟩ hw)
          (fun n h1 h2 => ho ((occursIn_iff v a).mpr (by rw [h1]; exact h2))) hx
        subst r1
        refine ⟨RunOk.eraseEq hn hv hs ?_, toBody_noarg _, genLoad_tmp O a v g⟩
        exact ⟨t.conseq (fun ρ β _ _ => eqA_var.symm) (fun _ _ _ _ => Iff.rfl), e1, e2⟩

theorem eqVar_ok {v : Var} {a : Arg} {code : List Ins} {res : Option M} (hs : Src nY a) (hv : Src nY (.var v)) (hvoid : a ≠ .void)
    (hne : a ≠ .var v)
    (hi : Inv N nY m.e m.s m.X g) (hn : NoArg g) (h : eqVar O v a g = some (code, g', true)) (hx : exec E code m = some res) :
    RunOk g.tmp N nY m m.s g g' (fun β _ => EqA β (.var v) a) (fun _ _ => True) res ∧ NoArg g' ∧ g.tmp ≤ g'.tmp := by
  unfold eqVar at h
  by_cases hy : v.isY = true
  · rw [if_pos hy] at h
    simp only [Option.some.injEq, Prod.mk.injEq] at h
    obtain ⟨rfl, rfl, hk⟩ := h
    have htmp : (genLoad O (.var v) (.arg 0) g).2.tmp = g.tmp := genLoadVar_tmp O v (.arg 0) g
    refine ⟨?_, toBody_noarg _, by rw [← htmp]; exact genUnif_tmp O a (.arg 0) _⟩
    have hd : Dest g (.arg 0) := ⟨rfl, hn 0, fun j hj => by cases hj⟩
    have hk0 := load_known (nY := nY) O (.var v) (j := 0) g hv
    have run := seq_run (c := g.tmp) (c' := g.tmp) (g := g) (g' := (genLoad O (.var v) (.arg 0) g).2)
      (g'' := (genUnif O a (.arg 0) (genLoad O (.var v) (.arg 0) g).2).2)
      (A1 := fun β _ => β (.arg 0) = β v) (A2 := fun β _ => Den β a (β (.arg 0)))
      (fun r hr => by
        obtain ⟨m', r1, t, e1, e2, _⟩ := load_ok O E (.var v) (.arg 0) g m r hv hi hd (fun _ _ => rfl) (fun n h => by cases h) hr
        subst r1
        exact ⟨t.conseq (fun ρ β _ _ => by simp only [Den]) (fun _ _ _ _ => Iff.rfl), e1, e2⟩)
      (fun m1 hi1 _ hx1 => by
        have := unifKnown_ok hs hi1 hk0 hk hx1
        rw [htmp] at this; exact this)
      (Nat.le_refl _)
      (fun ρ ρ' β β' _ hb => by rw [hb (.arg 0) (fun n h => by cases h)]; exact den_congr hb a hs _)
      hx
    refine run.erase hn (fun β β' ρ hb hA => ?_) (fun β ρ hA => ?_)
    · rw [← eqA_but hv hs hb, eqA_var, ← hA.1]; exact hA.2
    · refine ⟨fun u => if u.isArg then β v else β u, fun u hu => by simp [hu], ?_⟩
      have hva : v.isArg = false := by cases v <;> first | rfl | cases hy
      refine ⟨by show β v = if v.isArg = true then β v else β v; rw [hva]; rfl, ?_⟩
      refine (den_but hs (β := β) (fun u hu => by simp [hu]) _).mp ?_
      simp only [Var.isArg, if_true]
      exact eqA_var.mp hA
  · rw [if_neg hy] at h
    exact eqReg_ok hs hv (by simpa using hy) hvoid hne hi hn h hx

/-! ## Two arguments -/

theorem eqNone_ok {a b : Arg} (hi : Inv N nY m.e m.s m.X g) (hn : NoArg g) (hA : ∀ β, EqA β a b) {code : List Ins} {res : Option M}
    (h : (some ([], g, true) : Option (List Ins × G × Bool)) = some (code, g', true)) (hx : exec E code m = some res) :
    RunOk g.tmp N nY m m.s g g' (fun β _ => EqA β a b) (fun _ _ => True) res ∧ NoArg g' ∧ g.tmp ≤ g'.tmp := by
  simp only [Option.some.injEq, Prod.mk.injEq, and_true] at h
  obtain ⟨rfl, rfl⟩ := h
  simp only [exec, Option.some.injEq] at hx
  subst hx
  exact ⟨⟨(Tr.refl hi (A := fun _ _ => True)).conseq (fun _ β _ _ => by simp [hA β]) (fun _ _ _ _ => Iff.rfl), rfl, rfl⟩, hn, Nat.le_refl _⟩

theorem eqFail_ok {a b : Arg} (hn : NoArg g) (hA : ∀ β, ¬ EqA β a b) {code : List Ins} {res : Option M}
    (h : eqFail g = some (code, g', true)) (hx : exec E code m = some res) :
    RunOk g.tmp N nY m m.s g g' (fun β _ => EqA β a b) (fun _ _ => True) res ∧ NoArg g' ∧ g.tmp ≤ g'.tmp := by
  simp only [eqFail, Option.some.injEq, Prod.mk.injEq, and_true] at h
  obtain ⟨rfl, rfl⟩ := h
  exact ⟨fail_run (a := a) (fun _ β => hA β) hx, hn, Nat.le_refl _⟩

theorem eqA_void {β : Var → T} {a : Arg} : EqA β a .void := by
  obtain ⟨t, h⟩ := den_total β a
  exact ⟨t, h, trivial⟩

/-- A constant with an argument which is not a variable. -/
theorem cst_ok {a b : Arg} (ha : ∀ f as, a ≠ .stc f as) (hv : ∀ v, a ≠ .var v) (hv0 : a ≠ .void) (hsa : Src nY a) (hsb : Src nY b)
    (hi : Inv N nY m.e m.s m.X g) (hn : NoArg g) {code : List Ins} {res : Option M}
    (h : equal O a b g = some (code, g', true)) (hx : exec E code m = some res) :
    RunOk g.tmp N nY m m.s g g' (fun β _ => EqA β a b) (fun _ _ => True) res ∧ NoArg g' ∧ g.tmp ≤ g'.tmp := by
  have h' : (if sameArg a b then some ([], g, true) else match b with
      | .void => some ([], g, true)
      | .var v => eqVar O v a g
      | _ => eqFail g) = some (code, g', true) := by
    cases a with
    | stc f as => exact absurd rfl (ha f as)
    | var v => exact absurd rfl (hv v)
    | void => exact absurd rfl hv0
    | _ => unfold equal at h; exact h
  by_cases hsame : sameArg a b = true
  · rw [if_pos hsame] at h'
    exact eqNone_ok hi hn (fun _ => same_eqA hsame) h' hx
  · rw [if_neg hsame] at h'
    cases b with
    | void => exact eqNone_ok hi hn (fun _ => eqA_void) h' hx
    | var v =>
      obtain ⟨k1, k2⟩ := eqVar_ok hsa hsb hv0 (hv v) hi hn h' hx
      exact ⟨k1.conseq (fun _ _ _ _ => eqA_symm) (fun _ _ => Iff.rfl), k2⟩
    | stc f' bs =>
      refine eqFail_ok hn (fun β hA => ?_) h' hx
      obtain ⟨t, h1, ts, _, h2⟩ := hA
      obtain ⟨s1, s2, s3⟩ := mk_shape f' ts
      cases a <;> first | exact absurd rfl (ha _ _) | exact absurd rfl (hv _) | exact absurd rfl hv0 | skip
      all_goals (simp only [Den] at h1; rw [h2] at h1)
      · exact s1 _ h1
      · exact s2 _ h1
      · exact s3 _ h1
      · exact s1 _ h1
    | _ =>
      refine eqFail_ok hn (fun β hA => ?_) h' hx
      obtain ⟨t, h1, h2⟩ := hA
      cases a <;> first | exact absurd rfl (ha _ _) | exact absurd rfl (hv _) | exact absurd rfl hv0 | skip
      all_goals (simp only [Den] at h1 h2; rw [h1] at h2; simp_all [sameArg])

theorem eqReg_pure {v : Var} {a : Arg} {q : List Ins × G × Bool} (hn : NoArg g) (h : eqReg O v a g = some q) : NoArg q.2.1 ∧ g.tmp ≤ q.2.1.tmp := by
  unfold eqReg at h
  split at h
  · cases h; exact ⟨toBody_noarg _, genUnif_tmp O a v g⟩
  · split at h
    · split at h
      · cases h
      · cases h; exact ⟨toBody_noarg _, by rw [← genLoadVar_tmp O _ v g]; exact Nat.le_refl _⟩
    · split at h
      · cases h; exact ⟨hn, Nat.le_refl _⟩
      · cases h; exact ⟨toBody_noarg _, genLoad_tmp O _ v g⟩

theorem eqVar_pure {v : Var} {a : Arg} {q : List Ins × G × Bool} (hn : NoArg g) (h : eqVar O v a g = some q) : NoArg q.2.1 ∧ g.tmp ≤ q.2.1.tmp := by
  unfold eqVar at h
  split at h
  · cases h
    exact ⟨toBody_noarg _, Nat.le_trans (genLoad_tmp O (.var v) (.arg 0) g) (genUnif_tmp O a (.arg 0) _)⟩
  · exact eqReg_pure hn h

mutual
theorem equal_pureA (O : Opts) : (a b : Arg) → (g : G) → (q : List Ins × G × Bool) → NoArg g → equal O a b g = some q → NoArg q.2.1 ∧ g.tmp ≤ q.2.1.tmp
  | .void, b, g, q, hn, h => by unfold equal at h; cases h; exact ⟨hn, Nat.le_refl _⟩
  | .var v, b, g, q, hn, h => by
    unfold equal at h
    split at h
    · cases h; exact ⟨hn, Nat.le_refl _⟩
    · split at h
      · cases h; exact ⟨hn, Nat.le_refl _⟩
      · exact eqVar_pure hn h
  | .stc f as, b, g, q, hn, h => by
    unfold equal at h
    split at h
    · cases h; exact ⟨hn, Nat.le_refl _⟩
    · split at h
      · cases h; exact ⟨hn, Nat.le_refl _⟩
      · exact eqVar_pure hn h
      · split at h
        · exact equalList_pureA O as _ g q hn h
        · cases h; exact ⟨hn, Nat.le_refl _⟩
      · cases h; exact ⟨hn, Nat.le_refl _⟩
  | .atm i, b, g, q, hn, h => by
    unfold equal at h
    split at h
    · cases h; exact ⟨hn, Nat.le_refl _⟩
    · split at h <;> first | exact eqVar_pure hn h | (cases h; exact ⟨hn, Nat.le_refl _⟩)
  | .int i, b, g, q, hn, h => by
    unfold equal at h
    split at h
    · cases h; exact ⟨hn, Nat.le_refl _⟩
    · split at h <;> first | exact eqVar_pure hn h | (cases h; exact ⟨hn, Nat.le_refl _⟩)
  | .flt i, b, g, q, hn, h => by
    unfold equal at h
    split at h
    · cases h; exact ⟨hn, Nat.le_refl _⟩
    · split at h <;> first | exact eqVar_pure hn h | (cases h; exact ⟨hn, Nat.le_refl _⟩)
  | .nil, b, g, q, hn, h => by
    unfold equal at h
    split at h
    · cases h; exact ⟨hn, Nat.le_refl _⟩
    · split at h <;> first | exact eqVar_pure hn h | (cases h; exact ⟨hn, Nat.le_refl _⟩)
theorem equalList_pureA (O : Opts) : (l l' : List Arg) → (g : G) → (q : List Ins × G × Bool) → NoArg g → equal.equalList O l l' g = some q →
    NoArg q.2.1 ∧ g.tmp ≤ q.2.1.tmp
  | a :: l, b :: l', g, q, hn, h => by
    simp only [equal.equalList] at h
    split at h
    · cases h
    · rename_i c1 g1 k1 h1
      split at h
      · cases h
      · rename_i c2 g2 k2 h2
        cases h
        have p1 := equal_pureA O a b g _ hn h1
        have p2 := equalList_pureA O l l' g1 _ p1.1 h2
        exact ⟨p2.1, Nat.le_trans p1.2 p2.2⟩
  | [], l', g, q, hn, h => by unfold equal.equalList at h; cases h; exact ⟨hn, Nat.le_refl _⟩
  | _ :: _, [], g, q, hn, h => by unfold equal.equalList at h; cases h; exact ⟨hn, Nat.le_refl _⟩
end

theorem equal_pure {a b : Arg} {code : List Ins} {k : Bool} (hn : NoArg g) (h : equal O a b g = some (code, g', k)) : NoArg g' ∧ g.tmp ≤ g'.tmp :=
  equal_pureA O a b g _ hn h

theorem equalList_pure {l l' : List Arg} {code : List Ins} {k : Bool} (hn : NoArg g) (h : equal.equalList O l l' g = some (code, g', k)) :
    NoArg g' ∧ g.tmp ≤ g'.tmp := equalList_pureA O l l' g _ hn h

mutual
/-- equal/4. -/
theorem equal_ok (O : Opts) (E : Env) : (a b : Arg) → (g g' : G) → (m : M) → (code : List Ins) → (res : Option M) → Src nY a → Src nY b →
    Inv N nY m.e m.s m.X g → NoArg g → equal O a b g = some (code, g', true) → exec E code m = some res →
    RunOk g.tmp N nY m m.s g g' (fun β _ => EqA β a b) (fun _ _ => True) res ∧ NoArg g' ∧ g.tmp ≤ g'.tmp
  | .void, b, g, g', m, code, res, _, _, hi, hn, h, hx => by
    unfold equal at h
    exact eqNone_ok hi hn (fun _ => eqA_symm.mp eqA_void) h hx
  | .var v, b, g, g', m, code, res, hsa, hsb, hi, hn, h, hx => by
    unfold equal at h
    by_cases hsame : sameArg (.var v) b = true
    · rw [if_pos hsame] at h
      exact eqNone_ok hi hn (fun _ => same_eqA hsame) h hx
    · rw [if_neg hsame] at h
      have hb0 : b = .void ∨ (b ≠ .void ∧ eqVar O v b g = some (code, g', true)) := by
        cases b with
        | void => exact Or.inl rfl
        | _ => exact Or.inr ⟨by simp, h⟩
      rcases hb0 with rfl | ⟨hb0, hb⟩
      · exact eqNone_ok hi hn (fun _ => eqA_void) h hx
      · exact eqVar_ok hsb hsa hb0 (fun hb => by subst hb; simp [sameArg] at hsame) hi hn hb hx
  | .stc f as, b, g, g', m, code, res, hsa, hsb, hi, hn, h, hx => by
    unfold equal at h
    by_cases hsame : sameArg (.stc f as) b = true
    · rw [if_pos hsame] at h
      exact eqNone_ok hi hn (fun _ => same_eqA hsame) h hx
    · rw [if_neg hsame] at h
      cases b with
      | void => exact eqNone_ok hi hn (fun _ => eqA_void) h hx
      | var v =>
        obtain ⟨k1, k2⟩ := eqVar_ok hsa hsb (by simp) (by simp) hi hn h hx
        exact ⟨k1.conseq (fun _ _ _ _ => eqA_symm) (fun _ _ => Iff.rfl), k2⟩
      | stc f' bs =>
        simp only at h
        by_cases hf : f = f' ∧ as.length = bs.length
        · rw [if_pos hf] at h
          obtain ⟨rfl, hl⟩ := hf
          obtain ⟨k1, k2⟩ := equalList_ok O E as bs g g' m code res hsa.2 hsb.2 hi hn h hx
          refine ⟨k1.conseq (fun _ β _ _ => ?_) (fun _ _ => Iff.rfl), k2⟩
          rw [eqsA_iff as bs hl]
          constructor
          · rintro ⟨ts, h1, h2⟩
            exact ⟨mk f ts, ⟨ts, h1, rfl⟩, ⟨ts, h2, rfl⟩⟩
          · rintro ⟨t, ⟨ts, h1, rfl⟩, ⟨ts', h2, h3⟩⟩
            have := mk_inj (mk_arity h3).2 h3
            subst this
            exact ⟨ts, h1, h2⟩
        · rw [if_neg hf] at h
          refine eqFail_ok hn (fun β hA => hf ?_) h hx
          obtain ⟨t, ⟨ts, h1, rfl⟩, ⟨ts', h2, h3⟩⟩ := hA
          obtain ⟨k1, k2⟩ := mk_arity h3
          exact ⟨k1, by rw [← denList_length h1, ← denList_length h2, k2]⟩
      | _ =>
        refine eqFail_ok hn (fun β hA => ?_) h hx
        obtain ⟨t, ⟨ts, _, h2⟩, h1⟩ := hA
        obtain ⟨s1, s2, s3⟩ := mk_shape f ts
        simp only [Den] at h1
        rw [h2] at h1
        first | exact s1 _ h1 | exact s2 _ h1 | exact s3 _ h1
  | .atm i, b, g, g', m, code, res, hsa, hsb, hi, hn, h, hx => cst_ok (by simp) (by simp) (by simp) hsa hsb hi hn h hx
  | .int i, b, g, g', m, code, res, hsa, hsb, hi, hn, h, hx => cst_ok (by simp) (by simp) (by simp) hsa hsb hi hn h hx
  | .flt i, b, g, g', m, code, res, hsa, hsb, hi, hn, h, hx => cst_ok (by simp) (by simp) (by simp) hsa hsb hi hn h hx
  | .nil, b, g, g', m, code, res, hsa, hsb, hi, hn, h, hx => cst_ok (by simp) (by simp) (by simp) hsa hsb hi hn h hx

theorem equalList_ok (O : Opts) (E : Env) : (l l' : List Arg) → (g g' : G) → (m : M) → (code : List Ins) → (res : Option M) → SrcList nY l → SrcList nY l' →
    Inv N nY m.e m.s m.X g → NoArg g → equal.equalList O l l' g = some (code, g', true) → exec E code m = some res →
    RunOk g.tmp N nY m m.s g g' (fun β _ => EqsA β l l') (fun _ _ => True) res ∧ NoArg g' ∧ g.tmp ≤ g'.tmp
  | a :: l, b :: l', g, g', m, code, res, hsa, hsb, hi, hn, h, hx => by
    simp only [equal.equalList] at h
    cases h1 : equal O a b g with
    | none => rw [h1] at h; cases h
    | some q =>
      obtain ⟨c1, g1, k1⟩ := q
      rw [h1] at h
      simp only at h
      cases h2 : equal.equalList O l l' g1 with
      | none => rw [h2] at h; cases h
      | some q2 =>
        obtain ⟨c2, g2, k2⟩ := q2
        rw [h2] at h
        simp only [Option.some.injEq, Prod.mk.injEq, Bool.and_eq_true] at h
        obtain ⟨rfl, rfl, rfl, rfl⟩ := h
        have hp := equal_pure hn h1
        refine ⟨seq_run (c := g.tmp) (c' := g1.tmp) (g' := g1) (A1 := fun β _ => EqA β a b) (A2 := fun β _ => EqsA β l l')
          (fun r hr => (equal_ok O E a b g g1 m c1 r hsa.1 hsb.1 hi hn h1 hr).1)
          (fun m1 hi1 _ hx1 => (equalList_ok O E l l' g1 g2 m1 c2 res hsa.2 hsb.2 hi1 hp.1 h2 hx1).1) hp.2
          (fun _ _ _ _ _ hb => eqsA_same hb l l' hsa.2 hsb.2) hx, ?_⟩
        have hp2 := equalList_pure hp.1 h2
        exact ⟨hp2.1, Nat.le_trans hp.2 hp2.2⟩
  | [], l', g, g', m, code, res, _, _, hi, hn, h, hx => by
    unfold equal.equalList at h
    obtain ⟨k1, k2⟩ := eqNone_ok (a := .void) (b := .void) hi hn (fun _ => eqA_void) h hx
    exact ⟨k1.conseq (fun _ β _ _ => ⟨fun _ => by simp [EqsA], fun _ => eqA_void⟩) (fun _ _ => Iff.rfl), k2⟩
  | _ :: _, [], g, g', m, code, res, _, _, hi, hn, h, hx => by
    unfold equal.equalList at h
    obtain ⟨k1, k2⟩ := eqNone_ok (a := .void) (b := .void) hi hn (fun _ => eqA_void) h hx
    exact ⟨k1.conseq (fun _ β _ _ => ⟨fun _ => by simp [EqsA], fun _ => eqA_void⟩) (fun _ _ => Iff.rfl), k2⟩
end

/-- The unifications are true. -/
def EqsB (β : Var → T) (l : List (Arg × Arg)) : Prop := ∀ p ∈ l, EqA β p.1 p.2

theorem eqsB_same {β β' : Var → T} (h : SameTo c β β') {l : List (Arg × Arg)} (hs : ∀ p ∈ l, Src nY p.1 ∧ Src nY p.2) : EqsB β l ↔ EqsB β' l :=
  forall_congr' fun p => forall_congr' fun hp => eqA_same (hs p hp).1 (hs p hp).2 h

theorem genEqs_ok (O : Opts) (E : Env) : (l : List (Arg × Arg)) → (g g' : G) → (m : M) → (code : List Ins) → (res : Option M) →
    (∀ p ∈ l, Src nY p.1 ∧ Src nY p.2) →
    Inv N nY m.e m.s m.X g → NoArg g → genEqs O l g = some (code, g', true) → exec E code m = some res →
    RunOk g.tmp N nY m m.s g g' (fun β _ => EqsB β l) (fun _ _ => True) res
  | [], g, g', m, code, res, _, hi, hn, h, hx => by
    unfold genEqs at h
    exact (eqNone_ok (a := .void) (b := .void) hi hn (fun _ => eqA_void) h hx).1.conseq
      (fun _ β _ _ => ⟨fun _ p hp => (by cases hp), fun _ => eqA_void⟩) (fun _ _ => Iff.rfl)
  | p :: l, g, g', m, code, res, hs, hi, hn, h, hx => by
    simp only [genEqs] at h
    cases h1 : equal O p.1 p.2 g with
    | none => rw [h1] at h; cases h
    | some q =>
      obtain ⟨c1, g1, k1⟩ := q
      rw [h1] at h
      simp only at h
      cases h2 : genEqs O l g1 with
      | none => rw [h2] at h; cases h
      | some q2 =>
        obtain ⟨c2, g2, k2⟩ := q2
        rw [h2] at h
        simp only [Option.some.injEq, Prod.mk.injEq, Bool.and_eq_true] at h
        obtain ⟨rfl, rfl, rfl, rfl⟩ := h
        have hp := equal_pure hn h1
        have hsp := hs p List.mem_cons_self
        have hsl := fun q hq => hs q (List.mem_cons_of_mem p hq)
        refine (seq_run (c := g.tmp) (c' := g1.tmp) (g' := g1) (A1 := fun β _ => EqA β p.1 p.2) (A2 := fun β _ => EqsB β l)
          (fun r hr => (equal_ok O E p.1 p.2 g g1 m c1 r hsp.1 hsp.2 hi hn h1 hr).1)
          (fun m1 hi1 _ hx1 => genEqs_ok O E l g1 g2 m1 c2 res hsl hi1 hp.1 h2 hx1) hp.2
          (fun _ _ _ _ _ hb => eqsB_same hb hsl) hx).conseq (fun _ β _ _ => by simp [EqsB]) (fun _ _ => Iff.rfl)

theorem genEqs_noarg (O : Opts) : (l : List (Arg × Arg)) → (g g' : G) → (code : List Ins) → (k : Bool) → NoArg g → genEqs O l g = some (code, g', k) → NoArg g'
  | [], g, g', code, k, hn, h => by unfold genEqs at h; cases h; exact hn
  | p :: l, g, g', code, k, hn, h => by
    simp only [genEqs] at h
    split at h
    · cases h
    · rename_i c1 g1 k1 h1
      split at h
      · cases h
      · rename_i c2 g2 k2 h2
        cases h
        exact genEqs_noarg O l g1 _ c2 k2 (equal_pure hn h1).1 h2

end Gp.CodeGen
