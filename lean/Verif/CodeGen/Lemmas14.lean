import Verif.CodeGen.Lemmas13
namespace Gp.CodeGen
open Gp.Heap Gp.Unify Gp.ListBip
open Gp.Term (isNaN fkey deq)

variable {N nY e c c' : Nat} {V V' V'' : St} {X X' X'' : Var → Cell} {g g' g'' : G}
  {A B C : (Var → T) → (Adr → T) → Prop} {E : Env} {O : Opts}

/-! ## What the code generator knows after the loading of an argument -/

/-- The arguments of a structure do not give an information on the older auxiliary temporaries. -/
theorem sub_other (O : Opts) {j : Nat} : (as : List Arg) → (k n : Nat) → (g : G) → SrcList nY as → j < k →
    (genSubList n (flatList O as k).1 g).2.info (.tmp j) = g.info (.tmp j)
  | [], k, n, g, _, _ => rfl
  | .void :: l, k, n, g, hs, hj => sub_other O l k (n + 1) g hs.2 hj
  | .atm _ :: l, k, n, g, hs, hj => sub_other O l k 0 g hs.2 hj
  | .int _ :: l, k, n, g, hs, hj => sub_other O l k 0 g hs.2 hj
  | .nil :: l, k, n, g, hs, hj => sub_other O l k 0 g hs.2 hj
  | .var v :: l, k, n, g, hs, hj => by
    refine (sub_other O l k 0 (genSubVar v g).2 hs.2 hj).trans (genSubVar_info v g (fun h => src_var hs.1 j h.symm))
  | .flt b :: l, k, n, g, hs, hj =>
    (sub_other O l (k + 1) 0 (genSubVar (.tmp k) g).2 hs.2 (by omega)).trans (genSubVar_info _ g (fun h => by cases h; omega))
  | .stc f as' :: l, k, n, g, hs, hj => by
    by_cases hlast : (l.isEmpty && O.lastSubterm) = true
    · have hl := last_nil hlast
      subst hl
      rw [flat_last hlast]
      exact sub_other O as' k 0 g hs.1.2 hj
    · rw [flat_not_last hlast]
      exact (sub_other O l (k + 1) 0 (genSubVar (.tmp k) g).2 hs.2 (by omega)).trans (genSubVar_info _ g (fun h => by cases h; omega))
termination_by as => sizeOf as

theorem genLoadVar_tmp (O : Opts) (v r : Var) (g : G) : (genLoadVar O v r g).2.tmp = g.tmp := by
  unfold genLoadVar; split <;> (try split) <;> rfl

theorem genLoadVar_info (O : Opts) (v r : Var) (g : G) {u : Var} (h : u ≠ v) : (genLoadVar O v r g).2.info u = g.info u := by
  unfold genLoadVar; split <;> (try split) <;> first | rfl | exact setInfo_other _ h

theorem genLoadAux_last {f : Nat} {as l : List Arg} {k : Nat} (hlast : (l.isEmpty && O.lastSubterm) = true) :
    genLoadAux O (.stc f as :: l) k g = genLoadAux O as k g := by
  show genLoad.genLoadAux O (.stc f as :: l) k g = _
  rw [genLoad.genLoadAux, if_pos hlast]

theorem genLoadAux_stc {f : Nat} {as l : List Arg} {k : Nat} (hlast : ¬ (l.isEmpty && O.lastSubterm) = true) :
    genLoadAux O (.stc f as :: l) k g = ((genLoad O (.stc f as) (.tmp k) g).1 ++
      (genLoadAux O l (k + 1) (genLoad O (.stc f as) (.tmp k) g).2).1,
      (genLoadAux O l (k + 1) (genLoad O (.stc f as) (.tmp k) g).2).2) := by
  show genLoad.genLoadAux O (.stc f as :: l) k g = _
  rw [genLoad.genLoadAux, if_neg hlast]

/-- The code of a structure. -/
theorem genLoad_stc (O : Opts) (f : Nat) (as : List Arg) (r : Var) (g : G) :
    genLoad O (.stc f as) r g =
      let fl := flatList O as g.tmp
      let aux := genLoadAux O as g.tmp { g with tmp := fl.2 }
      let sub := genSubList 0 fl.1 (aux.2.2.setInfo r .inHeap)
      (aux.1 ++ (if isList f as.length then .putList r else .putStructure f as.length r) :: sub.1, sub.2) := by
  rw [genLoad]

mutual
theorem genLoad_tmp (O : Opts) : (a : Arg) → (r : Var) → (g : G) → g.tmp ≤ (genLoad O a r g).2.tmp
  | .void, _, _ => Nat.le_refl _
  | .var v, r, g => by
    rw [genLoad]
    exact Nat.le_of_eq (genLoadVar_tmp O v r g).symm
  | .atm _, _, _ => Nat.le_refl _
  | .int _, _, _ => Nat.le_refl _
  | .flt _, _, _ => Nat.le_refl _
  | .nil, _, _ => Nat.le_refl _
  | .stc f as, r, g => by
    rw [genLoad_stc]
    have h1 := flatList_le O as g.tmp
    have h2 := genLoadAux_tmp O as g.tmp { g with tmp := (flatList O as g.tmp).2 }
    have h3 := (sub_pure O as g.tmp 0 ((genLoadAux O as g.tmp { g with tmp := (flatList O as g.tmp).2 }).2.2.setInfo r .inHeap)).1
    simp only [h3]
    exact Nat.le_trans h1 h2
theorem genLoadAux_tmp (O : Opts) : (l : List Arg) → (k : Nat) → (g : G) → g.tmp ≤ (genLoadAux O l k g).2.2.tmp
  | [], _, _ => Nat.le_refl _
  | .void :: l, k, g => genLoadAux_tmp O l k g
  | .var _ :: l, k, g => genLoadAux_tmp O l k g
  | .atm _ :: l, k, g => genLoadAux_tmp O l k g
  | .int _ :: l, k, g => genLoadAux_tmp O l k g
  | .nil :: l, k, g => genLoadAux_tmp O l k g
  | .flt _ :: l, k, g => genLoadAux_tmp O l (k + 1) (g.setInfo (.tmp k) .inHeap)
  | .stc f as :: l, k, g => by
    by_cases hlast : (l.isEmpty && O.lastSubterm) = true
    · rw [genLoadAux_last hlast]; exact genLoadAux_tmp O as k g
    · rw [genLoadAux_stc hlast]
      exact Nat.le_trans (genLoad_tmp O (.stc f as) (.tmp k) g) (genLoadAux_tmp O l (k + 1) _)
end

mutual
theorem genLoad_other (O : Opts) {j : Nat} : (a : Arg) → (r : Var) → (g : G) → Src nY a → j < g.tmp → r ≠ .tmp j →
    (genLoad O a r g).2.info (.tmp j) = g.info (.tmp j)
  | .void, r, _, _, _, hr => setInfo_other _ (Ne.symm hr)
  | .var v, r, g, hs, _, hr => by
    rw [genLoad]
    exact (setInfo_other _ (Ne.symm hr)).trans (genLoadVar_info O v r g (fun h => src_var hs j h.symm))
  | .atm _, r, _, _, _, hr => setInfo_other _ (Ne.symm hr)
  | .int _, r, _, _, _, hr => setInfo_other _ (Ne.symm hr)
  | .flt _, r, _, _, _, hr => setInfo_other _ (Ne.symm hr)
  | .nil, r, _, _, _, hr => setInfo_other _ (Ne.symm hr)
  | .stc f as, r, g, hs, hj, hr => by
    rw [genLoad_stc]
    have h1 := flatList_le O as g.tmp
    refine (sub_other O as g.tmp 0 _ hs.2 hj).trans ((setInfo_other _ (Ne.symm hr)).trans ?_)
    exact genLoadAux_other O as g.tmp { g with tmp := (flatList O as g.tmp).2 } hs.2 hj (Nat.le_refl _)
theorem genLoadAux_other (O : Opts) {j : Nat} : (l : List Arg) → (k : Nat) → (g : G) → SrcList nY l → j < k →
    (flatList O l k).2 ≤ g.tmp → (genLoadAux O l k g).2.2.info (.tmp j) = g.info (.tmp j)
  | [], _, _, _, _, _ => rfl
  | .void :: l, k, g, hs, hj, ht => genLoadAux_other O l k g hs.2 hj ht
  | .var _ :: l, k, g, hs, hj, ht => genLoadAux_other O l k g hs.2 hj ht
  | .atm _ :: l, k, g, hs, hj, ht => genLoadAux_other O l k g hs.2 hj ht
  | .int _ :: l, k, g, hs, hj, ht => genLoadAux_other O l k g hs.2 hj ht
  | .nil :: l, k, g, hs, hj, ht => genLoadAux_other O l k g hs.2 hj ht
  | .flt _ :: l, k, g, hs, hj, ht =>
    (genLoadAux_other O l (k + 1) (g.setInfo (.tmp k) .inHeap) hs.2 (by omega) ht).trans
      (setInfo_other _ (fun h => by cases h; omega))
  | .stc f as :: l, k, g, hs, hj, ht => by
    by_cases hlast : (l.isEmpty && O.lastSubterm) = true
    · have hl := last_nil hlast
      subst hl
      rw [flat_last hlast] at ht
      rw [genLoadAux_last hlast]; exact genLoadAux_other O as k g hs.1.2 hj ht
    · rw [flat_not_last hlast] at ht
      have h1 := flatList_le O l (k + 1)
      have ht : (flatList O l (k + 1)).2 ≤ g.tmp := ht
      rw [genLoadAux_stc hlast]
      exact (genLoadAux_other O l (k + 1) _ hs.2 (by omega) (Nat.le_trans ht (genLoad_tmp O (.stc f as) (.tmp k) g))).trans
        (genLoad_other O (.stc f as) (.tmp k) g hs.1 (by omega) (fun h => by cases h; omega))
end

/-- The arguments of a structure do not give an information on the argument registers. -/
theorem sub_arg (O : Opts) (j : Nat) : (as : List Arg) → (k n : Nat) → (g : G) → SrcList nY as →
    (genSubList n (flatList O as k).1 g).2.info (.arg j) = g.info (.arg j)
  | [], k, n, g, _ => rfl
  | .void :: l, k, n, g, hs => sub_arg O j l k (n + 1) g hs.2
  | .atm _ :: l, k, n, g, hs => sub_arg O j l k 0 g hs.2
  | .int _ :: l, k, n, g, hs => sub_arg O j l k 0 g hs.2
  | .nil :: l, k, n, g, hs => sub_arg O j l k 0 g hs.2
  | .var v :: l, k, n, g, hs => by
    refine (sub_arg O j l k 0 (genSubVar v g).2 hs.2).trans (genSubVar_info v g (fun h => ?_))
    have := hs.1
    rw [← h] at this
    exact this
  | .flt b :: l, k, n, g, hs =>
    (sub_arg O j l (k + 1) 0 (genSubVar (.tmp k) g).2 hs.2).trans (genSubVar_info _ g (fun h => by cases h))
  | .stc f as' :: l, k, n, g, hs => by
    by_cases hlast : (l.isEmpty && O.lastSubterm) = true
    · have hl := last_nil hlast
      subst hl
      rw [flat_last hlast]
      exact sub_arg O j as' k 0 g hs.1.2
    · rw [flat_not_last hlast]
      exact (sub_arg O j l (k + 1) 0 (genSubVar (.tmp k) g).2 hs.2).trans (genSubVar_info _ g (fun h => by cases h))
termination_by as => sizeOf as

theorem src_arg {v : Var} {j : Nat} (h : Src nY (.var v)) : Var.arg j ≠ v := by
  intro h1; subst h1; exact h

mutual
theorem load_arg (O : Opts) (j : Nat) : (a : Arg) → (r : Var) → (g : G) → Src nY a → r ≠ .arg j →
    (genLoad O a r g).2.info (.arg j) = g.info (.arg j)
  | .void, r, _, _, hr => setInfo_other _ (Ne.symm hr)
  | .var v, r, g, hs, hr => by
    rw [genLoad]
    exact (setInfo_other _ (Ne.symm hr)).trans (genLoadVar_info O v r g (src_arg hs))
  | .atm _, r, _, _, hr => setInfo_other _ (Ne.symm hr)
  | .int _, r, _, _, hr => setInfo_other _ (Ne.symm hr)
  | .flt _, r, _, _, hr => setInfo_other _ (Ne.symm hr)
  | .nil, r, _, _, hr => setInfo_other _ (Ne.symm hr)
  | .stc f as, r, g, hs, hr => by
    rw [genLoad_stc]
    refine (sub_arg O j as g.tmp 0 _ hs.2).trans ((setInfo_other _ (Ne.symm hr)).trans ?_)
    exact loadAux_arg O j as g.tmp { g with tmp := (flatList O as g.tmp).2 } hs.2
theorem loadAux_arg (O : Opts) (j : Nat) : (l : List Arg) → (k : Nat) → (g : G) → SrcList nY l →
    (genLoadAux O l k g).2.2.info (.arg j) = g.info (.arg j)
  | [], _, _, _ => rfl
  | .void :: l, k, g, hs => loadAux_arg O j l k g hs.2
  | .var _ :: l, k, g, hs => loadAux_arg O j l k g hs.2
  | .atm _ :: l, k, g, hs => loadAux_arg O j l k g hs.2
  | .int _ :: l, k, g, hs => loadAux_arg O j l k g hs.2
  | .nil :: l, k, g, hs => loadAux_arg O j l k g hs.2
  | .flt _ :: l, k, g, hs =>
    (loadAux_arg O j l (k + 1) (g.setInfo (.tmp k) .inHeap) hs.2).trans (setInfo_other _ (fun h => by cases h))
  | .stc f as :: l, k, g, hs => by
    by_cases hlast : (l.isEmpty && O.lastSubterm) = true
    · have hl := last_nil hlast
      subst hl
      rw [genLoadAux_last hlast]; exact loadAux_arg O j as k g hs.1.2
    · rw [genLoadAux_stc hlast]
      exact (loadAux_arg O j l (k + 1) _ hs.2).trans (load_arg O j (.stc f as) (.tmp k) g hs.1 (fun h => by cases h))
end

/-! ## A temporary which does not occur stays unknown -/

theorem sub_nocc (O : Opts) (j : Nat) : (as : List Arg) → (k n : Nat) → (g : G) → ¬ OccList (.x j) as →
    (genSubList n (flatList O as k).1 g).2.info (.x j) = g.info (.x j)
  | [], k, n, g, _ => rfl
  | .void :: l, k, n, g, hs => sub_nocc O j l k (n + 1) g (fun h => hs (Or.inr h))
  | .atm _ :: l, k, n, g, hs => sub_nocc O j l k 0 g (fun h => hs (Or.inr h))
  | .int _ :: l, k, n, g, hs => sub_nocc O j l k 0 g (fun h => hs (Or.inr h))
  | .nil :: l, k, n, g, hs => sub_nocc O j l k 0 g (fun h => hs (Or.inr h))
  | .var v :: l, k, n, g, hs => by
    refine (sub_nocc O j l k 0 (genSubVar v g).2 (fun h => hs (Or.inr h))).trans (genSubVar_info v g (fun h => hs (Or.inl h.symm)))
  | .flt b :: l, k, n, g, hs =>
    (sub_nocc O j l (k + 1) 0 (genSubVar (.tmp k) g).2 (fun h => hs (Or.inr h))).trans (genSubVar_info _ g (fun h => by cases h))
  | .stc f as' :: l, k, n, g, hs => by
    by_cases hlast : (l.isEmpty && O.lastSubterm) = true
    · have hl := last_nil hlast
      subst hl
      rw [flat_last hlast]
      exact sub_nocc O j as' k 0 g (fun h => hs (Or.inl h))
    · rw [flat_not_last hlast]
      exact (sub_nocc O j l (k + 1) 0 (genSubVar (.tmp k) g).2 (fun h => hs (Or.inr h))).trans (genSubVar_info _ g (fun h => by cases h))
termination_by as => sizeOf as

mutual
theorem load_nocc (O : Opts) (j : Nat) : (a : Arg) → (r : Var) → (g : G) → ¬ Occ (.x j) a → r ≠ .x j →
    (genLoad O a r g).2.info (.x j) = g.info (.x j)
  | .void, r, _, _, hr => setInfo_other _ (Ne.symm hr)
  | .var v, r, g, hs, hr => by
    rw [genLoad]
    exact (setInfo_other _ (Ne.symm hr)).trans (genLoadVar_info O v r g (fun h => hs h.symm))
  | .atm _, r, _, _, hr => setInfo_other _ (Ne.symm hr)
  | .int _, r, _, _, hr => setInfo_other _ (Ne.symm hr)
  | .flt _, r, _, _, hr => setInfo_other _ (Ne.symm hr)
  | .nil, r, _, _, hr => setInfo_other _ (Ne.symm hr)
  | .stc f as, r, g, hs, hr => by
    rw [genLoad_stc]
    refine (sub_nocc O j as g.tmp 0 _ hs).trans ((setInfo_other _ (Ne.symm hr)).trans ?_)
    exact loadAux_nocc O j as g.tmp { g with tmp := (flatList O as g.tmp).2 } hs
theorem loadAux_nocc (O : Opts) (j : Nat) : (l : List Arg) → (k : Nat) → (g : G) → ¬ OccList (.x j) l →
    (genLoadAux O l k g).2.2.info (.x j) = g.info (.x j)
  | [], _, _, _ => rfl
  | .void :: l, k, g, hs => loadAux_nocc O j l k g (fun h => hs (Or.inr h))
  | .var _ :: l, k, g, hs => loadAux_nocc O j l k g (fun h => hs (Or.inr h))
  | .atm _ :: l, k, g, hs => loadAux_nocc O j l k g (fun h => hs (Or.inr h))
  | .int _ :: l, k, g, hs => loadAux_nocc O j l k g (fun h => hs (Or.inr h))
  | .nil :: l, k, g, hs => loadAux_nocc O j l k g (fun h => hs (Or.inr h))
  | .flt _ :: l, k, g, hs =>
    (loadAux_nocc O j l (k + 1) (g.setInfo (.tmp k) .inHeap) (fun h => hs (Or.inr h))).trans (setInfo_other _ (fun h => by cases h))
  | .stc f as :: l, k, g, hs => by
    by_cases hlast : (l.isEmpty && O.lastSubterm) = true
    · have hl := last_nil hlast
      subst hl
      rw [genLoadAux_last hlast]; exact loadAux_nocc O j as k g (fun h => hs (Or.inl h))
    · rw [genLoadAux_stc hlast]
      exact (loadAux_nocc O j l (k + 1) _ (fun h => hs (Or.inr h))).trans
        (load_nocc O j (.stc f as) (.tmp k) g (fun h => hs (Or.inl h)) (fun h => by cases h))
end

/-! ## Loading -/

/-- A register which can be loaded. -/
structure Dest (g : G) (r : Var) : Prop where
  y : r.isY = false
  info : g.info r = none
  tmp : ∀ j, r = .tmp j → j < g.tmp

theorem Dest.setTmp {r : Var} {k : Nat} (h : Dest g r) (hk : g.tmp ≤ k) : Dest { g with tmp := k } r :=
  ⟨h.y, h.info, fun j hj => Nat.lt_of_lt_of_le (h.tmp j hj) hk⟩

/-- A constant. -/
theorem loadCst_ok {m : M} (hi : Inv N nY m.e m.s m.X g) {r : Var} (hr : Dest g r) {w : Cell} {t : T}
    (hw : ValidWord N m.s.lssa m.s.mem w) (hn : ∀ b, w ≠ .ref b) (he : ∀ ρ, eval m.s.mem ρ w = t) {res : Option M}
    (h : some (some (m.put r w)) = some res) :
    LoadOk O N nY m g (g.setInfo r .inHeap) r (fun β _ => β r = t) res := by
  rw [put_nonY hr.y, Option.some.injEq] at h
  refine ⟨_, h.symm, ?_, rfl, rfl, fun _ _ _ _ b hb => ?_⟩
  · refine (reg_tr hi hr.y hr.info hr.tmp hw (fun _ b hb => absurd hb (hn b)) (fun h => by cases h) (fun h => by cases h)).conseq
      (fun ρ β _ _ => ?_) (fun _ _ _ _ => Iff.rfl)
    rw [he]
  · simp only [setReg, if_true] at hb; exact absurd hb (hn b)

theorem loadFlt_ok {m : M} (hi : Inv N nY m.e m.s m.X g) {r : Var} (hr : Dest g r) {b : BitVec 64} (hb : isNaN b = false) {res : Option M}
    (h : step E m (.putFloat b r) = some res) :
    LoadOk O N nY m g (g.setInfo r .inHeap) r (fun β _ => β r = .flt (fkey b)) res := by
  simp only [step] at h
  cases hp : push m.s (.raw b) with
  | none => rw [hp] at h; cases h
  | some V1 =>
    rw [hp] at h
    simp only [M.retTo, Option.some.injEq] at h
    obtain ⟨p1, p2, p3, p4, p5⟩ := pushRaw_chg hi.ok (w := .raw b) rfl hp
    have hi1 := p1.inv hi
    have hmem : V1.mem m.s.h = .raw b := by rw [p3, set_same]
    have htop := hi.ok.top
    have hl := p1.lssa
    rw [put_nonY hr.y] at h
    have t1 := (p1.tr (c := g.tmp) hi).frame (F := fun β _ => β r = .flt (fkey b)) (fun _ _ β β' _ hb => by
      rw [hb r hr.tmp])
    have t2 := reg_tr (c := g.tmp) hi1 (w := .flt m.s.h) (i := .inHeap) hr.y hr.info hr.tmp ⟨b, hmem⟩ (fun _ b hb => by cases hb)
      (fun h => by cases h) (fun h => by cases h)
    refine ⟨_, h.symm, (t1.conseq (A' := fun β _ => β r = .flt (fkey b)) (B' := fun β ρ => β r = eval V1.mem ρ (.flt m.s.h))
      (fun _ _ _ _ => by simp) (fun ρ β _ _ => by simp [eval, hmem, hb])).trans t2 (Nat.le_refl _), rfl, rfl, fun _ _ _ _ b hb => ?_⟩
    simp only [setReg, if_true] at hb; cases hb

mutual
/-- `gen_load_arg`. -/
theorem load_ok (O : Opts) (E : Env) : (a : Arg) → (r : Var) → (g : G) → (m : M) → (res : Option M) → Src nY a →
    Inv N nY m.e m.s m.X g → Dest g r → (∀ v, a = .var v → r.isArg = true) → (∀ n, r = .x n → ¬ Occ (.x n) a) →
    exec E (genLoad O a r g).1 m = some res →
    LoadOk O N nY m g (genLoad O a r g).2 r (fun β _ => Den β a (β r)) res
  | .void, r, g, m, res, _, hi, hr, _, _, h => by
    have h := exec_one h
    simp only [step, putX] at h
    cases hp : push m.s (.ref m.s.h) with
    | none => rw [hp] at h; cases h
    | some V1 =>
      rw [hp] at h
      simp only [M.retTo, Option.some.injEq] at h
      obtain ⟨t1, v1, v2⟩ := newvar_tr (c := g.tmp) hi hp (fun β => β r)
      rw [put_nonY hr.y] at h
      have t2 := reg_tr (c := g.tmp) t1.inv (w := .ref m.s.h) (i := .inHeap) hr.y hr.info hr.tmp v1 (fun _ => v2)
        (fun h => by cases h) (fun h => by cases h)
      refine ⟨_, h.symm, (t1.conseq (fun _ _ _ _ => Iff.rfl) (B' := fun β ρ => β r = eval V1.mem ρ (.ref m.s.h))
        (fun _ _ _ _ => eq_comm)).trans t2 (Nat.le_refl _), rfl, rfl, fun _ h1 _ _ b hb => ?_⟩
      simp only [setReg, if_true] at hb
      have := v2 b hb
      have e1 := t1.lssa
      omega
  | .var v, r, g, m, res, hs, hi, hr, ha, _, h => by
    have ha := ha v rfl
    cases r with
    | arg j => exact loadVar_run hi hs hr.info h
    | _ => cases ha
  | .atm i, r, g, m, res, _, hi, hr, _, _, h =>
    loadCst_ok hi hr (w := .atm i) trivial (fun b h => by cases h) (fun _ => rfl) (exec_one h)
  | .nil, r, g, m, res, _, hi, hr, _, _, h =>
    loadCst_ok hi hr (w := .atm 256) trivial (fun b h => by cases h) (fun _ => rfl) (exec_one h)
  | .int z, r, g, m, res, _, hi, hr, _, _, h =>
    loadCst_ok hi hr (w := .int z) trivial (fun b h => by cases h) (fun _ => rfl) (exec_one h)
  | .flt b, r, g, m, res, hs, hi, hr, _, _, h => loadFlt_ok hi hr hs (exec_one h)
  | .stc f as, r, g, m, res, hs, hi, hr, _, hx0, h => by
    rw [genLoad_stc] at h ⊢
    simp only at h ⊢
    have hle := flatList_le O as g.tmp
    have hpos : 0 < as.length := by
      have := hs.1
      cases as with
      | nil => exact absurd rfl this
      | cons _ _ => simp
    have hsb := flat_srcB O as g.tmp hs.2
    have htm := genLoadAux_tmp O as g.tmp { g with tmp := (flatList O as g.tmp).2 }
    have htm : (flatList O as g.tmp).2 ≤ (genLoadAux O as g.tmp { g with tmp := (flatList O as g.tmp).2 }).2.2.tmp := htm
    have t0 := flat_tr (O := O) (r := r) (f := f) hi hs.2 hr.tmp
    rw [exec_append] at h
    cases hx : exec E (genLoadAux O as g.tmp { g with tmp := (flatList O as g.tmp).2 }).1 m with
    | none => rw [hx] at h; cases h
    | some o =>
      rw [hx] at h
      obtain ⟨m1, r1, t1, e1, e2⟩ := loadAux_ok O E as g.tmp { g with tmp := (flatList O as g.tmp).2 } m o hs.2 t0.inv (Nat.le_refl _)
        (fun j hj _ => hi.tmp j hj) hx
      subst r1
      simp only at h
      have t1 := t1.frame (F := fun β _ => ∃ ts, ts.length = as.length ∧ DenList β (flatList O as g.tmp).1 ts ∧ β r = mk f ts)
        (fun _ _ β β' _ hb => by
          rw [hb r (fun j hj => Nat.lt_of_lt_of_le (hr.tmp j hj) hle)]
          constructor
          · rintro ⟨ts, k1, k2, k3⟩; exact ⟨ts, k1, (denListB_congr hb _ hsb ts).mp k2, k3⟩
          · rintro ⟨ts, k1, k2, k3⟩; exact ⟨ts, k1, (denListB_congr hb _ hsb ts).mpr k2, k3⟩)
      have hr1 : (genLoadAux O as g.tmp { g with tmp := (flatList O as g.tmp).2 }).2.2.info r = none := by
        cases r with
        | tmp j => rw [genLoadAux_other O as g.tmp _ hs.2 (hr.tmp j rfl) (Nat.le_refl _)]; exact hr.info
        | arg j => rw [loadAux_arg O j as g.tmp _ hs.2]; exact hr.info
        | x n => rw [loadAux_nocc O n as g.tmp _ (hx0 n rfl)]; exact hr.info
        | y n => have := hr.y; cases this
      have hlen := flatList_length O as g.tmp
      have hsb' := srcListB_mono htm _ hsb
      rcases exec_cons h with ⟨h1, _⟩ | ⟨m2, h1, h2⟩
      · exfalso
        revert h1
        by_cases hb : isList f as.length = true
        · rw [if_pos hb]; simp only [step]; split <;> intro h <;> cases h
        · rw [if_neg hb]; simp only [step]; split
          · split <;> intro h <;> cases h
          · intro h; cases h
      · obtain ⟨V2, q, cu, hS, e3, e4, hnr, t2⟩ := putCon_ok (c := (genLoadAux O as g.tmp { g with tmp := (flatList O as g.tmp).2 }).2.2.tmp)
          (by rw [e1]; exact t1.inv) hpos hr.y hr1 (fun j hj => Nat.lt_of_lt_of_le (hr.tmp j hj) (Nat.le_trans hle htm))
          (D := fun β ts => DenList β (flatList O as g.tmp).1 ts) (fun β β' ts hb => denListB_congr hb _ hsb' ts) h1
        obtain ⟨m3, hm3⟩ := exec_write _ m2 res hS (sub_unify O as g.tmp 0 _) h2
        subst hm3
        rw [← hlen] at cu t2
        have hff := flat_flat O as g.tmp (genLoadAux O as g.tmp { g with tmp := (flatList O as g.tmp).2 }).2.2.tmp
        have hsub := sub_ok O E (flatList O as g.tmp).1 (genLoadAux O as g.tmp { g with tmp := (flatList O as g.tmp).2 }).2.2.tmp 0
          _ m2 V2 q (some m3) hsb' (by rw [e3]; exact t2.inv) (by rw [Nat.zero_add]; exact cu) (fun j hj => t2.inv.tmp j hj)
          (by rw [hff]; exact Nat.le_refl _) (by rw [hff]; exact h2)
        rw [hff] at hsub
        obtain ⟨t3, e5, e6⟩ := hsub
        rw [e3, e1] at t3
        rw [e1] at t2
        refine ⟨m3, rfl, ?_, by rw [e5, e3, e1], by rw [e6, e4, e2], fun _ _ _ _ b hb => ?_⟩
        · have t3 := t3.conseq (fun _ _ _ _ => Iff.rfl) (B' := fun _ _ => True) (fun ρ β _ _ => by
            simp only [iff_true]; exact aux_flat O β as g.tmp _)
          have t1 := t1.conseq (fun _ _ _ _ => Iff.rfl) (B' := fun β _ => ∃ ts, ts.length = (flatList O as g.tmp).1.length ∧
            DenList β (flatList O as g.tmp).1 ts ∧ β r = mk f ts) (fun ρ β _ _ => by rw [true_and, hlen])
          exact t0.trans (t1.trans (t2.trans t3 (Nat.le_refl _)) htm) hle
        · rw [t3.regs r (by rw [setInfo_same]; simp)] at hb
          exact absurd hb (hnr b)
/-- The auxiliary arguments. -/
theorem loadAux_ok (O : Opts) (E : Env) : (l : List Arg) → (k : Nat) → (g : G) → (m : M) → (res : Option M) → SrcList nY l →
    Inv N nY m.e m.s m.X g → (flatList O l k).2 ≤ g.tmp →
    (∀ j, k ≤ j → j < (flatList O l k).2 → g.info (.tmp j) = none) → exec E (genLoadAux O l k g).1 m = some res →
    ∃ m' : M, res = some m' ∧ Tr N nY m.e g.tmp m.s m.X g m'.s m'.X (genLoadAux O l k g).2.2 (fun β _ => Aux O β l k) (fun _ _ => True) ∧
      m'.e = m.e ∧ m'.ee = m.ee
  | [], k, g, m, res, _, hi, _, _, h => by
    simp only [genLoadAux, genLoad.genLoadAux, exec, Option.some.injEq] at h
    exact ⟨m, h.symm, (Tr.refl hi (A := fun _ _ => True)).conseq (fun _ _ _ _ => by simp [Aux]) (fun _ _ _ _ => Iff.rfl), rfl, rfl⟩
  | .void :: l, k, g, m, res, hs, hi, ht, hk, h => by
    obtain ⟨m', h1, h2, h3⟩ := loadAux_ok O E l k g m res hs.2 hi ht hk h
    exact ⟨m', h1, h2.conseq (fun _ _ _ _ => by rw [Aux]) (fun _ _ _ _ => Iff.rfl), h3⟩
  | .var _ :: l, k, g, m, res, hs, hi, ht, hk, h => by
    obtain ⟨m', h1, h2, h3⟩ := loadAux_ok O E l k g m res hs.2 hi ht hk h
    exact ⟨m', h1, h2.conseq (fun _ _ _ _ => by rw [Aux]) (fun _ _ _ _ => Iff.rfl), h3⟩
  | .atm _ :: l, k, g, m, res, hs, hi, ht, hk, h => by
    obtain ⟨m', h1, h2, h3⟩ := loadAux_ok O E l k g m res hs.2 hi ht hk h
    exact ⟨m', h1, h2.conseq (fun _ _ _ _ => by rw [Aux]) (fun _ _ _ _ => Iff.rfl), h3⟩
  | .int _ :: l, k, g, m, res, hs, hi, ht, hk, h => by
    obtain ⟨m', h1, h2, h3⟩ := loadAux_ok O E l k g m res hs.2 hi ht hk h
    exact ⟨m', h1, h2.conseq (fun _ _ _ _ => by rw [Aux]) (fun _ _ _ _ => Iff.rfl), h3⟩
  | .nil :: l, k, g, m, res, hs, hi, ht, hk, h => by
    obtain ⟨m', h1, h2, h3⟩ := loadAux_ok O E l k g m res hs.2 hi ht hk h
    exact ⟨m', h1, h2.conseq (fun _ _ _ _ => by rw [Aux]) (fun _ _ _ _ => Iff.rfl), h3⟩
  | .flt b :: l, k, g, m, res, hs, hi, ht, hk, h => by
    have hle : k + 1 ≤ (flatList O l (k + 1)).2 := flatList_le O l (k + 1)
    have ht' : (flatList O l (k + 1)).2 ≤ g.tmp := ht
    have hd : Dest g (.tmp k) := ⟨rfl, hk k (Nat.le_refl _) hle, fun j hj => by cases hj; omega⟩
    rcases exec_cons h with ⟨h1, _⟩ | ⟨m1, h1, h2⟩
    · obtain ⟨_, h3, _⟩ := loadFlt_ok (O := O) hi hd hs.1 h1; cases h3
    · obtain ⟨_, h3, t1, e1, e2, _⟩ := loadFlt_ok (O := O) hi hd hs.1 h1
      cases h3
      have t1 := t1.frame (F := fun β _ => Aux O β l (k + 1)) (fun _ _ _ _ _ hb => aux_inv O l (k + 1) hs.2 ht' hb)
      obtain ⟨m', r2, t2, e3, e4⟩ := loadAux_ok O E l (k + 1) (g.setInfo (.tmp k) .inHeap) m1 res hs.2 (by rw [e1]; exact t1.inv) ht'
        (fun j k1 k2 => by rw [setInfo_other _ (fun h => by cases h; omega)]; exact hk j (by omega) k2) h2
      rw [e1] at t2
      refine ⟨m', r2, (t1.conseq (fun ρ β _ _ => ?_) (B' := fun β _ => Aux O β l (k + 1)) (fun _ _ _ _ => by simp)).trans t2 (Nat.le_refl _),
        by rw [e3, e1], by rw [e4, e2]⟩
      rw [Aux]
  | .stc f as :: l, k, g, m, res, hs, hi, ht, hk, h => by
    by_cases hlast : (l.isEmpty && O.lastSubterm) = true
    · have hl := last_nil hlast
      subst hl
      rw [flat_last hlast] at ht hk
      rw [genLoadAux_last hlast] at h ⊢
      obtain ⟨m', h1, h2, h3⟩ := loadAux_ok O E as k g m res hs.1.2 hi ht hk h
      exact ⟨m', h1, h2.conseq (fun _ _ _ _ => by rw [Aux, if_pos hlast]) (fun _ _ _ _ => Iff.rfl), h3⟩
    · have hle : k + 1 ≤ (flatList O l (k + 1)).2 := flatList_le O l (k + 1)
      rw [flat_not_last hlast] at ht hk
      have ht' : (flatList O l (k + 1)).2 ≤ g.tmp := ht
      have hk' : ∀ j, k ≤ j → j < (flatList O l (k + 1)).2 → g.info (.tmp j) = none := hk
      rw [genLoadAux_stc hlast] at h ⊢
      simp only at h ⊢
      have htm := genLoad_tmp O (.stc f as) (.tmp k) g
      have hd : Dest g (.tmp k) := ⟨rfl, hk' k (Nat.le_refl _) hle, fun j hj => by cases hj; omega⟩
      rw [exec_append] at h
      cases hx : exec E (genLoad O (.stc f as) (.tmp k) g).1 m with
      | none => rw [hx] at h; cases h
      | some o =>
        rw [hx] at h
        obtain ⟨m1, r1, t1, e1, e2, _⟩ := load_ok O E (.stc f as) (.tmp k) g m o hs.1 hi hd (fun v h => by cases h) (fun n h => by cases h) hx
        subst r1
        simp only at h
        have t1 := t1.frame (F := fun β _ => Aux O β l (k + 1)) (fun _ _ _ _ _ hb => aux_inv O l (k + 1) hs.2 ht' hb)
        obtain ⟨m', r2, t2, e3, e4⟩ := loadAux_ok O E l (k + 1) (genLoad O (.stc f as) (.tmp k) g).2 m1 res hs.2 (by rw [e1]; exact t1.inv)
          (Nat.le_trans ht' htm)
          (fun j k1 k2 => by
            rw [genLoad_other O (.stc f as) (.tmp k) g hs.1 (by omega) (fun h => by cases h; omega)]
            exact hk' j (by omega) k2) h
        rw [e1] at t2
        refine ⟨m', r2, (t1.conseq (fun ρ β _ _ => ?_) (B' := fun β _ => Aux O β l (k + 1)) (fun _ _ _ _ => by simp)).trans t2 htm,
          by rw [e3, e1], by rw [e4, e2]⟩
        rw [Aux, if_neg hlast]
end

end Gp.CodeGen
