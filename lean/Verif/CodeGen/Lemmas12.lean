import Verif.CodeGen.Lemmas11
namespace Gp.CodeGen
open Gp.Heap Gp.Unify Gp.ListBip
open Gp.Term (isNaN fkey deq)

variable {N nY e c c' : Nat} {V V' V'' : St} {X X' X'' : Var → Cell} {g g' g'' : G}
  {A B C : (Var → T) → (Adr → T) → Prop} {E : Env} {O : Opts}

/-! ## Structures in write mode -/

/-- A register is given a new structure. -/
theorem openReg_tr (hi : Inv N nY e V X g) {V2 : St} {q n f : Nat} {w : Cell} {r : Var} (h12 : Prep N V V2 q n w f)
    (hr : r.isY = false) (hn : g.info r = none) (ht : ∀ j, r = .tmp j → j < g.tmp) {D : (Var → T) → List T → Prop}
    (hD : ∀ β β' ts, SameTo c β β' → (D β ts ↔ D β' ts)) :
    Tr N nY e c V X g V2 (setReg X r w) (g.setInfo r .inHeap) (fun β _ => ∃ ts, ts.length = n ∧ D β ts ∧ β r = mk f ts)
      (fun β ρ => D β (cells ρ q n)) := by
  have hi2 := h12.chg.inv hi
  have t1 : Tr N nY e c V X g V2 X g (fun β _ => ∃ ts, ts.length = n ∧ D β ts ∧ β r = mk f ts)
      (fun β ρ => β r = eval V2.mem ρ w ∧ D β (cells ρ q n)) :=
    { h12.chg.tr (c := c) hi with
      down := fun ρ hρ => by
        obtain ⟨m1, d1⟩ := (h12.chg.tr (c := c) hi).down ρ hρ
        exact ⟨m1, fun β hh hB => ⟨(d1 β hh trivial).1, _, cells_length _ _ _, hB.2, by rw [hB.1, h12.word]⟩⟩
      up := fun ρ β hρ hh => by
        rintro ⟨ts, hl, hDt, hrt⟩
        subst hl
        let ρ1 : Adr → T := fun a => if h : q ≤ a ∧ a < q + ts.length then ts[a - q]'(by omega) else ρ a
        have hc1 : cells ρ1 q ts.length = ts := cells_eq ts ρ q
        have ha1 : Agree V.mem ρ ρ1 := by
          intro a ha
          show (if h : q ≤ a ∧ a < q + ts.length then ts[a - q]'(by omega) else ρ a) = ρ a
          rw [dif_neg]
          rintro ⟨k1, k2⟩
          have := h12.free (a - q) (by omega)
          rw [show q + (a - q) = a by omega] at this
          rw [this] at ha; simp [isTerm] at ha
        have m1 := model_agree hi.ok.wf hρ ha1
        refine ⟨ρ1, β, h12.model ρ1 m1, ha1, SameTo.refl _, fun v hv => hh.up hi h12.chg.grow (fun _ _ => rfl) ha1 hv, ?_, ?_⟩
        · rw [h12.word, hc1, hrt]
        · rw [hc1]; exact hDt }
  have t2 := (reg_tr (c := c) hi2 (i := .inHeap) hr hn ht h12.valid (fun _ b hb => absurd hb (h12.nref b)) (fun h => by cases h)
    (fun h => by cases h)).frame (F := fun β ρ => D β (cells ρ q n)) (fun ρ ρ' β β' ha hb => by
      rw [cells_agree ha h12.term]; exact hD β β' _ hb)
  exact t1.trans (t2.conseq (fun _ _ _ _ => Iff.rfl) (fun _ _ _ _ => by simp)) (Nat.le_refl _)

/-- The new arguments are not referred to. -/
theorem prepReg_noref (hi : Inv N nY e V X g) {V2 : St} {q n f : Nat} {w : Cell} {r : Var} (h12 : Prep N V V2 q n w f) :
    NoRef N V2 (setReg X r w) (g.setInfo r .inHeap) q n where
  mem := h12.noref
  reg b k1 k2 v hv hk hb := by
    by_cases hvr : v = r
    · subst hvr; simp only [setReg, if_true] at hb; exact h12.nref b hb
    · rw [setInfo_other _ hvr] at hk
      simp only [setReg, hvr, if_false] at hb
      have := hi.word v hv hk
      rw [hb] at this
      have h2 := this.2
      have h3 := h12.free (b - q) (by omega)
      rw [show q + (b - q) = b by omega] at h3
      rw [h3] at h2; simp [isTerm] at h2

/-- put_list and put_structure. -/
theorem putCon_ok {m m1 : M} (hi : Inv N nY m.e m.s m.X g) {f n : Nat} {r : Var} (hpos : 0 < n)
    (hr : r.isY = false) (hn : g.info r = none) (ht : ∀ j, r = .tmp j → j < g.tmp) {D : (Var → T) → List T → Prop}
    (hD : ∀ β β' ts, SameTo c β β' → (D β ts ↔ D β' ts))
    (h : step E m (if isList f n then .putList r else .putStructure f n r) = some (some m1)) :
    ∃ V2 q, Cur N V2 m1 (g.setInfo r .inHeap) q n ∧ m1.S = none ∧ m1.e = m.e ∧ m1.ee = m.ee ∧ (∀ b, m1.X r ≠ .ref b) ∧
      Tr N nY m.e c m.s m.X g V2 m1.X (g.setInfo r .inHeap) (fun β _ => ∃ ts, ts.length = n ∧ D β ts ∧ β r = mk f ts)
        (fun β ρ => D β (cells ρ q n)) := by
  by_cases hb : isList f n = true
  · rw [if_pos hb] at h
    simp only [isList, Bool.and_eq_true, beq_iff_eq] at hb
    obtain ⟨rfl, rfl⟩ := hb
    simp only [step] at h
    by_cases hro : room m.s 2 = true
    · rw [if_pos hro] at h
      simp only [Option.some.injEq] at h
      subst h
      have hpr := prep_lst hi.ok (of_decide_eq_true hro)
      simp only [put_nonY hr]
      refine ⟨fill m.s 2, m.s.h, ⟨Or.inr ⟨rfl, rfl, rfl, prepReg_noref hi hpr⟩, fun i hi' => ?_⟩, trivial, trivial, trivial, ?_,
        openReg_tr hi hpr hr hn ht hD⟩
      · have e1 : (fill m.s 2).lssa = m.s.lssa := rfl
        have := hpr.lt
        exact ⟨by omega, hpr.term i hi'⟩
      · intro b hb; simp [setReg] at hb
    · rw [if_neg hro] at h; cases h
  · have hb' : isList f n = false := by simpa using hb
    rw [if_neg hb] at h
    simp only [step] at h
    by_cases hro : room m.s (n + 1) = true
    · rw [if_pos hro] at h
      cases hpu : push m.s (.fn f n) with
      | none => rw [hpu] at h; cases h
      | some V1 =>
        rw [hpu] at h
        simp only [Option.some.injEq] at h
        subst h
        have hpr := prep_stc hi.ok hpos (of_decide_eq_true hro) hb' hpu
        obtain ⟨p1, _, _, p4, _⟩ := pushRaw_chg hi.ok (w := .fn f n) rfl hpu
        simp only [put_nonY hr]
        refine ⟨fill V1 n, m.s.h + 1, ⟨Or.inr ⟨rfl, p4.symm, rfl, prepReg_noref hi hpr⟩, fun i hi' => ?_⟩, trivial, trivial, trivial, ?_,
          openReg_tr hi hpr hr hn ht hD⟩
        · have e1 : (fill V1 n).lssa = m.s.lssa := p1.lssa
          have := hpr.lt
          exact ⟨by omega, hpr.term i hi'⟩
        · intro b hb; simp [setReg] at hb
    · rw [if_neg hro] at h; cases h

/-! ## In write mode the unify instructions do not fail -/

def Ins.isUnify : Ins → Bool
  | .unifyVariable _ | .unifyVoid _ | .unifyValue _ | .unifyLocalValue _ | .unifyAtom _ | .unifyInteger _ | .unifyNil
  | .unifyList | .unifyStructure _ _ => true
  | _ => false

theorem step_write {m : M} {i : Ins} {r : Option M} (hS : m.S = none) (hi : i.isUnify = true) (h : step E m i = some r) :
    ∃ m', r = some m' ∧ m'.S = none := by
  have hret : ∀ {x : Option St} {r}, m.ret none (x.map some) = some r → ∃ m' : M, r = some m' ∧ m'.S = none := by
    intro x r h
    cases x with
    | none => cases h
    | some s => exact ⟨_, (Option.some.inj h).symm, rfl⟩
  cases i with
  | unifyVariable v =>
    simp only [step, hS, unifyVariable] at h
    split at h
    · cases h
    · rename_i s' S' w heq
      split at heq
      · cases heq
      · simp only [Option.some.injEq, Prod.mk.injEq] at heq
        obtain ⟨_, rfl, _⟩ := heq
        refine ⟨_, (Option.some.inj h).symm, ?_⟩
        cases v <;> rfl
  | unifyVoid n => simp only [step, hS] at h; exact hret h
  | unifyValue v => simp only [step, hS] at h; exact hret h
  | unifyLocalValue v => simp only [step, hS] at h; exact hret h
  | unifyAtom a => simp only [step, hS] at h; exact hret h
  | unifyInteger z => simp only [step, hS] at h; exact hret h
  | unifyNil => simp only [step, hS] at h; exact hret h
  | unifyList =>
    simp only [step, hS] at h
    split at h
    · exact hret h
    · cases h
  | unifyStructure f n =>
    simp only [step, hS] at h
    split at h
    · split at h
      · cases h
      · exact hret h
    · cases h
  | _ => cases hi

theorem exec_write : (l : List Ins) → (m : M) → (r : Option M) → m.S = none → (∀ i ∈ l, i.isUnify = true) →
    exec E l m = some r → ∃ m', r = some m'
  | [], m, r, _, _, h => ⟨m, (Option.some.inj h).symm⟩
  | i :: l, m, r, hS, hl, h => by
    rcases exec_cons h with ⟨h1, rfl⟩ | ⟨m1, h1, h2⟩
    · obtain ⟨_, h3, _⟩ := step_write hS (hl i List.mem_cons_self) h1; cases h3
    · obtain ⟨m1', h3, h4⟩ := step_write hS (hl i List.mem_cons_self) h1
      cases h3
      exact exec_write l m1 r h4 (fun j hj => hl j (List.mem_cons_of_mem _ hj)) h2

theorem voids_unify (n : Nat) : ∀ i ∈ voids n, i.isUnify = true := by
  intro i hi
  cases n with
  | zero => cases hi
  | succ n => simp only [voids, List.mem_singleton] at hi; subst hi; rfl

theorem genSubVar_unify (v : Var) (g : G) : (genSubVar v g).1.isUnify = true := by
  unfold genSubVar; split <;> rfl

theorem sub_unify (O : Opts) : (as : List Arg) → (k n : Nat) → (g : G) →
    ∀ i ∈ (genSubList n (flatList O as k).1 g).1, i.isUnify = true
  | [], k, n, g => voids_unify n
  | .void :: l, k, n, g => sub_unify O l k (n + 1) g
  | .atm a :: l, k, n, g => one n (.unifyAtom a) rfl (sub_unify O l k 0 g)
  | .int z :: l, k, n, g => one n (.unifyInteger z) rfl (sub_unify O l k 0 g)
  | .nil :: l, k, n, g => one n .unifyNil rfl (sub_unify O l k 0 g)
  | .var v :: l, k, n, g => one n _ (genSubVar_unify v g) (sub_unify O l k 0 (genSubVar v g).2)
  | .flt b :: l, k, n, g => one n _ (genSubVar_unify (.tmp k) g) (sub_unify O l (k + 1) 0 (genSubVar (.tmp k) g).2)
  | .stc f as' :: l, k, n, g => by
    by_cases hlast : (l.isEmpty && O.lastSubterm) = true
    · have hl := last_nil hlast
      subst hl
      rw [flat_last hlast]
      have := one n (if isList f (flatList O as' k).1.length then .unifyList else .unifyStructure f (flatList O as' k).1.length)
        (by split <;> rfl) (sub_unify O as' k 0 g)
      have e1 : (genSubList n [.stc f (flatList O as' k).1] g).1 = voids n ++ [if isList f (flatList O as' k).1.length
          then .unifyList else .unifyStructure f (flatList O as' k).1.length] ++ (genSubList 0 (flatList O as' k).1 g).1 := by
        show voids n ++ (_ :: _) ++ [] = _
        simp
      intro i hi
      rw [e1] at hi
      exact this i hi
    · rw [flat_not_last hlast]
      exact one n _ (genSubVar_unify (.tmp k) g) (sub_unify O l (k + 1) 0 (genSubVar (.tmp k) g).2)
termination_by as => sizeOf as
where
  one (n : Nat) (j : Ins) (hj : j.isUnify = true) {l : List Ins} (hl : ∀ i ∈ l, i.isUnify = true) :
      ∀ i ∈ voids n ++ [j] ++ l, i.isUnify = true := by
    intro i hi
    simp only [List.mem_append, List.mem_singleton] at hi
    rcases hi with (hi | hi) | hi
    · exact voids_unify n i hi
    · subst hi; exact hj
    · exact hl i hi

/-! ## The flattened arguments -/

theorem flat_isEmpty (O : Opts) (l : List Arg) (k : Nat) : (flatList O l k).1.isEmpty = l.isEmpty := by
  cases l <;> rfl

theorem flat_flat (O : Opts) : (as : List Arg) → (k k' : Nat) → flatList O (flatList O as k).1 k' = ((flatList O as k).1, k')
  | [], _, _ => rfl
  | .void :: l, k, k' => one .void (fun _ => rfl) (flat_flat O l k k')
  | .var v :: l, k, k' => one (.var v) (fun _ => rfl) (flat_flat O l k k')
  | .atm i :: l, k, k' => one (.atm i) (fun _ => rfl) (flat_flat O l k k')
  | .int z :: l, k, k' => one (.int z) (fun _ => rfl) (flat_flat O l k k')
  | .nil :: l, k, k' => one .nil (fun _ => rfl) (flat_flat O l k k')
  | .flt b :: l, k, k' => one (.var (.tmp k)) (fun _ => rfl) (flat_flat O l (k + 1) k')
  | .stc f as' :: l, k, k' => by
    by_cases hlast : (l.isEmpty && O.lastSubterm) = true
    · have hl := last_nil hlast
      subst hl
      rw [flat_last hlast]
      show flatList O [.stc f (flatList O as' k).1] k' = _
      rw [flat_last hlast, flat_flat O as' k k']
    · rw [flat_not_last hlast]
      exact one (.var (.tmp k)) (fun _ => rfl) (flat_flat O l (k + 1) k')
termination_by as => sizeOf as
where
  one {k' : Nat} (a : Arg) (ha : ∀ b, flatArg O b a k' = (a, k')) {l : List Arg} (h : flatList O l k' = (l, k')) :
      flatList O (a :: l) k' = (a :: l, k') := by
    show (_, _) = _
    rw [ha]
    show (a :: (flatList O l k').1, (flatList O l k').2) = _
    rw [h]

theorem aux_flat (O : Opts) (β : Var → T) : (as : List Arg) → (k k' : Nat) → Aux O β (flatList O as k).1 k'
  | [], _, _ => by show Aux O β [] _; rw [Aux]; trivial
  | .void :: l, k, k' => by show Aux O β (.void :: (flatList O l k).1) k'; rw [Aux]; exact aux_flat O β l k k'
  | .var v :: l, k, k' => by show Aux O β (.var v :: (flatList O l k).1) k'; rw [Aux]; exact aux_flat O β l k k'
  | .atm i :: l, k, k' => by show Aux O β (.atm i :: (flatList O l k).1) k'; rw [Aux]; exact aux_flat O β l k k'
  | .int z :: l, k, k' => by show Aux O β (.int z :: (flatList O l k).1) k'; rw [Aux]; exact aux_flat O β l k k'
  | .nil :: l, k, k' => by show Aux O β (.nil :: (flatList O l k).1) k'; rw [Aux]; exact aux_flat O β l k k'
  | .flt b :: l, k, k' => by
    show Aux O β (.var (.tmp k) :: (flatList O l (k + 1)).1) k'; rw [Aux]; exact aux_flat O β l (k + 1) k'
  | .stc f as' :: l, k, k' => by
    by_cases hlast : (l.isEmpty && O.lastSubterm) = true
    · have hl := last_nil hlast
      subst hl
      rw [flat_last hlast]
      show Aux O β [.stc f (flatList O as' k).1] k'
      rw [Aux, if_pos hlast]; exact aux_flat O β as' k k'
    · rw [flat_not_last hlast]
      show Aux O β (.var (.tmp k) :: (flatList O l (k + 1)).1) k'; rw [Aux]; exact aux_flat O β l (k + 1) k'
termination_by as => sizeOf as

theorem flat_srcB (O : Opts) : (as : List Arg) → (k : Nat) → SrcList nY as → SrcListB (flatList O as k).2 nY (flatList O as k).1
  | [], _, _ => trivial
  | .void :: l, k, h => ⟨trivial, flat_srcB O l k h.2⟩
  | .var v :: l, k, h => ⟨src_srcB _ h.1, flat_srcB O l k h.2⟩
  | .atm i :: l, k, h => ⟨trivial, flat_srcB O l k h.2⟩
  | .int z :: l, k, h => ⟨trivial, flat_srcB O l k h.2⟩
  | .nil :: l, k, h => ⟨trivial, flat_srcB O l k h.2⟩
  | .flt b :: l, k, h => ⟨flatList_le O l (k + 1), flat_srcB O l (k + 1) h.2⟩
  | .stc f as' :: l, k, h => by
    by_cases hlast : (l.isEmpty && O.lastSubterm) = true
    · have hl := last_nil hlast
      subst hl
      rw [flat_last hlast]
      refine ⟨⟨fun h1 => h.1.1 ?_, flat_srcB O as' k h.1.2⟩, trivial⟩
      have := flatList_length O as' k
      rw [h1] at this
      exact List.length_eq_zero_iff.mp this.symm
    · rw [flat_not_last hlast]
      exact ⟨flatList_le O l (k + 1), flat_srcB O l (k + 1) h.2⟩
termination_by as => sizeOf as

theorem flat_down (O : Opts) {β : Var → T} : (as : List Arg) → (k : Nat) → (ts : List T) →
    DenList β (flatList O as k).1 ts → Aux O β as k → DenList β as ts
  | [], _, _, h, _ => h
  | .void :: l, k, t :: ts, h, ha => ⟨h.1, flat_down O l k ts h.2 (by rw [Aux] at ha; exact ha)⟩
  | .var v :: l, k, t :: ts, h, ha => ⟨h.1, flat_down O l k ts h.2 (by rw [Aux] at ha; exact ha)⟩
  | .atm i :: l, k, t :: ts, h, ha => ⟨h.1, flat_down O l k ts h.2 (by rw [Aux] at ha; exact ha)⟩
  | .int z :: l, k, t :: ts, h, ha => ⟨h.1, flat_down O l k ts h.2 (by rw [Aux] at ha; exact ha)⟩
  | .nil :: l, k, t :: ts, h, ha => ⟨h.1, flat_down O l k ts h.2 (by rw [Aux] at ha; exact ha)⟩
  | .flt b :: l, k, t :: ts, h, ha => by
    rw [Aux] at ha
    have h1 : t = β (.tmp k) := h.1
    exact ⟨h1.trans ha.1, flat_down O l (k + 1) ts h.2 ha.2⟩
  | .stc f as' :: l, k, ts, h, ha => by
    rw [Aux] at ha
    by_cases hlast : (l.isEmpty && O.lastSubterm) = true
    · have hl := last_nil hlast
      subst hl
      rw [if_pos hlast] at ha
      rw [flat_last hlast] at h
      match ts, h with
      | t :: ts, h =>
        obtain ⟨us, h1, h2⟩ := h.1
        exact ⟨⟨us, flat_down O as' k us h1 ha, h2⟩, h.2⟩
    · rw [if_neg hlast] at ha
      rw [flat_not_last hlast] at h
      match ts, h with
      | t :: ts, h =>
        have h1 : t = β (.tmp k) := h.1
        exact ⟨by rw [h1]; exact ha.1, flat_down O l (k + 1) ts h.2 ha.2⟩
termination_by as => sizeOf as

theorem flat_up (O : Opts) : (as : List Arg) → (k : Nat) → (ts : List T) → SrcList nY as → (β : Var → T) →
    DenList β as ts → ∃ β', SameTo k β β' ∧ DenList β' (flatList O as k).1 ts ∧ Aux O β' as k
  | [], k, ts, _, β, h => ⟨β, SameTo.refl _, h, by rw [Aux]; trivial⟩
  | .void :: l, k, t :: ts, hs, β, h => by
    obtain ⟨β', h1, h2, h3⟩ := flat_up O l k ts hs.2 β h.2
    exact ⟨β', h1, ⟨trivial, h2⟩, by rw [Aux]; exact h3⟩
  | .var v :: l, k, t :: ts, hs, β, h => by
    obtain ⟨β', h1, h2, h3⟩ := flat_up O l k ts hs.2 β h.2
    exact ⟨β', h1, ⟨(den_congr h1 _ hs.1 t).mp h.1, h2⟩, by rw [Aux]; exact h3⟩
  | .atm i :: l, k, t :: ts, hs, β, h => by
    obtain ⟨β', h1, h2, h3⟩ := flat_up O l k ts hs.2 β h.2
    exact ⟨β', h1, ⟨h.1, h2⟩, by rw [Aux]; exact h3⟩
  | .int z :: l, k, t :: ts, hs, β, h => by
    obtain ⟨β', h1, h2, h3⟩ := flat_up O l k ts hs.2 β h.2
    exact ⟨β', h1, ⟨h.1, h2⟩, by rw [Aux]; exact h3⟩
  | .nil :: l, k, t :: ts, hs, β, h => by
    obtain ⟨β', h1, h2, h3⟩ := flat_up O l k ts hs.2 β h.2
    exact ⟨β', h1, ⟨h.1, h2⟩, by rw [Aux]; exact h3⟩
  | .flt b :: l, k, t :: ts, hs, β, h => by
    have h1 := upd_same β k t
    obtain ⟨β', h2, h3, h4⟩ := flat_up O l (k + 1) ts hs.2 _ ((denList_congr h1 l hs.2 ts).mp h.2)
    have h5 := (h2 (.tmp k) (fun n hn => by cases hn; omega)).trans (upd_eq β k t)
    exact ⟨β', h1.trans h2 (by omega), ⟨h5.symm, h3⟩, by rw [Aux, h5]; exact ⟨h.1, h4⟩⟩
  | .stc f as' :: l, k, t :: ts, hs, β, h => by
    by_cases hlast : (l.isEmpty && O.lastSubterm) = true
    · have hl := last_nil hlast
      subst hl
      rw [flat_last hlast]
      obtain ⟨us, h1, h2⟩ := h.1
      obtain ⟨β', h3, h4, h5⟩ := flat_up O as' k us hs.1.2 β h1
      exact ⟨β', h3, ⟨⟨us, h4, h2⟩, by have := h.2; cases ts <;> exact this⟩, by rw [Aux, if_pos hlast]; exact h5⟩
    · rw [flat_not_last hlast]
      have h1 := upd_same β k t
      obtain ⟨β', h2, h3, h4⟩ := flat_up O l (k + 1) ts hs.2 _ ((denList_congr h1 l hs.2 ts).mp h.2)
      have h5 := (h2 (.tmp k) (fun n hn => by cases hn; omega)).trans (upd_eq β k t)
      refine ⟨β', h1.trans h2 (by omega), ⟨h5.symm, h3⟩, ?_⟩
      rw [Aux, if_neg hlast, h5]
      exact ⟨(den_congr (h1.trans h2 (by omega)) _ hs.1 t).mp h.1, h4⟩
termination_by as => sizeOf as
where
  upd_same (β : Var → T) (k : Nat) (t : T) : SameTo k β (fun v => if v = .tmp k then t else β v) := by
    intro v hv
    show (if v = .tmp k then t else β v) = β v
    rw [if_neg]; intro h; exact Nat.lt_irrefl _ (hv k h)
  upd_eq (β : Var → T) (k : Nat) (t : T) : (fun v => if v = .tmp k then t else β v) (.tmp k) = t := if_pos rfl

/-- The auxiliary temporaries are given values. -/
theorem flat_tr (hi : Inv N nY e V X g) {as : List Arg} {r : Var} {f : Nat} (hs : SrcList nY as) (hr : ∀ j, r = .tmp j → j < g.tmp) :
    Tr N nY e g.tmp V X g V X { g with tmp := (flatList O as g.tmp).2 } (fun β _ => Den β (.stc f as) (β r))
      (fun β _ => Aux O β as g.tmp ∧ ∃ ts, ts.length = as.length ∧ DenList β (flatList O as g.tmp).1 ts ∧ β r = mk f ts) := by
  refine { Tr.setTmp (k := (flatList O as g.tmp).2) (Tr.refl (c := g.tmp) (A := fun _ _ => True) hi) (flatList_le O as g.tmp) with down := ?_, up := ?_ }
  · intro ρ hρ
    refine ⟨hρ, fun β hh hB => ⟨hh, ?_⟩⟩
    obtain ⟨h1, ts, _, h2, h3⟩ := hB
    exact ⟨ts, flat_down O as g.tmp ts h2 h1, h3⟩
  · rintro ρ β hρ hh ⟨ts, h1, h2⟩
    obtain ⟨β', h3, h4, h5⟩ := flat_up O as g.tmp ts hs β h1
    refine ⟨ρ, β', hρ, Agree.refl _ _, h3, fun v hv => ?_, h5, ts, denList_length h1, h4, ?_⟩
    · rw [h3 v (fun n hn => by subst hn; exact known_lt hi hv)]; exact hh v hv
    · rw [h3 r hr]; exact h2

end Gp.CodeGen
