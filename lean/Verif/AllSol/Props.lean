import Verif.AllSol.Exec
/-
Property C21: findall/3 and findall/4.
-/
namespace Gp.AllSol
open Gp.Heap Gp.CopyTerm

/-! ## A stored solution for the examples -/

def exC : Cfg := ⟨1000, 4, 0⟩

theorem exVars (K : List Adr) (hK : K.Nodup) (h : ∀ a ∈ K, a ∈ exT.vars) : K.length ≤ 1000 := by
  refine Nat.le_trans (nodup_len (l := exT.vars) hK h) ?_
  simp [exT, exG, CT.vars, List.range_succ]

/-- A solution is stored if it has not too many variables (MAX_VAR_IN_TERM); only the new block and the static `fix` are
written. -/
theorem C21_store {c : Cfg} {n : Nat} {s : S} {fix blk : Adr} {w : Cell} {t : CT}
    (h3 : Out' blk (blk + t.size c.vs) fix)
    (h5 : Rd c.vs (fun x => x ≠ fix ∧ Out' blk (blk + t.size c.vs) x) s.mem w t) (hn : t.size c.vs < n)
    (hv : ∀ K : List Adr, K.Nodup → (∀ a ∈ K, a ∈ t.vars) → K.length ≤ c.maxVars) :
    ∃ s1, storeSolution c n s fix blk w = .ok s1 ∧ s1.h = s.h ∧ s1.sols = ⟨blk, topNo s.sols + 1, t.size c.vs⟩ :: s.sols ∧
      (∀ x, x ≠ fix → Out' blk (blk + t.size c.vs) x → s1.mem x = s.mem x) := by
  have hset : ∀ x, x ≠ fix → s.mem.set fix w x = s.mem x := fun x hx => by simp [Mem.set, hx]
  have hr : Rd c.vs (Out' blk (blk + t.size c.vs)) (s.mem.set fix w) (s.mem.set fix w fix) t := by
    rw [show s.mem.set fix w fix = w by simp [Mem.set]]
    exact h5.mono (fun _ h => h.2) (fun x h => hset x h.1)
  obtain ⟨cs, t', k1, _, _, _, _, _, _, k, _⟩ := C16_copy_term (n := n) hr h3 (by omega) hv
  refine ⟨⟨cs.mem, s.h, ⟨blk, topNo s.sols + 1, t.size c.vs⟩ :: s.sols⟩, ?_, rfl, rfl, ?_⟩
  · rw [storeSolution, termSize_spec h5 n (by omega)]; simp only [k1]
  intro x h1 h2
  dsimp only
  rw [k x h2, hset x h1]

/-- The term `exT` of the memory `exM` is stored in a block at `blk`. -/
theorem exStore {s : S} (hm : ∀ x, x < 40 → s.mem x = exM x) {blk : Adr} (hb : 1000 ≤ blk) :
    ∃ s1, storeSolution exC 30 s 900 blk (exM 0) = .ok s1 ∧ s1.h = s.h ∧
      s1.sols = ⟨blk, topNo s.sols + 1, 26⟩ :: s.sols ∧ (∀ x, x < 40 → s1.mem x = exM x) ∧
      Out' blk (blk + exT.size 4) 900 ∧
      Rd 4 (fun x => x ≠ 900 ∧ Out' blk (blk + exT.size 4) x) s.mem (exM 0) exT := by
  have hsz := exT_size 4
  have hout : ∀ x, x < 1000 → Out' blk (blk + exT.size 4) x := by intro x hx h; have := h.1; omega
  have hrd : Rd 4 (fun x => x ≠ 900 ∧ Out' blk (blk + exT.size 4) x) s.mem (exM 0) exT :=
    (exRd 4 (fun x => x < 40) (fun _ h => h)).mono (fun x hx => ⟨by omega, hout x (by omega)⟩) hm
  obtain ⟨s1, k1, k2, k3, k4⟩ := C21_store (c := exC) (n := 30) (s := s) (fix := 900) (blk := blk) (hout 900 (by omega)) hrd
    (by show exT.size 4 < 30; omega) exVars
  refine ⟨s1, k1, k2, ?_, ?_, hout 900 (by omega), hrd⟩
  · rw [k3, show exT.size exC.vs = 26 from hsz]
  · intro x hx; rw [k4 x (by omega) (hout x (by omega)), hm x hx]

/-! ## C21 -/

/-- findall/3 and findall/4: the goal is executed from the state `s` (the stack holds the solutions `ts0` of the enclosing
findall's), its solutions are `spec` (in this order); the goal may execute nested findall's, at any depth, and anything
else, but no exception leaves an inner findall and is caught by the goal. Then the word unified with the result is the list
of variants of the solutions, in their order, followed by the tail; they are new terms without common variable, and the
stack is again as it was.
Missing for the full property: executions where an exception leaves an inner findall, for which it is false
(`C21_findall_exception`); the limit of the heap. -/
theorem C21_findall_partial {c : Cfg} {n : Nat} {lim : Adr} {s s' : S} {ts0 spec all : List CT} {tail : Cell} {tl : CT}
    {okT : Adr → Prop} (hH : Holds c.vs lim s.mem s.sols ts0) (he : Exec c n lim False s spec all s')
    (hl : s'.h + 2 * spec.length + sizes c.vs spec ≤ lim) (hf : ∀ a, tail ≠ .fdv a) (ht : Rd c.vs okT s'.mem tail tl)
    (hok : ∀ x, okT x → ¬ Seg s'.h (s'.h + 2 * spec.length + sizes c.vs spec) x) :
    ∃ s2 w us, recover c n s' (stopMark s) tail = some (s2, w) ∧
      All2 Variant spec us ∧ Rd c.vs (fun x => Seg s'.h s2.h x ∨ okT x) s2.mem w (listOf us tl) ∧
      Apart us ∧ (∀ u ∈ us, ∀ a ∈ u.vars, Seg s'.h s2.h a) ∧
      s2.sols = s.sols ∧ Holds c.vs lim s2.mem s2.sols ts0 ∧ (∀ x, ¬ Seg s'.h s2.h x → s2.mem x = s'.mem x) := by
  have := exec_noabort he
  subst this
  obtain ⟨i1, i2, i3⟩ := exec_holds he hH
  obtain ⟨s2, w, us, j1, j2, j3, j4, j5, j6, j7, j8, j9⟩ := recover_spec all i1 i2 hl hf ht hok
  refine ⟨s2, w, us, ?_, j2, j3, j4, j5, ?_, j8, j9⟩
  · rw [stopMark, hH.top, hH.len]; exact j1
  · rw [j7, i3]

/-- Two solutions, with a nested findall of one solution between them. -/
theorem exExec : ∃ s', Exec exC 30 1000 False ⟨exM, 100, []⟩ [exT, exT] [exT, exT] s' ∧ s'.h = 128 ∧
    (∀ x, x < 40 → s'.mem x = exM x) := by
  have hsz := exT_size 4
  obtain ⟨s1, a1, a2, a3, a4, a5, a6⟩ := exStore (s := ⟨exM, 100, []⟩) (fun _ _ => rfl) (blk := 1000) (by omega)
  obtain ⟨s2, b1, b2, b3, b4, b5, b6⟩ := exStore a4 (blk := 2000) (by omega)
  have hd1 : ∀ blk', 1026 ≤ blk' → ∀ b ∈ s1.sols, Disj ⟨blk', 0, exT.size 4⟩ b := by
    intro blk' hb b hb'
    rw [a3] at hb'
    simp only [List.mem_singleton] at hb'
    subst hb'
    exact .inr (by omega)
  have hx1 : ∀ b ∈ s1.sols, ¬ b.Has 900 := by
    intro b hb
    rw [a3] at hb
    simp only [List.mem_singleton] at hb
    subst hb
    intro h
    have := h.1
    dsimp only at this
    omega
  -- the inner findall
  have e1 : Exec exC 30 1000 False s1 [exT] [exT] s2 :=
    .store (c := exC) (by omega) (hd1 2000 (by omega)) b5 hx1 b6 (by show exT.size 4 < 30; omega) b1 (.nil _)
  have H1 : Holds 4 1000 s1.mem s1.sols [exT] :=
    (store_spec (c := exC) (s := ⟨exM, 100, []⟩) (ts := []) trivial (Nat.le_refl _) (by simp) a5 (by simp) a6
      (by show exT.size 4 < 30; omega) a1).1
  obtain ⟨H2, _, _⟩ := exec_holds e1 H1
  obtain ⟨s3, w, us, j1, j2, j3, j4, j5, j6, j7, j8, j9⟩ := recover_spec (c := exC) (n := 30) (lim := 1000) (tail := .atm 0) (tl := .atm 0)
    (okT := fun _ => False) [exT] H2 (by intro t ht; simp only [List.mem_singleton] at ht; subst ht; show exT.size 4 < 30; omega)
    (by
      rw [b2, a2]
      simp only [sizes, List.length_singleton, List.map_cons, List.map_nil, List.sum_cons, List.sum_nil]
      have : exT.size exC.vs = 26 := hsz
      omega)
    (by simp) .atm (fun _ h => h.elim)
  have hs3 : s3.sols = s1.sols := by rw [j7, b3]; rfl
  have hh3 : s3.h = 128 := by
    rw [j6, b2, a2]
    simp only [sizes, List.length_singleton, List.map_cons, List.map_nil, List.sum_cons, List.sum_nil]
    have : exT.size exC.vs = 26 := hsz
    omega
  have hm3 : ∀ x, x < 40 → s3.mem x = exM x := by
    intro x hx
    rw [j9 x (by intro h; have := h.1; rw [b2, a2] at this; dsimp only at this; omega), b4 x hx]
  obtain ⟨s4, d1, d2, d3, d4, d5, d6⟩ := exStore hm3 (blk := 3000) (by omega)
  refine ⟨s4, ?_, by rw [d2, hh3], d4⟩
  refine .store (c := exC) (Nat.le_refl _) (by simp) a5 (by simp) a6 (by show exT.size 4 < 30; omega) a1 ?_
  refine .nested (c := exC) e1 ?_ (tail := .atm 0) (w := w) (s2 := s3) ?_ ?_
  · rw [b2, a2]
    simp only [sizes, List.length_singleton, List.map_cons, List.map_nil, List.sum_cons, List.sum_nil]
    have : exT.size exC.vs = 26 := hsz
    omega
  · rw [show stopMark s1 = [exT].length by rw [stopMark, a3]; rfl]; exact j1
  · exact .store (c := exC) (by omega) (by rw [hs3]; exact hd1 3000 (by omega)) d5 (by rw [hs3]; exact hx1) d6
      (by show exT.size 4 < 30; omega) d1 (.nil _)

/-- The hypotheses of `C21_findall_partial` are satisfied by this execution (the tail is the atom 0). -/
example : ∃ s' s2 w us, Exec exC 30 1000 False ⟨exM, 100, []⟩ [exT, exT] [exT, exT] s' ∧
    recover exC 30 s' 0 (.atm 0) = some (s2, w) ∧ All2 Variant [exT, exT] us ∧
    Rd 4 (fun x => Seg 128 s2.h x ∨ False) s2.mem w (listOf us (.atm 0)) := by
  obtain ⟨s', h1, h2, _⟩ := exExec
  obtain ⟨s2, w, us, k1, k2, k3, _⟩ := C21_findall_partial (c := exC) (s := ⟨exM, 100, []⟩) (ts0 := []) (tail := .atm 0) (tl := .atm 0) (okT := fun _ => False)
    trivial h1
    (by
      rw [h2]
      simp only [sizes, List.length_cons, List.length_nil, List.map_cons, List.map_nil, List.sum_cons, List.sum_nil]
      have : exT.size exC.vs = 26 := exT_size 4
      omega)
    (by simp) .atm (fun _ h => h.elim)
  rw [h2] at k3
  exact ⟨s', s2, w, us, h1, k1, k2, k3⟩

/-- Disagreement: with exceptions which leave inner findall's and are caught by the goal, the result holds the solutions
`all`, i.e. also those already found by these inner findall's (they are still on the stack). -/
theorem C21_findall_exception {c : Cfg} {n : Nat} {lim : Adr} {s s' : S} {ts0 spec all : List CT} {tail : Cell} {tl : CT}
    {okT : Adr → Prop} (hH : Holds c.vs lim s.mem s.sols ts0) (he : Exec c n lim True s spec all s')
    (hl : s'.h + 2 * all.length + sizes c.vs all ≤ lim) (hf : ∀ a, tail ≠ .fdv a) (ht : Rd c.vs okT s'.mem tail tl)
    (hok : ∀ x, okT x → ¬ Seg s'.h (s'.h + 2 * all.length + sizes c.vs all) x) :
    spec.Sublist all ∧ ∃ s2 w us, recover c n s' (stopMark s) tail = some (s2, w) ∧
      All2 Variant all us ∧ Rd c.vs (fun x => Seg s'.h s2.h x ∨ okT x) s2.mem w (listOf us tl) ∧ s2.sols = s.sols := by
  obtain ⟨i1, i2, i3⟩ := exec_holds he hH
  obtain ⟨s2, w, us, j1, j2, j3, j4, j5, j6, j7, j8, j9⟩ := recover_spec all i1 i2 hl hf ht hok
  refine ⟨exec_sub he, s2, w, us, ?_, j2, j3, ?_⟩
  · rw [stopMark, hH.top, hH.len]; exact j1
  · rw [j7, i3]

/-- `findall(X, catch(findall(Y, (Y = f(..) ; throw(a)), _), a, fail), L)`: the goal has no solution but the list has the
solution of the aborted inner findall. -/
theorem C21_findall_exception_witness : ∃ s' s2 w u, Exec exC 30 1000 True ⟨exM, 100, []⟩ [] [exT] s' ∧
    recover exC 30 s' 0 (.atm 0) = some (s2, w) ∧ Variant exT u ∧
    Rd 4 (fun x => Seg 100 s2.h x ∨ False) s2.mem w (.lst u (.atm 0)) := by
  have hsz := exT_size 4
  obtain ⟨s1, a1, a2, a3, a4, a5, a6⟩ := exStore (s := ⟨exM, 100, []⟩) (fun _ _ => rfl) (blk := 1000) (by omega)
  have e1 : Exec exC 30 1000 True ⟨exM, 100, []⟩ [exT] [exT] s1 :=
    .store (c := exC) (Nat.le_refl _) (by simp) a5 (by simp) a6 (by show exT.size 4 < 30; omega) a1 (.nil _)
  have e2 : Exec exC 30 1000 True ⟨exM, 100, []⟩ [] ([exT] ++ []) s1 := .abort trivial e1 (.nil _)
  obtain ⟨_, s2, w, us, k1, k2, k3, _⟩ := C21_findall_exception (c := exC) (s := ⟨exM, 100, []⟩) (ts0 := []) (tail := .atm 0) (tl := .atm 0)
    (okT := fun _ => False) trivial e2
    (by
      rw [a2]
      simp only [sizes, List.append_nil, List.length_cons, List.length_nil, List.map_cons, List.map_nil, List.sum_cons,
        List.sum_nil]
      have : exT.size exC.vs = 26 := hsz
      omega)
    (by simp) .atm (fun _ h => h.elim)
  rw [List.append_nil] at k2 e2
  cases k2 with
  | cons h1 h2 =>
    cases h2
    rw [a2] at k3
    exact ⟨s1, s2, w, _, e2, k1, h1, k3⟩

end Gp.AllSol
