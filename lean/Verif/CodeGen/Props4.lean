import Verif.CodeGen.Lemmas22
import Verif.CodeGen.Props2
/-
C53. The unifications =/2 in the body of a clause, which are compiled inline.

In the theorems `head` are the arguments of the head, `goals` the first chunks (unifications, then a call), `leqs`
the unifications of the next chunk and `last` the arguments of its call; `m` is the machine at the beginning of the
code of the clause, `m'` and `g'` the machine and the code generator at the end of the first chunks, `m1` and `g1`
after the unifications `leqs`, `m''` the machine after the loading of the arguments `last`. `lp` is true when this chunk
is the last one of the clause.

The theorems are partial: they do not cover the code of
* New = Old, where New is a temporary without any occurrence before and Old a variable which may be in the local
  stack: here the code is wrong, see `C53_new_variable_dangling`;
* New1 = New2, two temporaries without any occurrence before (the compiler makes one variable of them);
* Y = New, where Y is a permanent variable and New a temporary without any occurrence before.
These are the cases in which the third component of `genEqs` is not `true`.
-/
namespace Gp.CodeGen
open Gp.Heap Gp.Unify Gp.ListBip

variable {N nY : Nat} {E : Env} {O : Opts} {reorder lp : Bool} {head last : List Arg} {goals : List Chunk} {leqs : List (Arg × Arg)}
  {m m' m1 m'' : M} {g' g1 : G} {code : List Ins}

/-- The code of the unifications fails only if no values of the variables of the clause satisfy the head, the first
chunks and the unifications. -/
theorem C53_fails_partial (hw : WellFormedE nY head goals leqs last) (hm : Start N nY head.length m)
    (hc : ClauseE E O reorder N m head goals m' g') (hg : genEqs { O with body := true, lastPred := lp } leqs g' = some (code, g1, true))
    (h : exec E code m' = some none) (β : Var → T) (ρ : Adr → T) (h1 : Match N m head β ρ) (h2 : SolvedE β goals) : ¬ Unified β leqs := by
  intro h3
  have c := clauseE_ok hw hm hc
  have r := genEqs_ok _ E leqs g' g1 m' code none (all_eqs hw.srcLast) (by rw [c.e]; exact c.inv) c.noarg hg h
  obtain ⟨ρ1, β1, a1, a2, a3, a4⟩ := c.up ρ β h1 h2
  exact r ρ1 β1 a1 (by rw [c.e]; exact a3) ((unified_xy hw.srcLast a4).mpr h3)

/-- When the call of the chunk is reached the memory is well formed, and every valuation of this memory gives values
to the variables of the clause for which the head is equal to the call of the clause, the unifications are true, the
goals are in the answers of the calls and the arguments which are loaded are those of the goal. The loading of
the arguments does not fail. -/
theorem C53_sound_partial (hw : WellFormedE nY head goals leqs last) (hm : Start N nY head.length m)
    (hc : ClauseE E O reorder N m head goals m' g') (hg : genEqs { O with body := true, lastPred := lp } leqs g' = some (code, g1, true))
    (h : exec E code m' = some (some m1)) :
    exec E (genCall { O with body := true, lastPred := lp } reorder last g1).1 m1 ≠ some none ∧
    ∀ m'', exec E (genCall { O with body := true, lastPred := lp } reorder last g1).1 m1 = some (some m'') →
    Ok N m''.s ∧ ∀ ρ, Model N m''.s.mem ρ →
      ∃ β, Match N m head β ρ ∧ SolvedE β goals ∧ Unified β leqs ∧ DenList β last (m''.terms ρ last.length) := by
  have c := clauseE_ok hw hm hc
  refine ⟨fun h' => ?_, fun m'' h' => ?_⟩
  · obtain ⟨_, h1, _⟩ := chunk_run hw.srcLast (by rw [c.e]; exact c.inv) c.noarg hg h h'
    cases h1
  obtain ⟨m3, h1, t, e, ee, k, _⟩ := chunk_run hw.srcLast (by rw [c.e]; exact c.inv) c.noarg hg h h'
  cases h1
  refine ⟨t.inv.ok, fun ρ hρ => ?_⟩
  obtain ⟨hm', d⟩ := t.down ρ hρ
  have hh := holds_value rfl (m := m'') (by rw [e]; exact t.inv) hρ
  obtain ⟨a1, a2, a3⟩ := d _ (by rw [← e]; exact hh) trivial
  obtain ⟨_, d0⟩ := c.down ρ hm'
  obtain ⟨β, b1, b2, b3⟩ := d0 _ (by rw [← c.e]; exact a1)
  rw [terms_eq k hh] at a3
  have hocc : ∀ v, OccList v (allArgs leqs last) → m''.value ρ v = β v := by
    intro v hv
    rcases occList_src _ hw.srcLast hv with ⟨n, rfl⟩ | ⟨i, rfl, _⟩
    · exact (b3 _ (Or.inr ⟨⟨n, rfl⟩, hv⟩)).symm
    · exact (b3 _ (Or.inl rfl)).symm
  exact ⟨β, b1, b2, (unified_occ hocc).mp a2, (args_occ hocc).mp a3⟩

/-- No instance of the clause is lost. -/
theorem C53_complete_partial (hw : WellFormedE nY head goals leqs last) (hm : Start N nY head.length m)
    (hc : ClauseE E O reorder N m head goals m' g') (hg : genEqs { O with body := true, lastPred := lp } leqs g' = some (code, g1, true))
    (h : exec E code m' = some (some m1)) (h' : exec E (genCall { O with body := true, lastPred := lp } reorder last g1).1 m1 = some (some m''))
    (β : Var → T) (ρ : Adr → T) (ts : List T) (h1 : Match N m head β ρ) (h2 : SolvedE β goals) (hu : Unified β leqs) (h3 : DenList β last ts) :
    ∃ ρ', Model N m''.s.mem ρ' ∧ Agree m.s.mem ρ ρ' ∧ m''.terms ρ' last.length = ts := by
  have c := clauseE_ok hw hm hc
  obtain ⟨m3, h4, t, e, ee, k, _⟩ := chunk_run hw.srcLast (by rw [c.e]; exact c.inv) c.noarg hg h h'
  cases h4
  obtain ⟨ρ1, β1, a1, a2, a3, a4⟩ := c.up ρ β h1 h2
  have hlen := den_length h3
  have hset : ∀ v : Var, v.isY = true ∨ (∃ n, v = .x n) → setArgs ts β1 v = β v := fun v hv => by rw [setArgs_xy v hv, a4 v hv]
  obtain ⟨ρ2, β2, b1, b2, b3, b4, _⟩ := t.up ρ1 (setArgs ts β1) a1 (by rw [c.e]; exact holds_setArgs c.noarg a3) (by
    rw [setArgs_map ts β1 hlen]
    exact ⟨(unified_xy hw.srcLast hset).mpr hu, (den_xy (all_args hw.srcLast) hset).mpr h3⟩)
  refine ⟨ρ2, b1, a2.trans b2 c.grow, ?_⟩
  rw [← terms_eq (m := m'') k (by rw [e]; exact b4), ← setArgs_map ts β1 hlen]
  exact List.map_congr_left fun i _ => b3 (.arg i) (fun n hn => by cases hn)

/-- The last call may be made without the environment of the clause, also after unifications. -/
theorem C53_last_call_partial (hw : WellFormedE nY head goals leqs last) (hm : Start N nY head.length m)
    (hc : ClauseE E O reorder N m head goals m' g') (hg : genEqs { O with body := true, lastPred := true } leqs g' = some (code, g1, true))
    (h : exec E code m' = some (some m1)) (h' : exec E (lastCode O reorder last g1) m1 = some (some m''))
    (h1 : m.s.lssa ≤ m.ee) (h2 : ∀ i, i < nY → m.ee ≤ yadr m.e i) (h3 : ∀ a b, a < m.ee → m.s.mem a = .ref b → b < m.ee)
    (h4 : ∀ i, i < head.length → ∀ b, m.X (.arg i) = .ref b → b < m.ee) :
    m''.e = m.e ∧ m''.ee = m.ee ∧ (∀ a b, a < m.ee → m''.s.mem a = .ref b → b < m.ee) ∧
    ∀ i, i < last.length → ∀ b, m''.X (.arg i) = .ref b → b < m.ee := by
  have c := clauseE_ok hw hm hc
  obtain ⟨m3, h5, t, e, ee, k, s⟩ := chunk_run hw.srcLast (by rw [c.e]; exact c.inv) c.noarg hg h h'
  cases h5
  have hy : ∀ i, i < nY → m.ee ≤ yadr m'.e i := by rw [c.e]; exact h2
  have hl : m'.s.lssa ≤ m.ee := by rw [c.lssa]; exact h1
  have hsafe : Safe m.ee m.e m.s m.X (atStart head.length) := by
    intro v hv b hb
    cases v with
    | arg i =>
      simp only [atStart] at hv
      split at hv
      · exact h4 i (by assumption) b hb
      · cases hv
    | _ => cases hv
  refine ⟨by rw [e, c.e], by rw [ee, c.ee], t.low m.ee hl hy (c.low m.ee h1 h2 h3), ?_⟩
  have := s rfl (by rw [c.ee]; exact hl) (by rw [c.ee]; exact hy) (by rw [c.ee, c.e]; exact c.safe m.ee h1 h2 hsafe)
  rw [c.ee] at this
  exact this

/-! ## Example -/

/-- p(A) :- A = [X|Y0], q(X, Y1), Y0 = [W|_], s(W).   The variables A, X, W are temporaries, Y0 and Y1 permanent. -/
def eqHead : List Arg := [.var (.x 0)]
def eqEqs : List (Arg × Arg) := [(.var (.x 0), .stc 46 [.var (.x 1), .var (.y 0)])]
def eqGoal : List Arg := [.var (.x 1), .var (.y 1)]
def eqLeqs : List (Arg × Arg) := [(.var (.y 0), .stc 46 [.var (.x 2), .void])]
def eqLast : List Arg := [.var (.x 2)]
def eqChunk : Chunk := ⟨eqEqs, eqGoal, exSol⟩

theorem eq_wf : WellFormedE 2 eqHead [eqChunk] eqLeqs eqLast where
  srcHead := by simp [eqHead, Src.SrcList, Src]
  srcGoals := by
    intro q hq
    rw [List.mem_singleton] at hq
    subst hq; simp [eqChunk, eqEqs, eqGoal, allArgs, Src.SrcList, Src]
  srcLast := by simp [eqLast, eqLeqs, allArgs, Src.SrcList, Src]
  sep := by
    simp [Separate, chunks, eqHead, eqChunk, eqEqs, eqGoal, eqLast, eqLeqs, allArgs, Occ.OccList, Occ]
    omega

theorem eq_start : Start 40 2 eqHead.length exM := exM_start1

theorem eq_head : genHead { exO with body := false } true eqHead (atStart eqHead.length) =
    ([.getVariable (.x 0) (.arg 0)], (atStart 1).setInfo (.x 0) .notInCurEnv) := by
  simp [eqHead, genHead, reorderHead, numbered, classOf, Var.isY, genUnifList, genUnif, genUnifVar, atStart, G.setInfo, exO]

def eqG : G := (genHead { exO with body := false } true eqHead (atStart eqHead.length)).2.toBody

theorem eqG_info : eqG.info (.x 0) = some .notInCurEnv ∧ eqG.info (.x 1) = none ∧ eqG.info (.x 2) = none ∧ eqG.info (.y 0) = none ∧
    eqG.info (.y 1) = none := by
  unfold eqG
  rw [eq_head]
  simp [G.toBody, G.setInfo, Var.isArg, atStart]

theorem eq_code : ∃ g1, genEqs { exO with body := true, lastPred := false } eqEqs eqG =
      some ([.getList (.x 0), .unifyVariable (.x 1), .unifyVariable (.y 0)], g1, true) ∧
    g1.info (.x 1) = some .inHeap ∧ g1.info (.y 0) = some .inHeap ∧ g1.info (.y 1) = none ∧ g1.info (.x 2) = none := by
  obtain ⟨h0, h1, h2, h3, h4⟩ := eqG_info
  simp [eqEqs, genEqs, equal, sameArg, eqVar, Var.isY, eqReg, h0, h1, h2, h3, h4, G.setInfo, G.toBody, Var.isArg, genUnif, flatList, flatArg.flatList,
    flatArg, genSubList, genSub.genSubList, genSub, genSubVar, isList, voids, genUnif.genAux, exO]

theorem eq_goal {g : G} (h1 : g.info (.x 1) = some .inHeap) (h2 : g.info (.y 1) = none) :
    (genCall { exO with body := true, lastPred := false } true eqGoal g).1 = [.putValue (.x 1) (.arg 0), .putVariable (.y 1) (.arg 1)] := by
  simp [eqGoal, genCall, reorderBody, numbered, classOf, Var.isY, genLoadList, genLoad, genLoadVar, h1, h2, G.setInfo]

theorem eq_leqs {g : G} (h1 : g.info (.y 0) = some .inHeap) (h2 : g.info (.x 2) = none) (h3 : g.info (.x 1) = some .inHeap)
    (h4 : g.info (.y 1) = none) :
    ∃ g1, genEqs { exO with body := true, lastPred := true } eqLeqs
      (genCall { exO with body := true, lastPred := false } true eqGoal g).2.forget =
      some ([.putValue (.y 0) (.arg 0), .getList (.arg 0), .unifyVariable (.x 2), .unifyVoid 1], g1, true) ∧
    lastCode exO true eqLast g1 = [.putValue (.x 2) (.arg 0)] := by
  simp [eqLeqs, eqLast, lastCode, eqGoal, genCall, reorderBody, numbered, classOf, genLoadList, genLoad, G.forget, genEqs, equal, sameArg, eqVar, Var.isY,
    eqReg, h1, h2, h3, h4, genLoadVar, G.setInfo, G.toBody, Var.isArg, knownVar, genUnif, flatList, flatArg.flatList,
    flatArg, genSubList, genSub.genSubList, genSub, genSubVar, isList, voids, genUnif.genAux, exO]

/-- The machine after the head, after the unification, before the call of q. -/
def eqM0 : M := { exM with X := fun u => if u = .x 0 then .lst 2 else exM.X u }
def eqM1 : M where
  s := exM0.s
  S := some 4
  X := fun u => if u = .x 1 then .int 1 else eqM0.X u
  e := 35
  ee := 31
def eqM2 : M where
  s := exM2.s
  S := some 4
  X := fun u => if u = .arg 1 then .ref 31 else if u = .arg 0 then .int 1 else eqM1.X u
  e := 35
  ee := 31

theorem eq_head_run : exec (exE 9) (genHead { exO with body := false } true eqHead (atStart eqHead.length)).1 exM = some (some eqM0) := by
  rw [eq_head]
  simp [exec, step, eqM0, exM, M.get, M.put]

theorem eq_eqs_run : exec (exE 9) [.getList (.x 0), .unifyVariable (.x 1), .unifyVariable (.y 0)] eqM0 = some (some eqM1) := by
  simp [exec, step, eqM1, eqM0, exM0, exM, M.get, M.put, M.retS, getLst, deref_nonref, stL, memL, unifyVariable, copyWord, yadr, NIL_WORD]

theorem eq_goal_run : exec (exE 9) [.putValue (.x 1) (.arg 0), .putVariable (.y 1) (.arg 1)] eqM1 = some (some eqM2) := by
  simp [exec, step, eqM2, eqM1, eqM0, exM2, exM0, exM, M.get, M.put, yadr, stL]

/-- The clause called with p([1,2]) reaches the last chunk, the unification Y0 = [W|_] succeeds and s is called with 2. -/
theorem eq_clause : ∃ (g' g1 : G) (code : List Ins) (m1 m'' : M), ClauseE (exE 9) exO true 40 exM eqHead [eqChunk] exM2 g' ∧
    genEqs { exO with body := true, lastPred := true } eqLeqs g' = some (code, g1, true) ∧
    exec (exE 9) code exM2 = some (some m1) ∧ exec (exE 9) (lastCode exO true eqLast g1) m1 = some (some m'') ∧ m''.X (.arg 0) = .int 2 := by
  obtain ⟨g0, hg0, i1, i2, i3, i4⟩ := eq_code
  obtain ⟨g1, hg1, hl⟩ := eq_leqs i2 i4 i1 i3
  have h0 := head_run eq_start eq_wf.srcHead eq_head_run
  have hi : Inv 40 2 eqM0.e eqM0.s eqM0.X eqG := toBody_inv h0.1.inv
  have hgoal : exec (exE 9) (genCall { exO with body := true, lastPred := false } true eqGoal g0).1 eqM1 = some (some eqM2) := by
    rw [eq_goal i1 i3]; exact eq_goal_run
  obtain ⟨_, h1, t, _⟩ := chunk_run (eq_wf.srcGoals _ List.mem_cons_self) hi (toBody_noarg _) hg0 eq_eqs_run hgoal
  cases h1
  have hrun : ∃ m1 m'' : M, exec (exE 9) [.putValue (.y 0) (.arg 0), .getList (.arg 0), .unifyVariable (.x 2), .unifyVoid 1] exM2 = some (some m1) ∧
      exec (exE 9) [.putValue (.x 2) (.arg 0)] m1 = some (some m'') ∧ m''.X (.arg 0) = .int 2 := by
    simp [exec, step, exM2, exM, M.get, M.put, M.ret, M.retS, getLst, deref_nonref, stL, memL, Mem.set, unifyVariable, copyWord, yadr, NIL_WORD]
  obtain ⟨m1, m'', r1, r2, r3⟩ := hrun
  refine ⟨_, g1, _, m1, m'', ⟨eqM0, eq_head_run, .cons (m1 := eqM1) (m2 := eqM2) (m3 := exM2) hg0 eq_eqs_run hgoal ?_ (.nil _ _)⟩, hg1, r1,
    by rw [hl]; exact r2, r3⟩
  exact ⟨rfl, rfl, rfl, t.inv.ok, fun _ h => h, fun _ _ _ => rfl, fun _ _ _ h => h, fun _ _ _ h => absurd rfl h,
    fun ρ h => ⟨h, by simp [exSol, M.terms, eqChunk, eqGoal]⟩, fun ρ h _ => ⟨ρ, h, Agree.refl _ _⟩⟩

/-- The hypotheses of the theorems are met by this example. -/
example : ∃ m'' : M, Ok 40 m''.s ∧ (∀ ρ, Model 40 m''.s.mem ρ →
      ∃ β, Match 40 exM eqHead β ρ ∧ SolvedE β [eqChunk] ∧ Unified β eqLeqs ∧ DenList β eqLast (m''.terms ρ 1)) ∧
    ∀ i, i < 1 → ∀ b, m''.X (.arg i) = .ref b → b < 31 := by
  obtain ⟨g', g1, code, m1, m'', hc, hg, h, h', _⟩ := eq_clause
  obtain ⟨h1, h2⟩ := (C53_sound_partial eq_wf eq_start hc hg h).2 m'' h'
  refine ⟨m'', h1, h2, (C53_last_call_partial eq_wf eq_start hc hg h h' ?_ ?_ ?_ ?_).2.2.2⟩
  · simp [exM, stL]
  · intro i hi
    match i with
    | 0 | 1 => simp [exM, yadr]
    | i + 2 => omega
  · intro a b _ h
    match a with
    | 0 | 1 | 2 | 3 | 4 | 5 => simp [exM, stL, memL] at h <;> simp [exM] <;> omega
    | a + 6 => simp [exM, stL, memL] at h
  · intro i hi b h
    have hi : i < 1 := hi
    match i with
    | 0 => simp [exM] at h
    | i + 1 => omega

/-- The clause p(A) :- A = 7, s called with p([1,2]) fails. -/
example (β : Var → T) (ρ : Adr → T) (h : Match 40 exM eqHead β ρ) : ¬ Unified β [(.var (.x 0), .int 7)] := by
  have hw : WellFormedE 2 eqHead [] [(.var (.x 0), .int 7)] [] := by
    refine ⟨eq_wf.srcHead, fun q hq => (by cases hq), by simp [allArgs, Src.SrcList, Src], ?_⟩
    simp [Separate, chunks, eqHead, allArgs, Occ.OccList, Occ]
  obtain ⟨h0, _⟩ := eqG_info
  have hg : ∃ g1, genEqs { exO with body := true, lastPred := true } [(.var (.x 0), .int 7)] eqG = some ([.getInteger 7 (.x 0)], g1, true) := by
    simp [genEqs, equal, sameArg, eqVar, Var.isY, eqReg, h0, genUnif, exO]
  obtain ⟨g1, hg⟩ := hg
  refine C53_fails_partial hw eq_start (E := exE 9) (O := exO) (reorder := true) ⟨eqM0, eq_head_run, .nil _ _⟩ hg ?_ β ρ h (fun q hq => by cases hq)
  simp [exec, step, eqM0, exM, M.get, getInt, deref_nonref, M.ret]

/-- An instance of the clause: `C53_complete_partial` is not vacuous. -/
example : ∃ (β : Var → T) (ρ : Adr → T), Match 40 exM eqHead β ρ ∧ SolvedE β [eqChunk] ∧ Unified β eqLeqs ∧ DenList β eqLast [.int 2] := by
  refine ⟨fun v => match v with
    | .x 0 => .lst (.int 1) (.lst (.int 2) (.atm 256))
    | .x 1 => .int 1
    | .x 2 => .int 2
    | .y 0 => .lst (.int 2) (.atm 256)
    | .y 1 => .atm 97
    | _ => .int 9, fun a => match a with
    | 0 => .atm 98
    | 1 => .atm 99
    | 2 => .int 1
    | 3 => .lst (.int 2) (.atm 256)
    | 4 => .int 2
    | _ => .atm 256, ⟨?_, ?_⟩, ?_, ?_, ?_⟩
  · intro a _ ha
    match a with
    | 0 | 1 | 2 | 3 | 4 | 5 => simp [exM, stL, memL, eval, NIL_WORD]
    | a + 6 => simp [exM, stL, memL, isTerm] at ha
  · simp [eqHead, DenList, Den.DenList, Den, exM, stL, memL, eval, List.range, List.range.loop]
  · intro q hq
    rw [List.mem_singleton] at hq
    subst hq
    refine ⟨?_, [.int 1, .atm 97], by simp [eqChunk, eqGoal, DenList, Den.DenList, Den, exSol]⟩
    intro p hp
    rw [eqChunk, eqEqs, List.mem_singleton] at hp
    subst hp
    exact ⟨.lst (.int 1) (.lst (.int 2) (.atm 256)), by simp [Den], [.int 1, .lst (.int 2) (.atm 256)], by simp [Den.DenList, Den, mk]⟩
  · intro p hp
    rw [eqLeqs, List.mem_singleton] at hp
    subst hp
    exact ⟨.lst (.int 2) (.atm 256), by simp [Den], [.int 2, .atm 256], by simp [Den.DenList, Den, mk]⟩
  · simp [eqLast, DenList, Den.DenList, Den]

/-! ## The code of New = Old is wrong

p(B, T) :- A = B, T = f(A).   called with p(X, T), X being a variable of the local stack. The compiler says that A is in
the heap after the first unification, although it is the word of B: the argument of f(A) is written with
unify_value, which puts in the heap a reference to the local stack. -/

def badHead : List Arg := [.var (.x 0), .var (.x 1)]
def badEqs : List (Arg × Arg) := [(.var (.x 2), .var (.x 0)), (.var (.x 1), .stc 102 [.var (.x 2)])]

theorem bad_wf : WellFormedE 0 badHead [] badEqs [] where
  srcHead := by simp [badHead, Src.SrcList, Src]
  srcGoals := by intro q hq; cases hq
  srcLast := by simp [allArgs, badEqs, Src.SrcList, Src]
  sep := by simp [Separate, chunks]

/-- The variable T is in the heap, at 0, the variable X in the local stack, at 31. -/
def badM : M where
  s := { stL [.ref 0] 30 with mem := (memL [.ref 0]).set 31 (.ref 31) }
  S := none
  X := fun v => match v with
    | .arg 0 => .ref 31
    | _ => .ref 0
  e := 35
  ee := 35

theorem badM_mem (a : Adr) : badM.s.mem a = if a = 31 then .ref 31 else if a = 0 then .ref 0 else .fn 0 0 := by
  match a with
  | 0 => rfl
  | a + 1 => simp [badM, memL, Mem.set]

theorem badM_start : Start 40 0 badHead.length badM where
  ok := by
    refine ⟨fun a ha ht => ?_, fun a h1 h2 => ?_, by decide⟩
    · have hm := badM_mem a
      have hacc : Acc (RefTo badM.s.mem) a := by
        refine ⟨_, fun b hb => ?_⟩
        obtain ⟨h1, h2⟩ := hb
        rw [hm] at h1
        split at h1
        · cases h1; omega
        · split at h1
          · cases h1; omega
          · cases h1
      rw [hm] at ht ⊢
      split
      · rename_i h; subst h
        exact ⟨⟨by omega, by rw [badM_mem]; rfl⟩, fun b hb h => absurd h (by decide), hacc⟩
      · split
        · rename_i h; subst h
          exact ⟨⟨by omega, by rw [badM_mem]; rfl⟩, fun b hb _ => (by cases hb; decide), hacc⟩
        · rename_i h1 h2
          rw [if_neg h1, if_neg h2] at ht; cases ht
    · have h1 : 1 ≤ a := h1
      have h2 : a < 30 := h2
      rw [badM_mem, if_neg (by omega), if_neg (by omega)]
  args := by
    intro i hi
    have hi : i < 2 := hi
    match i with
    | 0 => exact ⟨by omega, by rw [badM_mem]; rfl⟩
    | 1 => exact ⟨by omega, by rw [badM_mem]; rfl⟩
    | i + 2 => omega
  env := by intro i hi; omega
  size := by decide

theorem bad_head : genHead { exO with body := false } true badHead (atStart badHead.length) =
    ([.getVariable (.x 1) (.arg 1), .getVariable (.x 0) (.arg 0)],
      ((atStart 2).setInfo (.x 1) .notInCurEnv).setInfo (.x 0) .notInCurEnv) := by
  simp [badHead, genHead, reorderHead, numbered, classOf, Var.isY, genUnifList, genUnif, genUnifVar, atStart, G.setInfo, exO]

def badG : G := (genHead { exO with body := false } true badHead (atStart badHead.length)).2.toBody

theorem badG_info : badG.info (.x 0) = some .notInCurEnv ∧ badG.info (.x 1) = some .notInCurEnv ∧ badG.info (.x 2) = none := by
  unfold badG
  rw [bad_head]
  simp [G.toBody, G.setInfo, Var.isArg, atStart]

theorem bad_code : ∃ g1, genEqs { exO with body := true, lastPred := true } badEqs badG =
    some ([.putValue (.x 0) (.x 2), .getStructure 102 1 (.x 1), .unifyValue (.x 2)], g1, false) := by
  obtain ⟨h0, h1, h2⟩ := badG_info
  simp [badEqs, genEqs, equal, sameArg, eqVar, Var.isY, eqReg, h0, h1, h2, genLoadVar, G.setInfo, G.toBody, Var.isArg, genUnif, flatList, flatArg.flatList,
    flatArg, genSubList, genSub.genSubList, genSub, genSubVar, isList, voids, genUnif.genAux, exO]

/-- The execution succeeds, with a reference from the heap (the argument of f at 2) to the local stack (the
variable X at 31): when the environment of X is removed this reference is dangling. -/
theorem C53_new_variable_dangling : ∃ (m0 m1 : M) (code : List Ins) (g1 : G), Start 40 0 badHead.length badM ∧ WellFormedE 0 badHead [] badEqs [] ∧
    exec (exE 9) (genHead { exO with body := false } true badHead (atStart badHead.length)).1 badM = some (some m0) ∧
    genEqs { exO with body := true, lastPred := true } badEqs badG = some (code, g1, false) ∧
    exec (exE 9) code m0 = some (some m1) ∧ m1.s.mem 0 = .stc 1 ∧ m1.s.mem 2 = .ref 31 ∧ 2 < m1.s.lssa ∧ m1.s.lssa ≤ 31 ∧ ¬ Ok 40 m1.s := by
  obtain ⟨g1, hg⟩ := bad_code
  have hrun : ∃ m0 m1 : M, exec (exE 9) (genHead { exO with body := false } true badHead (atStart badHead.length)).1 badM = some (some m0) ∧
      exec (exE 9) [.putValue (.x 0) (.x 2), .getStructure 102 1 (.x 1), .unifyValue (.x 2)] m0 = some (some m1) ∧
      m1.s.mem 0 = .stc 1 ∧ m1.s.mem 2 = .ref 31 ∧ m1.s.lssa = 30 := by
    rw [bad_head]
    simp [exec, step, badM, M.get, M.put, M.ret, M.retTo, M.retS, getStc, deref_nonref, deref_ref, room, stL, memL, push, St.bindUV,
      Mem.set, pushRes, unifyValue]
  obtain ⟨m0, m1, h1, h2, h3, h4, h5⟩ := hrun
  refine ⟨m0, m1, _, g1, badM_start, bad_wf, h1, hg, h2, h3, h4, by rw [h5]; decide, by rw [h5]; decide, fun hok => ?_⟩
  have := (hok.wf 2 (by omega) (by rw [h4]; rfl)).2.1 31 h4 (by rw [h5]; omega)
  rw [h5] at this; omega

end Gp.CodeGen
