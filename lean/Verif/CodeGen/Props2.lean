import Verif.CodeGen.Lemmas17
import Verif.CodeGen.Props
/-
C52. The code of a clause: after the head, the arguments of every goal are loaded in the argument registers and
the goal is called; the calls are any calls which return an answer (`Called`). The last call is made after the
environment of the clause has been removed.

In the theorems `head` are the arguments of the head, `goals` the goals but the last one, `last` the arguments of
the last goal; `m` is the machine at the beginning of the code of the clause, `m'` and `g'` the machine and
the code generator before the loading of the arguments of the last goal, `m''` the machine after it.
-/
namespace Gp.CodeGen
open Gp.Heap Gp.Unify Gp.ListBip

variable {N nY : Nat} {E : Env} {O : Opts} {reorder : Bool} {head last : List Arg} {goals : List (List Arg × (List T → Prop))}
  {m m' m'' : M} {g' : G}

/-- The code which loads the arguments of a goal never fails. -/
theorem C52_args_never_fail (hw : WellFormed nY head goals last) (hm : Start N nY head.length m)
    (hc : Clause E O reorder N m head goals m' g') : exec E (lastCode O reorder last g') m' ≠ some none := by
  intro h
  have c := clause_ok hw hm hc
  obtain ⟨_, h1, _⟩ := call_run hw.srcLast (by rw [c.e]; exact c.inv) c.noarg h
  cases h1

/-- When the last call is reached the memory is well formed, and every valuation of this memory is an instance
of the clause: there are values of the variables of the clause, the same ones in all the goals, for which the
head is equal to the call, the goals are in the answers of the calls and the last goal is equal to the terms in
the argument registers. -/
theorem C52_clause_sound (hw : WellFormed nY head goals last) (hm : Start N nY head.length m)
    (hc : Clause E O reorder N m head goals m' g') (h : exec E (lastCode O reorder last g') m' = some (some m'')) :
    Ok N m''.s ∧ ∀ ρ, Model N m''.s.mem ρ →
      ∃ β, Match N m head β ρ ∧ Solved β goals ∧ DenList β last (m''.terms ρ last.length) := by
  have c := clause_ok hw hm hc
  obtain ⟨m3, h1, t, e, ee, k, _⟩ := call_run hw.srcLast (by rw [c.e]; exact c.inv) c.noarg h
  cases h1
  refine ⟨t.inv.ok, fun ρ hρ => ?_⟩
  obtain ⟨hm', d⟩ := t.down ρ hρ
  have hh := holds_value rfl (m := m'') (by rw [e]; exact t.inv) hρ
  obtain ⟨a1, a2⟩ := d _ (by rw [← e]; exact hh) trivial
  obtain ⟨_, d0⟩ := c.down ρ hm'
  obtain ⟨β, b1, b2, b3⟩ := d0 _ (by rw [← c.e]; exact a1)
  refine ⟨β, b1, b2, ?_⟩
  rw [terms_eq k hh] at a2
  refine (denList_occ last _ (fun v hv => ?_)).mp a2
  rcases occList_src last hw.srcLast hv with ⟨n, rfl⟩ | ⟨i, rfl, _⟩
  · exact (b3 _ (Or.inr ⟨⟨n, rfl⟩, hv⟩)).symm
  · exact (b3 _ (Or.inl rfl)).symm

/-- No instance of the clause is lost: whatever the values of the variables of the clause and of the call for
which the head is equal to the call and the goals are in the answers of the calls, and whatever the terms `ts`
which are equal to the last goal, the memory has a valuation, the same one on the terms of the call, for which
these terms are in the argument registers. -/
theorem C52_clause_complete (hw : WellFormed nY head goals last) (hm : Start N nY head.length m)
    (hc : Clause E O reorder N m head goals m' g') (h : exec E (lastCode O reorder last g') m' = some (some m''))
    (β : Var → T) (ρ : Adr → T) (ts : List T) (h1 : Match N m head β ρ) (h2 : Solved β goals) (h3 : DenList β last ts) :
    ∃ ρ', Model N m''.s.mem ρ' ∧ Agree m.s.mem ρ ρ' ∧ m''.terms ρ' last.length = ts := by
  have c := clause_ok hw hm hc
  obtain ⟨m3, h4, t, e, ee, k, _⟩ := call_run hw.srcLast (by rw [c.e]; exact c.inv) c.noarg h
  cases h4
  obtain ⟨ρ1, β1, a1, a2, a3, a4⟩ := c.up ρ β h1 h2
  have hlen := den_length h3
  obtain ⟨ρ2, β2, b1, b2, b3, b4, _⟩ := t.up ρ1 (setArgs ts β1) a1 (by rw [c.e]; exact holds_setArgs c.noarg a3) (by
    rw [setArgs_map ts β1 hlen]
    exact den_setArgs hw.srcLast ((den_xy hw.srcLast a4).mpr h3))
  refine ⟨ρ2, b1, a2.trans b2 c.grow, ?_⟩
  rw [← terms_eq (m := m'') k (by rw [e]; exact b4), ← setArgs_map ts β1 hlen]
  exact List.map_congr_left fun i _ => b3 (.arg i) (fun n hn => by cases hn)

/-- The last call may be made without the environment of the clause (from `ee`): when no word below this
environment and no argument of the call of the clause refers to it at the beginning, no word below it and no
argument of the last call refers to it after the loading of the arguments. -/
theorem C52_last_call (hw : WellFormed nY head goals last) (hm : Start N nY head.length m)
    (hc : Clause E O reorder N m head goals m' g') (h : exec E (lastCode O reorder last g') m' = some (some m''))
    (h1 : m.s.lssa ≤ m.ee) (h2 : ∀ i, i < nY → m.ee ≤ yadr m.e i) (h3 : ∀ a b, a < m.ee → m.s.mem a = .ref b → b < m.ee)
    (h4 : ∀ i, i < head.length → ∀ b, m.X (.arg i) = .ref b → b < m.ee) :
    m''.e = m.e ∧ m''.ee = m.ee ∧ (∀ a b, a < m.ee → m''.s.mem a = .ref b → b < m.ee) ∧
    ∀ i, i < last.length → ∀ b, m''.X (.arg i) = .ref b → b < m.ee := by
  have c := clause_ok hw hm hc
  obtain ⟨m3, h5, t, e, ee, k, s⟩ := call_run hw.srcLast (by rw [c.e]; exact c.inv) c.noarg h
  cases h5
  have hy : ∀ i, i < nY → m.ee ≤ yadr m'.e i := by rw [c.e]; exact h2
  have hl : m'.s.lssa ≤ m.ee := by rw [c.lssa]; exact h1
  have hsafe : Safe m.ee m.e m.s m.X (atStart head.length) := by
    intro v hv b hb
    cases v with
    | arg i =>
      simp only [atStart] at hv
      split at hv
      · exact h4 i (by assumption) b hb
      · cases hv
    | _ => cases hv
  refine ⟨by rw [e, c.e], by rw [ee, c.ee], t.low m.ee hl hy (c.low m.ee h1 h2 h3), ?_⟩
  have := s rfl (by rw [c.ee]; exact hl) (by rw [c.ee]; exact hy) (by rw [c.ee, c.e]; exact c.safe m.ee h1 h2 hsafe)
  rw [c.ee] at this
  exact this

/-! ## Example -/

/-- p([X|Y0]) :- q(X, Y1), s(Y1, g(Y0), W, W). -/
def exHead : List Arg := [.stc 46 [.var (.x 0), .var (.y 0)]]
def exGoal : List Arg := [.var (.x 0), .var (.y 1)]
def exLast : List Arg := [.var (.y 1), .stc 103 [.var (.y 0)], .var (.x 1), .var (.x 1)]

/-- The answers of q: any terms (its second argument is not bound). -/
def exSol : List T → Prop := fun ts => ts.length = 2

theorem ex_wf : WellFormed 2 exHead [(exGoal, exSol)] exLast where
  srcHead := by simp [exHead, Src.SrcList, Src]
  srcGoals := by
    intro q hq
    rw [List.mem_singleton] at hq
    subst hq; simp [exGoal, Src.SrcList, Src]
  srcLast := by simp [exLast, Src.SrcList, Src]
  sep := by
    simp [Separate, chunks, exHead, exGoal, exLast, Occ.OccList, Occ]

theorem exM_start1 : Start 40 2 exHead.length exM :=
  ⟨exM_start.ok, fun i hi => exM_start.args i (Nat.lt_trans hi (by decide)),
    fun i hi => by
      match i with
      | 0 | 1 => simp [exM, stL, memL, yadr]
      | i + 2 => omega, by simp [exM]⟩

/-- The machine after the call of q: the registers have any value. -/
def exM2 : M where
  s := { exM.s with mem := ((exM.s.mem.set 32 (.lst 4)).set 31 (.ref 31)) }
  S := none
  X := fun _ => .ref 0
  e := 35
  ee := 31

theorem ex_head : (genHead { exO with body := false } true exHead (atStart exHead.length)).1 =
    [.getList (.arg 0), .unifyVariable (.x 0), .unifyVariable (.y 0)] := by
  simp [exHead, genHead, reorderHead, numbered, classOf, hasTemporaries, Var.isY, genUnifList, genUnif, flatList, flatArg.flatList,
    flatArg, genSubList, genSub.genSubList, genSub, genSubVar, atStart, G.setInfo, voids, isList, genUnif.genAux, exO]

def exG : G := (genHead { exO with body := false } true exHead (atStart exHead.length)).2.toBody

theorem exG_x0 : exG.info (.x 0) = some .inHeap := by
  simp [exG, G.toBody, Var.isArg, exHead, genHead, reorderHead, numbered, classOf, hasTemporaries, Var.isY, genUnifList, genUnif, flatList, flatArg.flatList,
    flatArg, genSubList, genSub.genSubList, genSub, genSubVar, atStart, G.setInfo, isList, genUnif.genAux, exO]

theorem exG_y0 : exG.info (.y 0) = some .inHeap := by
  simp [exG, G.toBody, Var.isArg, exHead, genHead, reorderHead, numbered, classOf, hasTemporaries, Var.isY, genUnifList, genUnif, flatList, flatArg.flatList,
    flatArg, genSubList, genSub.genSubList, genSub, genSubVar, atStart, G.setInfo, isList, genUnif.genAux, exO]

theorem exG_y1 : exG.info (.y 1) = none := by
  simp [exG, G.toBody, Var.isArg, exHead, genHead, reorderHead, numbered, classOf, hasTemporaries, Var.isY, genUnifList, genUnif, flatList, flatArg.flatList,
    flatArg, genSubList, genSub.genSubList, genSub, genSubVar, atStart, G.setInfo, isList, genUnif.genAux, exO]

theorem ex_call : (genCall { exO with body := true, lastPred := false } true exGoal exG).1 =
    [.putValue (.x 0) (.arg 0), .putVariable (.y 1) (.arg 1)] := by
  simp [exGoal, genCall, reorderBody, numbered, classOf, Var.isY, genLoadList, genLoad, genLoadVar, exG_x0, exG_y1, G.setInfo]

def exG2 : G := (genCall { exO with body := true, lastPred := false } true exGoal exG).2.forget

theorem ex_last : lastCode exO true exLast exG2 =
    [.putVariable (.x 1) (.arg 2), .putValue (.x 1) (.arg 3), .putUnsafeValue (.y 1) (.arg 0),
     .putStructure 103 1 (.arg 1), .unifyValue (.y 0)] := by
  simp [lastCode, exLast, genCall, reorderBody, numbered, classOf, hasTemporaries, Var.isY, genLoadList, genLoad, genLoadVar, exG_x0, exG_y0, exG_y1,
    exG2, exGoal, G.forget, G.setInfo, genLoad.genLoadAux, flatList, flatArg.flatList, flatArg, genSubList, genSub.genSubList, genSub, genSubVar,
    isList, voids]

/-- The machine after the head. -/
def exM0 : M where
  s := { exM.s with mem := exM.s.mem.set 32 (.lst 4) }
  S := some 4
  X := fun u => if u = .x 0 then .int 1 else exM.X u
  e := 35
  ee := 31

/-- The machine before the call of q. -/
def exM1 : M where
  s := exM2.s
  S := some 4
  X := fun u => if u = .arg 1 then .ref 31 else if u = .arg 0 then .int 1 else exM0.X u
  e := 35
  ee := 31

theorem ex_head_run : exec (exE 9) (genHead { exO with body := false } true exHead (atStart exHead.length)).1 exM = some (some exM0) := by
  rw [ex_head]
  simp [exec, step, exM0, exM, M.get, M.put, M.retS, getLst, deref_nonref, stL, memL, unifyVariable, copyWord, yadr, NIL_WORD]

theorem ex_call_run : exec (exE 9) (genCall { exO with body := true, lastPred := false } true exGoal exG).1 exM0 = some (some exM1) := by
  rw [ex_call]
  simp [exec, step, exM1, exM2, exM0, exM, M.get, M.put, yadr, stL]

/-- The clause called with p([1,2]) reaches its last call. -/
theorem ex_clause : Clause (exE 9) exO true 40 exM exHead [(exGoal, exSol)] exM2 exG2 := by
  have h0 := head_run exM_start1 ex_wf.srcHead ex_head_run
  have hi : Inv 40 2 exM0.e exM0.s exM0.X exG := toBody_inv h0.1.inv
  obtain ⟨_, h1, t, _⟩ := call_run (ex_wf.srcGoals _ List.mem_cons_self) hi (toBody_noarg _) ex_call_run
  cases h1
  refine ⟨exM0, ex_head_run, .cons (m1 := exM1) (m2 := exM2) ex_call_run ?_ (.nil _ _)⟩
  exact ⟨rfl, rfl, rfl, t.inv.ok, fun _ h => h, fun _ _ _ => rfl, fun _ _ _ h => h, fun _ _ _ h => absurd rfl h,
    fun ρ h => ⟨h, by simp [exSol, M.terms, exGoal]⟩, fun ρ h _ => ⟨ρ, h, Agree.refl _ _⟩⟩

/-- The last call is s(V, g([2]), W, W): Y1 has been moved to the global stack. -/
theorem ex_last_run : ∃ m'', exec (exE 9) (lastCode exO true exLast exG2) exM2 = some (some m'') ∧
    m''.X (.arg 0) = .ref 7 ∧ m''.X (.arg 1) = .stc 8 ∧ m''.X (.arg 2) = .ref 6 ∧ m''.X (.arg 3) = .ref 6 ∧
    (List.range 4).map (fun i => m''.s.mem (6 + i)) = [.ref 6, .ref 7, .fn 103 1, .lst 4] ∧ m''.s.mem 31 = .ref 7 := by
  rw [ex_last]
  simp [exec, step, exM2, exM, M.get, M.put, M.ret, M.retTo, putX, putUnsafe, globalize, deref_nonref, deref_ref, room, stL, memL, push, St.bindUV,
    Mem.set, pushRes, yadr, List.range, List.range.loop]

/-- The hypotheses of the theorems are met by this example. -/
example : ∃ m'' : M, Ok 40 m''.s ∧ (∀ ρ, Model 40 m''.s.mem ρ →
      ∃ β, Match 40 exM exHead β ρ ∧ Solved β [(exGoal, exSol)] ∧ DenList β exLast (m''.terms ρ 4)) ∧
    ∀ i, i < 4 → ∀ b, m''.X (.arg i) = .ref b → b < 31 := by
  obtain ⟨m'', h, _⟩ := ex_last_run
  obtain ⟨h1, h2⟩ := C52_clause_sound ex_wf exM_start1 ex_clause h
  refine ⟨m'', h1, h2, (C52_last_call ex_wf exM_start1 ex_clause h ?_ ?_ ?_ ?_).2.2.2⟩
  · simp [exM, stL]
  · intro i hi
    match i with
    | 0 | 1 => simp [exM, yadr]
    | i + 2 => omega
  · intro a b _ h
    match a with
    | 0 | 1 | 2 | 3 | 4 | 5 => simp [exM, stL, memL] at h <;> simp [exM] <;> omega
    | a + 6 => simp [exM, stL, memL] at h
  · intro i hi b h
    have hi : i < 1 := hi
    match i with
    | 0 => simp [exM] at h
    | i + 1 => omega

/-- An instance of the clause: `C52_clause_complete` is not vacuous. -/
example : ∃ (β : Var → T) (ρ : Adr → T), Match 40 exM exHead β ρ ∧ Solved β [(exGoal, exSol)] ∧
    DenList β exLast [.atm 97, .app 103 [.lst (.int 2) (.atm 256)], .int 9, .int 9] := by
  refine ⟨fun v => match v with
    | .x 0 => .int 1
    | .y 0 => .lst (.int 2) (.atm 256)
    | .y 1 => .atm 97
    | _ => .int 9, fun a => match a with
    | 0 => .atm 98
    | 1 => .atm 99
    | 2 => .int 1
    | 3 => .lst (.int 2) (.atm 256)
    | 4 => .int 2
    | _ => .atm 256, ⟨?_, ?_⟩, ?_, ?_⟩
  · intro a _ ha
    match a with
    | 0 | 1 | 2 | 3 | 4 | 5 => simp [exM, stL, memL, eval, NIL_WORD]
    | a + 6 => simp [exM, stL, memL, isTerm] at ha
  · simp [exHead, DenList, Den.DenList, Den, exM, stL, memL, eval, List.range, List.range.loop]
    exact ⟨[.int 1, .lst (.int 2) (.atm 256)], by simp [Den.DenList, Den, mk]⟩
  · intro q hq
    rw [List.mem_singleton] at hq
    subst hq
    exact ⟨[.int 1, .atm 97], by simp [exGoal, DenList, Den.DenList, Den, exSol]⟩
  · simp [exLast, DenList, Den.DenList, Den]
    exact ⟨[.lst (.int 2) (.atm 256)], by simp [Den.DenList, Den, mk]⟩

end Gp.CodeGen
