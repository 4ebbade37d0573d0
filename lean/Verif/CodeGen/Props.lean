import Verif.CodeGen.Lemmas10
import Verif.ListBip.Props
/-
C51. The code of the head of a clause unifies the arguments of the call with the arguments of the head.

In the theorems `E` gives the fuel of the unification, `O` and `reorder` are the options of the compiler, `args`
are the arguments of the head, `m` is the machine at the beginning of the code (`Start`): the argument registers
hold any terms (variables, partial terms, terms which share variables).
-/
namespace Gp.CodeGen
open Gp.Heap Gp.Unify Gp.ListBip

variable {N nY : Nat} {E : Env} {O : Opts} {reorder : Bool} {args : List Arg} {m m' : M}

/-- When the code of the head fails, the arguments of the call and of the head are not unifiable. -/
theorem C51_head_fails (hm : Start N nY args.length m) (hs : SrcList nY args)
    (h : exec E (genHead O reorder args (atStart args.length)).1 m = some none) (β : Var → T) (ρ : Adr → T) :
    ¬ Match N m args β ρ := by
  rintro ⟨hρ, hd⟩
  refine head_run hm hs h ρ (withArgs m β ρ) hρ holds_withArgs ?_
  show DenList _ _ (List.map (fun i => _) _)
  rw [map_args holds_withArgs]
  exact den_withArgs hs hd

/-- When the code of the head succeeds, the memory is well formed, and in every valuation of this memory the
head, with the values given by the code to its variables, is equal to the call. -/
theorem C51_head_sound (hm : Start N nY args.length m) (hs : SrcList nY args)
    (h : exec E (genHead O reorder args (atStart args.length)).1 m = some (some m')) :
    Ok N m'.s ∧ ∀ ρ, Model N m'.s.mem ρ → Match N m args (m'.value ρ) ρ := by
  obtain ⟨ht, he, _⟩ := head_run hm hs h
  refine ⟨ht.inv.ok, fun ρ hρ => ?_⟩
  obtain ⟨h1, h2⟩ := ht.down ρ hρ
  have hh := holds_value rfl (by rw [he]; exact ht.inv) hρ
  rw [he] at hh
  obtain ⟨h3, h4⟩ := h2 _ hh trivial
  refine ⟨h1, ?_⟩
  rw [map_args h3] at h4
  exact h4

/-- When the code of the head succeeds, no solution is lost: whatever the values of the variables of the clause
and of the call for which the head is equal to the call, the memory has a valuation which is the same on the
terms of the call, and which gives these values to the variables of the head. -/
theorem C51_head_complete (hm : Start N nY args.length m) (hs : SrcList nY args)
    (h : exec E (genHead O reorder args (atStart args.length)).1 m = some (some m')) (β : Var → T) (ρ : Adr → T)
    (hd : Match N m args β ρ) :
    ∃ ρ', Model N m'.s.mem ρ' ∧ Agree m.s.mem ρ ρ' ∧ ∀ v, OccList v args → m'.value ρ' v = β v := by
  obtain ⟨ht, he, _⟩ := head_run hm hs h
  obtain ⟨hρ, hd⟩ := hd
  have hd' := den_withArgs (m := m) (ρ := ρ) hs hd
  rw [← map_args holds_withArgs] at hd'
  obtain ⟨ρ', β', m1, a1, s1, h1, _⟩ := ht.up ρ (withArgs m β ρ) hρ holds_withArgs hd'
  refine ⟨ρ', m1, a1, fun v hv => ?_⟩
  have hk := head_occ (O := O) (b := reorder) hv (atStart args.length)
  have h2 := holds_value rfl (by rw [he]; exact ht.inv) m1 v hk
  have h3 := h1 v hk
  rw [he] at h2
  rw [h2, ← h3, s1 v (fun n hn => ?_)]
  · cases v with
    | arg i => exact absurd hv (occ_arg hs)
    | _ => rfl
  · subst hn; exact absurd hv (occ_tmp hs)

/-- The code of the head keeps the environments apart: when no word below the environment of the clause
refers to it, and no argument of the call does, it is the same after the code of the head; and the words of
the variables of the head, even the permanent ones, do not refer to it: they may be passed to the last call as
they are, after the environment has been removed. -/
theorem C51_head_environment (hO : O.body = false) (hm : Start N nY args.length m) (hs : SrcList nY args)
    (h : exec E (genHead O reorder args (atStart args.length)).1 m = some (some m')) {ee : Adr} (h1 : m.s.lssa ≤ ee)
    (h2 : ∀ i, i < nY → ee ≤ yadr m.e i) (h3 : ∀ a b, a < ee → m.s.mem a = .ref b → b < ee)
    (h4 : ∀ i, i < args.length → ∀ b, m.X (.arg i) = .ref b → b < ee) :
    m'.e = m.e ∧ m'.ee = m.ee ∧ m'.s.lssa = m.s.lssa ∧ (∀ i, i < args.length → m'.X (.arg i) = m.X (.arg i)) ∧
    (∀ a b, a < ee → m'.s.mem a = .ref b → b < ee) ∧
    ∀ v, OccList v args → ∀ b, m'.get v = .ref b → b < ee := by
  obtain ⟨ht, he, hee⟩ := head_run hm hs h
  refine ⟨he, hee, ht.lssa, fun i hi => ht.regs _ (start_known hi), ht.low ee h1 h2 h3, fun v hn b hb => ?_⟩
  have hk := head_occ (O := O) (b := reorder) hn (atStart args.length)
  have hsafe := ht.safe ee h1 h2 (by
    intro v hv b hb
    cases v with
    | arg i =>
      simp only [atStart] at hv
      split at hv
      · exact h4 i (by assumption) b hb
      · cases hv
    | _ => cases hv)
  cases hi : (genHead O reorder args (atStart args.length)).2.info v with
  | none => exact absurd hi hk
  | some i =>
    cases i with
    | inHeap =>
      have h5 : m'.s.lssa ≤ ee := by rw [ht.lssa]; exact h1
      cases v with
      | y i => rw [M.get, he] at hb; have := ht.inv.yheap i hi b hb; omega
      | _ => have := ht.inv.heap _ rfl hi b hb; omega
    | unsafeEnv => exact absurd hi (unifList_nouns hO v (headArgs reorder args) _ (start_nouns _ v))
    | notInCurEnv =>
      refine hsafe _ hi b ?_
      rw [← hb]
      cases v with
      | y i => rw [M.get, he]; rfl
      | _ => rfl

/-! ## Examples -/

/-- p([X|T], q(T, Y0, 7, g(X, Z))): Y0 is permanent. -/
def exArgs : List Arg := [.stc 46 [.var (.x 0), .var (.x 1)],
  .stc 113 [.var (.x 1), .var (.y 0), .int 7, .stc 103 [.var (.x 0), .void]]]

/-- The call p([1,2], V): the list at 2, V at 0; the environment is below 35. -/
def exM : M where
  s := stL [.ref 0, .ref 1, .int 1, .lst 4, .int 2, NIL_WORD] 30
  S := none
  X := fun v => match v with
    | .arg 0 => .lst 2
    | _ => .ref 0
  e := 35
  ee := 31

def exO : Opts := ⟨true, false, false⟩

theorem exM_start : Start 40 1 exArgs.length exM where
  ok := by
    refine ok_stL (by omega) ?_ ?_
    · intro a b h
      match a with
      | 0 | 1 | 2 | 3 | 4 | 5 => simp [memL] at h <;> omega
      | a + 6 => simp [memL] at h
    · intro a ha _
      have ha : a < 6 := ha
      match a with
      | 0 | 1 | 2 | 3 | 4 | 5 => simp [memL, ValidWord, isTerm]
      | a + 6 => omega
  args i hi := by
    have hi : i < 2 := hi
    match i with
    | 0 | 1 => simp [exM, stL, memL, ValidWord, isTerm]
    | i + 2 => omega
  env i hi := by
    have hi : i = 0 := by omega
    subst hi; simp [exM, stL, memL, yadr]
  size := by simp [exM]

theorem exArgs_src : SrcList 1 exArgs := by simp [exArgs, Src.SrcList, Src]

/-- The code of the example. -/
theorem ex_code : (genHead exO true exArgs (atStart exArgs.length)).1 =
    [.getList (.arg 0), .unifyVariable (.x 0), .unifyVariable (.x 1),
     .getStructure 113 4 (.arg 1), .unifyValue (.x 1), .unifyVariable (.y 0), .unifyInteger 7,
     .unifyStructure 103 2, .unifyValue (.x 0), .unifyVoid 1] := by
  simp [exArgs, genHead, reorderHead, numbered, classOf, hasTemporaries, Var.isY, genUnifList, genUnif, flatList, flatArg.flatList,
    flatArg, genSubList, genSub.genSubList, genSub, genSubVar, atStart, G.setInfo, voids, isList, genUnif.genAux, exO]

/-- The call succeeds: V is bound to q([2], Y0, 7, g(1, _)). -/
theorem ex_run : ∃ m', exec (exE 9) (genHead exO true exArgs (atStart exArgs.length)).1 exM = some (some m') ∧
    m'.s.mem 0 = .stc 6 ∧ (List.range 9).map (fun i => m'.s.mem (6 + i)) =
      [.fn 113 4, .lst 4, .ref 8, .int 7, .stc 11, .fn 103 2, .int 1, .ref 13, .fn 0 0] ∧
    m'.get (.x 0) = .int 1 ∧ m'.get (.x 1) = .lst 4 ∧ m'.get (.y 0) = .ref 8 := by
  rw [ex_code]
  simp [exec, step, exM, M.get, M.put, M.ret, M.retS, getLst, getStc, deref_nonref, deref_ref, room, stL, memL, push, St.bindUV,
    Mem.set, unifyVariable, copyWord, pushRes, pushVoids, yadr, List.range, List.range.loop]

/-- The hypotheses of the theorems are met by this example. -/
example : ∃ m' : M, Ok 40 m'.s ∧ (∀ ρ, Model 40 m'.s.mem ρ → Match 40 exM exArgs (m'.value ρ) ρ) ∧
    (∀ v, OccList v exArgs → ∀ b, m'.get v = .ref b → b < 31) := by
  obtain ⟨m', h, _⟩ := ex_run
  obtain ⟨h1, h2⟩ := C51_head_sound exM_start exArgs_src h
  refine ⟨m', h1, h2, (C51_head_environment (O := exO) (ee := 31) rfl exM_start exArgs_src h ?_ ?_ ?_ ?_).2.2.2.2.2⟩
  · simp [exM, stL]
  · intro i hi
    have hi : i = 0 := by omega
    subst hi; simp [exM, yadr]
  · intro a b _ h
    match a with
    | 0 | 1 | 2 | 3 | 4 | 5 => simp [exM, stL, memL] at h <;> omega
    | a + 6 => simp [exM, stL, memL] at h
  · intro i hi b h
    have hi : i < 2 := hi
    match i with
    | 0 | 1 => simp [exM] at h <;> omega
    | i + 2 => omega

def exM7 : M := { exM with X := fun v => match v with
    | .arg 0 => .lst 2
    | _ => .int 7 }

/-- The same clause called with p([1,2], 7) fails: no valuation makes them equal. -/
example (β : Var → T) (ρ : Adr → T) : ¬ Match 40 exM7 exArgs β ρ := by
  refine C51_head_fails (E := exE 9) (O := exO) (reorder := true) (nY := 1) (m := exM7) ⟨exM_start.ok, ?_, exM_start.env, exM_start.size⟩ exArgs_src ?_ β ρ
  · intro i hi
    have hi : i < 2 := hi
    match i with
    | 0 | 1 => simp [exM7, exM, stL, memL, ValidWord, isTerm]
    | i + 2 => omega
  · rw [ex_code]
    simp [exec, step, exM7, exM, M.get, M.put, M.retS, getLst, getStc, deref_nonref, room, stL, memL, unifyVariable, copyWord]

/-- A solution of the example: `C51_head_complete` is not vacuous. -/
example : Match 40 exM exArgs (fun v => match v with
    | .x 0 => .int 1
    | .x 1 => .lst (.int 2) (.atm 256)
    | _ => .atm 97) (fun a => match a with
    | 0 => .app 113 [.lst (.int 2) (.atm 256), .atm 97, .int 7, .app 103 [.int 1, .int 5]]
    | 2 => .int 1
    | 3 => .lst (.int 2) (.atm 256)
    | 4 => .int 2
    | 5 => .atm 256
    | _ => .atm 98) := by
  refine ⟨?_, ?_⟩
  · intro a _ ha
    match a with
    | 0 | 1 | 2 | 3 | 4 | 5 => simp [exM, stL, memL, eval, NIL_WORD]
    | a + 6 => simp [exM, stL, memL, isTerm] at ha
  · simp [exArgs, DenList, Den.DenList, Den, exM, stL, memL, eval, List.range, List.range.loop]
    refine ⟨⟨[.int 1, .lst (.int 2) (.atm 256)], ?_⟩, ⟨[.lst (.int 2) (.atm 256), .atm 97, .int 7, .app 103 [.int 1, .int 5]], ?_⟩⟩
    · simp [Den.DenList, Den, mk]
    · simp [Den.DenList, Den, mk]
      exact ⟨[.int 1, .int 5], by simp [Den.DenList, Den]⟩

end Gp.CodeGen
