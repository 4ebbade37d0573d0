import Verif.Fd.TrailRefine
import Verif.Fd.TellProps
/-
C27: after a failure the finite domain variables are what they were at the creation of the choice point (`Reach`, `Restored` in
TrailSpec.lean: a history of operations, with one copy of the memory for each choice point).

Partial: `Nb_Cstr` (used by the labeling heuristics only) is not restored, and the copies made by `copy_term/2` are excluded from the
histories: for both the property is false, see the witnesses.
-/
namespace Gp.Fd.Trail

open Gp.FdRange Gp.Fd

theorem restored_of {c st s l} (h : Reach c st (s :: l)) :
    Restored (restore st).mem s ∧ (restore st).cs = s.cs ∧ (restore st).vars = s.vars ∧
      Basic c s.vars (restore st).mem s.cs (restore st).stamp := by
  obtain ⟨L, e1, e2, g⟩ := reach_good h
  cases L with
  | nil => cases e2
  | cons a L =>
    injection e2 with e2 e3
    obtain ⟨h1, h2, h3, h4, h5, _⟩ := good_restore g e1
    subst e2
    have b := h4.basic
    rw [h3, h2] at b
    have hc : a.cp.csb = a.s.cs := by
      obtain ⟨_, _, _, q, _⟩ := g
      exact q
    exact ⟨fun f k hk hn => h1 (f, k) ⟨hc ▸ hk, hn⟩, h2, h3, b⟩

/-- C27 (partial: not `Nb_Cstr`, not the copied variables): after any history, when a failure returns to a choice point which is kept
or deleted, all words of the frames are those of its creation (domains, dates, dependencies, constraint frames), the top of the
constraint stack too, and the existing variables are those of its creation. -/
theorem C27_restored_partial (c : Cfg) (st : St) (s : Snap) (l : List Snap) (h : Reach c st (s :: l)) :
    (Restored (retry st).mem s ∧ (retry st).cs = s.cs ∧ (retry st).vars = s.vars) ∧
    (Restored (trust st).mem s ∧ (trust st).cs = s.cs ∧ (trust st).vars = s.vars) :=
  ⟨⟨(restored_of h).1, (restored_of h).2.1, (restored_of h).2.2.1⟩, ⟨(restored_of h).1, (restored_of h).2.1, (restored_of h).2.2.1⟩⟩

/-- C27 (partial, as above): the domain of each variable, with its vector of bits, is that of the creation. -/
theorem C27_domains_partial (c : Cfg) (st : St) (s : Snap) (l : List Snap) (h : Reach c st (s :: l)) (v : Nat) (hv : v ∈ s.vars) :
    fdvOf c (retry st).mem v = fdvOf c s.mem v ∧ fdvOf c (trust st).mem v = fdvOf c s.mem v := by
  obtain ⟨r, _, _, b⟩ := restored_of h
  have key : fdvOf c s.mem v = fdvOf c (restore st).mem v := by
    by_cases hp : ((restore st).mem (.vecp, v)).toNat = 0
    · unfold fdvOf rangeOf
      have q : ∀ f, f ≠ Field.ncstr → s.mem (f, v) = (restore st).mem (f, v) := fun f hf => (r f v (b.lt v hv) hf).symm
      rw [q .tag (by decide), q .nb (by decide), q .extra (by decide), q .min (by decide), q .max (by decide), q .vecp (by decide), if_pos hp,
        if_pos hp]
    · unfold fdvOf rangeOf
      have q : ∀ f, f ≠ Field.ncstr → s.mem (f, v) = (restore st).mem (f, v) := fun f hf => (r f v (b.lt v hv) hf).symm
      rw [q .tag (by decide), q .nb (by decide), q .extra (by decide), q .min (by decide), q .max (by decide), q .vecp (by decide), if_neg hp,
        if_neg hp]
      have e : readVec s.mem ((restore st).mem (.vecp, v)).toNat c.size =
          readVec (restore st).mem ((restore st).mem (.vecp, v)).toNat c.size :=
        readVec_congr fun i hi => (r .word _ (by have := (b.vec v hv hp).2; omega) (by decide)).symm
      rw [e]
  exact ⟨key.symm, key.symm⟩

/-- C27: a tell writes the memory as the tell of a variable (C25) says; the other variables are kept; it is a history, so that
`C27_restored_partial` applies after it. -/
theorem C27_tell (c : Cfg) (hc : c.Ok) (st : St) (l : List Snap) (h : Reach c st l) (v : Nat) (hv : v ∈ st.vars)
    (hok : VarOk c (fdvOf c st.mem v)) (op : Gp.Fd.Op) (hr : ∀ r, op = .range r → WF c r)
    (hi : ∀ a b, op = .interval a b → -2147483648 < a) :
    Reach c (tellM c st v op) l ∧ fdvOf c (tellM c st v op).mem v = (tell c (fdvOf c st.mem v) op).v ∧
      (tellM c st v op).vars = st.vars ∧ ∀ w ∈ st.vars, w ≠ v → fdvOf c (tellM c st v op).mem w = fdvOf c st.mem w := by
  have t := tell_ok l (reach_good h) hc hv hok.wf hok.nonneg op hr hi
  exact ⟨t.steps.reach h, t.fdv, t.vars, t.others⟩

/-- C27 (partial, as above): tells after the creation of a choice point, then a failure: each variable which existed has the
domain it had. The told sets and the order are arbitrary. -/
theorem C27_tells_then_fail_partial (c : Cfg) (hc : c.Ok) (st : St) (l : List Snap) (h : Reach c st l)
    (tells : List (Nat × Gp.Fd.Op)) (st' : St)
    (hst : tells.foldl (fun s p => tellM c s p.1 p.2) (create st) = st')
    (hok : ∀ pre p post, tells = pre ++ p :: post →
      p.1 ∈ st.vars ∧ VarOk c (fdvOf c (pre.foldl (fun s p => tellM c s p.1 p.2) (create st)).mem p.1) ∧
      (∀ r, p.2 = .range r → WF c r) ∧ (∀ a b, p.2 = .interval a b → -2147483648 < a)) :
    ∀ v ∈ st.vars, fdvOf c (retry st').mem v = fdvOf c st.mem v ∧ fdvOf c (trust st').mem v = fdvOf c st.mem v := by
  have h0 : Reach c (create st) (⟨st.mem, st.cs, st.vars⟩ :: l) := Reach.step .create h trivial
  have key : ∀ (ts : List (Nat × Gp.Fd.Op)) (s : St), Reach c s (⟨st.mem, st.cs, st.vars⟩ :: l) → s.vars = st.vars →
      (∀ pre p post, ts = pre ++ p :: post →
        p.1 ∈ st.vars ∧ VarOk c (fdvOf c (pre.foldl (fun s p => tellM c s p.1 p.2) s).mem p.1) ∧
        (∀ r, p.2 = .range r → WF c r) ∧ (∀ a b, p.2 = .interval a b → -2147483648 < a)) →
      Reach c (ts.foldl (fun s p => tellM c s p.1 p.2) s) (⟨st.mem, st.cs, st.vars⟩ :: l) := by
    intro ts
    induction ts with
    | nil => exact fun s hs _ _ => hs
    | cons p ts ih =>
      intro s hs ev ho
      obtain ⟨o1, o2, o3, o4⟩ := ho [] p ts rfl
      obtain ⟨k1, _, k3, _⟩ := C27_tell c hc s _ hs p.1 (ev ▸ o1) o2 p.2 o3 o4
      exact ih _ k1 (k3.trans ev) fun pre q post e => ho (p :: pre) q post (by rw [e]; rfl)
  have hr := key tells _ h0 rfl hok
  rw [hst] at hr
  exact fun v hv => C27_domains_partial c st' _ l hr v hv

/-! ### Examples: a history with two choice points, a cut and tells -/

/-- Two variables 0..10 at the addresses 1 and 18. -/
def ex0 : St := newVar (newVar (init 0 1000) 0 10) 0 10

/-- A choice point, `X ≠ 5` (the domain becomes a vector). -/
def ex1 : St := tellM exCfg (create ex0) 1 (.notValue 5)

/-- A second choice point, `X ≠ 6`, a dependency, the second choice point is cut, then `X = 7`. -/
def ex2 : St := tellM exCfg (cut (addDep (tellM exCfg (create ex1) 1 (.notValue 6)) 1 2 77) 1) 1 (.value 7)

theorem ex0_reach : Reach exCfg ex0 [] := .step (.newVar 0 10) (.step (.newVar 0 10) (.init 0 1000) trivial) trivial

theorem exCp_reach : Reach exCfg (create ex0) [⟨ex0.mem, ex0.cs, ex0.vars⟩] := .step .create ex0_reach trivial

theorem ex0_var : fdvOf exCfg (create ex0).mem 1 = newInterval 0 10 := by decide +kernel

theorem ex1_reach : Reach exCfg ex1 [⟨ex0.mem, ex0.cs, ex0.vars⟩] :=
  (C27_tell exCfg exCfg_ok (create ex0) _ exCp_reach 1 (by decide)
    (by rw [ex0_var]; exact newInterval_ok exCfg (by decide) (by decide)) (.notValue 5) (fun _ h => by cases h) (fun _ _ h => by cases h)).1

theorem ex2_reach : Reach exCfg ex2 [⟨ex0.mem, ex0.cs, ex0.vars⟩] := by
  have h1 : Reach exCfg (create ex1) [⟨ex1.mem, ex1.cs, ex1.vars⟩, ⟨ex0.mem, ex0.cs, ex0.vars⟩] := .step .create ex1_reach trivial
  have h2 : Reach exCfg (remove exCfg (create ex1) 1 6) _ := .step (.remove 1 6) h1 ⟨by decide, fun _ => by decide⟩
  have e2 : tellM exCfg (create ex1) 1 (.notValue 6) = remove exCfg (create ex1) 1 6 := by
    have e : fdvOf exCfg (create ex1).mem 1 = fdvOf exCfg ex1.mem 1 := rfl
    have v : fdvOf exCfg ex1.mem 1 = ⟨none, 10, ⟨false, 0, 10, some [0x7df#64, 0#64]⟩⟩ := by decide +kernel
    unfold tellM tellNotValueM notBodyM
    dsimp only
    rw [e, v]
    rfl
  have h3 : Reach exCfg (addDep (remove exCfg (create ex1) 1 6) 1 2 77) _ := .step (.addDep 1 2 77) h2 (by show 1 ∈ (remove _ _ _ _).vars; rw [remove_vars]; decide)
  have h4 : Reach exCfg (cut (addDep (remove exCfg (create ex1) 1 6) 1 2 77) 1) _ := .step (.cut 1) h3 trivial
  have v4 : fdvOf exCfg (cut (addDep (remove exCfg (create ex1) 1 6) 1 2 77) 1).mem 1 =
      ⟨none, 9, ⟨false, 0, 10, some [0x79f#64, 0#64]⟩⟩ := by decide +kernel
  have hv : 1 ∈ (cut (addDep (remove exCfg (create ex1) 1 6) 1 2 77) 1).vars := by decide +kernel
  have h5 : Reach exCfg (updInt exCfg (cut (addDep (remove exCfg (create ex1) 1 6) 1 2 77) 1) 1 7) _ := .step (.updInt 1 7) h4 hv
  have e5 : ex2 = updInt exCfg (cut (addDep (remove exCfg (create ex1) 1 6) 1 2 77) 1) 1 7 := by
    unfold ex2
    rw [e2]
    unfold tellM tellValueM
    dsimp only
    rw [v4]
    rfl
  rw [e5]
  exact h5

-- the domain is 7 after the history, with three entries for the first and two for the second trailing; 0..10 after the failure
example : (fdvOf exCfg ex2.mem 1).tag = some 7 ∧ (fdvOf exCfg ex2.mem 1).r.min = 7 ∧ ex2.mem (.mask, 1) = 4 := by decide +kernel
example : fdvOf exCfg (retry ex2).mem 1 = newInterval 0 10 ∧ (retry ex2).mem (.mask, 1) = 0 := by decide +kernel
example : fdvOf exCfg (trust ex2).mem 1 = fdvOf exCfg ex0.mem 1 := (C27_domains_partial exCfg ex2 _ [] ex2_reach 1 (by decide)).2
example : Restored (retry ex2).mem ⟨ex0.mem, ex0.cs, ex0.vars⟩ := (C27_restored_partial exCfg ex2 _ [] ex2_reach).1.1
example : ∀ v ∈ ex0.vars, fdvOf exCfg (retry ex1).mem v = fdvOf exCfg ex0.mem v := fun v hv =>
  (C27_tells_then_fail_partial exCfg exCfg_ok ex0 [] ex0_reach [(1, .notValue 5)] ex1 rfl (fun pre p post e => by
    cases pre with
    | nil =>
      injection e with e1 e2
      subst e1
      exact ⟨by decide, by rw [show fdvOf exCfg (List.foldl _ (create ex0) []).mem 1 = newInterval 0 10 from ex0_var]; exact newInterval_ok exCfg (by decide) (by decide),
        (fun _ h => by cases h), (fun _ _ h => by cases h)⟩
    | cons a pre => injection e with e1 e2; cases pre <;> cases e2) v hv).1

/-! ### Where the property is false -/

/-- `Nb_Cstr` is not restored: a constraint is set on a variable without a dependency (`Nb_Cstr(fdv_adr)++` without trailing,
fd_inst.c:776), then a failure. The heuristics of labeling compare `Nb_Cstr` (fd_values_c.c:685-749). -/
theorem C27_nb_cstr_witness :
    Reach exCfg (newCstr (create ex0) 0 0 1 (some 1)) [⟨ex0.mem, ex0.cs, ex0.vars⟩] ∧
    (retry (newCstr (create ex0) 0 0 1 (some 1))).mem (.ncstr, 1) = 1 ∧ ex0.mem (.ncstr, 1) = 0 :=
  ⟨.step (.newCstr 0 0 1 (some 1)) exCp_reach trivial, by decide +kernel, by decide +kernel⟩

/-- Also with the dependency, which is added after the increment (the trail saves the incremented value). -/
theorem C27_nb_cstr_dependency_witness :
    (retry (addDep (newCstr (create ex0) 0 0 1 (some 1)) 1 0 35)).mem (.ncstr, 1) = 1 ∧ ex0.mem (.ncstr, 1) = 0 := by decide +kernel

/-- A finite domain variable copied by `copy_term/2` is in the global stack, above `CSB(B)`: its instantiation is not trailed
(fd_inst.c:197, 214-224), after the failure it is still instantiated. `X in 0..10, copy_term(X, Y), (Y = 3, fail ; fd_dom(Y, D))`. -/
theorem C27_copy_witness :
    fdvOf exCfg (copyVar ex0 1).mem 1000 = newInterval 0 10 ∧
    fdvOf exCfg (retry (tellM exCfg (create (copyVar ex0 1)) 1000 (.value 3))).mem 1000 = newInt 3 := by decide +kernel

end Gp.Fd.Trail
