import Verif.GVar.Snap
/-
C30: global variables.
-/
namespace Gp.GVar

/-- `g_read/2`: undefined (`none`), an error (`some none`), or the term read. -/
def gRead (st : St) (k : Nat) (path : List Nat) : Option (Option Tree) :=
  match getTarget st (.root k, 0) path with
  | none => none
  | some (_, none) => some none
  | some (s, some p) => (readElt (s.nb + 1) s p).map some

/-- A sequence of operations. -/
inductive Run : St → List Op → St → Prop where
  | nil {st} : Run st [] st
  | cons {st st' st'' op ops} : OpOk st op → step st op = some st' → Run st' ops st'' → Run st (op :: ops) st''

theorem run_reach {st sp ops st'} (h : Reach st sp) (hr : Run st ops st') : Reach st' (ops.foldl Spec.step sp) := by
  induction hr generalizing sp with
  | nil => exact h
  | cons ho e _ ih => exact ih (.step _ h ho e)

/-- The operations, one after the other. -/
def runOps : St → List Op → Option St
  | st, [] => some st
  | st, op :: l => match step st op with
    | none => none
    | some st => runOps st l

/-- C30: no operation is undefined (no use of a freed array, of an old address, no double free), after any history, for the operations of `OpOk`. -/
theorem C30_defined_partial {st sp} (h : Reach st sp) (op : Op) (ho : OpOk st op) : (step st op).isSome = true := by
  obtain ⟨own, born, c, r⟩ := reach_core h
  obtain ⟨st', _, _, e, _, _⟩ := step_core c r op ho
  rw [e]; rfl

/-- C30: after any history of assignments, choice points, failures and cuts, `g_read` gives the value of the store: a backtrackable assignment is in the
store only, another one is also in the copies of the choice points, a failure takes the copy of the newest choice point. -/
theorem C30_read_partial {st sp} (h : Reach st sp) (k : Nat) (path : List Nat) :
    ((sp.target (.root k) path).2 = none ∧ gRead st k path = some none) ∨
    ∃ a t, (sp.target (.root k) path).2 = some a ∧ gRead st k path = some (some t) ∧
      Reads (sp.target (.root k) path).1.cur (sp.target (.root k) path).1.len ((sp.target (.root k) path).1.cur a) t := by
  obtain ⟨own, born, c, r⟩ := reach_core h
  obtain ⟨s, sp', t, e1, e2, c', r', e3⟩ := target_core path st sp (.root k) c r trivial trivial
  have e1 : getTarget st (.root k, 0) path = _ := e1
  unfold gRead
  rw [e1, e2]
  cases t with
  | none => exact .inl ⟨rfl, rfl⟩
  | some a =>
    obtain ⟨t, t1, t2⟩ := read_core c' r' (s.nb + 1) a (e3 a rfl).1 (e3 a rfl).2 (by omega)
    refine .inr ⟨a, t, rfl, ?_, t2⟩
    show (readElt (s.nb + 1) s (a, s.genA a)).map some = _
    rw [t1]; rfl

mutual
theorem reads_unique {s len} : ∀ {sv t t'}, Reads s len sv t → Reads s len sv t' → t = t'
  | _, _, _, .term, .term => rfl
  | _, _, _, .arr h, .arr h' => congrArg Tree.node (readsL_unique h h')

theorem readsL_unique {s len} : ∀ {b i k l l'}, ReadsL s len b i k l → ReadsL s len b i k l' → l = l'
  | _, _, _, _, _, .nil, .nil => rfl
  | _, _, _, _, _, .cons h t, .cons h' t' => by rw [reads_unique h h', readsL_unique t t']
end

/-- C30: the value read is determined by the store. -/
theorem C30_reads_unique {s len sv t t'} (h : Reads s len sv t) (h' : Reads s len sv t') : t = t' := reads_unique h h'

/-- C30: the value of a variable after a failure. A choice point is created, the operations `ops` stay above it, then there is a failure to this
choice point: the variable has the last value given by `g_assign` in `ops`, else the value it had at the creation. All `g_assignb` are undone. -/
theorem C30_backtrack_partial {st sp st'} (h : Reach st sp) (k : Nat) (x : Int) (ops : List Op) (op : Op)
    (hx : gRead st k [] = some (some (.leaf x))) (hr : Run st (.create :: ops ++ [op]) st') (hop : op = .retry ∨ op = .trust)
    (hs : Stays 0 ops) (hd : depth 0 ops = 0) (hp : ∀ o ∈ ops, Plain k o) :
    gRead st' k [] = some (some (.leaf (lastAssign k x ops))) := by
  have term : ∀ {st sp}, Reach st sp → ∀ y, gRead st k [] = some (some (.leaf y)) ↔ sp.cur (.root k) = .term y := by
    intro st sp h y
    rcases C30_read_partial h k [] with ⟨e, _⟩ | ⟨a, t, e1, e2, e3⟩
    · cases e
    · have e1 : some (Addr.root k) = some a := e1
      injection e1 with e1
      subst e1
      have e3 : Reads sp.cur sp.len (sp.cur (.root k)) t := e3
      rw [e2]
      constructor
      · intro q
        injection q with q
        injection q with q
        subst q
        cases hc : sp.cur (.root k) with
        | term z => rw [hc] at e3; cases e3; rfl
        | arr b => rw [hc] at e3; cases e3
      · intro q
        rw [q] at e3
        cases e3
        rfl
  have h2 := run_reach h hr
  rw [term h2]
  have hx := (term h x).1 hx
  rw [List.foldl_append]
  show ((ops.foldl Spec.step (sp.step .create)).step op).cur (.root k) = _
  have q := has_ops (k := k) ops (sp.step .create) 0 x hs hp ⟨sp.cur, rfl, hx⟩
  rw [hd] at q
  obtain ⟨s, q1, q2⟩ := q
  generalize ops.foldl Spec.step (sp.step .create) = sp1 at q1 ⊢
  cases hsh : sp1.sh with
  | nil => rw [hsh] at q1; cases q1
  | cons c l =>
    rw [hsh] at q1
    have : c = s := by simpa using q1
    subst this
    rcases hop with e | e <;> subst e <;> unfold Spec.step <;> dsimp only <;> rw [hsh] <;> exact q2

/-! Examples: the hypotheses are met. -/

/-- An automatic array in a variable, extended after a choice point, an element changed in both ways, an array in an element. -/
def exOps : List Op :=
  [.assign 0 [] (.arr .auto 2 (fun i => i) 7), .create, .assignb 0 [1] (.term 5), .assign 0 [5] (.term 9), .assign 0 [0] (.arr .fixed 1 (fun _ => 3) 0),
    .assignb 0 [0, 0] (.term 4), .assignb 1 [] (.term 8), .inc 2 [] 6, .retry]

/-- All operations of a sequence are permitted, by evaluation. -/
def okOps (st : St) : List Op → Bool
  | [] => true
  | op :: l => (match op with
    | .inc k path _ => match getTarget st (.root k, 0) path with
      | some (s, some p) => (s.undo p.1).isNone
      | _ => true
    | .assignb k path (.arr _ _ _ _) => match getTarget st (.root k, 0) path with
      | some (s, some p) => !(s.val p.1).isArr
      | _ => true
    | .assign k path (.arr .extend n _ _) => match getTarget st (.root k, 0) path with
      | some (s, some p) => decide ((s.val p.1).size ≤ n)
      | _ => true
    | _ => true) && (match step st op with
    | none => false
    | some st => okOps st l)

theorem run_of_ok : ∀ (ops : List Op) (st st' : St), okOps st ops = true → runOps st ops = some st' → Run st ops st'
  | [], st, st', _, e => by injection e with e; subst e; exact .nil
  | op :: l, st, st', h, e => by
    unfold okOps at h
    rw [Bool.and_eq_true] at h
    obtain ⟨h1, h2⟩ := h
    unfold runOps at e
    cases hs : step st op with
    | none => rw [hs] at e; cases e
    | some s =>
      rw [hs] at e h2
      refine .cons ?_ hs (run_of_ok l s st' h2 e)
      cases op with
      | assign k path v =>
        cases v with
        | term x => trivial
        | arr kind n ini d =>
          cases kind with
          | extend =>
            intro s p e
            dsimp only at h1
            rw [e] at h1
            simpa using h1
          | _ => trivial
      | assignb k path v =>
        cases v with
        | term x => trivial
        | arr kind n ini d =>
          intro s p e
          dsimp only at h1
          rw [e] at h1
          simpa using h1
      | inc k path x =>
        intro s p e
        dsimp only at h1
        rw [e] at h1
        simpa using h1
      | _ => trivial

/-- A history which uses all kinds of operations. -/
theorem ex_reach : ∃ st, Run init exOps st ∧ Reach st (exOps.foldl Spec.step Spec.init) ∧
    gRead st 0 [1] = some (some (.leaf 1)) ∧ gRead st 0 [5] = some (some (.leaf 9)) ∧ gRead st 0 [0] = some (some (.node [.leaf 3])) ∧
    gRead st 1 [] = some (some (.leaf 0)) ∧ gRead st 2 [] = some (some (.leaf 6)) ∧ gRead st 0 [7] = some (some (.leaf 7)) := by
  have e : (runOps init exOps).isSome = true := by decide +kernel
  obtain ⟨st, hst⟩ := Option.isSome_iff_exists.1 e
  have hr := run_of_ok exOps init st (by decide +kernel) hst
  have go : ∀ {α : Type} (f : St → α) (r : α), (runOps init exOps).map f = some r → f st = r := by
    intro α f r q
    rw [hst] at q
    injection q
  exact ⟨st, hr, run_reach .init hr, go (fun s => gRead s 0 [1]) _ rfl, go (fun s => gRead s 0 [5]) _ rfl, go (fun s => gRead s 0 [0]) _ rfl,
    go (fun s => gRead s 1 []) _ rfl, go (fun s => gRead s 2 []) _ rfl, go (fun s => gRead s 0 [7]) _ rfl⟩

/-- `C30_defined_partial` and `C30_read_partial` apply to it. -/
example : ∃ st sp, Reach st sp ∧ OpOk st (.assign 0 [1] (.term 2)) ∧ (step st (.assign 0 [1] (.term 2))).isSome = true := by
  obtain ⟨st, _, h, _⟩ := ex_reach
  exact ⟨st, _, h, trivial, C30_defined_partial h _ trivial⟩

/-- `C30_backtrack_partial`: the value 2 of `g_assign` remains, not the values of `g_assignb` before and after. -/
example : ∃ st', Run init (.create :: [.assignb 0 [] (.term 1), .assign 0 [] (.term 2), .create, .assignb 0 [] (.term 3), .retry, .cut 1,
      .assignb 0 [] (.arr .fixed 2 (fun _ => 0) 0)] ++ [.trust]) st' ∧ gRead st' 0 [] = some (some (.leaf 2)) := by
  have e : (runOps init (.create :: [.assignb 0 [] (.term 1), .assign 0 [] (.term 2), .create, .assignb 0 [] (.term 3), .retry, .cut 1,
      .assignb 0 [] (.arr .fixed 2 (fun _ => 0) 0)] ++ [.trust])).isSome = true := by decide +kernel
  obtain ⟨st', hst⟩ := Option.isSome_iff_exists.1 e
  have hr := run_of_ok _ init st' (by decide +kernel) hst
  refine ⟨st', hr, C30_backtrack_partial .init 0 0 _ .trust rfl hr (.inr rfl) ?_ rfl ?_⟩
  · simp [Stays]
  · simp [Plain]

/-! The cases excluded by `OpOk`, and other differences with the manual. -/

/-- `g_assignb(a, 5), g_inc(a), fail`: the increment, which is not backtrackable, is lost. -/
theorem C30_inc_undone : (runOps init [.create, .assignb 0 [] (.term 5), .inc 0 [] 1, .retry]).map (fun s => gRead s 0 []) =
    some (some (some (.leaf 0))) := rfl

/-- `g_assignb(a, g_array(2, 1)), g_assign(a, g_array_extend(3, 1)), fail`: the last assignment is undone although it is not backtrackable. -/
theorem C30_extend_undone : (runOps init [.create, .assignb 0 [] (.arr .fixed 2 (fun _ => 1) 0), .assign 0 [] (.arr .extend 3 (fun _ => 1) 0), .retry]).map
    (fun s => gRead s 0 []) = some (some (some (.leaf 0))) := rfl

/-- With `g_array` in place of `g_array_extend` it is not undone. -/
example : (runOps init [.create, .assignb 0 [] (.arr .fixed 2 (fun _ => 1) 0), .assign 0 [] (.arr .fixed 3 (fun _ => 1) 0), .retry]).map
    (fun s => gRead s 0 []) = some (some (some (.node [.leaf 1, .leaf 1, .leaf 1]))) := rfl

/-- `g_assign(a, g_array(3, 0)), g_assignb(a, g_array(1, 0))`: the 3 elements are copied to the new block, which has place for 2. -/
theorem C30_assignb_overflow : runOps init [.assign 0 [] (.arr .fixed 3 (fun _ => 0) 0), .assignb 0 [] (.arr .fixed 1 (fun _ => 0) 0)] = none := rfl

/-- `g_assign(a, g_array(3, 0)), g_assign(a, g_array_extend(1, 0))`: an element is read after the end of the block. -/
theorem C30_extend_overflow : runOps init [.assign 0 [] (.arr .fixed 3 (fun _ => 0) 0), .assign 0 [] (.arr .extend 1 (fun _ => 0) 0)] = none := rfl

/-- `g_assign(a, g_array_auto(1, 0)), g_assignb(a, g_array(1, 7))`: the new array is automatic. -/
theorem C30_assignb_auto : (runOps init [.assign 0 [] (.arr .auto 1 (fun _ => 0) 0), .assignb 0 [] (.arr .fixed 1 (fun _ => 7) 0)]).map
    (fun s => gRead s 0 [3]) = some (some (some (.leaf 0))) := rfl

/-- It is not with `g_assign`. -/
example : (runOps init [.assign 0 [] (.arr .auto 1 (fun _ => 0) 0), .assign 0 [] (.arr .fixed 1 (fun _ => 7) 0)]).map
    (fun s => gRead s 0 [3]) = some (some none) := rfl

end Gp.GVar
