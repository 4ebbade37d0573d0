import Verif.Mirror.Fine
/-
C46: the stream table, the aliases and the mirrors.
-/
namespace Gp.Mirror

open Spec

/-- Any sequence of predicates. -/
def Any : Op → Prop := fun _ => True

theorem goesTo_standard (a : Nat) : goesTo a = standard a := by
  by_cases h : a < 9
  · have : a = 0 ∨ a = 1 ∨ a = 2 ∨ a = 3 ∨ a = 4 ∨ a = 5 ∨ a = 6 ∨ a = 7 ∨ a = 8 := by omega
    rcases this with rfl | rfl | rfl | rfl | rfl | rfl | rfl | rfl | rfl <;> rfl
  · obtain ⟨b, rfl⟩ : ∃ b, a = b + 9 := ⟨a - 9, by omega⟩
    have c0 : userInput = 0 := rfl
    have c1 : userOutput = 1 := rfl
    have c2 : userError = 2 := rfl
    have c3 : currentInput = 3 := rfl
    have c4 : currentOutput = 4 := rfl
    have c5 : topInput = 5 := rfl
    have c6 : topOutput = 6 := rfl
    have c7 : debugInput = 7 := rfl
    have c8 : debugOutput = 8 := rfl
    rw [goesTo, if_neg (by omega), if_neg (by omega), if_neg (by omega)]
    rfl

theorem mem_mirrors {s : St} {i j : Nat} : j ∈ mirrors s i ↔ ∃ n, At s.tbl i true n ∧ n.stm = j := by
  simp only [mirrors, At]
  cases s.tbl i with
  | none => simp
  | some p => simp only [List.mem_map, Option.some.injEq, exists_eq_left']; rfl

theorem mem_mirrorsOf {s : St} {i j : Nat} : j ∈ mirrorsOf s i ↔ ∃ n, At s.tbl i false n ∧ n.stm = j := by
  simp only [mirrorsOf, At]
  cases s.tbl i with
  | none => simp
  | some p => simp only [List.mem_map, Option.some.injEq, exists_eq_left']; rfl

/-! ### The tables -/

/-- **C46**: after any sequence of predicates (also when some of them fail or raise errors) the standard streams
are open, every alias designates one open stream, the predefined aliases exist, no stream is its own mirror,
and the lists of mirrors are open streams and agree with each other. -/
theorem C46_tables_consistent {P : Op → Prop} {s : St} (h : Reach P s) : Consistent s := by
  have hI := reach_inv h
  refine ⟨?_, ?_, ?_, ?_, ?_, ?_, ?_⟩
  · intro i hi; exact isOpen_iff.2 (hI.std i hi)
  · refine ⟨isOpen_iff.2 hI.lastO, ?_⟩
    intro i hi
    by_cases hl : s.last < i
    · exact absurd (hI.lastM i hl) (isOpen_iff.1 hi)
    · omega
  · refine ⟨hI.akeys, ?_⟩
    intro a i ha
    rw [← findAlias_resolve] at ha
    exact isOpen_iff.2 (hI.ali _ (findAlias_mem ha))
  · intro a ha
    rw [← findAlias_resolve]
    cases hf : findAlias s.alias a with
    | none => exact absurd (hI.pre a ha) (findAlias_none.1 hf)
    | some i => exact ⟨i, rfl⟩
  · intro i
    refine ⟨?_, ?_, ?_⟩
    · simp only [mirrors]
      cases hp : s.tbl i with
      | none => exact List.Pairwise.nil
      | some p => exact hI.mir.nodup i p true hp
    · simp only [mirrorsOf]
      cases hp : s.tbl i with
      | none => exact List.Pairwise.nil
      | some p => exact hI.mir.nodup i p false hp
    · intro hm
      obtain ⟨n, h1, h2⟩ := mem_mirrors.1 hm
      exact hI.mir.irr _ _ _ h1 h2
  · intro i j
    rw [mem_mirrors, mem_mirrorsOf]
    constructor
    · rintro ⟨n, h1, rfl⟩
      obtain ⟨n', h2, h3⟩ := hI.mir.sym _ _ _ h1
      obtain ⟨p, hp, _⟩ := h1
      exact ⟨⟨n', h2, h3⟩, p, hp⟩
    · rintro ⟨⟨n, h1, rfl⟩, _⟩
      obtain ⟨n', h2, h3⟩ := hI.mir.sym _ _ _ h1
      exact ⟨n', h2, h3⟩
  · intro i j hm
    obtain ⟨n, h1, rfl⟩ := mem_mirrors.1 hm
    obtain ⟨n', ⟨q, hq, _⟩, _⟩ := hI.mir.sym _ _ _ h1
    exact ⟨q, hq⟩

/-- A file with two aliases and a mirror, and a term stream which is closed. -/
def exOps : List Op :=
  [.«open» false [20, 21] [] false false, .openTerm false, .addMirror (.alias 20) (.stream 4),
    .addMirror (.stream 4) (.alias userOutput), .setOutput (.alias 21), .put none 104, .put none 10, .put (some (.stream 4)) 105]

def run (f : Nat) : List Op → St → Option St
  | [], s => some s
  | o :: l, s =>
    match step f s o with
    | .ok s => run f l s
    | _ => none

theorem run_reach {P : Op → Prop} {f : Nat} : ∀ {l : List Op} {s s' : St}, Reach P s → (∀ o ∈ l, P o) →
    run f l s = some s' → Reach P s' := by
  intro l
  induction l with
  | nil => intro s s' h _ e; cases e; exact h
  | cons o l ih =>
    intro s s' h hP e
    rw [run] at e
    split at e
    · next s1 h1 => exact ih (.ok h (hP o (by simp)) h1) (fun o' ho => hP o' (by simp [ho])) e
    · cases e

/-- The state after the predicates. -/
def final (f : Nat) (l : List Op) : St := (run f l init).getD init

theorem final_reach {P : Op → Prop} {f : Nat} {l : List Op} (hP : ∀ o ∈ l, P o) : Reach P (final f l) := by
  rw [final]
  cases h : run f l init with
  | none => exact .init
  | some s => exact run_reach .init hP h

example : ∃ s, Reach Fine s ∧ mirrors s 3 = [4] ∧ mirrors s 4 = [1] ∧ mirrorsOf s 1 = [4] ∧
    resolve s currentOutput = some 3 ∧ written s 3 = some [104, 10] ∧ written s 4 = some [104, 10, 105] ∧
    written s 1 = some [104, 10, 105] := by
  refine ⟨final 10 exOps, final_reach ?_, ?_⟩
  · simp only [exOps, List.mem_cons, List.not_mem_nil, or_false]
    rintro o (rfl | rfl | rfl | rfl | rfl | rfl | rfl | rfl) <;> first | trivial | (intro h; cases h)
  · exact ⟨rfl, rfl, rfl, rfl, rfl, rfl, rfl⟩

/-- **C46**: no predicate reads a freed node, a closed file or an absent entry, provided that the files opened with
reposition(true) can be repositioned, that no close fails without force, and that set_stream_alias/2 is not used
on the predefined aliases.  Missing: these three cases (see `C46_open_reposition`, `C46_close_fails`,
`C46_input_is_output`) and cyclic mirrors, for which the recursion does not end (`C46_put_cycle`). -/
theorem C46_no_ub_partial {s : St} (h : Reach Fine s) (f : Nat) (o : Op) (ho : Fine o) : step f s o ≠ .ub :=
  (step_fine f s o (reach_fine h).1 (reach_fine h).2 ho).1

example : Reach Fine init ∧ Fine (.«open» true [20] [] false false) := ⟨.init, fun h => nomatch h⟩

/-- **C46**: the current input is an input stream and the current output is an output stream.  Missing: after
set_stream_alias/2 on a predefined alias this is false (`C46_input_is_output`). -/
theorem C46_current_partial {s : St} (h : Reach Fine s) :
    (∃ i, resolve s currentInput = some i ∧ IsInput s i) ∧ (∃ i, resolve s currentOutput = some i ∧ IsOutput s i) := by
  obtain ⟨hI, hF⟩ := reach_fine h
  obtain ⟨i, h1, _⟩ := default_in hI
  obtain ⟨j, h2, _⟩ := default_out hI
  refine ⟨⟨i, by rw [← findAlias_resolve]; exact h1, hF.inp _ _ h1 ?_⟩,
    ⟨j, by rw [← findAlias_resolve]; exact h2, hF.outp _ _ h2 ?_⟩⟩
  · exact .inr (.inl rfl)
  · exact .inr (.inl rfl)

example : ∃ s, Reach Fine s ∧ resolve s currentOutput = some 3 :=
  ⟨_, .ok (.ok .init (P := Fine) (o := .«open» false [20] [] false false) (f := 1) (fun h => nomatch h) rfl)
    (o := .setOutput (.alias 20)) (f := 1) trivial rfl, rfl⟩

/-! ### Designating a stream -/

/-- **C46**: a stream term or an alias is accepted exactly when it designates an open stream (of the right
direction). -/
theorem C46_designation {P : Op → Prop} {s : St} (h : Reach P s) (x : Sora) (i : Nat) :
    (getStream s x .exist = some i ↔ Denotes s x i) ∧
    (getStream s x .input = some i ↔ (Denotes s x i ∧ IsInput s i)) ∧
    (getStream s x .output = some i ↔ (Denotes s x i ∧ IsOutput s i)) :=
  ⟨getStream_exist (reach_inv h), getStream_input (reach_inv h), getStream_output (reach_inv h)⟩

example : Reach Any init ∧ Denotes init (.alias userError) 2 ∧ IsOutput init 2 := ⟨.init, ⟨⟨_, rfl⟩, rfl⟩, _, rfl, rfl⟩

/-! ### Closing -/

theorem written_strip {s s' : St} {i : Nat} (h : ∀ k, s'.tbl k = if k = i then none else (s.tbl k).map (strip i)) :
    ¬ IsOpen s' i ∧ (∀ k, k ≠ i → written s' k = written s k ∧ mirrors s' k = (mirrors s k).filter (· ≠ i) ∧
      mirrorsOf s' k = (mirrorsOf s k).filter (· ≠ i)) := by
  refine ⟨?_, ?_⟩
  · rw [isOpen_iff, h, if_pos rfl]; exact fun h => h rfl
  · intro k hk
    simp only [written, mirrors, mirrorsOf]
    rw [h, if_neg hk]
    cases s.tbl k with
    | none => exact ⟨rfl, rfl, rfl⟩
    | some p =>
      refine ⟨rfl, ?_, ?_⟩
      · simp only [Option.map_some, strip, List.filter_map, Function.comp_def]
      · simp only [Option.map_some, strip, List.filter_map, Function.comp_def]

/-- **C46**: closing a stream which is not a standard stream: its entry is free, no alias designates it and no
stream has it as a mirror; the predefined aliases which designated it go back to their standard stream, its other
aliases disappear, and nothing else changes. -/
theorem C46_close {P : Op → Prop} {s : St} (h : Reach P s) (f : Nat) {x : Sora} {i : Nat} {p : Stm} {force fails : Bool}
    (hx : Denotes s x i) (hp : s.tbl i = some p) (h3 : 3 ≤ i) (hs : p.special = false) (hl : p.live = true)
    (hc : fails = true → force = true) :
    ∃ s', step f s (.close x force fails) = .ok s' ∧ ¬ IsOpen s' i ∧
      (∀ k, k ≠ i → written s' k = written s k ∧ mirrors s' k = (mirrors s k).filter (· ≠ i) ∧
        mirrorsOf s' k = (mirrorsOf s k).filter (· ≠ i)) ∧
      (∀ a, resolve s' a = if resolve s a = some i then standard a else resolve s a) := by
  have hI := reach_inv h
  obtain ⟨s', e1, e2, e3, e4⟩ := hI.deleteStream h3 (by rw [hp]; exact fun e => nomatch e)
  refine ⟨s', ?_, (written_strip e3).1, (written_strip e3).2, ?_⟩
  · simp only [step, (getStream_exist hI).2 hx, closeStm, hp, hs, hl]
    have a0 : stdin = 0 := rfl
    have a1 : stdout = 1 := rfl
    have a2 : stderr = 2 := rfl
    rw [if_neg (by simp), if_neg (by simp), if_neg (by omega), if_neg (by cases fails <;> cases force <;> simp_all), e1]
    rfl
  · intro a
    rw [← findAlias_resolve, ← findAlias_resolve, e4, findAlias_del hI.akeys, goesTo_standard]

/-- **C46**: closing a term stream has the same effect. -/
theorem C46_close_term {P : Op → Prop} {s : St} (h : Reach P s) (f : Nat) {x : Sora} {i : Nat} {p : Stm}
    (hx : Denotes s x i) (hp : s.tbl i = some p) (hs : p.special = true) :
    ∃ s', step f s (.closeTerm p.input x) = .ok s' ∧ ¬ IsOpen s' i ∧
      (∀ k, k ≠ i → written s' k = written s k ∧ mirrors s' k = (mirrors s k).filter (· ≠ i) ∧
        mirrorsOf s' k = (mirrorsOf s k).filter (· ≠ i)) ∧
      (∀ a, resolve s' a = if resolve s a = some i then standard a else resolve s a) := by
  have hI := reach_inv h
  have h3 : 3 ≤ i := by
    by_cases h3 : 3 ≤ i
    · exact h3
    · exact absurd (hI.nsp i p (by omega) hp) (by simp [hs])
  obtain ⟨s', e1, e2, e3, e4⟩ := hI.deleteStream h3 (by rw [hp]; exact fun e => nomatch e)
  refine ⟨s', ?_, (written_strip e3).1, (written_strip e3).2, ?_⟩
  · simp only [step, (getStream_exist hI).2 hx, closeTermOp, hp, hs]
    rw [if_neg (by simp), if_neg (by simp), e1]
    rfl
  · intro a
    rw [← findAlias_resolve, ← findAlias_resolve, e4, findAlias_del hI.akeys, goesTo_standard]

/-- Closing the current output, which has a mirror and is the mirror of another stream. -/
example : ∃ s p, Reach Fine s ∧ Denotes s (.alias 20) 3 ∧ s.tbl 3 = some p ∧ p.special = false ∧ p.live = true ∧
    resolve s currentOutput = some 3 ∧ mirrors s 3 = [2] ∧ mirrors s 4 = [3, 1] ∧
    ∃ s', step 1 s (.close (.alias 20) false false) = .ok s' ∧ mirrors s' 4 = [1] ∧ mirrorsOf s' 2 = [] ∧
      resolve s' currentOutput = some 1 ∧ resolve s' 20 = none ∧ s'.last = 4 := by
  let ops : List Op := [.«open» false [20] [.alias userError] false false,
    .«open» false [] [.alias userOutput, .alias 20] false false, .setOutput (.alias 20)]
  refine ⟨final 1 ops, _, final_reach ?_, ⟨⟨_, rfl⟩, rfl⟩, rfl, rfl, rfl, rfl,
    rfl, rfl, _, rfl, rfl, rfl, rfl, rfl, rfl⟩
  simp only [ops, List.mem_cons, List.not_mem_nil, or_false]
  rintro o (rfl | rfl | rfl) <;> first | trivial | (intro h; cases h)

/-- **C46**: closing a standard stream does not close it: only its aliases are changed. -/
theorem C46_close_std {P : Op → Prop} {s : St} (h : Reach P s) (f : Nat) {x : Sora} {i : Nat} {p : Stm} {force fails : Bool}
    (hx : Denotes s x i) (hp : s.tbl i = some p) (h3 : i < 3) (hl : p.live = true) :
    ∃ s', step f s (.close x force fails) = .ok s' ∧ s'.tbl = s.tbl ∧
      (∀ a, resolve s' a = if resolve s a = some i then standard a else resolve s a) := by
  have hI := reach_inv h
  refine ⟨{ s with alias := delAliases s.alias i }, ?_, rfl, ?_⟩
  · simp only [step, (getStream_exist hI).2 hx, closeStm, hp, hI.nsp i p h3 hp, hl]
    have a0 : stdin = 0 := rfl
    have a1 : stdout = 1 := rfl
    have a2 : stderr = 2 := rfl
    rw [if_neg (by simp), if_neg (by simp), if_pos (by omega)]
    rfl
  · intro a
    rw [← findAlias_resolve, ← findAlias_resolve]
    show findAlias (delAliases s.alias i) a = _
    rw [findAlias_del hI.akeys, goesTo_standard]

example : ∃ p, Denotes init (.alias userOutput) 1 ∧ init.tbl 1 = some p ∧ p.live = true := ⟨_, ⟨⟨_, rfl⟩, rfl⟩, rfl, rfl⟩

/-! ### Aliases -/

/-- **C46**: set_stream_alias/2 makes the alias designate the stream, and changes no other alias. -/
theorem C46_set_alias {P : Op → Prop} {s : St} (h : Reach P s) (f : Nat) {x : Sora} {i : Nat} (a : Nat) (hx : Denotes s x i) :
    ∃ s', step f s (.setStreamAlias x a) = .ok s' ∧ s'.tbl = s.tbl ∧
      ∀ b, resolve s' b = if b = a then some i else resolve s b := by
  have hI := reach_inv h
  refine ⟨(setAlias s a i true).1, by simp only [step, (getStream_exist hI).2 hx], by rw [setAlias_fst], ?_⟩
  intro b
  rw [← findAlias_resolve, ← findAlias_resolve, findAlias_setAlias]
  simp

/-- **C46**: add_stream_alias/2 gives an alias which is free, accepts one which the stream has already, and refuses
the alias of another stream. -/
theorem C46_add_alias {P : Op → Prop} {s : St} (h : Reach P s) (f : Nat) {x : Sora} {i : Nat} (a : Nat) (hx : Denotes s x i) :
    (∀ j, resolve s a = some j → j ≠ i → step f s (.addAlias x a) = .err s) ∧
    ((resolve s a = none ∨ resolve s a = some i) → ∃ s', step f s (.addAlias x a) = .ok s' ∧ s'.tbl = s.tbl ∧
      ∀ b, resolve s' b = if b = a then some i else resolve s b) := by
  have hI := reach_inv h
  refine ⟨?_, ?_⟩
  · intro j hj hne
    rw [← findAlias_resolve] at hj
    simp only [step, (getStream_exist hI).2 hx]
    rw [if_neg]
    simp [setAlias, hj, hne]
  · intro ha
    rw [← findAlias_resolve] at ha
    refine ⟨(setAlias s a i false).1, ?_, by rw [setAlias_fst], ?_⟩
    · simp only [step, (getStream_exist hI).2 hx]
      rw [if_pos]
      rcases ha with ha | ha <;> simp [setAlias, ha]
    · intro b
      rw [← findAlias_resolve, ← findAlias_resolve, findAlias_setAlias]
      by_cases hb : b = a
      · subst hb
        rcases ha with ha | ha <;> simp [ha]
      · simp [hb]

example : ∃ s', step 1 init (.addAlias (.alias userError) 30) = .ok s' ∧ resolve s' 30 = some 2 ∧
    step 1 s' (.addAlias (.alias userInput) 30) = .err s' := ⟨_, rfl, rfl, rfl⟩

/-! ### Opening -/

theorem addAliases_find {i : Nat} : ∀ (l : List Nat) (s : St), (∀ a ∈ l, findAlias s.alias a = none ∨ findAlias s.alias a = some i) →
    ∀ b, findAlias (addAliases s i l).alias b = if b ∈ l then some i else findAlias s.alias b := by
  intro l
  induction l with
  | nil => intro s _ b; simp [addAliases]
  | cons a l ih =>
    intro s hs b
    rw [addAliases, ih]
    · rw [findAlias_setAlias]
      rcases hs a (by simp) with ha | ha
      · by_cases hb : b = a
        · subst hb; simp [ha]
        · simp [hb]
      · by_cases hb : b = a
        · subst hb; simp [ha]
        · simp [hb]
    · intro c hc
      rw [findAlias_setAlias]
      split
      · exact .inr rfl
      · exact hs c (by simp [hc])

theorem denotes_keep {s s' : St} {x : Sora} {j : Nat} (hk : ∀ k, (s'.tbl k).isSome = (s.tbl k).isSome) (ha : s'.alias = s.alias) :
    Denotes s' x j ↔ Denotes s x j := by
  have : IsOpen s' j ↔ IsOpen s j := by
    rw [isOpen_iff, isOpen_iff]
    have := hk j
    cases h1 : s'.tbl j <;> cases h2 : s.tbl j <;> simp_all
  simp only [Denotes, this, resolve, ha]

/-- The mirrors which are given when a stream is opened. -/
theorem addMirrors_spec {i : Nat} : ∀ (l : List Sora) {s : St}, Inv s → IsOpen s i →
    (∀ x ∈ l, ∃ j, Denotes s x j ∧ IsOutput s j ∧ j ≠ i) →
    ∃ s', addMirrors s i l = .ok s' ∧ (∀ k, (s'.tbl k).isSome = (s.tbl k).isSome) ∧ s'.alias = s.alias ∧ Keep s s' ∧
      (∀ k, k ≠ i → mirrors s' k = mirrors s k) ∧
      (∀ j, j ∈ mirrors s' i ↔ (j ∈ mirrors s i ∨ ∃ x ∈ l, Denotes s x j)) := by
  intro l
  induction l with
  | nil => intro s h _ _; exact ⟨s, rfl, fun _ => rfl, rfl, Keep.refl s, fun _ _ => rfl, by simp⟩
  | cons x l ih =>
    intro s h hi hl
    obtain ⟨j, g1, g2, g3⟩ := hl x (by simp)
    have hg := (getStream_output h).2 ⟨g1, g2⟩
    obtain ⟨s1, e1, e2, e3, e4, e5, e6, e7⟩ := h.addMirror (isOpen_iff.1 hi) (getStream_open h _ hg)
    have hk : Keep s s1 := e6
    obtain ⟨s2, f1, f2, f3, f4, f5, f6⟩ := ih (s := s1) e2 (isOpen_iff.2 (hk.ne (isOpen_iff.1 hi)))
      (by
        intro y hy
        obtain ⟨k, k1, k2, k3⟩ := hl y (by simp [hy])
        exact ⟨k, (denotes_keep e3 e4).2 k1, hk.output k2, k3⟩)
    refine ⟨s2, ?_, fun k => (f2 k).trans (e3 k), f3.trans e4, hk.trans f4, ?_, ?_⟩
    · rw [addMirrors, hg]
      dsimp only
      rw [e1]
      exact f1
    · intro k hne
      rw [f5 k hne, e7 k, if_neg (fun hx => hne hx.1)]
    · intro k
      have h7 : mirrors s1 i = if i = i ∧ i ≠ j ∧ j ∉ mirrors s i then j :: mirrors s i else mirrors s i := e7 i
      rw [f6]
      have hd : ∀ y, Denotes s1 y k ↔ Denotes s y k := fun y => denotes_keep e3 e4
      simp only [hd]
      have hu : Denotes s x k ↔ k = j := by
        constructor
        · intro hx
          have := (getStream_exist h).2 hx
          have := ((getStream_exist h).2 g1).symm.trans this
          simpa using this.symm
        · rintro rfl; exact g1
      have : (k ∈ (if i = i ∧ i ≠ j ∧ j ∉ mirrors s i then j :: mirrors s i else mirrors s i)) ↔
          (k = j ∨ k ∈ mirrors s i) := by
        by_cases hj : j ∈ mirrors s i
        · rw [if_neg (fun hx => hx.2.2 hj)]
          constructor
          · exact .inr
          · rintro (rfl | hx)
            · exact hj
            · exact hx
        · rw [if_pos ⟨rfl, Ne.symm g3, hj⟩, List.mem_cons]
      rw [h7, this]
      constructor
      · rintro ((hx | hx) | ⟨y, hy, hx⟩)
        · exact .inr ⟨x, by simp, hu.2 hx⟩
        · exact .inl hx
        · exact .inr ⟨y, by simp [hy], hx⟩
      · rintro (hx | ⟨y, hy, hx⟩)
        · exact .inl (.inr hx)
        · rcases List.mem_cons.1 hy with rfl | hy
          · exact .inl (.inl (hu.1 hx))
          · exact .inr ⟨y, hy, hx⟩

/-- **C46**: when a file is opened with free aliases and with mirrors which are output streams, the new stream has a
number which no open stream has, the aliases designate it, its mirrors are those which were asked, and nothing else
changes. -/
theorem C46_open {P : Op → Prop} {s : St} (h : Reach P s) (f : Nat) (input : Bool) (as : List Nat) (ms : List Sora)
    (repos fileRepos : Bool) (hr : repos = true → fileRepos = true)
    (ha : ∀ a ∈ as, resolve s a = none) (hm : ∀ x ∈ ms, ∃ j, Denotes s x j ∧ IsOutput s j) :
    ∃ s' i, step f s (.«open» input as ms repos fileRepos) = .ok s' ∧ ¬ IsOpen s i ∧
      (∃ p, s'.tbl i = some p ∧ p.input = input ∧ p.output = !input) ∧ written s' i = some [] ∧
      (∀ a, resolve s' a = if a ∈ as then some i else resolve s a) ∧
      (∀ j, j ∈ mirrors s' i ↔ ∃ x ∈ ms, Denotes s x j) ∧
      (∀ k, k ≠ i → (IsOpen s' k ↔ IsOpen s k) ∧ written s' k = written s k ∧ mirrors s' k = mirrors s k) := by
  have hI := reach_inv h
  have hnone : s.tbl (addStream s (newStm input false)).2 = none := findFree_none hI
  have hI1 := hI.addStream (newStm_lst input false)
  generalize hi : (addStream s (newStm input false)).2 = i at hnone
  generalize hs1 : (addStream s (newStm input false)).1 = s1 at hI1
  have ht1 : s1.tbl = upd s.tbl i (some (newStm input false)) := by rw [← hs1, ← hi, addStream_tbl]
  have ha1 : s1.alias = s.alias := by rw [← hs1]; rfl
  have hi1 : s1.tbl i ≠ none := by rw [ht1, upd_same]; exact fun e => nomatch e
  have hI2 := hI1.addAliases as hi1
  have ht2 : (addAliases s1 i as).tbl = s1.tbl := by rw [addAliases_fst]
  have ha2 := addAliases_find (i := i) as s1 (fun a hx => .inl (by rw [ha1, findAlias_resolve]; exact ha a hx))
  generalize hs2 : addAliases s1 i as = s2 at hI2 ht2 ha2
  have hr2 : ∀ a, resolve s2 a = if a ∈ as then some i else resolve s a := by
    intro a
    rw [← findAlias_resolve, ← findAlias_resolve, ha2, ha1]
  have htk : ∀ k, k ≠ i → s2.tbl k = s.tbl k := by
    intro k hk; rw [ht2, ht1, upd_ne _ _ hk]
  have hti : s2.tbl i = some (newStm input false) := by rw [ht2, ht1, upd_same]
  have hd2 : ∀ x ∈ ms, ∀ j, Denotes s2 x j ↔ Denotes s x j := by
    intro x hx j
    obtain ⟨j0, d0, o0⟩ := hm x hx
    have hj0 : j0 ≠ i := by rintro rfl; exact (isOpen_iff.1 d0.1) hnone
    cases x with
    | stream n =>
      simp only [Denotes] at d0 ⊢
      have e : n = (j0 : Int) := d0.2
      constructor
      · rintro ⟨g1, g2⟩
        have : j = j0 := by omega
        subst this
        exact ⟨d0.1, g2⟩
      · rintro ⟨g1, g2⟩
        have : j = j0 := by omega
        subst this
        exact ⟨isOpen_iff.2 (by rw [htk _ hj0]; exact isOpen_iff.1 g1), g2⟩
    | «alias» a =>
      simp only [Denotes] at d0 ⊢
      have hna : a ∉ as := by intro hx; rw [ha a hx] at d0; cases d0.2
      rw [hr2, if_neg hna]
      constructor
      · rintro ⟨g1, g2⟩
        have : j = j0 := by rw [d0.2] at g2; simpa using g2.symm
        subst this
        exact ⟨d0.1, g2⟩
      · rintro ⟨g1, g2⟩
        have : j = j0 := by rw [d0.2] at g2; simpa using g2.symm
        subst this
        exact ⟨isOpen_iff.2 (by rw [htk _ hj0]; exact isOpen_iff.1 g1), g2⟩
  obtain ⟨s3, f1, f2, f3, f4, f5, f6⟩ := addMirrors_spec (i := i) ms hI2 ⟨_, hti⟩
    (by
      intro x hx
      obtain ⟨j, d, q, o1, o2⟩ := hm x hx
      have hj : j ≠ i := by rintro rfl; rw [hnone] at o1; cases o1
      exact ⟨j, (hd2 x hx j).2 d, ⟨q, by rw [htk j hj]; exact o1, o2⟩, hj⟩)
  refine ⟨s3, i, ?_, ?_, ?_, ?_, ?_, ?_, ?_⟩
  · simp only [step, openOp]
    rw [if_neg, if_neg, if_neg]
    · show addMirrors (addAliases (addStream s (newStm input false)).1 (addStream s (newStm input false)).2 as)
        (addStream s (newStm input false)).2 ms = .ok s3
      rw [hs1, hi, hs2]
      exact f1
    · cases repos <;> cases fileRepos <;> simp_all
    · simp only [List.any_eq_true, not_exists, not_and]
      intro x hx
      obtain ⟨j, d⟩ := hm x hx
      rw [(getStream_output hI).2 d]
      simp
    · simp only [List.any_eq_true, not_exists, not_and]
      intro a hx
      rw [findAlias_resolve, ha a hx]
      simp
  · rw [isOpen_iff, hnone]; exact fun hx => hx rfl
  · obtain ⟨p, hp, hc⟩ := f4.get hti
    exact ⟨p, hp, by rw [core_input hc]; rfl, by rw [core_output hc]; rfl⟩
  · obtain ⟨p, hp, hc⟩ := f4.get hti
    simp only [written, hp, Option.map_some, core_out hc]
    rfl
  · intro a
    rw [← hr2]
    simp only [resolve, f3]
  · intro j
    rw [f6]
    have : mirrors s2 i = [] := by simp only [mirrors, hti]; rfl
    rw [this]
    simp only [List.not_mem_nil, false_or]
    constructor
    · rintro ⟨x, hx, hd⟩; exact ⟨x, hx, (hd2 x hx j).1 hd⟩
    · rintro ⟨x, hx, hd⟩; exact ⟨x, hx, (hd2 x hx j).2 hd⟩
  · intro k hk
    refine ⟨?_, ?_, ?_⟩
    · rw [isOpen_iff, isOpen_iff, ← htk k hk]
      have := f2 k
      cases h1 : s3.tbl k <;> cases h2 : s2.tbl k <;> simp_all
    · simp only [written]
      have := f4 k
      rw [htk k hk] at this
      cases h1 : s3.tbl k with
      | none => rw [h1] at this; cases h2 : s.tbl k with
        | none => rfl
        | some q => rw [h2] at this; cases this
      | some p => cases h2 : s.tbl k with
        | none => rw [h1, h2] at this; cases this
        | some q =>
          rw [h1, h2] at this
          simp only [Option.map_some, Option.some.injEq] at this ⊢
          exact core_out this
    · rw [f5 k hk]
      simp only [mirrors, htk k hk]

example : ∃ s s', Reach Fine s ∧ resolve s 21 = none ∧ Denotes s (.alias 20) 3 ∧ IsOutput s 3 ∧ Denotes s (.stream 1) 1 ∧
    IsOutput s 1 ∧ step 1 s (.«open» true [21, 22] [.alias 20, .stream 1, .alias 20] false false) = .ok s' ∧
    mirrors s' 4 = [1, 3] ∧ resolve s' 22 = some 4 :=
  ⟨_, _, .ok .init (P := Fine) (o := .«open» false [20] [] false false) (f := 1) (fun h => nomatch h) rfl, rfl,
    ⟨⟨_, rfl⟩, rfl⟩, ⟨_, rfl, rfl⟩, ⟨⟨_, rfl⟩, rfl⟩, ⟨_, rfl, rfl⟩, rfl, rfl, rfl⟩

/-! ### Mirrors -/

/-- **C46**: add_stream_mirror/2. -/
theorem C46_add_mirror {P : Op → Prop} {s : St} (h : Reach P s) (f : Nat) {x y : Sora} {i j : Nat} (hx : Denotes s x i)
    (hy : Denotes s y j) (hj : IsOutput s j) :
    ∃ s', step f s (.addMirror x y) = .ok s' ∧ (∀ k, k ≠ i → mirrors s' k = mirrors s k) ∧
      (∀ k, k ∈ mirrors s' i ↔ (k ∈ mirrors s i ∨ (k = j ∧ i ≠ j))) ∧ (∀ k, written s' k = written s k) ∧
      (∀ a, resolve s' a = resolve s a) := by
  have hI := reach_inv h
  obtain ⟨s', e1, e2, e3, e4, e5, e6, e7⟩ := hI.addMirror (isOpen_iff.1 hx.1) (isOpen_iff.1 hy.1)
  refine ⟨s', ?_, ?_, ?_, ?_, ?_⟩
  · simp only [step, (getStream_exist hI).2 hx, (getStream_output hI).2 ⟨hy, hj⟩, e1]
    rfl
  · intro k hk; rw [e7, if_neg (fun hx => hk hx.1)]
  · intro k
    rw [e7]
    by_cases hij : i = j
    · rw [if_neg (fun hx => hx.2.1 hij)]; simp [hij]
    · by_cases hm : j ∈ mirrors s i
      · rw [if_neg (fun hx => hx.2.2 hm)]
        constructor
        · exact .inl
        · rintro (hx | ⟨rfl, _⟩)
          · exact hx
          · exact hm
      · rw [if_pos ⟨rfl, hij, hm⟩, List.mem_cons]
        constructor
        · rintro (hx | hx)
          · exact .inr ⟨hx, hij⟩
          · exact .inl hx
        · rintro (hx | hx)
          · exact .inr hx
          · exact .inl hx.1
  · intro k
    have hk : Keep s s' := e6
    simp only [written]
    cases h2 : s.tbl k with
    | none =>
      have := e3 k
      rw [h2] at this
      cases h1 : s'.tbl k with
      | none => rfl
      | some q => rw [h1] at this; cases this
    | some q =>
      obtain ⟨p', g1, g2⟩ := hk.get h2
      rw [g1]
      simp only [Option.map_some, core_out g2]
  · intro a; simp only [resolve, e4]

/-- **C46**: remove_stream_mirror/2 succeeds exactly when the stream was a mirror, and removes only it. -/
theorem C46_remove_mirror {P : Op → Prop} {s : St} (h : Reach P s) (f : Nat) {x y : Sora} {i j : Nat} (hx : Denotes s x i)
    (hy : Denotes s y j) :
    ∃ s', step f s (.removeMirror x y) = (if j ∈ mirrors s i then .ok s' else .fail s') ∧
      mirrors s' i = (mirrors s i).filter (· ≠ j) ∧ (∀ k, k ≠ i → mirrors s' k = mirrors s k) ∧
      (∀ k, written s' k = written s k) ∧ (∀ a, resolve s' a = resolve s a) := by
  have hI := reach_inv h
  obtain ⟨s', e1, e2, e3, e4, e5⟩ := hI.delMirror (isOpen_iff.1 hx.1) (isOpen_iff.1 hy.1)
  refine ⟨s', ?_, ?_, ?_, ?_, ?_⟩
  · simp only [step, (getStream_exist hI).2 hx, (getStream_exist hI).2 hy, e1]
    by_cases hm : j ∈ mirrors s i
    · rw [decide_eq_true hm, if_pos hm]
    · rw [decide_eq_false hm, if_neg hm]
  · simp only [mirrors]
    rw [e3, if_pos rfl]
    cases s.tbl i with
    | none => rfl
    | some p => simp only [Option.map_some, strip1, setLst, lst, if_true, List.filter_map, Function.comp_def]
  · intro k hk
    simp only [mirrors]
    rw [e3, if_neg hk]
    by_cases hkj : k = j
    · rw [if_pos hkj]
      cases s.tbl k <;> rfl
    · rw [if_neg hkj]
  · intro k
    simp only [written]
    rw [e3]
    split
    · cases s.tbl k <;> rfl
    · split
      · cases s.tbl k <;> rfl
      · rfl
  · intro a; simp only [resolve, e4]

example : ∃ s s', Reach Fine s ∧ mirrors s 1 = [2] ∧ step 1 s (.removeMirror (.alias userOutput) (.alias userError)) = .ok s' ∧
    mirrors s' 1 = [] ∧ mirrorsOf s' 2 = [] :=
  ⟨_, _, .ok .init (P := Fine) (o := .addMirror (.alias userOutput) (.alias userError)) (f := 1) trivial rfl, rfl, rfl, rfl, rfl⟩

theorem written_addE (c : Int) (l : List Nat) (s : St) (k : Nat) :
    written (addE c l l s) k = (written s k).map (· ++ List.replicate (l.count k) (byte c)) := by
  simp only [written, addE]
  cases s.tbl k <;> rfl

/-- **C46**: a character which is put on a stream without cyclic mirrors is put on the stream, then on each of its
mirrors in turn, and so on; each stream receives it as many times as it is met, and nothing else changes. -/
theorem C46_put {s : St} (h : Reach Fine s) {x : Sora} {i : Nat} (c : Int) (hx : Denotes s x i) (ho : IsOutput s i)
    (hm : Acyclic (mirrors s)) :
    ∃ l s' f0, Visits (mirrors s) i l ∧ (∀ f, f0 ≤ f → step f s (.put (some x) c) = .ok s') ∧
      (∀ k, written s' k = (written s k).map (· ++ List.replicate (l.count k) (byte c))) ∧
      mirrors s' = mirrors s ∧ s'.alias = s.alias := by
  obtain ⟨hI, hF⟩ := reach_fine h
  obtain ⟨l, hl⟩ := visits_of_acyclic hm i
  obtain ⟨f0, hf⟩ := putc_complete (c := c) hl
  refine ⟨l, addE c l l s, f0, hl, ?_, written_addE c l s, mirrors_addE c l l s, rfl⟩
  intro f hge
  have := hf f hge s rfl (good_of hI hF) (isOpen_iff.1 hx.1)
  simp only [step, (getStream_output hI).2 ⟨hx, ho⟩, this]
  rfl

/-- **C46**: who receives a character is determined by the mirrors. -/
theorem C46_receivers_unique (m : Nat → List Nat) (i : Nat) (l l' : List Nat) (h : Visits m i l) (h' : Visits m i l') : l = l' :=
  visits_det h h'

/-- **C46**: a character which is read from a stream is put on each of its mirrors; the end of file is not. -/
theorem C46_get {s : St} (h : Reach Fine s) {x : Sora} {i : Nat} (c : Int) (hx : Denotes s x i) (ho : IsInput s i)
    (hm : Acyclic (mirrors s)) :
    ∃ l s' f0, VisitsAll (mirrors s) (mirrors s i) l ∧ (∀ f, f0 ≤ f → step f s (.get (some x) c) = .ok s') ∧
      (∀ k, written s' k = if c = -1 then written s k else (written s k).map (· ++ List.replicate (l.count k) (byte c))) ∧
      mirrors s' = mirrors s ∧ s'.alias = s.alias := by
  obtain ⟨hI, hF⟩ := reach_fine h
  have hgood := good_of hI hF
  obtain ⟨_, hl⟩ := visits_of_acyclic hm i
  cases hl with
  | @mk _ l hl =>
  obtain ⟨f0, hf⟩ := putAll_complete (c := c) hl
  obtain ⟨p, hp⟩ := hx.1
  have hmi : mirrors s i = p.mirror.map (·.stm) := by simp only [mirrors, hp]
  have hg : ∀ f, step f s (.get (some x) c) = Out.ofRes (getc f s i c) := by
    intro f
    simp only [step, (getStream_input hI).2 ⟨hx, ho⟩]
  by_cases hc : c = -1
  · refine ⟨l, s, 0, hl, ?_, ?_, rfl, rfl⟩
    · intro f _
      rw [hg]
      simp only [getc, hp, hgood.live i p hp, hc]
      rfl
    · intro k; rw [if_pos hc]
  · refine ⟨l, addE c l l s, f0, hl, ?_, ?_, mirrors_addE c l l s, rfl⟩
    · intro f hge
      rw [hg]
      simp only [getc, hp, hgood.live i p hp]
      rw [if_neg (by simp), if_neg hc, hf f hge p.mirror hmi.symm s rfl hgood (fun n hn => hgood.node i p hp n hn)]
      rfl
    · intro k; rw [if_neg hc]; exact written_addE c l s k

/-- Two ways from the stream 4 to the standard output: it receives the character twice. -/
example : ∃ s s', Reach Fine s ∧ Denotes s (.alias 21) 4 ∧ IsOutput s 4 ∧ Acyclic (mirrors s) ∧
    Visits (mirrors s) 4 [4, 1, 3, 1] ∧ step 5 s (.put (some (.alias 21)) 65) = .ok s' ∧ written s' 1 = some [65, 65] := by
  let ops : List Op := [.«open» false [20] [.alias userOutput] false false,
    .«open» false [21] [.alias 20, .alias userOutput] false false]
  have hr : Reach Fine (final 1 ops) := by
    refine final_reach ?_
    simp only [ops, List.mem_cons, List.not_mem_nil, or_false]
    rintro o (rfl | rfl) <;> (intro h; cases h)
  have m0 : mirrors (final 1 ops) 0 = [] := rfl
  have m1 : mirrors (final 1 ops) 1 = [] := rfl
  have m2 : mirrors (final 1 ops) 2 = [] := rfl
  have hl : (final 1 ops).last = 4 := rfl
  have m3 : mirrors (final 1 ops) 3 = [1] := rfl
  have m4 : mirrors (final 1 ops) 4 = [1, 3] := rfl
  refine ⟨final 1 ops, _, hr, ⟨⟨_, rfl⟩, rfl⟩, ⟨_, rfl, rfl⟩, ⟨fun k => k, ?_⟩, ?_, rfl, rfl⟩
  · intro i j hj
    show j < i
    have hI := reach_inv hr
    by_cases hi : i ≤ 4
    · have : i = 0 ∨ i = 1 ∨ i = 2 ∨ i = 3 ∨ i = 4 := by omega
      rcases this with rfl | rfl | rfl | rfl | rfl
      · rw [m0] at hj; simp at hj
      · rw [m1] at hj; simp at hj
      · rw [m2] at hj; simp at hj
      · rw [m3] at hj; simp at hj; omega
      · rw [m4] at hj; simp at hj; omega
    · have := hI.lastM i (by omega)
      simp only [mirrors, this] at hj
      simp at hj
  · have v1 : Visits (mirrors (final 1 ops)) 1 [1] := .mk (by rw [m1]; exact .nil)
    have v3 : Visits (mirrors (final 1 ops)) 3 [3, 1] := .mk (by rw [m3]; exact .cons v1 .nil)
    exact .mk (by rw [m4]; exact .cons v1 (.cons v3 .nil))

/-- **C46, violation**: when the stream reaches, through mirrors, a stream which is a mirror of itself, putting a
character never ends: the recursion is deeper than any bound (the C stack overflows). -/
theorem C46_put_cycle {s : St} (h : Reach Fine s) {x : Sora} {i j : Nat} (c : Int) (hx : Denotes s x i) (ho : IsOutput s i)
    (hp : i = j ∨ Path (mirrors s) i j) (hc : Path (mirrors s) j j) (f : Nat) : step f s (.put (some x) c) = .deep := by
  obtain ⟨hI, hF⟩ := reach_fine h
  simp only [step, (getStream_output hI).2 ⟨hx, ho⟩]
  cases hr : putc f s i c with
  | ok s' =>
    obtain ⟨l, hv, _⟩ := putc_sound f c s s' i hr
    exact absurd hv (no_visits_cycle hp hc l)
  | ub => exact absurd hr (putc_no_ub f s i (good_of hI hF) (isOpen_iff.1 hx.1))
  | deep => rfl

/-- Two calls of add_stream_mirror/2 make such a cycle. -/
theorem C46_mirror_cycle : ∃ s, Reach Fine s ∧ ∀ f c, step f s (.put (some (.alias userOutput)) c) = .deep := by
  let ops : List Op := [.addMirror (.alias userOutput) (.alias userError), .addMirror (.alias userError) (.alias userOutput)]
  have hr : Reach Fine (final 1 ops) := by
    refine final_reach ?_
    simp only [ops, List.mem_cons, List.not_mem_nil, or_false]
    rintro o (rfl | rfl) <;> trivial
  have m1 : mirrors (final 1 ops) 1 = [2] := rfl
  have m2 : mirrors (final 1 ops) 2 = [1] := rfl
  refine ⟨_, hr, fun f c => C46_put_cycle hr (i := 1) (j := 1) c ⟨⟨_, rfl⟩, rfl⟩ ⟨_, rfl, rfl⟩ (.inl rfl)
    (.step (j := 2) (by rw [m1]; simp) (.one (by rw [m2]; simp))) f⟩

/-! ### The counters -/

/-- **C46**: the position of an output stream is the position after the text which was put on it, directly or as a
mirror, whatever the characters.  The codes are 0..255: put_char/2, put_byte/2 and the
writers give no other one (Is_Valid_Code, Is_Valid_Byte, and char is unsigned: -funsigned-char, configure.in:613). -/
theorem C46_counters {s : St} (h : Reach Latin s) {i : Nat} {p : Stm} (hp : s.tbl i = some p)
    (_ : p.output = true) : (p.charCount, p.lineCount, p.linePos) = textPos p.out := (reach_cnt h).2 i p hp

example : ∃ s p, Reach Latin s ∧ s.tbl 2 = some p ∧ p.output = true ∧ p.out = [65, 10, 66] ∧
    (p.charCount, p.lineCount, p.linePos) = (3, 1, 1) := by
  let ops : List Op := [.addMirror (.alias userOutput) (.alias userError), .put none 65, .put none 10, .put none 66]
  refine ⟨final 3 ops, _, final_reach ?_, rfl, rfl, rfl, rfl⟩
  simp only [ops, List.mem_cons, List.not_mem_nil, or_false]
  rintro o (rfl | rfl | rfl | rfl) <;> first | trivial | decide

/-! ### Other violations -/

/-- **C46, violation**: a stream term designates another stream after its stream was closed. -/
theorem C46_stale_handle : ∃ s s1 s2, Reach Fine s ∧ Denotes s (.stream 3) 3 ∧ IsOutput s 3 ∧
    step 1 s (.close (.stream 3) false false) = .ok s1 ∧
    step 1 s1 (.«open» true [20] [] false false) = .ok s2 ∧ Denotes s2 (.stream 3) 3 ∧ Denotes s2 (.alias 20) 3 ∧ IsInput s2 3 :=
  ⟨_, _, _, .ok .init (P := Fine) (o := .«open» false [] [] false false) (f := 1) (fun h => nomatch h) rfl, ⟨⟨_, rfl⟩, rfl⟩,
    ⟨_, rfl, rfl⟩, rfl, rfl, ⟨⟨_, rfl⟩, rfl⟩, ⟨⟨_, rfl⟩, rfl⟩, ⟨_, rfl, rfl⟩⟩

/-- **C46, violation**: open/4 with reposition(true) on a file which cannot be repositioned raises an error after it
closed the file, and leaves the stream in the table: using or closing it is undefined. -/
theorem C46_open_reposition : ∃ s, step 1 init (.«open» false [] [] true false) = .err s ∧ Denotes s (.stream 3) 3 ∧
    (∀ c, step 1 s (.put (some (.stream 3)) c) = .ub) ∧ step 1 s (.close (.stream 3) false false) = .ub :=
  ⟨_, rfl, ⟨⟨_, rfl⟩, rfl⟩, fun _ => rfl, rfl⟩

/-- **C46, violation**: when fclose fails, close/1 raises an error and leaves the closed file in the table: closing the
stream again, also with force(true), is undefined. -/
theorem C46_close_fails : ∃ s s', Reach Fine s ∧ step 1 s (.close (.stream 3) false true) = .err s' ∧
    Denotes s' (.stream 3) 3 ∧ ∀ b, step 1 s' (.close (.stream 3) true b) = .ub :=
  ⟨_, _, .ok .init (P := Fine) (o := .«open» false [] [] false false) (f := 1) (fun h => nomatch h) rfl, rfl,
    ⟨⟨_, rfl⟩, rfl⟩, fun _ => rfl⟩

/-- **C46, violation**: set_stream_alias/2 accepts a predefined alias: the current input may be an output stream. -/
theorem C46_input_is_output : ∃ s, step 1 init (.setStreamAlias (.alias userOutput) currentInput) = .ok s ∧
    resolve s currentInput = some 1 ∧ ¬ IsInput s 1 :=
  ⟨_, rfl, rfl, fun ⟨_, h1, h2⟩ => by cases h1; cases h2⟩

/-- **C46, violation**: the choice point of stream_property(S, mirror(M)) has the address of a node; if that mirror is
removed before the next solution, the node which is read was freed. -/
theorem C46_current_mirror_removed : ∃ s s' p p' a, Reach Fine s ∧ s.tbl 0 = some p ∧ currentMirror p = some (2, some a) ∧
    step 1 s (.removeMirror (.alias userInput) (.alias userOutput)) = .ok s' ∧ s'.tbl 0 = some p' ∧ readNode s' a p' = none := by
  let ops : List Op := [.addMirror (.alias userInput) (.alias userOutput), .addMirror (.alias userInput) (.alias userError)]
  refine ⟨final 1 ops, _, _, _, 0, final_reach ?_, rfl, rfl, rfl, rfl, rfl⟩
  simp only [ops, List.mem_cons, List.not_mem_nil, or_false]
  rintro o (rfl | rfl) <;> trivial

/-- **C46, violation**: sr_open(user, ...) copies the structure of the current input with its lists; closing the copy
frees the nodes of the mirrors of the current input, and the next read is undefined. -/
theorem C46_sr_open_user : ∃ s s1 s2 k, Reach Fine s ∧ srOpenUser s = some (s1, k) ∧ deleteStream s1 k false = some s2 ∧
    ∀ f, step f s2 (.get none 65) = .ub :=
  ⟨_, _, _, _, .ok .init (P := Fine) (o := .addMirror (.alias userInput) (.alias userOutput)) (f := 1) trivial rfl, rfl, rfl,
    fun _ => rfl⟩

end Gp.Mirror
