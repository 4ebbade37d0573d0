import Verif.Mirror.Reach
namespace Gp.Mirror

open Spec

/-- The aliases of input streams and of output streams. -/
def inAl (a : Nat) : Prop := a = userInput ∨ a = currentInput ∨ a = topInput ∨ a = debugInput
def outAl (a : Nat) : Prop := a = userOutput ∨ a = currentOutput ∨ a = topOutput ∨ a = debugOutput ∨ a = userError

theorem inAl_lt {a : Nat} (h : inAl a) : a < 9 := by
  rcases h with rfl | rfl | rfl | rfl <;> decide
theorem outAl_lt {a : Nat} (h : outAl a) : a < 9 := by
  rcases h with rfl | rfl | rfl | rfl | rfl <;> decide

theorem goesTo_in {a : Nat} (h : inAl a) : goesTo a = some 0 := by
  rcases h with rfl | rfl | rfl | rfl <;> decide
theorem goesTo_out {a : Nat} (h : outAl a) : goesTo a = some 1 ∨ goesTo a = some 2 := by
  rcases h with rfl | rfl | rfl | rfl | rfl <;> decide

/-- What the executions keep when the files can be repositioned and closed, and set_stream_alias/2 is not used
on the predefined aliases. -/
structure FInv (s : St) : Prop where
  live : ∀ i p, s.tbl i = some p → p.live = true
  inp : ∀ a i, findAlias s.alias a = some i → inAl a → IsInput s i
  outp : ∀ a i, findAlias s.alias a = some i → outAl a → IsOutput s i
  s0 : IsInput s 0
  s1 : IsOutput s 1
  s2 : IsOutput s 2

theorem Keep.input {s s' : St} (h : Keep s s') {i : Nat} (hi : IsInput s i) : IsInput s' i := by
  obtain ⟨p, h1, h2⟩ := hi
  obtain ⟨p', h3, h4⟩ := h.get h1
  exact ⟨p', h3, by rw [core_input h4]; exact h2⟩

theorem Keep.output {s s' : St} (h : Keep s s') {i : Nat} (hi : IsOutput s i) : IsOutput s' i := by
  obtain ⟨p, h1, h2⟩ := hi
  obtain ⟨p', h3, h4⟩ := h.get h1
  exact ⟨p', h3, by rw [core_output h4]; exact h2⟩

theorem FInv.keep {s s' : St} (h : FInv s) (hk : Keep s s') (ha : s'.alias = s.alias) : FInv s' where
  live := by
    intro i p hp
    obtain ⟨q, h1, h2⟩ := hk.get' hp
    rw [core_live h2]
    exact h.live i q h1
  inp := by rw [ha]; exact fun a i h1 h2 => hk.input (h.inp a i h1 h2)
  outp := by rw [ha]; exact fun a i h1 h2 => hk.output (h.outp a i h1 h2)
  s0 := hk.input h.s0
  s1 := hk.output h.s1
  s2 := hk.output h.s2

theorem FInv.addE {s : St} (h : FInv s) (c : Int) (l l' : List Nat) : FInv (addE c l l' s) where
  live := by
    intro i p hp
    cases hq : s.tbl i with
    | none => rw [addE_none.2 hq] at hp; cases hp
    | some q => rw [addE_some hq] at hp; cases hp; exact h.live i q hq
  inp := fun a i h1 h2 => by obtain ⟨q, g1, g2⟩ := h.inp a i h1 h2; exact ⟨_, addE_some g1, g2⟩
  outp := fun a i h1 h2 => by obtain ⟨q, g1, g2⟩ := h.outp a i h1 h2; exact ⟨_, addE_some g1, g2⟩
  s0 := by obtain ⟨q, g1, g2⟩ := h.s0; exact ⟨_, addE_some g1, g2⟩
  s1 := by obtain ⟨q, g1, g2⟩ := h.s1; exact ⟨_, addE_some g1, g2⟩
  s2 := by obtain ⟨q, g1, g2⟩ := h.s2; exact ⟨_, addE_some g1, g2⟩

theorem findAlias_setAlias {s : St} {a i b : Nat} {r : Bool} :
    findAlias (setAlias s a i r).1.alias b =
      if b = a ∧ (r = true ∨ findAlias s.alias a = none) then some i else findAlias s.alias b := by
  simp only [setAlias]
  cases hf : findAlias s.alias a with
  | some j =>
    cases r with
    | false => simp
    | true =>
      simp only [Bool.not_true, Bool.false_eq_true, if_false]
      rw [findAlias_repl]
      by_cases hb : b = a
      · simp [hb, hf]
      · simp [hb]
  | none =>
    dsimp only
    rw [findAlias_append]
    by_cases hb : b = a
    · subst hb; simp [hf]
    · cases findAlias s.alias b <;> simp [hb, Ne.symm hb]

theorem FInv.setAlias {s : St} (h : FInv s) (hI : Inv s) {a i : Nat} {r : Bool}
    (hin : r = true → inAl a → IsInput s i) (hout : r = true → outAl a → IsOutput s i) : FInv (setAlias s a i r).1 := by
  have hs : (Mirror.setAlias s a i r).1.tbl = s.tbl := by rw [setAlias_fst]
  have hpre : ∀ a, a < 9 → findAlias s.alias a ≠ none := fun a ha e => findAlias_none.1 e (hI.pre a ha)
  constructor
  · rw [hs]; exact h.live
  · intro b k h1 h2
    simp only [IsInput, hs]
    rw [findAlias_setAlias] at h1
    split at h1
    · next hc =>
      cases h1
      rcases hc.2 with hr | hr
      · exact hin hr (by rw [← hc.1]; exact h2)
      · exact absurd hr (hpre a (by rw [← hc.1]; exact inAl_lt h2))
    · exact h.inp b k h1 h2
  · intro b k h1 h2
    simp only [IsOutput, hs]
    rw [findAlias_setAlias] at h1
    split at h1
    · next hc =>
      cases h1
      rcases hc.2 with hr | hr
      · exact hout hr (by rw [← hc.1]; exact h2)
      · exact absurd hr (hpre a (by rw [← hc.1]; exact outAl_lt h2))
    · exact h.outp b k h1 h2
  · simp only [IsInput, hs]; exact h.s0
  · simp only [IsOutput, hs]; exact h.s1
  · simp only [IsOutput, hs]; exact h.s2

theorem FInv.addAliases {i : Nat} : ∀ (l : List Nat) {s : St}, FInv s → Inv s → s.tbl i ≠ none → FInv (addAliases s i l) := by
  intro l
  induction l with
  | nil => intro s h _ _; exact h
  | cons a l ih =>
    intro s h hI hi
    rw [Mirror.addAliases]
    refine ih (h.setAlias hI (fun e => nomatch e) (fun e => nomatch e)) (hI.setAlias hi) ?_
    rw [setAlias_fst]
    exact hi

theorem FInv.addStream {s : St} (h : FInv s) (hI : Inv s) {p : Stm} (hp : p.live = true) : FInv (addStream s p).1 := by
  have hnone : s.tbl (Mirror.addStream s p).2 = none := findFree_none hI
  have ki : ∀ k, IsInput s k → IsInput (Mirror.addStream s p).1 k := by
    rintro k ⟨q, h1, h2⟩
    exact ⟨q, (by rw [addStream_tbl, upd_ne]; exact h1; rintro rfl; rw [hnone] at h1; cases h1), h2⟩
  have ko : ∀ k, IsOutput s k → IsOutput (Mirror.addStream s p).1 k := by
    rintro k ⟨q, h1, h2⟩
    exact ⟨q, (by rw [addStream_tbl, upd_ne]; exact h1; rintro rfl; rw [hnone] at h1; cases h1), h2⟩
  refine ⟨?_, fun a i h1 h2 => ki _ (h.inp a i h1 h2), fun a i h1 h2 => ko _ (h.outp a i h1 h2), ki _ h.s0, ko _ h.s1, ko _ h.s2⟩
  intro k q hq
  rw [addStream_tbl] at hq
  by_cases hk : k = (Mirror.addStream s p).2
  · rw [hk, upd_same] at hq; cases hq; exact hp
  · rw [upd_ne _ _ hk] at hq; exact h.live k q hq

theorem FInv.alias_del {s s' : St} (h : FInv s) (hI : Inv s) {i : Nat} (ha : s'.alias = delAliases s.alias i)
    (hl : ∀ k p, s'.tbl k = some p → p.live = true)
    (ki : ∀ k, (k < 3 ∨ k ≠ i) → IsInput s k → IsInput s' k)
    (ko : ∀ k, (k < 3 ∨ k ≠ i) → IsOutput s k → IsOutput s' k) : FInv s' := by
  refine ⟨hl, ?_, ?_, ki _ (.inl (by omega)) h.s0, ko _ (.inl (by omega)) h.s1, ko _ (.inl (by omega)) h.s2⟩
  · intro a k h1 h2
    rw [ha, findAlias_del hI.akeys] at h1
    split at h1
    · rw [goesTo_in h2] at h1; cases h1; exact ki _ (.inl (by omega)) h.s0
    · next hne => exact ki k (.inr (fun e => hne (by rw [← e]; exact h1))) (h.inp a k h1 h2)
  · intro a k h1 h2
    rw [ha, findAlias_del hI.akeys] at h1
    split at h1
    · rcases goesTo_out h2 with g | g
      · rw [g] at h1; cases h1; exact ko _ (.inl (by omega)) h.s1
      · rw [g] at h1; cases h1; exact ko _ (.inl (by omega)) h.s2
    · next hne => exact ko k (.inr (fun e => hne (by rw [← e]; exact h1))) (h.outp a k h1 h2)

theorem FInv.deleteStream {s s' : St} (h : FInv s) (hI : Inv s) {i : Nat} (h3 : 3 ≤ i)
    (ha : s'.alias = delAliases s.alias i) (ht : ∀ k, s'.tbl k = if k = i then none else (s.tbl k).map (strip i)) :
    FInv s' := by
  refine h.alias_del hI ha ?_ ?_ ?_
  · intro k p hp
    rw [ht] at hp
    split at hp
    · cases hp
    · cases hq : s.tbl k with
      | none => rw [hq] at hp; cases hp
      | some q => rw [hq] at hp; cases hp; exact h.live k q hq
  · rintro k hk ⟨q, h1, h2⟩
    exact ⟨strip i q, by rw [ht, if_neg (by omega), h1]; rfl, h2⟩
  · rintro k hk ⟨q, h1, h2⟩
    exact ⟨strip i q, by rw [ht, if_neg (by omega), h1]; rfl, h2⟩

theorem good_of {s : St} (hI : Inv s) (h : FInv s) : Good s := by
  refine ⟨h.live, ?_⟩
  intro i p hp n hn
  have ha : At s.tbl i true n := ⟨p, hp, hn⟩
  refine ⟨(hI.mir.fr _ _ _ ha).2, ?_⟩
  obtain ⟨n', ⟨q, hq, _⟩, _⟩ := hI.mir.sym _ _ _ ha
  rw [hq]
  exact fun e => nomatch e

/-- The predicates for which everything goes well. -/
def Fine : Op → Prop
  | .«open» _ _ _ repos fileRepos => repos = true → fileRepos = true
  | .close _ force closeFails => closeFails = true → force = true
  | .setStreamAlias _ a => 9 ≤ a
  | _ => True

theorem getc_no_ub {f : Nat} {s : St} {i : Nat} {c : Int} (h : Good s) (hi : s.tbl i ≠ none) : getc f s i c ≠ .ub := by
  rw [getc]
  cases hp : s.tbl i with
  | none => exact absurd hp hi
  | some p =>
    dsimp only
    rw [if_neg (by simp [h.live i p hp])]
    split
    · exact fun e => nomatch e
    · exact (putc_no_ub_aux (s := s) (s1 := s) (l := p.mirror) (fun s i => putc_no_ub f s i) h rfl (fun _ hk => hk)
        (fun n hn => h.node i p hp n hn)).1

theorem ofRes_ub {r : Res} (h : r ≠ .ub) : Out.ofRes r ≠ .ub := by
  cases r with
  | ok s => exact fun e => nomatch e
  | ub => exact absurd rfl h
  | deep => exact fun e => nomatch e

theorem default_out {s : St} (hI : Inv s) : ∃ i, findAlias s.alias currentOutput = some i ∧ s.tbl i ≠ none := by
  cases h : findAlias s.alias currentOutput with
  | none => exact absurd (hI.pre currentOutput (by decide)) (findAlias_none.1 h)
  | some i => exact ⟨i, rfl, hI.ali _ (findAlias_mem h)⟩

theorem default_in {s : St} (hI : Inv s) : ∃ i, findAlias s.alias currentInput = some i ∧ s.tbl i ≠ none := by
  cases h : findAlias s.alias currentInput with
  | none => exact absurd (hI.pre currentInput (by decide)) (findAlias_none.1 h)
  | some i => exact ⟨i, rfl, hI.ali _ (findAlias_mem h)⟩

theorem not_inAl_topOutput : ¬ inAl topOutput := by rintro (h | h | h | h) <;> cases h
theorem not_outAl_topInput : ¬ outAl topInput := by rintro (h | h | h | h | h) <;> cases h

theorem step_fine (f : Nat) (s : St) (o : Op) (hI : Inv s) (h : FInv s) (ho : Fine o) :
    step f s o ≠ .ub ∧ (step f s o).all FInv := by
  have nu : ∀ {s'}, Out.ok s' ≠ .ub ∧ Out.err s' ≠ .ub ∧ Out.fail s' ≠ .ub := by
    intro s'; exact ⟨fun e => (nomatch e), fun e => (nomatch e), fun e => (nomatch e)⟩
  cases o with
  | «open» input aliases mirrors repos fileRepos =>
    simp only [step, openOp]
    split
    · exact ⟨nu.2.1, h⟩
    split
    · exact ⟨nu.2.1, h⟩
    split
    · next hx =>
      simp only [Fine] at ho
      cases repos <;> cases fileRepos <;> simp_all
    · have h1 := hI.addStream (newStm_lst input false)
      have g1 := h.addStream hI (p := newStm input false) rfl
      have hi : (addStream s (newStm input false)).1.tbl (addStream s (newStm input false)).2 ≠ none := by
        rw [addStream_tbl, upd_same]; exact fun e => nomatch e
      have h2 := h1.addAliases aliases hi
      have g2 := g1.addAliases aliases h1 hi
      have := addMirrors_ok mirrors h2 (by rw [addAliases_fst]; exact hi)
      generalize addMirrors _ _ mirrors = r at this ⊢
      refine ⟨this.1, ?_⟩
      have := this.2
      cases r with
      | ok s' => exact g2.keep this.2.1 this.2.2
      | fail s' => exact g2.keep this.2.1 this.2.2
      | err s' => exact g2.keep this.2.1 this.2.2
      | ub => trivial
      | deep => trivial
  | openTerm input => exact ⟨nu.1, h.addStream hI rfl⟩
  | close x force cf =>
    simp only [step]
    cases hg : getStream s x .exist with
    | none => exact ⟨nu.2.1, h⟩
    | some i =>
      have ho' := getStream_open hI _ hg
      dsimp only
      rw [closeStm]
      cases hp : s.tbl i with
      | none => exact absurd hp ho'
      | some p =>
        dsimp only
        split
        · exact ⟨nu.2.1, h⟩
        split
        · next hx => exact absurd (h.live i p hp) (by simpa using hx)
        split
        · refine ⟨nu.1, ?_⟩
          refine FInv.alias_del h hI (s' := { s with alias := delAliases s.alias i }) rfl ?_ ?_ ?_
          · exact h.live
          · exact fun k _ hk => hk
          · exact fun k _ hk => hk
        · next hi =>
          have h3 : 3 ≤ i := by
            have a0 : stdin = 0 := rfl
            have a1 : stdout = 1 := rfl
            have a2 : stderr = 2 := rfl
            omega
          split
          · next hx =>
            simp only [Fine] at ho
            cases cf <;> cases force <;> simp_all
          · obtain ⟨s', e1, e2, e3, e4⟩ := hI.deleteStream h3 ho'
            rw [e1]
            exact ⟨nu.1, h.deleteStream hI h3 e4 e3⟩
  | closeTerm input x =>
    simp only [step]
    cases hg : getStream s x .exist with
    | none => exact ⟨nu.2.1, h⟩
    | some i =>
      have ho' := getStream_open hI _ hg
      dsimp only
      rw [closeTermOp]
      cases hp : s.tbl i with
      | none => exact absurd hp ho'
      | some p =>
        dsimp only
        split
        · exact ⟨nu.2.1, h⟩
        next hsp =>
        split
        · exact ⟨nu.2.1, h⟩
        · by_cases h3 : 3 ≤ i
          · obtain ⟨s', e1, e2, e3, e4⟩ := hI.deleteStream h3 ho'
            rw [e1]
            exact ⟨nu.1, h.deleteStream hI h3 e4 e3⟩
          · exact absurd (hI.nsp i p (by omega) hp) (by simpa using hsp)
  | setInput x =>
    simp only [step]
    cases hg : getStream s x .input with
    | none => exact ⟨nu.2.1, h⟩
    | some i =>
      refine ⟨nu.1, h.setAlias hI (fun _ _ => ((getStream_input hI).1 hg).2) ?_⟩
      rintro _ (h | h | h | h | h) <;> cases h
  | setOutput x =>
    simp only [step]
    cases hg : getStream s x .output with
    | none => exact ⟨nu.2.1, h⟩
    | some i =>
      refine ⟨nu.1, h.setAlias hI ?_ (fun _ _ => ((getStream_output hI).1 hg).2)⟩
      rintro _ (h | h | h | h) <;> cases h
  | setTop x y =>
    simp only [step]
    cases hg : getStream s x .input with
    | none => exact ⟨nu.2.1, h⟩
    | some i =>
      have hI1 := hI.setAlias (a := topInput) (r := true) (getStream_open hI _ hg)
      have h1 : FInv (setAlias s topInput i true).1 := h.setAlias hI (fun _ _ => ((getStream_input hI).1 hg).2)
        (by rintro _ (h | h | h | h | h) <;> cases h)
      dsimp only
      cases hg2 : getStream (setAlias s topInput i true).1 y .output with
      | none => exact ⟨nu.2.1, h1⟩
      | some j =>
        refine ⟨nu.1, h1.setAlias hI1 ?_ (fun _ _ => ((getStream_output hI1).1 hg2).2)⟩
        rintro _ (h | h | h | h) <;> cases h
  | setDebug x y =>
    simp only [step]
    cases hg : getStream s x .input with
    | none => exact ⟨nu.2.1, h⟩
    | some i =>
      have hI1 := hI.setAlias (a := debugInput) (r := true) (getStream_open hI _ hg)
      have h1 : FInv (setAlias s debugInput i true).1 := h.setAlias hI (fun _ _ => ((getStream_input hI).1 hg).2)
        (by rintro _ (h | h | h | h | h) <;> cases h)
      dsimp only
      cases hg2 : getStream (setAlias s debugInput i true).1 y .output with
      | none => exact ⟨nu.2.1, h1⟩
      | some j =>
        refine ⟨nu.1, h1.setAlias hI1 ?_ (fun _ _ => ((getStream_output hI1).1 hg2).2)⟩
        rintro _ (h | h | h | h) <;> cases h
  | addAlias x a =>
    simp only [step]
    cases hg : getStream s x .exist with
    | none => exact ⟨nu.2.1, h⟩
    | some i =>
      dsimp only
      split
      · exact ⟨nu.1, h.setAlias hI (fun e => nomatch e) (fun e => nomatch e)⟩
      · exact ⟨nu.2.1, h⟩
  | setStreamAlias x a =>
    simp only [step]
    simp only [Fine] at ho
    cases hg : getStream s x .exist with
    | none => exact ⟨nu.2.1, h⟩
    | some i =>
      exact ⟨nu.1, h.setAlias hI (fun _ e => absurd (inAl_lt e) (by omega)) (fun _ e => absurd (outAl_lt e) (by omega))⟩
  | addMirror x y =>
    simp only [step]
    cases hg : getStream s x .exist with
    | none => exact ⟨nu.2.1, h⟩
    | some i =>
      dsimp only
      cases hg2 : getStream s y .output with
      | none => exact ⟨nu.2.1, h⟩
      | some j =>
        obtain ⟨s', e1, e2, e3, e4, e5, e6, e7⟩ := hI.addMirror (getStream_open hI _ hg) (getStream_open hI _ hg2)
        dsimp only
        rw [e1]
        exact ⟨nu.1, h.keep e6 e4⟩
  | removeMirror x y =>
    simp only [step]
    cases hg : getStream s x .exist with
    | none => exact ⟨nu.2.1, h⟩
    | some i =>
      dsimp only
      cases hg2 : getStream s y .exist with
      | none => exact ⟨nu.2.1, h⟩
      | some j =>
        obtain ⟨s', e1, e2, e3, e4, e5⟩ := hI.delMirror (getStream_open hI _ hg) (getStream_open hI _ hg2)
        have hk : Keep s s' := by
          intro k
          rw [e3]
          split
          · cases s.tbl k <;> simp [core_strip1]
          · split
            · cases s.tbl k <;> simp [core_strip1]
            · rfl
        dsimp only
        rw [e1]
        cases decide (j ∈ mirrors s i)
        · exact ⟨nu.2.2, h.keep hk e4⟩
        · exact ⟨nu.1, h.keep hk e4⟩
  | put x c =>
    have hgood := good_of hI h
    have all : ∀ i, s.tbl i ≠ none → Out.ofRes (putc f s i c) ≠ .ub ∧ (Out.ofRes (putc f s i c)).all FInv := by
      intro i hi
      refine ⟨ofRes_ub (putc_no_ub f s i hgood hi), ofRes_all ?_⟩
      intro s' hs'
      obtain ⟨l, e⟩ := put_res (.inl hs')
      rw [e]
      exact h.addE c l l
    simp only [step]
    cases x with
    | none =>
      obtain ⟨i, h1, h2⟩ := default_out hI
      rw [h1]
      exact all i h2
    | some x =>
      dsimp only
      cases hg : getStream s x .output with
      | none => exact ⟨nu.2.1, h⟩
      | some i => exact all i (getStream_open hI _ hg)
  | get x c =>
    have hgood := good_of hI h
    have all : ∀ i, s.tbl i ≠ none → Out.ofRes (getc f s i c) ≠ .ub ∧ (Out.ofRes (getc f s i c)).all FInv := by
      intro i hi
      refine ⟨ofRes_ub (getc_no_ub hgood hi), ofRes_all ?_⟩
      intro s' hs'
      obtain ⟨l, e⟩ := put_res (.inr hs')
      rw [e]
      exact h.addE c l l
    simp only [step]
    cases x with
    | none =>
      obtain ⟨i, h1, h2⟩ := default_in hI
      rw [h1]
      exact all i h2
    | some x =>
      dsimp only
      cases hg : getStream s x .input with
      | none => exact ⟨nu.2.1, h⟩
      | some i => exact all i (getStream_open hI _ hg)

theorem finv_init : FInv init where
  live := by
    intro i p hp
    simp only [init] at hp
    split at hp
    · cases hp; rfl
    · split at hp
      · cases hp; rfl
      · cases hp
  inp := by
    intro a i h1 h2
    rcases h2 with rfl | rfl | rfl | rfl <;> (cases h1; exact ⟨_, rfl, rfl⟩)
  outp := by
    intro a i h1 h2
    rcases h2 with rfl | rfl | rfl | rfl | rfl <;> (cases h1; exact ⟨_, rfl, rfl⟩)
  s0 := ⟨_, rfl, rfl⟩
  s1 := ⟨_, rfl, rfl⟩
  s2 := ⟨_, rfl, rfl⟩

/-! ### The counters -/

/-- The counters follow what was put. -/
def Cnt (p : Stm) : Prop := (p.charCount, p.lineCount, p.linePos) = textPos p.out

theorem textPos_append (l : List Nat) (x : Nat) :
    textPos (l ++ [x]) = ((textPos l).1 + 1, (textPos l).2.1 + (if x = 10 then 1 else 0),
      if x = 10 then 0 else (textPos l).2.2 + 1) := by
  have h0 : ∀ l : List Nat, textPos l = (l.length, l.count 10, (l.reverse.takeWhile (· ≠ 10)).length) := by
    intro l; cases l <;> rfl
  rw [h0, h0]
  simp only [List.length_append, List.length_singleton, List.count_append, List.reverse_append, List.reverse_singleton,
    List.singleton_append, List.takeWhile_cons, Prod.mk.injEq, true_and]
  by_cases hx : x = 10
  · simp [hx]
  · simp [hx]

theorem byte_id {c : Int} (h0 : 0 ≤ c) (h1 : c ≤ 255) : (byte c : Int) = c := by
  simp only [byte]
  omega

theorem cnt_E {c : Int} (h0 : 0 ≤ c) (h1 : c ≤ 255) {p : Stm} (h : Cnt p) : ∀ n, Cnt (E c n n p) := by
  intro n
  induction n with
  | zero => rw [E_zero]; exact h
  | succ n ih =>
    rw [← E_comp]
    generalize E c n n p = q at ih ⊢
    have hb := byte_id h0 h1
    have hout : (E c 1 1 q).out = q.out ++ [byte c] := rfl
    simp only [Cnt, hout, textPos_append]
    simp only [Cnt] at ih
    rw [← ih]
    simp only [E]
    rw [if_neg (by omega)]
    by_cases hc : c = 10
    · have : byte c = 10 := by omega
      simp [hc, this]
      subst hc
      exact this
    · have : byte c ≠ 10 := by omega
      simp [hc, this]

def CInv (s : St) : Prop := ∀ i p, s.tbl i = some p → Cnt p

/-- The predicates which put characters of the range 0..255. -/
def Latin : Op → Prop
  | .put _ c => 0 ≤ c ∧ c ≤ 255
  | .get _ c => -1 ≤ c ∧ c ≤ 255
  | _ => True

theorem CInv.keep {s s' : St} (h : CInv s) (hk : Keep s s') : CInv s' := by
  intro i p hp
  obtain ⟨q, h1, h2⟩ := hk.get' hp
  simp only [Cnt, core_out h2, core_cc h2, core_lc h2, core_lp h2]
  exact h i q h1

theorem CInv.addE {s : St} (h : CInv s) {c : Int} (h0 : 0 ≤ c) (h1 : c ≤ 255) (l : List Nat) : CInv (addE c l l s) := by
  intro i p hp
  cases hq : s.tbl i with
  | none => rw [addE_none.2 hq] at hp; cases hp
  | some q => rw [addE_some hq] at hp; cases hp; exact cnt_E h0 h1 (h i q hq) _

theorem CInv.addStream {s : St} (h : CInv s) {p : Stm} (hp : Cnt p) : CInv (addStream s p).1 := by
  intro i q hq
  rw [addStream_tbl] at hq
  by_cases hi : i = (Mirror.addStream s p).2
  · rw [hi, upd_same] at hq; cases hq; exact hp
  · rw [upd_ne _ _ hi] at hq; exact h i q hq

theorem CInv.setAlias {s : St} (h : CInv s) (a i : Nat) (r : Bool) : CInv (setAlias s a i r).1 := by
  rw [setAlias_fst]; exact h

theorem CInv.deleteStream {s s' : St} (h : CInv s) {i : Nat}
    (ht : ∀ k, s'.tbl k = if k = i then none else (s.tbl k).map (strip i)) : CInv s' := by
  intro k p hp
  rw [ht] at hp
  split at hp
  · cases hp
  · cases hq : s.tbl k with
    | none => rw [hq] at hp; cases hp
    | some q => rw [hq] at hp; cases hp; exact h k q hq

theorem step_cnt (f : Nat) (s : St) (o : Op) (hI : Inv s) (h : CInv s) (ho : Latin o) : (step f s o).all CInv := by
  cases o with
  | «open» input aliases mirrors repos fileRepos =>
    simp only [step, openOp]
    split
    · exact h
    split
    · exact h
    split
    · exact h.addStream (by cases input <;> rfl)
    · have h1 := hI.addStream (newStm_lst input false)
      have g1 := h.addStream (p := newStm input false) (by cases input <;> rfl)
      have hi : (addStream s (newStm input false)).1.tbl (addStream s (newStm input false)).2 ≠ none := by
        rw [addStream_tbl, upd_same]; exact fun e => nomatch e
      have h2 := h1.addAliases aliases hi
      have g2 : CInv (addAliases (addStream s (newStm input false)).1 (addStream s (newStm input false)).2 aliases) := by
        rw [addAliases_fst]; exact g1
      have := (addMirrors_ok mirrors h2 (by rw [addAliases_fst]; exact hi)).2
      generalize addMirrors _ _ mirrors = r at this ⊢
      cases r with
      | ok s' => exact g2.keep this.2.1
      | fail s' => exact g2.keep this.2.1
      | err s' => exact g2.keep this.2.1
      | ub => trivial
      | deep => trivial
  | openTerm input => exact h.addStream (by cases input <;> rfl)
  | close x force cf =>
    simp only [step]
    cases hg : getStream s x .exist with
    | none => exact h
    | some i =>
      have ho' := getStream_open hI _ hg
      dsimp only
      rw [closeStm]
      cases hp : s.tbl i with
      | none => exact absurd hp ho'
      | some p =>
        dsimp only
        split
        · exact h
        split
        · trivial
        split
        · exact h
        · next hi =>
          have h3 : 3 ≤ i := by
            have a0 : stdin = 0 := rfl
            have a1 : stdout = 1 := rfl
            have a2 : stderr = 2 := rfl
            omega
          split
          · intro k q hq
            dsimp only at hq
            by_cases hk : k = i
            · rw [hk, upd_same] at hq; cases hq; exact h i p hp
            · rw [upd_ne _ _ hk] at hq; exact h k q hq
          · obtain ⟨s', e1, e2, e3, e4⟩ := hI.deleteStream h3 ho'
            rw [e1]
            exact h.deleteStream e3
  | closeTerm input x =>
    simp only [step]
    cases hg : getStream s x .exist with
    | none => exact h
    | some i =>
      have ho' := getStream_open hI _ hg
      dsimp only
      rw [closeTermOp]
      cases hp : s.tbl i with
      | none => exact absurd hp ho'
      | some p =>
        dsimp only
        split
        · exact h
        next hsp =>
        split
        · exact h
        · by_cases h3 : 3 ≤ i
          · obtain ⟨s', e1, e2, e3, e4⟩ := hI.deleteStream h3 ho'
            rw [e1]
            exact h.deleteStream e3
          · exact absurd (hI.nsp i p (by omega) hp) (by simpa using hsp)
  | setInput x =>
    simp only [step]
    cases getStream s x .input with
    | none => exact h
    | some i => exact h.setAlias _ _ _
  | setOutput x =>
    simp only [step]
    cases getStream s x .output with
    | none => exact h
    | some i => exact h.setAlias _ _ _
  | setTop x y =>
    simp only [step]
    cases getStream s x .input with
    | none => exact h
    | some i =>
      dsimp only
      cases getStream (setAlias s topInput i true).1 y .output with
      | none => exact h.setAlias _ _ _
      | some j => exact (h.setAlias _ _ _).setAlias _ _ _
  | setDebug x y =>
    simp only [step]
    cases getStream s x .input with
    | none => exact h
    | some i =>
      dsimp only
      cases getStream (setAlias s debugInput i true).1 y .output with
      | none => exact h.setAlias _ _ _
      | some j => exact (h.setAlias _ _ _).setAlias _ _ _
  | addAlias x a =>
    simp only [step]
    cases getStream s x .exist with
    | none => exact h
    | some i =>
      dsimp only
      split
      · exact h.setAlias _ _ _
      · exact h
  | setStreamAlias x a =>
    simp only [step]
    cases getStream s x .exist with
    | none => exact h
    | some i => exact h.setAlias _ _ _
  | addMirror x y =>
    simp only [step]
    cases hg : getStream s x .exist with
    | none => exact h
    | some i =>
      dsimp only
      cases hg2 : getStream s y .output with
      | none => exact h
      | some j =>
        obtain ⟨s', e1, e2, e3, e4, e5, e6, e7⟩ := hI.addMirror (getStream_open hI _ hg) (getStream_open hI _ hg2)
        dsimp only
        rw [e1]
        exact h.keep e6
  | removeMirror x y =>
    simp only [step]
    cases hg : getStream s x .exist with
    | none => exact h
    | some i =>
      dsimp only
      cases hg2 : getStream s y .exist with
      | none => exact h
      | some j =>
        obtain ⟨s', e1, e2, e3, e4, e5⟩ := hI.delMirror (getStream_open hI _ hg) (getStream_open hI _ hg2)
        have hk : Keep s s' := by
          intro k
          rw [e3]
          split
          · cases s.tbl k <;> simp [core_strip1]
          · split
            · cases s.tbl k <;> simp [core_strip1]
            · rfl
        dsimp only
        rw [e1]
        cases decide (j ∈ mirrors s i)
        · exact h.keep hk
        · exact h.keep hk
  | put x c =>
    simp only [Latin] at ho
    simp only [step]
    split
    · split
      · exact h
      · trivial
    · refine ofRes_all ?_
      intro s' hs'
      obtain ⟨l, e⟩ := put_res (.inl hs')
      rw [e]
      exact h.addE ho.1 ho.2 l
  | get x c =>
    simp only [Latin] at ho
    simp only [step]
    split
    · split
      · exact h
      · trivial
    · refine ofRes_all ?_
      intro s' hs'
      by_cases hc : c = -1
      · rw [getc] at hs'
        split at hs'
        · cases hs'
        · split at hs'
          · cases hs'
          · cases hs'; exact h
      · obtain ⟨l, e⟩ := put_res (.inr hs')
        rw [e]
        exact h.addE (by omega) ho.2 l

theorem cinv_init : CInv init := by
  intro i p hp
  simp only [init] at hp
  split at hp
  · cases hp; rfl
  · split at hp
    · cases hp; rfl
    · cases hp

/-! ### Reachable states -/

theorem reach_all {P : Op → Prop} {Q : St → Prop} (h0 : Q init)
    (hs : ∀ f s o, Q s → P o → (step f s o).all Q) {s : St} (h : Reach P s) : Q s := by
  induction h with
  | init => exact h0
  | @ok s s' f o _ hp he ih => have := hs f s o ih hp; rw [he] at this; exact this
  | @fail s s' f o _ hp he ih => have := hs f s o ih hp; rw [he] at this; exact this
  | @err s s' f o _ hp he ih => have := hs f s o ih hp; rw [he] at this; exact this

theorem all_and {P Q : St → Prop} {o : Out} (h1 : o.all P) (h2 : o.all Q) : o.all (fun s => P s ∧ Q s) := by
  cases o with
  | ok s => exact ⟨h1, h2⟩
  | fail s => exact ⟨h1, h2⟩
  | err s => exact ⟨h1, h2⟩
  | ub => trivial
  | deep => trivial

theorem reach_inv {P : Op → Prop} {s : St} (h : Reach P s) : Inv s :=
  reach_all inv_init (fun f s o h _ => step_inv f s o h) h

theorem reach_fine {s : St} (h : Reach Fine s) : Inv s ∧ FInv s :=
  reach_all (Q := fun s => Inv s ∧ FInv s) ⟨inv_init, finv_init⟩
    (fun f s o h ho => all_and (step_inv f s o h.1) (step_fine f s o h.1 h.2 ho).2) h

theorem reach_cnt {s : St} (h : Reach Latin s) : Inv s ∧ CInv s :=
  reach_all (Q := fun s => Inv s ∧ CInv s) ⟨inv_init, cinv_init⟩
    (fun f s o h ho => all_and (step_inv f s o h.1) (step_cnt f s o h.1 h.2 ho)) h

end Gp.Mirror
