import Verif.Mirror.Put
namespace Gp.Mirror

open Spec

def Out.all (P : St → Prop) : Out → Prop
  | .ok s => P s
  | .fail s => P s
  | .err s => P s
  | .ub => True
  | .deep => True

/-- The streams are the same, but for their lists. -/
def Keep (s s' : St) : Prop := ∀ k, (s'.tbl k).map core = (s.tbl k).map core

theorem Keep.get {s s' : St} (h : Keep s s') {k : Nat} {p : Stm} (hp : s.tbl k = some p) :
    ∃ p', s'.tbl k = some p' ∧ core p' = core p := by
  have := h k
  rw [hp] at this
  cases hs : s'.tbl k with
  | none => rw [hs] at this; cases this
  | some p' => rw [hs] at this; simp only [Option.map_some, Option.some.injEq] at this; exact ⟨p', rfl, this⟩

theorem Keep.get' {s s' : St} (h : Keep s s') {k : Nat} {p' : Stm} (hp : s'.tbl k = some p') :
    ∃ p, s.tbl k = some p ∧ core p' = core p := by
  have := h k
  rw [hp] at this
  cases hs : s.tbl k with
  | none => rw [hs] at this; cases this
  | some p => rw [hs] at this; simp only [Option.map_some, Option.some.injEq] at this; exact ⟨p, rfl, this⟩

theorem Keep.ne {s s' : St} (h : Keep s s') {k : Nat} (hp : s.tbl k ≠ none) : s'.tbl k ≠ none := by
  cases hs : s.tbl k with
  | none => exact absurd hs hp
  | some p => obtain ⟨p', e, _⟩ := h.get hs; rw [e]; exact fun e => nomatch e

theorem core_input {p q : Stm} (h : core p = core q) : p.input = q.input := by
  simp only [core, Stm.mk.injEq] at h; exact h.1
theorem core_output {p q : Stm} (h : core p = core q) : p.output = q.output := by
  simp only [core, Stm.mk.injEq] at h; exact h.2.1
theorem core_live {p q : Stm} (h : core p = core q) : p.live = q.live := by
  simp only [core, Stm.mk.injEq] at h; exact h.2.2.2.1
theorem core_out {p q : Stm} (h : core p = core q) : p.out = q.out := by
  simp only [core, Stm.mk.injEq] at h; exact h.2.2.2.2.2.2.1
theorem core_cc {p q : Stm} (h : core p = core q) : p.charCount = q.charCount := by
  simp only [core, Stm.mk.injEq] at h; exact h.2.2.2.2.2.2.2.1
theorem core_lc {p q : Stm} (h : core p = core q) : p.lineCount = q.lineCount := by
  simp only [core, Stm.mk.injEq] at h; exact h.2.2.2.2.2.2.2.2.1
theorem core_lp {p q : Stm} (h : core p = core q) : p.linePos = q.linePos := by
  simp only [core, Stm.mk.injEq] at h; exact h.2.2.2.2.2.2.2.2.2

theorem Keep.refl (s : St) : Keep s s := fun _ => rfl

theorem Keep.trans {s s1 s2 : St} (h1 : Keep s s1) (h2 : Keep s1 s2) : Keep s s2 := fun k => (h2 k).trans (h1 k)

/-- A list is not part of the core. -/
theorem core_strip1 (b : Bool) (i : Nat) (p : Stm) : core (strip1 b i p) = core p := by cases b <;> rfl

/-! ### Lists of aliases and of mirrors -/

theorem addAliases_fst (i : Nat) : ∀ (l : List Nat) (s : St), addAliases s i l = { s with alias := (addAliases s i l).alias } := by
  intro l
  induction l with
  | nil => intro s; rfl
  | cons a l ih =>
    intro s
    rw [addAliases, ih, setAlias_fst]

theorem Inv.addAliases {i : Nat} : ∀ (l : List Nat) {s : St}, Inv s → s.tbl i ≠ none → Inv (addAliases s i l) := by
  intro l
  induction l with
  | nil => intro s h _; exact h
  | cons a l ih =>
    intro s h hi
    rw [Mirror.addAliases]
    refine ih (h.setAlias hi) ?_
    rw [setAlias_fst]
    exact hi

theorem addMirrors_ok {i : Nat} : ∀ (l : List Sora) {s : St}, Inv s → s.tbl i ≠ none →
    addMirrors s i l ≠ .ub ∧ (addMirrors s i l).all (fun s' => Inv s' ∧ Keep s s' ∧ s'.alias = s.alias) := by
  intro l
  induction l with
  | nil => intro s h hi; exact ⟨(fun e => nomatch e), h, Keep.refl s, rfl⟩
  | cons x l ih =>
    intro s h hi
    rw [addMirrors]
    cases hg : getStream s x .output with
    | none => exact ⟨(fun e => nomatch e), h, Keep.refl s, rfl⟩
    | some j =>
      obtain ⟨s', e1, e2, e3, e4, e5, e6, e7⟩ := h.addMirror hi (getStream_open h _ hg)
      dsimp only
      rw [e1]
      dsimp only
      have hk : Keep s s' := e6
      obtain ⟨g1, g2⟩ := ih e2 (hk.ne hi)
      refine ⟨g1, ?_⟩
      cases hr : addMirrors s' i l with
      | ok s2 => rw [hr] at g2; exact ⟨g2.1, hk.trans g2.2.1, by rw [g2.2.2, e4]⟩
      | fail s2 => rw [hr] at g2; exact ⟨g2.1, hk.trans g2.2.1, by rw [g2.2.2, e4]⟩
      | err s2 => rw [hr] at g2; exact ⟨g2.1, hk.trans g2.2.1, by rw [g2.2.2, e4]⟩
      | ub => trivial
      | deep => trivial

/-! ### The invariant of the tables, for every predicate -/

theorem Inv.live {s : St} (h : Inv s) {i : Nat} {p : Stm} (hp : s.tbl i = some p) (b : Bool) :
    Inv { s with tbl := upd s.tbl i (some { p with live := b }) } := by
  have hnone : ∀ k, upd s.tbl i (some { p with live := b }) k = none ↔ s.tbl k = none := by
    intro k
    by_cases hk : k = i
    · rw [hk, upd_same, hp]; simp
    · rw [upd_ne _ _ hk]
  refine { size3 := h.size3, size := ?_, lastO := ?_, lastM := ?_, std := ?_, nsp := ?_, ali := ?_, akeys := h.akeys,
           pre := h.pre, mir := ?_ }
  · intro k hk; exact (hnone k).2 (h.size k hk)
  · exact fun e => h.lastO ((hnone _).1 e)
  · intro k hk; exact (hnone k).2 (h.lastM k hk)
  · intro k hk e; exact h.std k hk ((hnone _).1 e)
  · intro k p' hk hp'
    dsimp only at hp'
    by_cases e : k = i
    · rw [e, upd_same] at hp'; cases hp'; exact h.nsp i p (by omega) hp
    · rw [upd_ne _ _ e] at hp'; exact h.nsp k p' hk hp'
  · intro e he hx; exact h.ali e he ((hnone _).1 hx)
  · refine h.mir.congr ?_ ?_
    · intro k p' hp'
      dsimp only at hp'
      by_cases hk : k = i
      · rw [hk, upd_same] at hp'; cases hp'; exact .inl ⟨p, by rw [hk]; exact hp, fun b => by cases b <;> rfl⟩
      · rw [upd_ne _ _ hk] at hp'; exact .inl ⟨p', hp', fun _ => rfl⟩
    · intro k q hq
      dsimp only
      by_cases hk : k = i
      · rw [hk, hp] at hq; cases hq; exact ⟨_, by rw [hk, upd_same], fun b => by cases b <;> rfl⟩
      · exact ⟨q, by rw [upd_ne _ _ hk]; exact hq, fun _ => rfl⟩

theorem Inv.addE {s : St} (h : Inv s) (c : Int) (l l' : List Nat) : Inv (addE c l l' s) := by
  refine { size3 := h.size3, size := ?_, lastO := ?_, lastM := ?_, std := ?_, nsp := ?_, ali := ?_, akeys := h.akeys,
           pre := h.pre, mir := ?_ }
  · intro k hk; exact addE_none.2 (h.size k hk)
  · exact fun e => h.lastO (addE_none.1 e)
  · intro k hk; exact addE_none.2 (h.lastM k hk)
  · intro k hk e; exact h.std k hk (addE_none.1 e)
  · intro k p' hk hp'
    cases hq : s.tbl k with
    | none => rw [addE_none.2 hq] at hp'; cases hp'
    | some q => rw [addE_some hq] at hp'; cases hp'; exact h.nsp k q hk hq
  · intro e he hx; exact h.ali e he (addE_none.1 hx)
  · refine h.mir.congr ?_ ?_
    · intro k p' hp'
      cases hq : s.tbl k with
      | none => rw [addE_none.2 hq] at hp'; cases hp'
      | some q => rw [addE_some hq] at hp'; cases hp'; exact .inl ⟨q, rfl, fun b => by cases b <;> rfl⟩
    · intro k q hq
      exact ⟨_, addE_some hq, fun b => by cases b <;> rfl⟩

theorem newStm_lst (a b : Bool) : ∀ c, lst (newStm a b) c = [] := by intro c; cases c <;> rfl

theorem addStream_tbl {s : St} (p : Stm) : (addStream s p).1.tbl = upd s.tbl (addStream s p).2 (some p) := rfl

/-- The states after a character. -/
theorem put_res {f : Nat} {s s' : St} {i : Nat} {c : Int} (h : putc f s i c = .ok s' ∨ getc f s i c = .ok s') :
    ∃ l, s' = addE c l l s := by
  rcases h with h | h
  · obtain ⟨l, _, h⟩ := putc_sound f c s s' i h; exact ⟨l, h⟩
  · simp only [getc] at h
    cases hp : s.tbl i with
    | none => rw [hp] at h; cases h
    | some p =>
      rw [hp] at h
      dsimp only at h
      split at h
      · cases h
      · split at h
        · cases h; exact ⟨[], by rw [addE_nil]⟩
        · obtain ⟨l, _, h⟩ := putAll_sound_of (c := c) (put := fun s j => putc f s j c) (fun s s' i => putc_sound f c s s' i) _ _ _ h
          exact ⟨l, h⟩

theorem ofRes_all {r : Res} {P : St → Prop} (h : ∀ s, r = .ok s → P s) : (Out.ofRes r).all P := by
  cases r with
  | ok s => exact h s rfl
  | ub => trivial
  | deep => trivial

/-- Every predicate keeps the invariant. -/
theorem step_inv (f : Nat) (s : St) (o : Op) (h : Inv s) : (step f s o).all Inv := by
  cases o with
  | «open» input aliases mirrors repos fileRepos =>
    simp only [step, openOp]
    split
    · exact h
    split
    · exact h
    split
    · exact h.addStream (fun b => by cases b <;> rfl)
    · have h1 := h.addStream (newStm_lst input false)
      have hi : (addStream s (newStm input false)).1.tbl (addStream s (newStm input false)).2 ≠ none := by
        rw [addStream_tbl, upd_same]; exact fun e => nomatch e
      have h2 := h1.addAliases aliases hi
      have := (addMirrors_ok mirrors h2 (by rw [addAliases_fst]; exact hi)).2
      generalize addMirrors _ _ mirrors = r at this ⊢
      cases r with
      | ok s' => exact this.1
      | fail s' => exact this.1
      | err s' => exact this.1
      | ub => trivial
      | deep => trivial
  | openTerm input => exact h.addStream (newStm_lst input true)
  | close x force cf =>
    simp only [step]
    cases hg : getStream s x .exist with
    | none => exact h
    | some i =>
      have ho := getStream_open h _ hg
      dsimp only
      rw [closeStm]
      cases hp : s.tbl i with
      | none => exact absurd hp ho
      | some p =>
        dsimp only
        split
        · exact h
        split
        · trivial
        split
        · exact h.closeStd i
        · next hi =>
          have : 3 ≤ i := by
            have a0 : stdin = 0 := rfl
            have a1 : stdout = 1 := rfl
            have a2 : stderr = 2 := rfl
            omega
          split
          · exact h.live hp false
          · obtain ⟨s', e1, e2, _⟩ := h.deleteStream this ho
            rw [e1]
            exact e2
  | closeTerm input x =>
    simp only [step]
    cases hg : getStream s x .exist with
    | none => exact h
    | some i =>
      have ho := getStream_open h _ hg
      dsimp only
      rw [closeTermOp]
      cases hp : s.tbl i with
      | none => exact absurd hp ho
      | some p =>
        dsimp only
        split
        · exact h
        next hsp =>
        split
        · exact h
        · cases hd : Mirror.deleteStream s i false with
          | none => trivial
          | some s' =>
            by_cases h3 : 3 ≤ i
            · obtain ⟨s', e1, e2, _⟩ := h.deleteStream h3 ho
              rw [hd] at e1
              cases e1
              exact e2
            · exact absurd (h.nsp i p (by omega) hp) (by simpa using hsp)
  | setInput x =>
    simp only [step]
    cases hg : getStream s x .input with
    | none => exact h
    | some i => exact h.setAlias (getStream_open h _ hg)
  | setOutput x =>
    simp only [step]
    cases hg : getStream s x .output with
    | none => exact h
    | some i => exact h.setAlias (getStream_open h _ hg)
  | setTop x y =>
    simp only [step]
    cases hg : getStream s x .input with
    | none => exact h
    | some i =>
      have h1 := h.setAlias (a := topInput) (r := true) (getStream_open h _ hg)
      dsimp only
      cases hg2 : getStream (setAlias s topInput i true).1 y .output with
      | none => exact h1
      | some j => exact h1.setAlias (getStream_open h1 _ hg2)
  | setDebug x y =>
    simp only [step]
    cases hg : getStream s x .input with
    | none => exact h
    | some i =>
      have h1 := h.setAlias (a := debugInput) (r := true) (getStream_open h _ hg)
      dsimp only
      cases hg2 : getStream (setAlias s debugInput i true).1 y .output with
      | none => exact h1
      | some j => exact h1.setAlias (getStream_open h1 _ hg2)
  | addAlias x a =>
    simp only [step]
    cases hg : getStream s x .exist with
    | none => exact h
    | some i =>
      dsimp only
      split
      · exact h.setAlias (getStream_open h _ hg)
      · exact h
  | setStreamAlias x a =>
    simp only [step]
    cases hg : getStream s x .exist with
    | none => exact h
    | some i => exact h.setAlias (getStream_open h _ hg)
  | addMirror x y =>
    simp only [step]
    cases hg : getStream s x .exist with
    | none => exact h
    | some i =>
      dsimp only
      cases hg2 : getStream s y .output with
      | none => exact h
      | some j =>
        obtain ⟨s', e1, e2, _⟩ := h.addMirror (getStream_open h _ hg) (getStream_open h _ hg2)
        dsimp only
        rw [e1]
        exact e2
  | removeMirror x y =>
    simp only [step]
    cases hg : getStream s x .exist with
    | none => exact h
    | some i =>
      dsimp only
      cases hg2 : getStream s y .exist with
      | none => exact h
      | some j =>
        obtain ⟨s', e1, e2, _⟩ := h.delMirror (getStream_open h _ hg) (getStream_open h _ hg2)
        dsimp only
        rw [e1]
        cases decide (j ∈ mirrors s i) <;> exact e2
  | put x c =>
    simp only [step]
    split
    · split
      · exact h
      · trivial
    · refine ofRes_all ?_
      intro s' hs'
      obtain ⟨l, e⟩ := put_res (.inl hs')
      rw [e]
      exact h.addE c l l
  | get x c =>
    simp only [step]
    split
    · split
      · exact h
      · trivial
    · refine ofRes_all ?_
      intro s' hs'
      obtain ⟨l, e⟩ := put_res (.inr hs')
      rw [e]
      exact h.addE c l l

end Gp.Mirror
