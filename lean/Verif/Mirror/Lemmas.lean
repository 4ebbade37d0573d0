import Verif.Mirror.Spec
namespace Gp.Mirror

open Spec

/-! ### Lists of nodes -/

/-- One of the two lists of a stream. -/
def lst (p : Stm) (b : Bool) : List Node := if b then p.mirror else p.mirrorOf

def setLst (p : Stm) (b : Bool) (l : List Node) : Stm :=
  if b then { p with mirror := l } else { p with mirrorOf := l }

/-- A node is in a list of a stream. -/
def At (tbl : Nat → Option Stm) (i : Nat) (b : Bool) (n : Node) : Prop := ∃ p, tbl i = some p ∧ n ∈ lst p b

theorem lst_setLst_same (p : Stm) (b : Bool) (l : List Node) : lst (setLst p b l) b = l := by
  cases b <;> rfl

theorem lst_setLst_ne (p : Stm) (b : Bool) (l : List Node) : lst (setLst p b l) (!b) = lst p (!b) := by
  cases b <;> rfl

/-- The part of the invariant about the mirrors. -/
structure MInv (tbl : Nat → Option Stm) (freed : List Nat) (fresh : Nat) : Prop where
  nodup : ∀ i p b, tbl i = some p → ((lst p b).map (·.stm)).Nodup
  irr : ∀ i b n, At tbl i b n → n.stm ≠ i
  sym : ∀ i b n, At tbl i b n → ∃ n', At tbl n.stm (!b) n' ∧ n'.stm = i
  fr : ∀ i b n, At tbl i b n → n.id < fresh ∧ n.id ∉ freed
  f0 : ∀ a ∈ freed, a < fresh
  ids : ∀ i b n j b' m, At tbl i b n → At tbl j b' m → n.id = m.id → i = j ∧ b = b' ∧ n = m

theorem findNode_ok {freed : List Nat} {l : List Node} {j : Nat} (h : ∀ n ∈ l, n.id ∉ freed) :
    findNode freed l j = some (decide (j ∈ l.map (·.stm))) := by
  induction l with
  | nil => rfl
  | cons n l ih =>
    rw [findNode, if_neg (h n (by simp)), ih (fun m hm => h m (by simp [hm]))]
    by_cases hn : n.stm = j
    · simp [hn]
    · simp [hn, Ne.symm hn]

theorem removeIn_ok {freed : List Nat} {l : List Node} {j : Nat} (h : ∀ n ∈ l, n.id ∉ freed)
    (hn : (l.map (·.stm)).Nodup) :
    ∃ a, removeIn freed l j = some (l.filter (fun n => n.stm ≠ j), a) ∧
      (∀ x, a = some x → ∃ n ∈ l, n.stm = j ∧ n.id = x) ∧ (a.isSome ↔ j ∈ l.map (·.stm)) := by
  induction l with
  | nil => exact ⟨none, rfl, (by intro x hx; cases hx), by simp⟩
  | cons n l ih =>
    rw [removeIn, if_neg (h n (by simp))]
    simp only [List.map_cons, List.nodup_cons] at hn
    by_cases hj : n.stm = j
    · refine ⟨some n.id, ?_, ?_, ?_⟩
      · rw [if_pos hj]
        have : l.filter (fun n => decide (n.stm ≠ j)) = l := by
          rw [List.filter_eq_self]
          intro m hm
          have : m.stm ≠ j := by
            intro he
            exact hn.1 (by rw [hj, ← he]; exact List.mem_map_of_mem hm)
          simpa using this
        rw [List.filter_cons, if_neg (by simp [hj]), this]
      · intro x hx
        cases hx
        exact ⟨n, by simp, hj, rfl⟩
      · simp [hj]
    · obtain ⟨a, h1, h2, h3⟩ := ih (fun m hm => h m (by simp [hm])) hn.2
      refine ⟨a, ?_, ?_, ?_⟩
      · rw [if_neg hj, h1]
        simp [List.filter_cons, hj]
      · intro x hx
        obtain ⟨m, hm, h4⟩ := h2 x hx
        exact ⟨m, by simp [hm], h4⟩
      · rw [h3]
        simp [Ne.symm hj]

/-! ### Removal from a list, in one function -/

def rmv (s : St) (b : Bool) (i j : Nat) : Option (St × Bool) :=
  match s.tbl i with
  | none => none
  | some p =>
    match removeIn s.freed (lst p b) j with
    | none => none
    | some (l, a) => some (freeNode { s with tbl := upd s.tbl i (some (setLst p b l)) } a, a.isSome)

theorem removeMirrorIn_eq (s : St) (i j : Nat) : removeMirrorIn s i j = rmv s true i j := rfl

theorem removeMirrorOfIn_eq (s : St) (i j : Nat) : removeMirrorOfIn s i j = (rmv s false i j).map (·.1) := by
  simp only [removeMirrorOfIn, rmv]
  cases s.tbl i with
  | none => rfl
  | some p =>
    have : lst p false = p.mirrorOf := rfl
    simp only [this]
    cases removeIn s.freed p.mirrorOf j with
    | none => rfl
    | some r => rfl

def loop (s : St) (b : Bool) (i : Nat) : List Node → Option St
  | [] => some s
  | n :: l =>
    if n.id ∈ s.freed then none
    else match rmv (freeNode s (some n.id)) (!b) n.stm i with
      | none => none
      | some (s, _) => loop s b i l

theorem updMirrors_eq (i : Nat) (l : List Node) : ∀ s, updMirrors s i l = loop s true i l := by
  induction l with
  | nil => intro s; rfl
  | cons n l ih =>
    intro s
    rw [updMirrors, loop]
    split
    · rfl
    · rw [removeMirrorOfIn_eq]
      simp only [Bool.not_true]
      cases rmv (freeNode s (some n.id)) false n.stm i with
      | none => rfl
      | some r => exact ih _

theorem updMirrorsOf_eq (i : Nat) (l : List Node) : ∀ s, updMirrorsOf s i l = loop s false i l := by
  induction l with
  | nil => intro s; rfl
  | cons n l ih =>
    intro s
    rw [updMirrorsOf, loop]
    split
    · rfl
    · rw [removeMirrorIn_eq]
      simp only [Bool.not_false]
      cases rmv (freeNode s (some n.id)) true n.stm i with
      | none => rfl
      | some r => exact ih _

/-- A stream without its nodes for the stream `i`, in one list. -/
def strip1 (b : Bool) (i : Nat) (p : Stm) : Stm := setLst p b ((lst p b).filter (fun n => n.stm ≠ i))

/-- Without its nodes for the stream `i`. -/
def strip (i : Nat) (p : Stm) : Stm :=
  { p with mirror := p.mirror.filter (fun n => n.stm ≠ i), mirrorOf := p.mirrorOf.filter (fun n => n.stm ≠ i) }

theorem rmv_ok {s : St} {b : Bool} {i j : Nat} {p : Stm} (hp : s.tbl i = some p)
    (hf : ∀ n ∈ lst p b, n.id ∉ s.freed) (hn : ((lst p b).map (·.stm)).Nodup) :
    ∃ s', rmv s b i j = some (s', decide (j ∈ (lst p b).map (·.stm))) ∧
      s'.tbl = upd s.tbl i (some (strip1 b j p)) ∧
      s'.size = s.size ∧ s'.last = s.last ∧ s'.alias = s.alias ∧ s'.fresh = s.fresh ∧
      (∀ x, x ∈ s'.freed → x ∈ s.freed ∨ ∃ n ∈ lst p b, n.stm = j ∧ n.id = x) ∧
      (∀ x, x ∈ s.freed → x ∈ s'.freed) := by
  obtain ⟨a, h1, h2, h3⟩ := removeIn_ok (j := j) hf hn
  have hb : a.isSome = decide (j ∈ (lst p b).map (·.stm)) := by
    rw [Bool.eq_iff_iff, h3]; simp
  refine ⟨freeNode { s with tbl := upd s.tbl i (some (strip1 b j p)) } a, ?_, ?_, ?_, ?_, ?_, ?_, ?_, ?_⟩
  · simp only [rmv, hp, h1, hb, strip1]
  all_goals (cases a <;> simp only [freeNode])
  · intro x hx; exact .inl hx
  · intro x hx
    rcases List.mem_cons.1 hx with rfl | hx
    · exact .inr (h2 _ rfl)
    · exact .inl hx
  · intro x hx; exact hx
  · intro x hx; exact List.mem_cons_of_mem _ hx

theorem upd_same (f : Nat → Option Stm) (i : Nat) (p : Option Stm) : upd f i p i = p := by simp [upd]

theorem upd_ne (f : Nat → Option Stm) {i k : Nat} (p : Option Stm) (h : k ≠ i) : upd f i p k = f k := by
  simp [upd, h]

/-- The loops which remove a stream from the lists of its mirrors. -/
theorem loop_ok (b : Bool) (i : Nat) : ∀ (l : List Node) (s : St),
    (l.map (·.stm)).Nodup →
    (l.map (·.id)).Nodup →
    (∀ n ∈ l, n.id ∉ s.freed) →
    (∀ n ∈ l, ∃ q, s.tbl n.stm = some q ∧ ((lst q (!b)).map (·.stm)).Nodup ∧
      (∀ m ∈ lst q (!b), m.id ∉ s.freed) ∧
      (∀ m ∈ lst q (!b), m.id ∉ l.map (·.id)) ∧
      (∀ n' ∈ l, n'.stm ≠ n.stm → ∀ q', s.tbl n'.stm = some q' → ∀ m ∈ lst q (!b), ∀ m' ∈ lst q' (!b),
        m.id ≠ m'.id)) →
    ∃ s', loop s b i l = some s' ∧
      (∀ k, s'.tbl k = if k ∈ l.map (·.stm) then (s.tbl k).map (strip1 (!b) i) else s.tbl k) ∧
      s'.size = s.size ∧ s'.last = s.last ∧ s'.alias = s.alias ∧ s'.fresh = s.fresh ∧
      (∀ x, x ∈ s'.freed → x ∈ s.freed ∨ x ∈ l.map (·.id) ∨
        ∃ n ∈ l, ∃ m, At s.tbl n.stm (!b) m ∧ m.stm = i ∧ m.id = x) := by
  intro l
  induction l with
  | nil => intro s _ _ _ _; exact ⟨s, rfl, by simp, rfl, rfl, rfl, rfl, fun x hx => .inl hx⟩
  | cons n l ih =>
    intro s h1 h2 h3 h4
    simp only [List.map_cons, List.nodup_cons] at h1 h2
    obtain ⟨q, hq, hq1, hq2, hq3, hq4⟩ := h4 n (by simp)
    have hfr : ∀ m ∈ lst q (!b), m.id ∉ (freeNode s (some n.id)).freed := by
      intro m hm
      simp only [freeNode, List.mem_cons, not_or]
      exact ⟨fun e => hq3 m hm (by simp [e]), hq2 m hm⟩
    obtain ⟨s1, r1, r2, r3, r4, r5, r6, r7, r8⟩ :=
      rmv_ok (s := freeNode s (some n.id)) (b := !b) (i := n.stm) (j := i) (p := q) hq hfr hq1
    have hne : ∀ n' ∈ l, n'.stm ≠ n.stm := by
      intro n' hn' he
      exact h1.1 (by rw [← he]; exact List.mem_map_of_mem hn')
    have htbl : ∀ n' ∈ l, s1.tbl n'.stm = s.tbl n'.stm := by
      intro n' hn'
      rw [r2, upd_ne _ _ (hne n' hn')]
      rfl
    have hfreed : ∀ x, x ∈ s1.freed → x = n.id ∨ x ∈ s.freed ∨ ∃ m ∈ lst q (!b), m.stm = i ∧ m.id = x := by
      intro x hx
      rcases r7 x hx with hx | hx
      · rcases List.mem_cons.1 hx with hx | hx
        · exact .inl hx
        · exact .inr (.inl hx)
      · exact .inr (.inr hx)
    obtain ⟨s', e1, e2, e3, e4, e5, e6, e7⟩ := ih s1 h1.2 h2.2
      (by
        intro n' hn' hx
        rcases hfreed _ hx with hx | hx | ⟨m, hm, _, hx⟩
        · exact h2.1 (by rw [← hx]; exact List.mem_map_of_mem hn')
        · exact h3 n' (by simp [hn']) hx
        · exact hq3 m hm (by rw [hx]; exact List.mem_map_of_mem (by simp [hn'])))
      (by
        intro n' hn'
        obtain ⟨q', hq', g1, g2, g3, g4⟩ := h4 n' (by simp [hn'])
        refine ⟨q', by rw [htbl n' hn']; exact hq', g1, ?_, ?_, ?_⟩
        · intro m hm hx
          rcases hfreed _ hx with hx | hx | ⟨m', hm', _, hx⟩
          · exact g3 m hm (by simp [hx])
          · exact g2 m hm hx
          · exact hq4 n' (by simp [hn']) (hne n' hn') q' hq' m' hm' m hm hx
        · intro m hm hx
          exact g3 m hm (by simp only [List.map_cons, List.mem_cons]; exact .inr hx)
        · intro n'' hn'' hnn q'' hq'' m hm m' hm'
          rw [htbl n'' hn''] at hq''
          exact g4 n'' (by simp [hn'']) hnn q'' hq'' m hm m' hm')
    refine ⟨s', ?_, ?_, by rw [e3, r3]; rfl, by rw [e4, r4]; rfl, by rw [e5, r5]; rfl, by rw [e6, r6]; rfl, ?_⟩
    · rw [loop, if_neg (h3 n (by simp)), r1]
      exact e1
    · intro k
      rw [e2, r2]
      by_cases hk : k = n.stm
      · subst hk
        rw [if_neg h1.1, upd_same, if_pos (by simp), hq]
        rfl
      · rw [upd_ne _ _ hk]
        simp only [freeNode, List.map_cons, List.mem_cons, hk, false_or]
    · intro x hx
      rcases e7 x hx with hx | hx | ⟨n', hn', m, ⟨q', hq', hm⟩, hmi⟩
      · rcases hfreed x hx with hx | hx | ⟨m, hm, hmi⟩
        · exact .inr (.inl (by simp [hx]))
        · exact .inl hx
        · exact .inr (.inr ⟨n, by simp, m, ⟨q, hq, hm⟩, hmi⟩)
      · exact .inr (.inl (by simp only [List.map_cons, List.mem_cons]; exact .inr hx))
      · rw [htbl n' hn'] at hq'
        exact .inr (.inr ⟨n', by simp [hn'], m, ⟨q', hq', hm⟩, hmi⟩)

end Gp.Mirror
