import Verif.Fd.TrailOps
import Verif.Fd.TrailSpec
/-
The invariant of the whole chain of choice points, kept by each operation.
-/
namespace Gp.Fd.Trail

open Gp.FdRange Gp.Fd

/-- A choice point with the copy of the memory and its stamp. -/
structure Lvl where
  cp : Cp
  s : Snap
  σ : Int

/-- Each choice point is good with respect to the memory which was copied at the creation of the next one. -/
def Good (c : Cfg) : List Lvl → List Nat → Mem → Nat → Int → List Ent → Prop
  | [], vars, m, cs, stamp, _ => Basic c vars m cs stamp
  | a :: r, vars, m, cs, stamp, trail => Basic c vars m cs stamp ∧ a.cp.csb ≤ cs ∧ a.σ ≤ stamp ∧ a.cp.csb = a.s.cs ∧
      vars.filter (fun v => decide (v < a.cp.csb)) = a.s.vars ∧
      (∃ seg t0, trail = seg ++ t0 ∧ t0.length = a.cp.trb ∧ Lev c a.cp.csb a.σ a.s.mem seg vars m ∧
        Good c r a.s.vars a.s.mem a.cp.csb (a.σ - 1) t0)

theorem Good.basic {c l vars m cs stamp t} (h : Good c l vars m cs stamp t) : Basic c vars m cs stamp := by
  cases l with
  | nil => exact h
  | cons a r => exact h.1

theorem basic_mono {c vars m cs stamp} (h : Basic c vars m cs stamp) {stamp' : Int} (hs : stamp ≤ stamp') :
    Basic c vars m cs stamp' :=
  ⟨h.pos, fun v hv => Int.le_trans (h.rs v hv) hs, fun v hv => Int.le_trans (h.ch v hv) hs, h.lt, h.vec, h.own⟩

theorem Good.mono {c l vars m cs stamp t} (h : Good c l vars m cs stamp t) {stamp' : Int} (hs : stamp ≤ stamp') :
    Good c l vars m cs stamp' t := by
  cases l with
  | nil => exact basic_mono h hs
  | cons a r =>
    obtain ⟨h1, h2, h3, h4, h5, h6⟩ := h
    exact ⟨basic_mono h1 hs, h2, Int.le_trans h3 hs, h4, h5, h6⟩

/-- The memory above the top and the numbers of constraints are not used. -/
theorem Good.agree {c l vars m cs stamp t} (h : Good c l vars m cs stamp t) {m' : Mem} (e : ∀ k, Below cs k → m' k = m k) :
    Good c l vars m' cs stamp t := by
  have bas : Basic c vars m' cs stamp := by
    have b := h.basic
    have e1 : ∀ v ∈ vars, ∀ f, f ≠ .ncstr → m' (f, v) = m (f, v) := fun v hv f hf => e _ ⟨b.lt v hv, hf⟩
    refine ⟨b.pos, ?_, ?_, b.lt, ?_, ?_⟩
    · intro v hv; rw [e1 v hv _ (by decide)]; exact b.rs v hv
    · intro v hv; rw [e1 v hv _ (by decide)]; exact b.ch v hv
    · intro v hv; rw [e1 v hv _ (by decide)]; exact b.vec v hv
    · intro v hv w hw; rw [e1 v hv _ (by decide), e1 w hw _ (by decide)]; exact b.own v hv w hw
  cases l with
  | nil => exact bas
  | cons a r =>
    have b := h.basic
    have e1 : ∀ v ∈ vars, ∀ f, f ≠ .ncstr → m' (f, v) = m (f, v) := fun v hv f hf => e _ ⟨b.lt v hv, hf⟩
    obtain ⟨_, h2, h3, h4, h5, seg, t0, h6, h7, L, h8⟩ := h
    refine ⟨bas, h2, h3, h4, h5, seg, t0, h6, h7, ?_, h8⟩
    refine ⟨?_, ?_, ?_, ?_, ?_⟩
    · intro k hk
      rw [← L.res k hk]
      exact undo_local _ _ _ _ (e k ⟨Nat.lt_of_lt_of_le hk.1 h2, hk.2⟩)
    · intro v hv; rw [e1 v hv _ (by decide), e1 v hv _ (by decide)]; exact L.rngS v hv
    · intro v hv; rw [e1 v hv _ (by decide), e1 v hv _ (by decide)]; exact L.rngU v hv
    · intro v hv; rw [e1 v hv _ (by decide)]; exact L.chnS v hv
    · intro v hv; rw [e1 v hv _ (by decide)]; exact L.chnU v hv

theorem filter_lt_lt (vars : List Nat) {a b : Nat} (h : a ≤ b) :
    (vars.filter (fun v => decide (v < b))).filter (fun v => decide (v < a)) = vars.filter (fun v => decide (v < a)) := by
  rw [List.filter_filter]
  apply List.filter_congr
  intro v _
  by_cases h1 : v < a
  · have h2 : v < b := by omega
    simp [h1, h2]
  · simp [h1]

/-- A choice point is forgotten. -/
theorem Good.drop1 {c a l vars m cs stamp t} (h : Good c (a :: l) vars m cs stamp t) : Good c l vars m cs stamp t := by
  obtain ⟨b, h2, h3, h4, h5, seg, t0, h6, h7, L, h8⟩ := h
  cases l with
  | nil => exact b
  | cons d r =>
    obtain ⟨b', g2, g3, g4, g5, seg', t1, g6, g7, L', g8⟩ := h8
    have hv : ∀ v ∈ vars, v < a.cp.csb → v ∈ a.s.vars := fun v hv hlt => by
      rw [← h5]; exact List.mem_filter.mpr ⟨hv, by simpa using hlt⟩
    refine ⟨b, Nat.le_trans g2 h2, by omega, g4, ?_, seg ++ seg', t1, by rw [h6, g6, List.append_assoc], g7, ?_, g8⟩
    · rw [← g5, ← h5, filter_lt_lt _ g2]
    · refine ⟨?_, ?_, ?_, ?_, ?_⟩
      · intro k hk
        rw [undo_append, ← L'.res k hk]
        exact undo_local _ _ _ _ (L.res k ⟨Nat.lt_of_lt_of_le hk.1 g2, hk.2⟩)
      · intro v hvm hlt hst
        have hlt1 : v < a.cp.csb := Nat.lt_of_lt_of_le hlt g2
        by_cases hs : a.σ ≤ m (.rstamp, v)
        · obtain ⟨q1, q2⟩ := L.rngS v hvm hlt1 hs
          refine ⟨fun k hk => (q1 k hk).left, fun hp k hk => ?_⟩
          rcases q2 hp k hk with q | q
          · exact .inl (Nat.le_trans g2 q)
          · exact .inr q.left
        · obtain ⟨q1, q2⟩ := L.rngU v hvm hlt1 (by omega)
          rw [q1] at hst
          obtain ⟨q3, q4⟩ := L'.rngS v (hv v hvm hlt1) hlt hst
          rw [q2]
          exact ⟨fun k hk => (q3 k hk).mono, fun hp k hk => (q4 hp k hk).imp id Cov.mono⟩
      · intro v hvm hlt hst
        have hlt1 : v < a.cp.csb := Nat.lt_of_lt_of_le hlt g2
        obtain ⟨q1, q2⟩ := L.rngU v hvm hlt1 (by omega)
        rw [q1] at hst ⊢
        rw [q2]
        exact L'.rngU v (hv v hvm hlt1) hlt hst
      · intro v hvm hlt hst
        have hlt1 : v < a.cp.csb := Nat.lt_of_lt_of_le hlt g2
        by_cases hs : a.σ ≤ m (.cstamp, v)
        · exact fun k hk hn => (L.chnS v hvm hlt1 hs k hk hn).left
        · rw [L.chnU v hvm hlt1 (by omega)] at hst
          exact fun k hk hn => (L'.chnS v (hv v hvm hlt1) hlt hst k hk hn).mono
      · intro v hvm hlt hst
        have hlt1 : v < a.cp.csb := Nat.lt_of_lt_of_le hlt g2
        have q1 := L.chnU v hvm hlt1 (by omega)
        rw [q1] at hst ⊢
        exact L'.chnU v (hv v hvm hlt1) hlt hst

theorem Good.drop {c l vars m cs stamp t} (k : Nat) (h : Good c l vars m cs stamp t) : Good c (l.drop k) vars m cs stamp t := by
  induction k generalizing l with
  | zero => exact h
  | succ k ih =>
    cases l with
    | nil => exact h
    | cons a l => exact ih h.drop1

theorem Good.erase {c l vars m cs stamp t} (k : Nat) (h : Good c l vars m cs stamp t) :
    Good c (l.eraseIdx k) vars m cs stamp t := by
  induction l generalizing k vars m cs stamp t with
  | nil => exact h
  | cons a l ih =>
    cases k with
    | zero => exact h.drop1
    | succ k =>
      obtain ⟨b, h2, h3, h4, h5, seg, t0, h6, h7, L, h8⟩ := h
      exact ⟨b, h2, h3, h4, h5, seg, t0, h6, h7, L, ih k h8⟩

/-- An operation which keeps the invariant of the newest choice point keeps the invariant of all. -/
theorem Good.op {c l} {st st' : St} (h : Good c l st.vars st.mem st.cs st.stamp st.trail) (hc : l.map Lvl.cp = st.cps)
    (H : ∀ csb σ m0 t0 vars0, csb = st.csb → Inv c csb σ m0 t0 vars0 st → Inv c csb σ m0 t0 vars0 st') :
    Good c l st'.vars st'.mem st'.cs st'.stamp st'.trail := by
  cases l with
  | nil =>
    have e : st.csb = 0 := by unfold St.csb; rw [← hc]; rfl
    have h : Basic c st.vars st.mem st.cs st.stamp := h
    have i : Inv c 0 st.stamp st.mem [] [] st := by
      refine ⟨⟨st.trail, by simp, ?_⟩, h, Nat.zero_le _, Int.le_refl _, by simp⟩
      exact ⟨fun k hk => absurd hk.1 (Nat.not_lt_zero _), fun v _ h => absurd h (Nat.not_lt_zero _),
        fun v _ h => absurd h (Nat.not_lt_zero _), fun v _ h => absurd h (Nat.not_lt_zero _),
        fun v _ h => absurd h (Nat.not_lt_zero _)⟩
    exact (H _ _ _ _ _ e.symm i).bas
  | cons a r =>
    have e : a.cp.csb = st.csb := by unfold St.csb; rw [← hc]; rfl
    obtain ⟨b, h2, h3, h4, h5, seg, t0, h6, h7, L, h8⟩ := h
    have i' := H a.cp.csb a.σ a.s.mem t0 a.s.vars e ⟨⟨seg, h6, L⟩, b, h2, h3, h5⟩
    obtain ⟨seg', e', L'⟩ := i'.lev
    exact ⟨i'.bas, i'.cs, i'.sig, h4, i'.vars, seg', t0, e', h7, L', h8⟩

/-- The state after the restoration of the newest choice point. -/
theorem good_restore {c a l} {st : St} (h : Good c (a :: l) st.vars st.mem st.cs st.stamp st.trail)
    (hc : (a :: l).map Lvl.cp = st.cps) :
    (∀ k, Below a.cp.csb k → (restore st).mem k = a.s.mem k) ∧ (restore st).cs = a.s.cs ∧ (restore st).vars = a.s.vars ∧
      Good c (a :: l) (restore st).vars (restore st).mem (restore st).cs (restore st).stamp (restore st).trail ∧
      (restore st).cps = st.cps ∧ (restore st).stamp = st.stamp ∧
      Good c l (restore st).vars (restore st).mem (restore st).cs (a.σ - 1) (restore st).trail ∧ a.σ ≤ st.stamp := by
  obtain ⟨b, h2, h3, h4, h5, seg, t0, h6, h7, L, h8⟩ := h
  obtain ⟨q, hq⟩ : ∃ q, st.cps = a.cp :: q := ⟨_, hc.symm⟩
  have hk : st.trail.length - a.cp.trb = seg.length := by rw [h6, List.length_append, h7]; omega
  have e1 : st.trail.take seg.length = seg := by rw [h6]; simp
  have e2 : st.trail.drop seg.length = t0 := by rw [h6]; simp
  have em : (restore st).mem = undo seg st.mem := by unfold restore; simp only [hq, hk, e1]
  have et : (restore st).trail = t0 := by unfold restore; simp only [hq, hk, e2]
  have ecs : (restore st).cs = a.cp.csb := by unfold restore; simp only [hq]
  have ev : (restore st).vars = a.s.vars := by unfold restore; simp only [hq, h5]
  have ec : (restore st).cps = st.cps := by unfold restore; simp only [hq]
  have es : (restore st).stamp = st.stamp := by unfold restore; simp only [hq]
  have ag : ∀ k, Below a.cp.csb k → (restore st).mem k = a.s.mem k := fun k hk => by rw [em]; exact L.res k hk
  have g := h8.agree ag
  rw [ecs, ev, et, es]
  refine ⟨ag, h4, rfl, ?_, ec, rfl, g, h3⟩
  refine ⟨basic_mono g.basic (by omega), Nat.le_refl _, h3, h4, ?_, [], t0, rfl, h7, ?_, h8⟩
  · rw [← h5, filter_lt_lt _ (Nat.le_refl _)]
  · have g' := h8.basic
    refine ⟨ag, ?_, ?_, ?_, ?_⟩
    · intro v hv hlt hs
      rw [ag _ ⟨hlt, fun h => by cases h⟩] at hs
      have := g'.rs v hv
      omega
    · intro v hv hlt hs
      exact ⟨ag _ ⟨hlt, fun h => by cases h⟩, ag _ ⟨hlt, fun h => by cases h⟩⟩
    · intro v hv hlt hs
      rw [ag _ ⟨hlt, fun h => by cases h⟩] at hs
      have := g'.ch v hv
      omega
    · intro v hv hlt hs
      exact ag _ ⟨hlt, fun h => by cases h⟩

theorem Good.create {c l} {st : St} (h : Good c l st.vars st.mem st.cs st.stamp st.trail) :
    Good c (⟨⟨st.cs, st.hp, st.trail.length⟩, ⟨st.mem, st.cs, st.vars⟩, st.stamp + 1⟩ :: l) st.vars st.mem st.cs (st.stamp + 1)
      st.trail := by
  have b := h.basic
  refine ⟨basic_mono b (by omega), Nat.le_refl _, Int.le_refl _, rfl, ?_, [], st.trail, rfl, rfl, ?_, ?_⟩
  · exact List.filter_eq_self.mpr (fun v hv => by simpa using b.lt v hv)
  · refine ⟨fun _ _ => rfl, ?_, fun _ _ _ _ => ⟨rfl, rfl⟩, ?_, fun _ _ _ _ => rfl⟩
    · intro v hv _ hs
      have := b.rs v hv
      have hs : st.stamp + 1 ≤ st.mem (.rstamp, v) := hs
      omega
    · intro v hv _ hs
      have := b.ch v hv
      have hs : st.stamp + 1 ≤ st.mem (.cstamp, v) := hs
      omega
  · show Good c l st.vars st.mem st.cs (st.stamp + 1 - 1) st.trail
    rw [show st.stamp + 1 - 1 = st.stamp by omega]
    exact h

theorem map_eraseIdx {α β : Type} (f : α → β) (l : List α) (k : Nat) : (l.eraseIdx k).map f = (l.map f).eraseIdx k := by
  induction l generalizing k with
  | nil => rfl
  | cons a l ih =>
    cases k with
    | zero => rfl
    | succ k => simp [ih]

/-- The invariant of the histories. -/
def GoodSt (c : Cfg) (st : St) (l : List Snap) : Prop :=
  ∃ L : List Lvl, L.map Lvl.cp = st.cps ∧ L.map Lvl.s = l ∧ Good c L st.vars st.mem st.cs st.stamp st.trail

theorem newBlock_inv {c csb σ m0 t0 vars0} {st : St} (h : Inv c csb σ m0 t0 vars0 st) (size : Nat) (m : Nat → Int) :
    Inv c csb σ m0 t0 vars0 (step c st (.newBlock size m)) := by
  refine Inv.top (st := { st with mem := fun l => if st.cs ≤ l.2 ∧ l.1 = .word then m l.2 else st.mem l }) ?_ (st.cs + size)
    (by show st.cs ≤ st.cs + size; omega)
  obtain ⟨⟨seg, e, L⟩, b, h1, h2, h3⟩ := h
  refine ⟨⟨seg, e, ?_, ?_, ?_, ?_, ?_⟩, ⟨b.pos, ?_, ?_, b.lt, ?_, ?_⟩, h1, h2, h3⟩
  · intro k hk
    rw [← L.res k hk]
    apply undo_local
    exact if_neg (fun h => by have := hk.1; omega)
  · simpa using L.rngS
  · simpa using L.rngU
  · simpa using L.chnS
  · simpa using L.chnU
  · simpa using b.rs
  · simpa using b.ch
  · simpa using b.vec
  · simpa using b.own

theorem step_good {c st l} (op : Op) (h : GoodSt c st l) (ho : OpOk c st op) : GoodSt c (step c st op) (snapStep st l op) := by
  obtain ⟨L, hc, hs, g⟩ := h
  have plain : ∀ st' : St, (∀ csb σ m0 t0 vars0, csb = st.csb → Inv c csb σ m0 t0 vars0 st → Inv c csb σ m0 t0 vars0 st') →
      st'.cps = st.cps → GoodSt c st' l := fun st' H e => ⟨L, by rw [hc, e], hs, g.op hc H⟩
  cases op with
  | newVar min max => exact plain _ (fun _ _ _ _ _ _ i => newVar_inv i min max) rfl
  | newRange r nb =>
    refine plain _ (fun _ _ _ _ _ _ i => newRange_inv i r nb) ?_
    exact (rangeCopy_same c (newVar st 0 imax) st.cs r).cps
  | newInt n => exact plain _ (fun _ _ _ _ _ _ i => newIntVar_inv i n) rfl
  | newCstr af fct opt v =>
    refine plain _ (fun _ _ _ _ _ _ i => newCstr_inv i af fct opt v) ?_
    show (newCstr st af fct opt v).cps = st.cps
    unfold newCstr
    dsimp only
    split
    · rfl
    · split <;> rfl
  | addDep v i cf =>
    refine plain _ (fun _ _ _ _ _ _ j => addDep_inv j ho i cf) ?_
    show (addDep st v i cf).cps = st.cps
    unfold addDep
    split
    · rfl
    · exact (trailChains_same st v).cps
  | stop cf x =>
    refine plain _ (fun _ _ _ _ _ e i => stopCstr_inv i e cf x) ?_
    show (stopCstr st cf x).cps = st.cps
    unfold stopCstr
    dsimp only
    split <;> rfl
  | newBlock size m => exact plain _ (fun _ _ _ _ _ _ i => newBlock_inv i size m) rfl
  | updInt v n => exact plain _ (fun _ _ _ _ _ e i => updInt_inv i e ho n) (trailInt_same c st v).cps
  | updInterval v nb min max =>
    refine plain _ (fun _ _ _ _ _ _ i => updInterval_inv i ho nb min max) ?_
    show (updInterval c st v nb min max).cps = st.cps
    unfold updInterval
    split
    · exact (trailRange_same c st v).cps
    · rfl
  | updRange v nb r =>
    refine plain _ (fun _ _ _ _ _ e i => updRange_inv i e ho.1 nb r ho.2) ?_
    show (updRange c st v nb r).cps = st.cps
    unfold updRange
    split
    · exact (rangeCopy_same c _ v r).cps.trans (trailRange_same c st v).cps
    · split
      · unfold bindExtra
        dsimp only
        split <;> rfl
      · rfl
  | toSparse v =>
    refine plain _ (fun _ _ _ _ _ _ i => toSparse_inv i ho.1 ho.2) ?_
    exact (rangeCopy_same c _ v _).cps.trans (trailRange_same c st v).cps
  | remove v n =>
    refine plain _ (fun _ _ _ _ _ _ i => remove_inv i ho.1 n ho.2) ?_
    show (remove c st v n).cps = st.cps
    have e := (trailRange_same c st v).cps
    have e2 : (if (trailRange c st v).vecAdr v ≠ 0 then resetWord (trailRange c st v) v n.toNat
      else trailRange c st v).cps = st.cps := by split <;> exact e
    unfold remove
    dsimp only
    generalize (if (trailRange c st v).vecAdr v ≠ 0 then resetWord (trailRange c st v) v n.toNat
      else trailRange c st v) = st2 at e2
    split
    · exact e2
    · split <;> exact e2
  | newDate => exact ⟨L, hc, hs, g⟩
  | create => exact ⟨_ :: L, by show _ :: List.map _ L = _; rw [hc]; rfl, by show _ :: List.map _ L = _; rw [hs]; rfl, g.create⟩
  | retry =>
    cases L with
    | nil =>
      have e : st.cps = [] := hc.symm
      have : step c st .retry = st := by show restore st = st; unfold restore; rw [e]
      rw [this]
      exact ⟨[], hc, hs, g⟩
    | cons a L =>
      obtain ⟨_, _, _, g', e, _⟩ := good_restore g hc
      exact ⟨a :: L, hc.trans e.symm, hs, g'⟩
  | trust =>
    cases L with
    | nil =>
      have e : st.cps = [] := hc.symm
      exact absurd e ho
    | cons a L =>
      obtain ⟨_, _, _, _, e, es, g', hσ⟩ := good_restore g hc
      refine ⟨L, ?_, ?_, ?_⟩
      · show _ = (restore st).cps.tail
        rw [e, ← hc]
        rfl
      · show _ = l.tail
        rw [← hs]
        rfl
      · exact g'.mono (by show a.σ - 1 ≤ (restore st).stamp - 1; rw [es]; omega)
  | cut k => exact ⟨L.drop k, by rw [List.map_drop, hc]; rfl, by rw [List.map_drop, hs]; rfl, g.drop k⟩
  | softCut k => exact ⟨L.eraseIdx k, by rw [map_eraseIdx, hc]; rfl, by rw [map_eraseIdx, hs]; rfl, g.erase k⟩
  | copyVar v => exact ho.elim

theorem reach_good {c st l} (h : Reach c st l) : GoodSt c st l := by
  induction h with
  | init base heap =>
    refine ⟨[], rfl, rfl, ?_⟩
    have no : ∀ {P : Prop} (v : Nat), v ∈ (init base heap).vars → P := fun v hv => absurd hv List.not_mem_nil
    exact ⟨Nat.succ_pos base, fun v hv => no v hv, fun v hv => no v hv, fun v hv => no v hv, fun v hv => no v hv, fun v hv => no v hv⟩
  | step op _ ho ih => exact step_good op ih ho

end Gp.Fd.Trail
