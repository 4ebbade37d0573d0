import Verif.Fd.TrailLemmas
/-
Each operation on the finite domain variables keeps the invariant of the newest choice point.
-/
namespace Gp.Fd.Trail

open Gp.FdRange Gp.Fd

theorem intWrites_inv {c csb σ m0 t0 vars0 st} (h : Inv c csb σ m0 t0 vars0 st) {v : Nat} (n : Int)
    (hl : ∀ l ∈ rangeLocs v, Safe csb t0 st l) (hs : v < csb → σ ≤ st.mem (.rstamp, v))
    (ht : Safe csb t0 st (.tag, v)) (hd : Safe csb t0 st (.date, v)) : Inv c csb σ m0 t0 vars0 (intWrites st v n) := by
  have i1 := h.wr 1 (hl (.nb, v) (by simp [rangeLocs])) rfl
  have i2 := i1.wr n ((hl (.min, v) (by simp [rangeLocs])).of _ rfl) rfl
  have i3 := i2.wr n ((hl (.max, v) (by simp [rangeLocs])).of _ rfl) rfl
  have i4 := i3.wrVec (v := v) 0 ((hl (.vecp, v) (by simp [rangeLocs])).of _ rfl) (by simpa using hs) (by simp) (by simp)
  have i5 := i4.wr (intTag n) (ht.of _ rfl) rfl
  exact i5.wr st.date (hd.of _ rfl) rfl

theorem updInt_inv {c csb σ m0 t0 vars0 st} (h : Inv c csb σ m0 t0 vars0 st) (hb : csb = st.csb) {v : Nat} (hv : v ∈ st.vars)
    (n : Int) : Inv c csb σ m0 t0 vars0 (updInt c st v n) := by
  obtain ⟨i, h1, h2, h3, h4⟩ := trailInt_inv h hb hv
  exact intWrites_inv i n h1 h2 h3 h4

theorem updInterval_inv {c csb σ m0 t0 vars0 st} (h : Inv c csb σ m0 t0 vars0 st) {v : Nat} (hv : v ∈ st.vars)
    (nb min max : Int) : Inv c csb σ m0 t0 vars0 (updInterval c st v nb min max) := by
  unfold updInterval
  split
  · obtain ⟨i, r⟩ := trailRange_inv h hv
    have i1 := i.wr nb (r.locs (.nb, v) (by simp [rangeLocs])) rfl
    have i2 := i1.wr min ((r.locs (.min, v) (by simp [rangeLocs])).of _ rfl) rfl
    exact i2.wr max ((r.locs (.max, v) (by simp [rangeLocs])).of _ rfl) rfl
  · exact h

theorem writeVec_inv {c csb σ m0 t0 vars0} (ws : List (BitVec 64)) (p : Nat) (st : St) (h : Inv c csb σ m0 t0 vars0 st)
    (hs : ∀ i < ws.length, Safe csb t0 st (.word, p + i)) :
    Inv c csb σ m0 t0 vars0 { st with mem := writeVec st.mem p ws } := by
  induction ws generalizing p st with
  | nil => exact h
  | cons w ws ih =>
    have i1 := h.wr (w.toNat : Int) (hs 0 (by simp)) rfl
    have := ih (p + 1) _ i1 (fun i hi => by
      have := hs (i + 1) (by simpa using hi)
      rw [show p + (i + 1) = p + 1 + i by omega] at this
      exact this.of _ rfl)
    exact this

theorem allocVec_inv {c csb σ m0 t0 vars0 st} (h : Inv c csb σ m0 t0 vars0 st) {v : Nat} (hv : v ∈ st.vars)
    (r : RReady c csb σ t0 st v) :
    Inv c csb σ m0 t0 vars0 (allocVec c st v) ∧
      ∀ i, (st.vecAdr v ≠ 0 → i < c.size) → Safe csb t0 (allocVec c st v) (.word, (allocVec c st v).vecAdr v + i) := by
  have hlt := h.bas.lt v hv
  unfold allocVec
  split
  · next h0 =>
    have i1 := h.top (st.cs + c.size) (by omega)
    have i2 := i1.wrVec (v := v) (st.cs : Int) ((r.locs (.vecp, v) (by simp [rangeLocs])).of _ rfl) r.stamp
      (by intro _; have := h.cs; simp; omega) (fun _ w hw hp => by simpa using (h.bas.vec w hw hp).2)
    refine ⟨i2, fun i _ => .inl ?_⟩
    have := h.cs
    simp [St.vecAdr]
    omega
  · next h0 =>
    refine ⟨h, fun i hi => r.vec h0 _ ?_⟩
    exact List.mem_map.mpr ⟨i, by simpa using hi h0, rfl⟩

theorem allocVec_same (c : Cfg) (st : St) (v : Nat) : Same st (allocVec c st v) := by
  unfold allocVec
  split
  · exact ⟨rfl, rfl, rfl, rfl, rfl, by show st.cs ≤ st.cs + c.size; omega⟩
  · exact Same.rfl

theorem rangeCopy_same (c : Cfg) (st : St) (v : Nat) (r : Range) : Same st (rangeCopy c st v r) := by
  unfold rangeCopy
  dsimp only
  split
  · exact (((Same.rfl.wr _ _).wr _ _).wr _ _).wr _ _
  · have := (((Same.rfl (st := st)).wr (.extra, v) (boolInt r.extra)).wr (.min, v) r.min).wr (.max, v) r.max
    have := this.trans (allocVec_same c _ v)
    exact ⟨this.1, this.2, this.3, this.4, this.5, this.6⟩

theorem allocVec_trail (c : Cfg) (st : St) (v : Nat) : (allocVec c st v).trail = st.trail := by
  unfold allocVec; split <;> rfl

theorem rangeCopy_trail (c : Cfg) (st : St) (v : Nat) (r : Range) : (rangeCopy c st v r).trail = st.trail := by
  unfold rangeCopy
  dsimp only
  split
  · rfl
  · show (allocVec c _ v).trail = _
    rw [allocVec_trail]
    rfl

theorem rangeCopy_inv {c csb σ m0 t0 vars0 st} (h : Inv c csb σ m0 t0 vars0 st) {v : Nat} (hv : v ∈ st.vars)
    (rr : RReady c csb σ t0 st v) (r : Range) (hr : ∀ ws, r.vec = some ws → st.vecAdr v ≠ 0 → ws.length ≤ c.size) :
    Inv c csb σ m0 t0 vars0 (rangeCopy c st v r) := by
  have i1 := h.wr (boolInt r.extra) (rr.locs (.extra, v) (by simp [rangeLocs])) rfl
  have i2 := i1.wr r.min ((rr.locs (.min, v) (by simp [rangeLocs])).of _ rfl) rfl
  have i3 := i2.wr r.max ((rr.locs (.max, v) (by simp [rangeLocs])).of _ rfl) rfl
  have rr3 : RReady c csb σ t0 (((st.wr (.extra, v) (boolInt r.extra)).wr (.min, v) r.min).wr (.max, v) r.max) v := by
    refine ⟨fun l hl => (rr.locs l hl).of _ rfl, by simpa using rr.stamp, ?_⟩
    have e : (((st.wr (.extra, v) (boolInt r.extra)).wr (.min, v) r.min).wr (.max, v) r.max).vecAdr v = st.vecAdr v := by
      simp [St.vecAdr]
    rw [e]
    intro hp l hl
    exact (rr.vec hp l hl).of _ rfl
  unfold rangeCopy
  dsimp only
  split
  · exact i3.wrVec (v := v) 0 (rr3.locs (.vecp, v) (by simp [rangeLocs])) rr3.stamp (by simp) (by simp)
  · next ws hws =>
    obtain ⟨i4, s4⟩ := allocVec_inv i3 hv rr3
    apply writeVec_inv ws _ _ i4
    intro i hi
    apply s4
    intro h0
    have := hr ws hws (by simpa [St.vecAdr] using h0)
    omega

theorem bindExtra_inv {c csb σ m0 t0 vars0 st} (h : Inv c csb σ m0 t0 vars0 st) (hb : csb = st.csb) (v : Nat) (b : Bool) :
    Inv c csb σ m0 t0 vars0 (bindExtra st v b) := by
  unfold bindExtra
  dsimp only
  split
  · obtain ⟨seg, e, _⟩ := h.lev
    have i1 := h.save [(.extra, v), (.min, v)]
    have i2 := i1.wr (l := (.extra, v)) (boolInt b) (safe_save e (by simp)) rfl
    exact i2.wr (l := (.min, v)) 0 ((safe_save (ls := [(.extra, v), (.min, v)]) e (by simp)).of _ rfl) rfl
  · next hn =>
    rw [← hb] at hn
    have i2 := h.wr (l := (.extra, v)) (boolInt b) (.inl (Nat.not_lt.mp hn)) rfl
    exact i2.wr (l := (.min, v)) 0 (.inl (Nat.not_lt.mp hn)) rfl

theorem vecAdr_trailRange (c : Cfg) (st : St) (v w : Nat) : (trailRange c st v).vecAdr w = st.vecAdr w := by
  unfold St.vecAdr
  rw [trailRange_mem _ _ _ _ (by intro e; cases e)]

theorem updRange_inv {c csb σ m0 t0 vars0 st} (h : Inv c csb σ m0 t0 vars0 st) (hb : csb = st.csb) {v : Nat} (hv : v ∈ st.vars)
    (nb : Int) (r : Range) (hr : ∀ ws, r.vec = some ws → ws.length ≤ c.size) :
    Inv c csb σ m0 t0 vars0 (updRange c st v nb r) := by
  unfold updRange
  split
  · obtain ⟨i, rr⟩ := trailRange_inv h hv
    have sm := trailRange_same c st v
    have i1 := i.wr nb (rr.locs (.nb, v) (by simp [rangeLocs])) rfl
    refine rangeCopy_inv i1 (by show v ∈ (trailRange c st v).vars; rw [sm.vars]; exact hv) ?_ r (fun ws h _ => hr ws h)
    refine ⟨fun l hl => (rr.locs l hl).of _ rfl, by simpa using rr.stamp, ?_⟩
    have e : ((trailRange c st v).wr (.nb, v) nb).vecAdr v = (trailRange c st v).vecAdr v := by simp [St.vecAdr]
    rw [e]
    intro hp l hl
    exact (rr.vec hp l hl).of _ rfl
  · split
    · exact bindExtra_inv h hb v _
    · exact h

theorem toSparse_inv {c csb σ m0 t0 vars0 st} (h : Inv c csb σ m0 t0 vars0 st) {v : Nat} (hv : v ∈ st.vars)
    (h0 : st.vecAdr v = 0) : Inv c csb σ m0 t0 vars0 (toSparse c st v) := by
  unfold toSparse
  dsimp only
  obtain ⟨i, rr⟩ := trailRange_inv h hv
  have sm := trailRange_same c st v
  have i1 := rangeCopy_inv i (by rw [sm.vars]; exact hv) rr (becomesSparse c (rangeOf c (trailRange c st v).mem v))
    (fun ws _ hp => absurd (by rw [vecAdr_trailRange]; exact h0) hp)
  exact i1.wr _ ((rr.locs (.nb, v) (by simp [rangeLocs])).of _ (rangeCopy_trail ..)) rfl

theorem resetWord_inv {c csb σ m0 t0 vars0 st} (h : Inv c csb σ m0 t0 vars0 st) {v : Nat} (rr : RReady c csb σ t0 st v)
    (h0 : st.vecAdr v ≠ 0) (n : Nat) (hn : n / 64 < c.size) : Inv c csb σ m0 t0 vars0 (resetWord st v n) :=
  h.wr _ (rr.vec h0 _ (List.mem_map.mpr ⟨n / 64, by simpa using hn, rfl⟩)) rfl

theorem remove_inv {c csb σ m0 t0 vars0 st} (h : Inv c csb σ m0 t0 vars0 st) {v : Nat} (hv : v ∈ st.vars) (n : Int)
    (hn : st.vecAdr v ≠ 0 → n.toNat / 64 < c.size) : Inv c csb σ m0 t0 vars0 (remove c st v n) := by
  obtain ⟨i, rr⟩ := trailRange_inv h hv
  unfold remove
  dsimp only
  have i2 : Inv c csb σ m0 t0 vars0 (if (trailRange c st v).vecAdr v ≠ 0 then resetWord (trailRange c st v) v n.toNat
      else trailRange c st v) := by
    split
    · next hp => exact resetWord_inv i rr hp _ (hn (by rw [vecAdr_trailRange] at hp; exact hp))
    · exact i
  have t2 : (if (trailRange c st v).vecAdr v ≠ 0 then resetWord (trailRange c st v) v n.toNat
      else trailRange c st v).trail = (trailRange c st v).trail := by split <;> rfl
  generalize (if (trailRange c st v).vecAdr v ≠ 0 then resetWord (trailRange c st v) v n.toNat
      else trailRange c st v) = st2 at i2 t2
  have i3 := i2.wr (l := (.nb, v)) (st2.mem (.nb, v) - 1) ((rr.locs (.nb, v) (by simp [rangeLocs])).of _ t2) rfl
  split
  · exact i3.wr _ ((rr.locs (.min, v) (by simp [rangeLocs])).of _ t2) rfl
  · split
    · exact i3.wr _ ((rr.locs (.max, v) (by simp [rangeLocs])).of _ t2) rfl
    · exact i3

theorem varInit_inv {c csb σ m0 t0 vars0 st} (h : Inv c csb σ m0 t0 vars0 st) (v : Nat) (hv : st.cs ≤ v) (min max : Int) :
    Inv c csb σ m0 t0 vars0 (varInit st v min max) := by
  unfold varInit
  dsimp only
  repeat' refine Inv.wrNew ?_ _ hv
  exact h

theorem newVar_inv {c csb σ m0 t0 vars0 st} (h : Inv c csb σ m0 t0 vars0 st) (min max : Int) :
    Inv c csb σ m0 t0 vars0 (newVar st min max) := by
  have i1 := varInit_inv h st.cs (Nat.le_refl _) min max
  have i2 := i1.top (st.cs + 17) (by show st.cs ≤ st.cs + 17; omega)
  exact i2.addVar st.cs h.cs (by show st.cs < st.cs + 17; omega) (by simp [varInit]) (by simp [varInit]) (by simp [varInit])

theorem newRange_inv {c csb σ m0 t0 vars0 st} (h : Inv c csb σ m0 t0 vars0 st) (r : Range) (nb : Int) :
    Inv c csb σ m0 t0 vars0 (newRange c st r nb) := by
  have i1 := newVar_inv h 0 imax
  have hc := h.cs
  have v0 : (newVar st 0 imax).vecAdr st.cs = 0 := by simp [newVar, varInit, St.vecAdr]
  have i2 := rangeCopy_inv (v := st.cs) i1 (by simp [newVar])
    ⟨locs_above hc, fun h => by omega, fun hp => absurd v0 hp⟩ r (fun _ _ hp => absurd v0 hp)
  exact i2.wr nb (.inl hc) rfl

theorem newIntVar_inv {c csb σ m0 t0 vars0 st} (h : Inv c csb σ m0 t0 vars0 st) (n : Int) :
    Inv c csb σ m0 t0 vars0 (newIntVar st n) := by
  unfold newIntVar
  dsimp only
  refine Inv.top (st := ((((((((st.wr (.tag, st.cs) (intTag n)).wr (.date, st.cs) dateNever).wr (.rstamp, st.cs) st.stamp).wr
    (.nb, st.cs) 1).wr (.extra, st.cs) 0).wr (.min, st.cs) n).wr (.max, st.cs) n).wr (.vecp, st.cs) 0)) ?_ (st.cs + 9)
    (by show st.cs ≤ st.cs + 9; omega)
  repeat' refine Inv.wrNew ?_ _ (Nat.le_refl st.cs)
  exact h

theorem newCstr_inv {c csb σ m0 t0 vars0 st} (h : Inv c csb σ m0 t0 vars0 st) (af fct opt : Int) (v : Option Nat) :
    Inv c csb σ m0 t0 vars0 (newCstr st af fct opt v) := by
  have i1 : Inv c csb σ m0 t0 vars0 (((st.wr (.af, st.cs) af).wr (.optim, st.cs) opt).wr (.cstr, st.cs) fct) := by
    repeat' refine Inv.wrNew ?_ _ (Nat.le_refl st.cs)
    exact h
  unfold newCstr
  dsimp only
  have hle : st.cs ≤ st.cs + 3 := by omega
  split
  · exact i1.top (st.cs + 3) hle
  · split
    · refine Inv.top (st := St.wr _ _ _) ?_ (st.cs + 3) hle
      exact i1.wr _ (.inr (.inl rfl)) rfl
    · exact i1.top (st.cs + 3) hle

theorem addDep_inv {c csb σ m0 t0 vars0 st} (h : Inv c csb σ m0 t0 vars0 st) {v : Nat} (hv : v ∈ st.vars) (i : Fin 5) (cf : Int) :
    Inv c csb σ m0 t0 vars0 (addDep st v i cf) := by
  unfold addDep
  split
  · exact h
  · dsimp only
    obtain ⟨i1, s1⟩ := trailChains_inv h hv
    have sm := trailChains_same st v
    have cs1 : (trailChains st v).cs = st.cs := by unfold trailChains; split <;> rfl
    have hm : ((Field.chain i, v) : Loc) ∈ chainsLocs v := by
      have : i = 0 ∨ i = 1 ∨ i = 2 ∨ i = 3 ∨ i = 4 := by revert i; decide
      rcases this with rfl | rfl | rfl | rfl | rfl <;> simp [chainsLocs]
    have i2 := i1.wr (l := (.mask, v)) ((BitVec.ofInt 64 ((trailChains st v).mem (.mask, v)) ||| (1#64 <<< i.val)).toNat : Int)
      (s1 _ (by simp [chainsLocs])) rfl
    have i3 := i2.wrNew (l := (.cfp, st.cs)) cf (by rw [wr_cs, cs1]; exact Nat.le_refl _)
    refine Inv.top (st := St.wr _ _ _) ?_ (st.cs + 2) (by rw [wr_cs, wr_cs, wr_cs, wr_cs, cs1]; omega)
    refine Inv.wr ?_ _ ((s1 _ hm).of _ rfl) rfl
    exact i3.wrNew _ (by rw [wr_cs, wr_cs, cs1]; exact Nat.le_refl _)

theorem stopCstr_inv {c csb σ m0 t0 vars0 st} (h : Inv c csb σ m0 t0 vars0 st) (hb : csb = st.csb) (cf : Nat) (x : Int) :
    Inv c csb σ m0 t0 vars0 (stopCstr st cf x) := by
  unfold stopCstr
  dsimp only
  split
  · obtain ⟨seg, e, _⟩ := h.lev
    exact (h.save [(.optim, cf)]).wr x (safe_save e (by simp)) rfl
  · next hn =>
    rw [← hb] at hn
    exact h.wr x (.inl (Nat.not_lt.mp hn)) rfl

end Gp.Fd.Trail
