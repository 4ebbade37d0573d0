import Verif.Fd.QueueProg
import Verif.FdRange.Props
/-
C26: the propagation of the constraints terminates at a fixpoint, no solution is lost, and instantiated variables satisfy the
constraints. The specification is in Verif.Fd.QueueSpec (`opMem`, `Stable`, `FOk`, `SwtOk`, `KeepBlk`) and in Verif.Fd.CstrOk
(`Prim.holds`).
-/
namespace Gp.Fd

open Gp.FdRange

/-- C26: posting a constraint terminates whatever the constraints already posted; on success every constraint is at its fixpoint (or was
stopped, or tells a variable which was already instantiated before this call), the domains are only reduced and the next constraint can
be posted. -/
theorem C26_post_fixpoint (c : Cfg) (hc : c.Ok) (G : Store → Prop) (hG : StoreOk c G) (vs : List Nat) (st : QSt) (hR : Ready c G vs st)
    (u : UserCstr) (hu : UserOk c G vs u) :
    ∃ n0 ok st', (∀ n, n0 ≤ n → post c n st u = some (ok, st')) ∧ Sub st'.dom st.dom ∧
      (∀ x, (st.dom x).ground = true → (st'.dom x).ground = true) ∧
      (ok = true → Ready c G vs st' ∧ ∀ (id : Nat) (fr : Frame), st'.frames[id]? = some fr →
        Stable st'.dom fr.fct ∨ fr.opt = .never ∨ ∃ x, fr.opt = .date x ∧ (st.dom x).ground = true) := by
  obtain ⟨n0, ⟨ok, st'⟩, p1, p2, p3, p4, p5, _⟩ := post_ok hc hG hR u hu
  exact ⟨n0, ok, st', p1, p2, p3, p5⟩

/-- C26: no solution is lost: if the values `D` are kept by all the posted constraints and by the new one, and are in the domains, then
the posting succeeds and they are in the new domains. -/
theorem C26_post_sound (c : Cfg) (hc : c.Ok) (G : Store → Prop) (hG : StoreOk c G) (vs : List Nat) (st : QSt) (hR : Ready c G vs st)
    (u : UserCstr) (hu : UserOk c G vs u) (D : Nat → Nat → Prop) (hD : KeepUser G D u) (hK : KeepSt G D st) :
    ∃ n0 st', (∀ n, n0 ≤ n → post c n st u = some (true, st')) ∧ KeepSt G D st' := by
  obtain ⟨n0, ⟨ok, st'⟩, p1, p2, p3, p4, p5, p6, _⟩ := post_ok hc hG hR u hu
  obtain ⟨h1, h2⟩ := p6 D hD hK
  cases h1
  exact ⟨n0, st', p1, h2⟩

/-- C26: the queue is empty after a posting, even after a failure: no event is left for the next constraint. -/
theorem C26_queue_empty (c : Cfg) (hc : c.Ok) (G : Store → Prop) (hG : StoreOk c G) (vs : List Nat) (st : QSt) (hR : Ready c G vs st)
    (u : UserCstr) (hu : UserOk c G vs u) : ∃ n0 ok st', (∀ n, n0 ≤ n → post c n st u = some (ok, st')) ∧
      (∀ x i, (st'.mask x).bit i = false) ∧ ∀ x, st'.keep x = false := by
  obtain ⟨n0, ⟨ok, st'⟩, p1, p2, p3, p4, _⟩ := post_ok hc hG hR u hu
  have hq : ∀ x, (st'.mask x).any = false ∧ st'.keep x = false := fun x => by
    have := p4.notIn x
    unfold QSt.inQ at this
    exact Bool.or_eq_false_iff.1 this
  refine ⟨n0, ok, st', p1, fun x i => ?_, fun x => (hq x).2⟩
  have h := (hq x).1
  unfold Ev.any at h
  simp only [Bool.or_eq_false_iff] at h
  match i with
  | 0 => exact h.1.1.1.1
  | 1 => exact h.1.1.1.2
  | 2 => exact h.1.1.2
  | 3 => exact h.1.2
  | 4 => exact h.2

/-- C26: a stopped constraint is never executed again. -/
theorem C26_stopped (c : Cfg) (st : QSt) (hn : st.now ≠ 0#64) (id : Nat) (ids : List Nat) (h : id < st.frames.length) :
    chainLoop c (stopCstr st id) (id :: ids) = chainLoop c (stopCstr st id) ids := by
  rw [chainLoop]
  have : (stopCstr st id).frames[id]? = some ⟨(st.frames[id]'h).fct, .never, (st.frames[id]'h).deps⟩ := by
    unfold stopCstr
    simp [List.getElem?_modify, h]
  rw [this]
  dsimp only
  rw [if_pos]
  exact ⟨by simp [QSt.pdate], fun hc => hn hc.symm⟩

/-- C26, primitive constraints: for any variables and any sequence of primitive constraints with no overflow, the postings terminate; a
failure means that there is no solution; on success every solution is still in the domains, and a constraint whose variables are all
instantiated holds. Missing: a product by 0 (`hz`), the constraints with an overflow or a constant out of range (see the witnesses), the
constraints with a switch or a C function, variables greater than the maximum of the vectors with a constraint on their domain. -/
theorem C26_program_partial (c : Cfg) (hc : c.Ok) (W : Nat → Bool) (M : Nat → Int) (hM : ∀ v, M v ≤ 268435455) (s : Store) (hs : GB c W M s)
    (ks : List Prim) (hk : ∀ k ∈ ks, k.CstOk ∧ k.Fits W M) :
    ∃ n0 ok st, (∀ n, n0 ≤ n → run c n (start s) (ks.map Prim.cstr) = some (ok, st)) ∧
      (ok = false → ¬ ∃ σ : Nat → Nat, (∀ v, Mem (s v).r (σ v)) ∧ ∀ k ∈ ks, k.holds (fun v => (σ v : Int))) ∧
      (∀ v n, Mem (st.dom v).r n → Mem (s v).r n) ∧
      (ok = true → (∀ σ : Nat → Nat, (∀ v, Mem (s v).r (σ v)) → (∀ k ∈ ks, k.holds (fun v => (σ v : Int))) → ∀ v, Mem (st.dom v).r (σ v)) ∧
        ∀ k ∈ ks, (∀ v ∈ k.vars, (st.dom v).ground = true) →
          (∀ x y z, k = .xyEqZ x y z → (st.dom x).r.min ≠ 0 ∧ (st.dom y).r.min ≠ 0) → k.holds (fun v => (st.dom v).r.min)) := by
  have hG := gb_ok c W M
  have hu : ∀ k ∈ ks, UserOk c (GB c W M) (ks.flatMap Prim.vars) k.cstr := fun k h =>
    prim_ok hc k (hk k h).2 (fun v hv => List.mem_flatMap.2 ⟨k, h, hv⟩)
  obtain ⟨n0, ⟨ok, st⟩, p1, p2, p3, p4, p5⟩ := run_ok hc hG (vs := ks.flatMap Prim.vars) (ks.map Prim.cstr) (start s) (start_ready hs)
    (fun fr h => by simp [start] at h) (fun u h => by
      obtain ⟨k, hk', e⟩ := List.mem_map.1 h
      rw [← e]
      exact ⟨hu k hk', rfl⟩)
  have hkeep : ∀ σ : Nat → Nat, (∀ v, Mem (s v).r (σ v)) → (∀ k ∈ ks, k.holds (fun v => (σ v : Int))) →
      ok = true ∧ ∀ v, Mem (st.dom v).r (σ v) := by
    intro σ hσ hh
    have hle : ∀ v, (σ v : Int) ≤ M v := fun v =>
      Int.le_trans ((bounds_mem c _ (hs v).1.wf (hs v).1.ne).2.2 _ (hσ v)).2 (hs v).2.2.1
    have := p4 (DS σ) (fun u h => by
      obtain ⟨k, hk', e⟩ := List.mem_map.1 h
      rw [← e]
      exact prim_keep k (hk k hk').1 (hk k hk').2 hM σ hle (hh k hk'))
      ⟨fun x => ⟨σ x, rfl⟩, fun v n h => by rw [show n = σ v from h]; exact hσ v, fun id fr h => by simp [start] at h⟩
    exact ⟨this.1, fun v => this.2.below v _ rfl⟩
  refine ⟨n0, ok, st, p1, fun hf ⟨σ, h1, h2⟩ => ?_, p2, fun ht => ⟨fun σ h1 h2 => (hkeep σ h1 h2).2, fun k hk' hg hz => ?_⟩⟩
  · have := (hkeep σ h1 h2).1
    rw [hf] at this; cases this
  · obtain ⟨hR, _, hch⟩ := p5 ht
    have := (hch k.cstr (hu k hk') (Or.inl (List.mem_map.2 ⟨k, hk', rfl⟩))).2 k.vars
    exact prim_check k (hk k hk').1 (hk k hk').2 this hR.good hg hz

/-- X, Y, Z, T in 0..10, X + Y #= Z, 2 * X + Y #= T, X #< Y, T #\= 5. -/
def exProg : List Prim := [.xPlusYEqZ 0 1 2, .axPlusYEqZ 2 0 1 3, .xLtY 0 1, .xNeqC 3 5]

theorem exStore_ok : GB exCfg (fun _ => false) (fun _ => 10) (fun _ => newInterval 0 10) := fun v =>
  ⟨newInterval_ok exCfg (by decide) (by decide), rfl, (by decide : (10 : Int) ≤ 10), Or.inl (by decide : (10 : Int) ≤ 127)⟩

example : exCfg.Ok ∧ (∀ k ∈ exProg, k.CstOk ∧ k.Fits (fun _ => false) (fun _ => 10)) ∧
    (∀ v : Nat, (fun _ : Nat => (10 : Int)) v ≤ 268435455) := ⟨exCfg_ok, by decide, fun _ => (by decide : (10 : Int) ≤ 268435455)⟩

example : (run exCfg 10 (start (fun _ => newInterval 0 10)) (exProg.map Prim.cstr)).map
    (fun r => (r.1, [0, 1, 2, 3].map (fun v => ((r.2.dom v).r.min, (r.2.dom v).r.max)))) =
    some (true, [(0, 4), (1, 10), (1, 10), (1, 10)]) := by decide +kernel

/-- All the variables are instantiated; a failure. -/
example : (run exCfg 20 (start (fun _ => newInterval 0 10)) ((exProg ++ [Prim.xGteC 0 3]).map Prim.cstr)).map
      (fun r => (r.1, [0, 1, 2, 3].map (fun v => (r.2.dom v).tag))) = some (true, [some 3, some 4, some 7, some 10]) ∧
    (run exCfg 20 (start (fun _ => newInterval 0 10)) ((exProg ++ [Prim.xGteC 0 3, Prim.xLteC 3 9]).map Prim.cstr)).map (fun r => r.1) =
      some false := by decide +kernel

/-- A constraint with a switch: when X is instantiated, Y #= Z is started. -/
def exSwt : UserCstr :=
  ⟨[], some (fun s => if (s 0).ground then some ⟨[], (Prim.xEqY 1 2).cstr.blks⟩ else none, [(0, 4)])⟩

/-- The hypotheses of the general theorems are met by the primitive constraints and by a switch. -/
example : UserOk exCfg (GB exCfg (fun _ => false) (fun _ => 10)) [1, 2] exSwt where
  blks := fun b h => by cases h
  swt := fun f deps h => by
    cases h
    refine ⟨fun s s' hs hs' _ hd hn => ?_, fun s k hk => ?_⟩
    · have h1 := hd (0, 4) (by simp)
      dsimp only [evAt] at h1
      cases hg : (s 0).ground with
      | true => simp [hg] at hn
      | false =>
        have h2 : (s' 0).ground = false := by
          cases h : (s' 0).ground with
          | false => rfl
          | true =>
            refine absurd ⟨(ground_iff _).1 hg, fun hn => ?_⟩ h1
            rw [(ground_iff _).2 hn] at h; cases h
        simp [h2]
    · split at hk
      · cases hk
        exact (prim_ok exCfg_ok (Prim.xEqY 1 2) (by decide) (fun v hv => hv)).blks
      · cases hk

example : Ready exCfg (GB exCfg (fun _ => false) (fun _ => 10)) [1, 2] (start (fun _ => newInterval 0 10)) := start_ready exStore_ok

example : KeepUser (GB exCfg (fun _ => false) (fun _ => 10)) (DS (fun _ => 3)) (Prim.xEqY 1 2).cstr :=
  prim_keep (Prim.xEqY 1 2) trivial (by decide) (fun _ => (by decide : (10 : Int) ≤ 268435455)) _ (fun _ => (by decide : (3 : Int) ≤ 10)) rfl

/-! ## Where the code disagrees -/

/-- The store of the witnesses: X, Y, Z in the given domains. -/
def store3 (x y z : Fdv) : Store := fun v => if v = 0 then x else if v = 1 then y else z

/-- The products are computed with `int`: with X and Y in 0..65536, X * Y #= Z instantiates Z to 0 although X = Y = Z = 1 is a solution;
and 3 * X + 16 * Y #= Z with Y in 0..268435455 removes 0 from the domain of X although X = Y = Z = 0 is a solution. -/
theorem C26_overflow_witness :
    (post exCfg 10 (start (store3 (newInterval 0 65536) (newInterval 0 65536) (newInterval 0 268435455))) (Prim.xyEqZ 0 1 2).cstr).map
      (fun r => (r.1, (r.2.dom 2).tag)) = some (true, some 0) ∧
    (Prim.xyEqZ 0 1 2).holds (fun _ => 1) ∧
    (post exCfg 10 (start (store3 (newInterval 0 10) (newInterval 0 268435455) (newInterval 0 100))) (Prim.axPlusByEqZ 3 0 16 1 2).cstr).map
      (fun r => r.2.dom 0) ≠ none ∧
    (∀ r, post exCfg 10 (start (store3 (newInterval 0 10) (newInterval 0 268435455) (newInterval 0 100))) (Prim.axPlusByEqZ 3 0 16 1 2).cstr =
      some r → (r.2.dom 0).r.min = 6) ∧
    (Prim.axPlusByEqZ 3 0 16 1 2).holds (fun _ => 0) := by
  refine ⟨by decide +kernel, by simp [Prim.holds], by decide +kernel, fun r h => ?_, by simp [Prim.holds]⟩
  have h1 : (post exCfg 10 (start (store3 (newInterval 0 10) (newInterval 0 268435455) (newInterval 0 100))) (Prim.axPlusByEqZ 3 0 16 1 2).cstr).map
    (fun r => (r.2.dom 0).r.min) = some 6 := by decide +kernel
  rw [h] at h1
  simpa using h1

/-- The integers are clamped: X #>= 300000000 succeeds for X = 268435455, X #\= 1000000000 fails for X = 268435455, and X #= 4294967299
succeeds for X = 3. -/
theorem C26_constant_witness :
    (post exCfg 10 (start (fun _ => newInt 268435455)) (Prim.xGteC 0 300000000).cstr).map (fun r => (r.1, (r.2.dom 0).tag)) =
      some (true, some 268435455) ∧
    ¬ (Prim.xGteC 0 300000000).holds (fun _ => 268435455) ∧
    (post exCfg 10 (start (fun _ => newInt 268435455)) (Prim.xNeqC 0 1000000000).cstr).map (fun r => r.1) = some false ∧
    (Prim.xNeqC 0 1000000000).holds (fun _ => 268435455) ∧
    (post exCfg 10 (start (fun _ => newInt 3)) (Prim.xEqC 0 4294967299).cstr).map (fun r => r.1) = some true ∧
    ¬ (Prim.xEqC 0 4294967299).holds (fun _ => 3) := by
  refine ⟨by decide +kernel, by simp [Prim.holds], by decide +kernel, by simp [Prim.holds], by decide +kernel, by simp [Prim.holds]⟩

end Gp.Fd
