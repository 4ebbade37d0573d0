import Verif.Fd.TellProofs
/-
C25: telling a value, a disequality, an interval or a range to a finite domain variable (`VarOk`, `VRepr`, `ToldOk`, `EvOk` in
TellSpec.lean).
-/
namespace Gp.Fd

open Gp.FdRange

/-- The preconditions of an operation: a range represents a set; the flag `extra_cstr` does not change alone (see `updRange`). -/
def OpOk (c : Cfg) (v : Fdv) (T1 : Nat → Prop) : Op → Prop
  | .value _ => True
  | .notValue _ => True
  | .interval a b => -2147483648 < a ∧ (v.tag = none → v.r.vec ≠ none → FlagOk c v (initInterval a b))
  | .range r => Repr c r T1 ∧ (v.tag = none → FlagOk c v r)

/-- Only a range can change the flag alone. -/
def opFlag (c : Cfg) (v : Fdv) (op : Op) : Prop :=
  match op with
  | .value _ => False
  | .notValue _ => False
  | .interval _ _ => v.tag = none ∧ v.r.vec ≠ none ∧ FlagOnly v (tell c v op).v
  | .range _ => v.tag = none ∧ FlagOnly v (tell c v op).v

theorem ToldOk.flag {c : Cfg} {v : Fdv} {T P : Nat → Prop} {f f' : Prop} {res : Res} (h : ToldOk c v T P f res) (hf : f ↔ f') :
    ToldOk c v T P f' res := by
  have : f = f' := propext hf
  rw [← this]; exact h

theorem ToldOk.set {c : Cfg} {v : Fdv} {T P P' : Nat → Prop} {f : Prop} {res : Res} (h : ToldOk c v T P f res) (hp : ∀ n, P n ↔ P' n) :
    ToldOk c v T P' f res := by
  have : P = P' := funext fun n => propext (hp n)
  rw [← this]; exact h

theorem ground_mem {c : Cfg} {v : Fdv} (hv : VarOk c v) (hg : v.ground = true) (n : Int) : Mem v.r n ↔ n = v.r.min := by
  cases ht : v.tag with
  | none => rw [(ground_iff v).2 ht] at hg; cases hg
  | some k =>
    obtain ⟨h1, h2, h3⟩ := hv.int k ht
    rw [mem_none h1]; omega

theorem same_ground {c : Cfg} {v : Fdv} {T P : Nat → Prop} (hv : VarOk c v) (hT : VRepr c v T) (hg : v.ground = true)
    (hP : P v.r.min.toNat) : ToldOk c v T P False ⟨true, v, Ev.empty, false⟩ := by
  refine same_told hv hT fun n hn => ?_
  have := (ground_mem hv hg n).1 hn
  rw [← this] at hP; simpa using hP

/-- C25: a tell leaves the intersection of the domain with the told set, or fails if it is empty; the events raised are exact. -/
theorem C25_told (c : Cfg) (hc : c.Ok) (v : Fdv) (T T1 : Nat → Prop) (op : Op) (hv : VarOk c v) (hT : VRepr c v T)
    (hop : OpOk c v T1 op) : ToldOk c v T (op.set T1) (opFlag c v op) (tell c v op) := by
  have hn0 := hv.nonneg
  cases op with
  | value m => exact tellValue_told c v T m hv hT
  | notValue m => exact tellNotValue_told c hc v T m hv hT
  | interval a b =>
    unfold opFlag tell tellInterval
    dsimp only
    by_cases hg : v.ground = true
    · rw [if_pos hg]
      have hgt : v.tag ≠ none := fun h => by rw [(ground_iff v).2 h] at hg; cases hg
      refine ToldOk.flag (f := False) ?_ ⟨fun h => h.elim, fun h => hgt h.1⟩
      cases hd : decide (v.r.min ≥ a) && decide (v.r.min ≤ b) with
      | true =>
        simp only [Bool.and_eq_true, decide_eq_true_eq] at hd
        exact same_ground hv hT hg (by unfold Op.set; omega)
      | false =>
        simp only [Bool.and_eq_false_iff, decide_eq_false_iff_not] at hd
        refine ⟨?_, fun h => (by cases h), fun h => (by cases h), fun h => (by cases h), fun h => (by cases h), fun h => (by cases h)⟩
        intro _ n h1 h2
        unfold Op.set at h2
        rcases hT.2 n h1 with h | ⟨h, h', _⟩
        · have := (ground_mem hv hg n).1 h
          omega
        · exact ⟨h, Or.inr ⟨hg, h'⟩⟩
    · have hg' : v.tag = none := (ground_iff v).1 (by simpa using hg)
      rw [if_neg hg]
      cases hvec : v.r.vec with
      | none =>
        simp only [Option.isSome_none, Bool.false_eq_true, if_false]
        exact (intervInterv_told c v T a b hv hT hg' hvec).flag (by simp)
      | some w =>
        simp only [Option.isSome_some, if_true]
        refine (rangeRange_told c hc v T _ _ hv hT hg' (interval_repr c a b hop.1) (hop.2 hg' (by rw [hvec]; simp))).flag ?_
        simp [hg']
  | range r =>
    unfold opFlag tell tellRange
    dsimp only
    by_cases hg : v.ground = true
    · rw [if_pos hg]
      have hgt : v.tag ≠ none := fun h => by rw [(ground_iff v).2 h] at hg; cases hg
      refine ToldOk.flag (f := False) ?_ ⟨fun h => h.elim, fun h => hgt h.1⟩
      unfold tellIntRange
      have hR : Repr c r T1 := hop.1
      have hmi : ((v.r.min.toNat : Nat) : Int) = v.r.min := Int.toNat_of_nonneg hn0
      cases ht : testValue r v.r.min with
      | true =>
        simp only [Bool.true_eq_false, if_false]
        refine same_ground hv hT hg ?_
        have hm := (testValue_mem c r hR.1 _).1 ht
        refine (hR.2.1 _ ?_).2 (by rw [hmi]; exact hm)
        cases hrv : r.vec with
        | none => exact Or.inl rfl
        | some w => refine Or.inr ?_; rw [hmi]; exact mem_win hR.1 hrv hm
      | false =>
        simp only [if_true]
        refine ⟨?_, fun h => (by cases h), fun h => (by cases h), fun h => (by cases h), fun h => (by cases h), fun h => (by cases h)⟩
        intro _ n h1 h2
        unfold Op.set at h2
        rcases hT.2 n h1 with h | ⟨h, h', _⟩
        · have he := (ground_mem hv hg n).1 h
          have hnm : ¬ Mem r n := fun hm => by
            rw [he, ← testValue_mem c r hR.1, ht] at hm; cases hm
          have hx : ¬ (r.vec = none ∨ Win c n) := fun hx => hnm ((hR.2.1 n hx).1 h2)
          have hw : ¬ Win c n := fun h => hx (Or.inr h)
          have hgt : c.vmax < n := by unfold Win at hw; unfold Cfg.vmax; omega
          refine ⟨hgt, Or.inl ?_⟩
          have hex : r.extra = true := by
            cases hx2 : r.extra with
            | true => rfl
            | false => exact absurd (hR.2.2 (fun h => hx (Or.inl h)) hx2 n h2) hw
          simp only [Bool.and_eq_true, decide_eq_true_eq]
          exact ⟨by omega, hex⟩
        · exact ⟨h, Or.inr ⟨hg, h'⟩⟩
    · have hg' : v.tag = none := (ground_iff v).1 (by simpa using hg)
      rw [if_neg hg]
      refine (rangeRange_told c hc v T T1 r hv hT hg' hop.1 (hop.2 hg')).flag ?_
      simp [hg']

/-- The domain 1..10 and the range {2, 4, 6..9}. -/
def exVar : Fdv := newInterval 1 10
def exRange : Range := ⟨false, 2, 9, some [0x3d4#64, 0#64]⟩

theorem newInterval_ok (c : Cfg) {a b : Int} (h0 : 0 ≤ a) (h : a < b) : VarOk c (newInterval a b) where
  wf := wf_none rfl (by simp only [newInterval, initInterval]; omega)
  ne := by simp only [newInterval, initInterval]; omega
  nonneg := h0
  nb := nb_ok (by simp only [newInterval, initInterval]; omega) rfl
  int := fun n hn => by cases hn
  fdv := fun _ => by simp only [newInterval, initInterval]; omega

theorem newInterval_repr (c : Cfg) {a b : Int} : VRepr c (newInterval a b) (fun n => a ≤ (n : Int) ∧ (n : Int) ≤ b) :=
  ⟨fun n hn => (mem_none rfl _).1 hn, fun n hn => Or.inl ((mem_none rfl _).2 hn)⟩

example : VarOk exCfg exVar ∧ VRepr exCfg exVar (fun n => 1 ≤ (n : Int) ∧ (n : Int) ≤ 10) ∧
    OpOk exCfg exVar (fun _ => True) (.notValue 4) ∧
    tell exCfg exVar (.notValue 4) =
      ⟨true, ⟨none, 9, ⟨false, 1, 10, some [0x7ee#64, 0#64]⟩⟩, ⟨false, false, false, true, false⟩, false⟩ :=
  ⟨newInterval_ok exCfg (by decide) (by decide), newInterval_repr exCfg, trivial, by decide +kernel⟩

/-! ## Domains within the vectors: nothing is lost -/

/-- No value of the domain is greater than the maximum of the vectors, and none was. -/
def Small (c : Cfg) (v : Fdv) : Prop := v.r.max ≤ c.vmax ∧ v.r.extra = false

/-- A told range which is an interval has no `extra_cstr` (fd_range.h: `Range_Init_Interval`). -/
def OpSmall : Op → Prop
  | .interval a _ => -2147483648 < a
  | .range r => r.vec = none → r.extra = false
  | _ => True

theorem fromVector_extra (c : Cfg) (r : Range) (w : Vec) : (fromVector c r w).extra = r.extra := by
  unfold fromVector
  split
  · rfl
  · split <;> rfl

theorem interSS_extra (c : Cfg) (r r1 : Range) : (interSS c r r1).extra = (r.extra && r1.extra) := by
  unfold interSS
  dsimp only
  split
  · rfl
  · split
    · rfl
    · rw [fromVector_extra]

theorem flagOk_small {c : Cfg} {v : Fdv} {r : Range} (hs : Small c v) (hr : r.vec = none → r.extra = false) :
    (inter c r v.r).extra = false := by
  rcases inter_eq c r v.r with ⟨h1, h2, e⟩ | ⟨h, e⟩
  · rw [e]; exact hr h1
  · rw [e]
    have he : (sparseArg c v.r).extra = false := by
      unfold sparseArg
      cases hv : v.r.vec with
      | none => simp only [becomesSparse]; have := hs.1; simp; omega
      | some w => exact hs.2
    rw [interSS_extra, he, Bool.and_false]

theorem small_extra (c : Cfg) (hc : c.Ok) (v : Fdv) (op : Op) (hv : VarOk c v) (hs : Small c v) (hop : OpSmall op) :
    (tell c v op).v.r.extra = false ∧ (tell c v op).warn = false := by
  have hsi : ∀ n, (setInt v n).r.extra = false := fun n => hs.2
  have hrr : ∀ r : Range, (r.vec = none → r.extra = false) → (tellRangeRange c v r).v.r.extra = false ∧ (tellRangeRange c v r).warn = false := by
    intro r hr
    have he := flagOk_small hs hr
    unfold tellRangeRange
    dsimp only
    split
    · exact ⟨hs.2, he⟩
    · split
      · exact ⟨hs.2, he⟩
      · refine ⟨?_, rfl⟩
        unfold updRange
        split
        · exact he
        · split
          · exact he
          · exact hs.2
  cases op with
  | value n =>
    unfold tell tellValue
    dsimp only
    split
    · exact ⟨hs.2, by simp [hs.2]⟩
    · split
      · exact ⟨hs.2, rfl⟩
      · exact ⟨hs.2, rfl⟩
  | notValue n =>
    have hrem : ∀ v : Fdv, v.r.extra = false → (removeValue c v n).v.r.extra = false ∧ (removeValue c v n).warn = false := by
      intro v h
      unfold removeValue
      dsimp only
      split
      · exact ⟨h, rfl⟩
      · split
        · exact ⟨h, rfl⟩
        · split
          · exact ⟨h, rfl⟩
          · exact ⟨h, rfl⟩
    have hno : ∀ (v : Fdv) (again : Fdv → Res), Small c v → v.r.vec ≠ none ∨ v.tag = none ∧ v.r.min < v.r.max ∨ v.ground = true →
        (∀ v, v.r.extra = false ∧ v.r.max ≤ c.vmax ∧ v.r.vec ≠ none → (again v).v.r.extra = false ∧ (again v).warn = false) →
        (notBody c n again v).v.r.extra = false ∧ (notBody c n again v).warn = false := by
      intro v again h hk ha
      unfold notBody
      dsimp only
      split
      · exact ⟨h.2, rfl⟩
      · split
        · exact ⟨h.2, h.2⟩
        · split
          · next hg h3 =>
            have hlt : v.r.min < v.r.max := by
              rcases hk with hk | hk | hk
              · exact absurd h3.1 hk
              · exact hk.2
              · exact absurd hk hg
            rw [if_neg (by have := h.1; omega), if_neg (by have := h.1; omega)]
            have he : (becomesSparse c v.r).extra = false := by simp only [becomesSparse]; have := h.1; simp; omega
            rw [if_neg (by rw [he]; simp)]
            refine ha _ ⟨he, ?_, by simp [becomesSparse]⟩
            simp only [becomesSparse]
            split <;> omega
          · exact hrem v h.2
    unfold tell tellNotValue
    dsimp only
    refine hno v _ hs ?_ ?_
    · cases ht : v.tag with
      | none => exact Or.inr (Or.inl ⟨rfl, hv.fdv ht⟩)
      | some k => exact Or.inr (Or.inr (by simp [Fdv.ground, ht]))
    · intro v' h'
      unfold notBody
      dsimp only
      split
      · exact ⟨h'.1, rfl⟩
      · split
        · exact ⟨h'.1, h'.1⟩
        · split
          · next h3 => exact absurd h3.1 h'.2.2
          · exact hrem v' h'.1
  | interval a b =>
    unfold tell tellInterval
    dsimp only
    split
    · exact ⟨hs.2, rfl⟩
    · split
      · exact hrr _ (fun _ => rfl)
      · unfold tellIntervInterv
        dsimp only
        generalize (if a ≥ v.r.min then a else v.r.min) = mn
        generalize (if b ≤ v.r.max then b else v.r.max) = mx
        split
        · exact ⟨hs.2, rfl⟩
        · split
          · exact ⟨hs.2, rfl⟩
          · refine ⟨?_, rfl⟩
            unfold setInterval
            split <;> exact hs.2
  | range r =>
    unfold tell tellRange
    dsimp only
    split
    · unfold tellIntRange
      split
      · next hg _ =>
        refine ⟨hs.2, ?_⟩
        have := hs.1; have := hv.ne
        have : ¬ v.r.min > c.vmax := by omega
        simp [this]
      · exact ⟨hs.2, rfl⟩
    · exact hrr r hop

/-- C25: if the domain is within the vectors, a tell fails iff no value is left, otherwise it leaves exactly the values left. -/
theorem C25_exact (c : Cfg) (hc : c.Ok) (v : Fdv) (T1 : Nat → Prop) (op : Op) (hv : VarOk c v) (hs : Small c v) (hop : OpSmall op)
    (hr : ∀ r, op = .range r → Repr c r T1) :
    ((tell c v op).ok = false ↔ ∀ n : Nat, ¬ (Mem v.r n ∧ op.set T1 n)) ∧
    ((tell c v op).ok = true → VarOk c (tell c v op).v ∧ Small c (tell c v op).v ∧
      ∀ n : Nat, Mem (tell c v op).v.r n ↔ Mem v.r n ∧ op.set T1 n) ∧
    (tell c v op).warn = false := by
  have hT : VRepr c v (fun n => Mem v.r n) := ⟨fun _ h => h, fun _ h => Or.inl h⟩
  have hopk : OpOk c v T1 op := by
    cases op with
    | value m => exact trivial
    | notValue m => exact trivial
    | interval a b => exact ⟨hop, fun _ _ _ => Or.inl (by rw [hs.2]; exact flagOk_small hs fun _ => rfl)⟩
    | range r => exact ⟨hr r rfl, fun _ _ => Or.inl (by rw [hs.2]; exact flagOk_small hs hop)⟩
  have told := C25_told c hc v _ T1 op hv hT hopk
  have hx := small_extra c hc v op hv hs hop
  have hle : ∀ n : Nat, Mem v.r n → (n : Int) ≤ c.vmax := fun n hn => by
    have := (bounds_mem c v.r hv.wf hv.ne).2.2 _ hn; have := hs.1; omega
  have hok : (tell c v op).ok = true → ∀ n : Nat, Mem (tell c v op).v.r n ↔ Mem v.r n ∧ op.set T1 n := by
    intro h n
    refine ⟨fun hn => ?_, fun hn => ?_⟩
    · have := told.sound h n hn; exact ⟨this.1, this.2.2⟩
    · rcases told.complete h n hn.1 hn.2 with h | h
      · exact h
      · have := hle n hn.1; omega
  refine ⟨⟨?_, ?_⟩, ?_, hx.2⟩
  · intro h n hn
    have := (told.fail h n hn.1 hn.2).1
    have := hle n hn.1; omega
  · intro h
    cases hk : (tell c v op).ok with
    | false => rfl
    | true =>
      have hv' := told.ok hk
      have hb := bounds_mem c _ hv'.wf hv'.ne
      have h0 := hv'.nonneg
      exact absurd ((hok hk _).1 (by rw [Int.toNat_of_nonneg h0]; exact hb.1)) (h _)
  · intro hk
    have hv' := told.ok hk
    refine ⟨hv', ⟨?_, hx.1⟩, hok hk⟩
    have hb := bounds_mem c _ hv'.wf hv'.ne
    have h0 := hv'.nonneg
    have h1 := hv'.ne
    have := told.sound hk (tell c v op).v.r.max.toNat (by rw [Int.toNat_of_nonneg (by omega)]; exact hb.2.1)
    have := hle _ this.1
    omega

/-- A sequence of tells; it stops at the first failure. -/
def tells (c : Cfg) : Fdv → List Op → Option Fdv
  | v, [] => some v
  | v, op :: ops => if (tell c v op).ok then tells c (tell c v op).v ops else none

/-- C25, any history of tells on one variable whose domain is within the vectors: it fails iff no value of the domain is in all the
told sets, otherwise the domain left is the set of these values. -/
theorem C25_history (c : Cfg) (hc : c.Ok) (S : Op → Nat → Prop) : ∀ (ops : List Op) (v : Fdv), VarOk c v → Small c v →
    (∀ op ∈ ops, OpSmall op ∧ ∀ r, op = .range r → Repr c r (S op)) →
    (tells c v ops = none ↔ ∀ n : Nat, ¬ (Mem v.r n ∧ ∀ op ∈ ops, op.set (S op) n)) ∧
    ∀ v', tells c v ops = some v' → VarOk c v' ∧ ∀ n : Nat, Mem v'.r n ↔ Mem v.r n ∧ ∀ op ∈ ops, op.set (S op) n
  | [], v, hv, hs, _ => by
    have hb := bounds_mem c v.r hv.wf hv.ne
    refine ⟨⟨fun h => (by cases h), fun h => absurd ⟨(by rw [Int.toNat_of_nonneg hv.nonneg]; exact hb.1), by simp⟩ (h v.r.min.toNat)⟩, fun v' h => ?_⟩
    · cases h; exact ⟨hv, fun n => by simp⟩
  | op :: ops, v, hv, hs, hops => by
    have ho := hops op (by simp)
    obtain ⟨e1, e2, _⟩ := C25_exact c hc v (S op) op hv hs ho.1 ho.2
    unfold tells
    cases hk : (tell c v op).ok with
    | false =>
      simp only [Bool.false_eq_true, if_false, true_iff]
      refine ⟨fun n hn => (e1.1 hk) n ⟨hn.1, hn.2 op (by simp)⟩, fun v' h => by cases h⟩
    | true =>
      obtain ⟨f1, f2, f3⟩ := e2 hk
      simp only [if_true]
      have ih := C25_history c hc S ops _ f1 f2 (fun o h => hops o (by simp [h]))
      have hiff : ∀ n : Nat, (Mem (tell c v op).v.r n ∧ ∀ o ∈ ops, o.set (S o) n) ↔ (Mem v.r n ∧ ∀ o ∈ op :: ops, o.set (S o) n) := by
        intro n
        rw [f3]
        simp only [List.mem_cons, forall_eq_or_imp, and_assoc]
      refine ⟨?_, fun v' h => ⟨(ih.2 v' h).1, fun n => by rw [(ih.2 v' h).2, hiff]⟩⟩
      rw [ih.1]
      exact ⟨fun h n hn => h n ((hiff n).2 hn), fun h n hn => h n ((hiff n).1 hn)⟩

example : VarOk exCfg exVar ∧ Small exCfg exVar ∧
    tells exCfg exVar [.notValue 4, .interval 3 8, .notValue 3, .range exRange, .notValue 8] =
      some ⟨none, 2, ⟨false, 6, 7, some [0xc0#64, 0#64]⟩⟩ ∧
    tells exCfg exVar [.notValue 4, .interval 3 4, .notValue 3] = none :=
  ⟨newInterval_ok exCfg (by decide) (by decide), ⟨by decide, rfl⟩, by decide +kernel, by decide +kernel⟩

example : Repr exCfg exSet (fun n => Mem exSet n) ∧ OpSmall (.range exSet) ∧
    (tell exCfg exVar (.range exSet)).v = ⟨none, 3, ⟨false, 3, 5, some [0x38#64, 0#64]⟩⟩ :=
  ⟨⟨exSet_wf, fun _ _ => Iff.rfl, fun _ _ _ hn => mem_win exSet_wf rfl hn⟩, fun h => (by cases h), by decide +kernel⟩

/-! ## `fd_use_vector` and the boolean check -/

/-- C25: `fd_vector`: the domain becomes sparse, nothing is lost but the values greater than the maximum of the vectors, recorded. -/
theorem C25_use_vector (c : Cfg) (hc : c.Ok) (v : Fdv) (T : Nat → Prop) (hv : VarOk c v) (hT : VRepr c v T) (hg : v.tag = none)
    (he : v.r.vec = none → v.r.extra = false) (hi : ∀ n : Nat, T n → (n : Int) ≤ imax) :
    ((useVector c v).ok = true → VarOk c (useVector c v).v ∧
      ((useVector c v).v.tag = none → (useVector c v).v.r.vec ≠ none) ∧ (∀ n : Nat, Mem (useVector c v).v.r n → Mem v.r n) ∧
      (∀ n : Nat, Mem v.r n → Mem (useVector c v).v.r n ∨ c.vmax < n) ∧
      ((useVector c v).warn = false → VRepr c (useVector c v).v T)) ∧
    ((useVector c v).ok = false → ∀ n, T n → c.vmax < n ∧ (useVector c v).warn = true) := by
  unfold useVector
  cases hvec : v.r.vec with
  | some w =>
    simp only [Option.isSome_some, if_true, Bool.true_eq_false, false_implies, and_true, true_implies]
    exact ⟨hv, fun _ => (by simp [hvec]), fun _ h => h, fun _ h => Or.inl h, hT⟩
  | none =>
    simp only [Option.isSome_none, Bool.false_eq_true, if_false]
    obtain ⟨s1, ⟨w, s2, _⟩, s3, s4⟩ := becomesSparse_spec c hc (initInterval 0 imax) rfl
    generalize hr : becomesSparse c (initInterval 0 imax) = r at *
    have hbv := bounds_mem c v.r hv.wf hv.ne
    have hR : Repr c r (fun n => (n : Int) ≤ imax) := by
      refine ⟨s1, ?_, ?_⟩
      · intro n hn
        rw [s4, mem_none rfl]
        rcases hn with hn | hn
        · rw [hn] at s2; cases s2
        · simp only [initInterval, and_iff_left hn]; omega
      · intro _ hx n hn
        rw [s3] at hx
        have hx' : ¬ imax > c.vmax := of_decide_eq_false hx
        refine ⟨by omega, ?_⟩
        unfold Cfg.vmax at hx'
        omega
    have hf : FlagOk c v r := by
      intro hall
      left
      rcases inter_eq c r v.r with ⟨h, _, _⟩ | ⟨_, e⟩
      · rw [h] at s2; cases s2
      · rw [e, he hvec]
        have hmx : v.r.max ≤ c.vmax := by
          have := ((s4 _).1 (hall _ hbv.2.1)).2
          unfold Win at this; unfold Cfg.vmax; omega
        have hex : (sparseArg c v.r).extra = false := by
          unfold sparseArg; rw [hvec]; simp only [becomesSparse]; simp; omega
        rw [interSS_extra, hex, Bool.and_false]
    have told := rangeRange_told c hc v T _ r hv hT hg hR hf
    refine ⟨fun hok => ⟨told.ok hok, ?_, fun n hn => (told.sound hok n hn).1, ?_, ?_⟩, ?_⟩
    · intro htag
      have hkind : (inter c r v.r).vec ≠ none := by
        rcases inter_eq c r v.r with ⟨h, _, _⟩ | ⟨_, e⟩
        · rw [h] at s2; cases s2
        · rw [e]
          obtain ⟨u1, ⟨v', u2, _⟩, _⟩ := sparseArg_spec c hc r s1
          obtain ⟨t1, ⟨v1, t2, _⟩, _⟩ := sparseArg_spec c hc v.r hv.wf
          exact (interSS_spec c hc _ _ v' v1 u2 t2 u1 t1).2.1
      revert hok htag
      unfold tellRangeRange
      dsimp only
      split
      · intro h; cases h
      · split
        · intro _ h; cases h
        · intro _ _
          unfold updRange
          rw [if_pos]
          · exact hkind
          · cases hx : (inter c r v.r).vec with
            | none => exact absurd hx hkind
            | some _ => simp [hvec, Option.isSome]
    · intro n hn
      rcases hT.2 n (hT.1 n hn) with h | h
      · exact told.complete hok n (hT.1 n hn) (hi n (hT.1 n hn))
      · exact Or.inr h.1
    · intro hw
      have := told.repr hok hw
      have e : (fun n => T n ∧ (n : Int) ≤ imax) = T := by
        funext n; exact propext ⟨fun h => h.1, fun h => ⟨h, hi n h⟩⟩
      rw [e] at this; exact this
    · intro hok n hn
      rcases told.fail hok n hn (hi n hn) with ⟨h1, h2 | h2⟩
      · exact ⟨h1, h2⟩
      · rw [(ground_iff v).2 hg] at h2; cases h2.1

example : VarOk exCfg (newInterval 100 200) ∧ (newInterval 100 200).tag = none ∧
    (useVector exCfg (newInterval 100 200)).v = ⟨none, 28, ⟨true, 100, 127, some [0#64, 0xfffffff000000000#64]⟩⟩ :=
  ⟨newInterval_ok exCfg (by decide) (by decide), rfl, by decide +kernel⟩

/-- C25: a boolean constraint restricts the variable to 0..1. -/
theorem C25_check_bool (c : Cfg) (hc : c.Ok) (v : Fdv) (T : Nat → Prop) (hv : VarOk c v) (hT : VRepr c v T) (hg : v.tag = none) :
    ((checkBool c v).ok = false ↔ ∀ n, ¬ (T n ∧ n ≤ 1)) ∧
    ((checkBool c v).ok = true → VarOk c (checkBool c v).v ∧ ∀ n : Nat, Mem (checkBool c v).v.r n ↔ T n ∧ n ≤ 1) := by
  have hs := hc.size
  have hb := bounds_mem c v.r hv.wf hv.ne
  have hn0 := hv.nonneg
  have hlt := hv.fdv hg
  have hvm : 1 < c.vmax := by unfold Cfg.vmax; omega
  have hTm : ∀ n : Nat, n ≤ 1 → (T n ↔ Mem v.r n) := by
    intro n hn
    refine ⟨fun h => ?_, hT.1 n⟩
    rcases hT.2 n h with h | h
    · exact h
    · omega
  -- a tell whose set is P, equal to 0..1 on T
  have key : ∀ (P : Nat → Prop) (f : Prop) (res : Res), ToldOk c v T P f res → (∀ n : Nat, Mem v.r n → (P n ↔ n ≤ 1)) →
      (∀ n, P n → n ≤ 1) → (res.ok = false ↔ ∀ n, ¬ (T n ∧ n ≤ 1)) ∧
      (res.ok = true → VarOk c res.v ∧ ∀ n : Nat, Mem res.v.r n ↔ T n ∧ n ≤ 1) := by
    intro P f res told hP hP1
    have h2 : res.ok = true → VarOk c res.v ∧ ∀ n : Nat, Mem res.v.r n ↔ T n ∧ n ≤ 1 := by
      intro hok
      refine ⟨told.ok hok, fun n => ⟨fun hn => ?_, fun hn => ?_⟩⟩
      · have := told.sound hok n hn
        exact ⟨this.2.1, hP1 n this.2.2⟩
      · rcases told.complete hok n hn.1 ((hP n ((hTm n hn.2).1 hn.1)).2 hn.2) with h | h
        · exact h
        · omega
    refine ⟨⟨fun hok n hn => ?_, fun h => ?_⟩, h2⟩
    · have := (told.fail hok n hn.1 ((hP n ((hTm n hn.2).1 hn.1)).2 hn.2)).1
      omega
    · cases hk : res.ok with
      | false => rfl
      | true =>
        obtain ⟨hv', h'⟩ := h2 hk
        have hb' := bounds_mem c _ hv'.wf hv'.ne
        exact absurd ((h' _).1 (by rw [Int.toNat_of_nonneg hv'.nonneg]; exact hb'.1)) (h _)
  unfold checkBool
  by_cases h1 : v.r.min > 1
  · rw [if_pos h1]
    simp only [true_iff]
    refine ⟨fun n hn => ?_, fun h => by cases h⟩
    have := hb.2.2 _ ((hTm n hn.2).1 hn.1); omega
  · rw [if_neg h1]
    by_cases h2 : v.r.max ≤ 1
    · rw [if_pos h2]
      simp only [Bool.true_eq_false, false_iff, true_implies]
      refine ⟨fun h => h v.r.min.toNat ⟨(hTm _ (by omega)).2 (by rw [Int.toNat_of_nonneg hn0]; exact hb.1), by omega⟩, hv, fun n => ?_⟩
      refine ⟨fun hn => ?_, fun hn => (hTm n hn.2).1 hn.1⟩
      have := hb.2.2 _ hn
      exact ⟨hT.1 n hn, by omega⟩
    · rw [if_neg h2]
      by_cases h3 : v.r.min = 1
      · rw [if_pos h3]
        refine key _ _ _ (tellValue_told c v T 1 hv hT) ?_ ?_
        · intro n hn; have := hb.2.2 _ hn; omega
        · intro n hn; omega
      · rw [if_neg h3]
        cases h4 : testValue v.r 1 with
        | false =>
          simp only [if_true]
          refine key _ _ _ (tellValue_told c v T 0 hv hT) ?_ ?_
          · intro n hn
            refine ⟨fun h => by omega, fun h => ?_⟩
            have : n ≠ 1 := fun h => by
              rw [h] at hn
              have := (testValue_mem c v.r hv.wf 1).2 hn
              rw [this] at h4; cases h4
            omega
          · intro n hn; omega
        | true =>
          simp only [Bool.true_eq_false, if_false]
          cases hvec : v.r.vec with
          | none =>
            simp only [Option.isSome_none, Bool.false_eq_true, if_false]
            exact key _ _ _ (intervInterv_told c v T 0 1 hv hT hg hvec) (fun n _ => by omega) (fun n h => by omega)
          | some w =>
            simp only [Option.isSome_some, if_true]
            refine key _ _ _ (rangeRange_told c hc v T _ _ hv hT hg (interval_repr c 0 1 (by omega)) ?_) (fun n _ => by omega) (fun n h => by omega)
            intro hall
            have := (mem_none (r := initInterval 0 1) rfl _).1 (hall _ hb.2.1)
            simp only [initInterval] at this
            omega

example : VarOk exCfg (newInterval 0 10) ∧ (checkBool exCfg (newInterval 0 10)).v = ⟨none, 2, initInterval 0 1⟩ :=
  ⟨newInterval_ok exCfg (by decide) (by decide), by decide +kernel⟩

/-! ## Where the code disagrees -/

/-- fd_domain(X, 1, 1000), X #\= 5, X #=< 127 with fd_vector_max = 127: the last tell changes only `extra_cstr`, the 64-bit write
resets `min`: then X = 0 succeeds although the domain was 1..1000, and X in 0..0 fails. -/
theorem C25_flag_write_witness :
    (tells exCfg (newInterval 1 1000) [.notValue 5]).map (fun v => (v.r.min, v.nb)) = some (1, 126) ∧
    (tells exCfg (newInterval 1 1000) [.notValue 5, .interval 0 127]).map (fun v => (v.r.min, v.nb)) = some (0, 126) ∧
    (tells exCfg (newInterval 1 1000) [.notValue 5, .interval 0 127, .value 0]).map (fun v => v.tag) = some (some 0) ∧
    (tells exCfg (newInterval 1 1000) [.notValue 5, .interval 0 127, .interval 0 0]) = none := by
  refine ⟨?_, ?_, ?_, ?_⟩ <;> decide +kernel

/-- Values greater than the maximum of the vectors are lost with no warning: fd_domain(X, 126, 1000), X #\= 500, X #\= 126 gives
X = 127 with no warning although 128..499 and 501..1000 remain. -/
theorem C25_silent_instantiation_witness :
    tell exCfg (newInterval 126 1000) (.notValue 500) = ⟨true, ⟨none, 2, ⟨true, 126, 127, some [0#64, 0xc000000000000000#64]⟩⟩,
      ⟨false, true, true, true, false⟩, false⟩ ∧
    tells exCfg (newInterval 126 1000) [.notValue 500, .notValue 126] = some ⟨some 127, 1, ⟨true, 127, 127, none⟩⟩ ∧
    (tell exCfg ⟨none, 2, ⟨true, 126, 127, some [0#64, 0xc000000000000000#64]⟩⟩ (.notValue 126)).warn = false := by
  refine ⟨?_, ?_, ?_⟩ <;> decide +kernel

/-- X in 0..10, X = 4294967299 succeeds with X = 3: the integer is converted to 32 bits. -/
theorem C25_unify_int_witness : unifyInt exCfg (newInterval 0 10) 4294967299 =
    ⟨true, ⟨some 3, 1, ⟨false, 3, 3, none⟩⟩, ⟨true, true, true, true, true⟩, false⟩ := by decide +kernel

/-- C25: the unification of a FD variable with an integer of 32 bits is a tell of this value. -/
theorem C25_unify_int_partial (c : Cfg) (v : Fdv) (T : Nat → Prop) (n : Int) (hv : VarOk c v) (hT : VRepr c v T)
    (hn : -2147483648 ≤ n ∧ n < 2147483648) : ToldOk c v T (fun m => (m : Int) = n) False (unifyInt c v n) := by
  unfold unifyInt
  have : toInt32 n = n := by unfold toInt32; omega
  rw [this]
  exact tellValue_told c v T n hv hT

end Gp.Fd
