import Verif.FdMath.Spec

/-! # Lemmas on polynomials, the delay stack and the loading of polynomials -/

namespace Gp.FdMath

theorem clamp_id {c : Int} (h : -MAX ≤ c ∧ c ≤ MAX) : clamp c = c := by
  unfold clamp; split
  · omega
  · split <;> omega

theorem bmod_id {n : Int} (h : 0 ≤ n ∧ n ≤ MAX) : n.bmod (2 ^ 32) = n := by
  have : MAX = 268435455 := rfl
  rw [Int.bmod_def]; simp only [Int.reducePow, Nat.reducePow]
  have : n % ((4294967296 : Nat) : Int) = n := Int.emod_eq_of_lt h.1 (by omega)
  rw [this]; split <;> omega

/-! ## Polynomials -/

/-- Value of a list of monomial terms. -/
def evalM (τ : Var → Int) : List (Int × Var) → Int
  | [] => 0
  | m :: l => m.1 * τ m.2 + evalM τ l

/-- Value of a polynomial. -/
def Poly.eval (τ : Var → Int) (p : Poly) : Int := p.c + evalM τ p.m

/-- Sum of the absolute values of the monomial terms, variables at `u`. -/
def nrm (u : Var → Nat) : List (Int × Var) → Nat
  | [] => 0
  | m :: l => m.1.natAbs * u m.2 + nrm u l

def Poly.nrm (u : Var → Nat) (p : Poly) : Nat := p.c.natAbs + FdMath.nrm u p.m

@[simp] theorem evalM_nil (τ) : evalM τ [] = 0 := rfl
@[simp] theorem evalM_cons (τ m l) : evalM τ (m :: l) = m.1 * τ m.2 + evalM τ l := rfl
@[simp] theorem nrm_nil (u) : nrm u [] = 0 := rfl
@[simp] theorem nrm_cons (u m l) : nrm u (m :: l) = m.1.natAbs * u m.2 + nrm u l := rfl

theorem evalM_append (τ l k) : evalM τ (l ++ k) = evalM τ l + evalM τ k := by
  induction l with
  | nil => simp
  | cons m l ih => simp only [List.cons_append, evalM_cons, ih]; omega

theorem nrm_append (u l k) : nrm u (l ++ k) = nrm u l + nrm u k := by
  induction l with
  | nil => simp
  | cons m l ih => simp only [List.cons_append, nrm_cons, ih]; omega

theorem evalM_perm {τ l k} (h : l.Perm k) : evalM τ l = evalM τ k := by
  induction h with
  | nil => rfl
  | cons x _ ih => simp only [evalM_cons, ih]
  | swap x y l => simp only [evalM_cons]; omega
  | trans _ _ h1 h2 => exact h1.trans h2

theorem nrm_perm {u l k} (h : l.Perm k) : nrm u l = nrm u k := by
  induction h with
  | nil => rfl
  | cons x _ ih => simp only [nrm_cons, ih]
  | swap x y l => simp only [nrm_cons]; omega
  | trans _ _ h1 h2 => exact h1.trans h2

theorem bump_eval {a x m m'} (h : bump a x m = some m') (τ : Var → Int) :
    evalM τ m' = evalM τ m + a * τ x := by
  induction m generalizing m' with
  | nil => simp [bump] at h
  | cons q l ih =>
    obtain ⟨b, y⟩ := q
    unfold bump at h
    split at h
    · rename_i hy; subst hy
      simp only [Option.some.injEq] at h; subst h
      simp only [evalM_cons]; rw [Int.add_mul]; omega
    · simp only [Option.map_eq_some_iff] at h
      obtain ⟨l', hl, rfl⟩ := h
      simp only [evalM_cons, ih hl]; omega

theorem bump_nrm {a x m m'} (h : bump a x m = some m') (u : Var → Nat) :
    nrm u m' ≤ nrm u m + a.natAbs * u x := by
  induction m generalizing m' with
  | nil => simp [bump] at h
  | cons q l ih =>
    obtain ⟨b, y⟩ := q
    unfold bump at h
    split at h
    · rename_i hy; subst hy
      simp only [Option.some.injEq] at h; subst h
      simp only [nrm_cons]
      have : (b + a).natAbs * u y ≤ (b.natAbs + a.natAbs) * u y :=
        Nat.mul_le_mul_right _ (Int.natAbs_add_le b a)
      rw [Nat.add_mul] at this; omega
    · simp only [Option.map_eq_some_iff] at h
      obtain ⟨l', hl, rfl⟩ := h
      have := ih hl
      simp only [nrm_cons]; omega

theorem bump_vars {a x m m'} (h : bump a x m = some m') (P : Var → Prop)
    (hm : ∀ q ∈ m, P q.2) : ∀ q ∈ m', P q.2 := by
  induction m generalizing m' with
  | nil => simp [bump] at h
  | cons q l ih =>
    obtain ⟨b, y⟩ := q
    unfold bump at h
    split at h
    · simp only [Option.some.injEq] at h; subst h
      intro q hq
      rcases List.mem_cons.mp hq with rfl | hq
      · exact hm (b, y) (by simp)
      · exact hm q (List.mem_cons_of_mem _ hq)
    · simp only [Option.map_eq_some_iff] at h
      obtain ⟨l', hl, rfl⟩ := h
      intro q hq
      rcases List.mem_cons.mp hq with rfl | hq
      · exact hm (b, y) (by simp)
      · exact ih hl (fun q hq => hm q (List.mem_cons_of_mem _ hq)) q hq

/-- A sign. -/
def Sgn (s : Int) : Prop := s = 1 ∨ s = -1

theorem Sgn.neg {s} (h : Sgn s) : Sgn (-s) := by rcases h with rfl | rfl <;> simp [Sgn]

theorem addMonom_ok {p : Poly} {s a : Int} {x : Var} {st : St} {p' st'} (hs : Sgn s)
    (h : addMonom p s a x st = .ok p' st') :
    st' = st ∧ (∀ τ : Var → Int, p'.eval τ = p.eval τ + s * (a * τ x)) ∧
      (∀ u : Var → Nat, p'.nrm u ≤ p.nrm u + a.natAbs * u x) ∧
      (∀ P : Var → Prop, (∀ q ∈ p.m, P q.2) → P x → ∀ q ∈ p'.m, P q.2) := by
  unfold addMonom at h
  split at h
  · rename_i h0
    simp only [Res.ok.injEq] at h
    obtain ⟨rfl, rfl⟩ := h
    subst h0
    exact ⟨rfl, fun τ => by simp, fun u => by simp, fun P h _ => h⟩
  · simp only at h
    have hv : ∀ t : Int, (if s < 0 then -a else a) * t = s * (a * t) := by
      intro t; rcases hs with rfl | rfl <;> simp [Int.neg_mul]
    have hn : (if s < 0 then -a else a).natAbs = a.natAbs := by split <;> simp
    split at h
    · rename_i m hb
      simp only [Res.ok.injEq] at h
      obtain ⟨rfl, rfl⟩ := h
      refine ⟨rfl, fun τ => ?_, fun u => ?_, fun P hp _ => bump_vars hb P hp⟩
      · simp only [Poly.eval, bump_eval hb, hv]; omega
      · have := bump_nrm hb u
        rw [hn] at this
        simp only [Poly.nrm]; omega
    · split at h
      · cases h
      · simp only [Res.ok.injEq] at h
        obtain ⟨rfl, rfl⟩ := h
        refine ⟨rfl, fun τ => ?_, fun u => ?_, fun P hp hx q hq => ?_⟩
        · simp only [Poly.eval, evalM_append, evalM_cons, evalM_nil, hv]; omega
        · simp only [Poly.nrm, nrm_append, nrm_cons, nrm_nil, hn]; omega
        · rcases List.mem_append.mp hq with hq | hq
          · exact hp q hq
          · simp only [List.mem_singleton] at hq; subst hq; exact hx

theorem addMonom_not_fail {p s a x st} : addMonom p s a x st ≠ .fail := by
  unfold addMonom
  split
  · simp
  · simp only; split
    · simp
    · split <;> simp

theorem addCst_eval (p : Poly) (s n : Int) (τ) : (p.addCst s n).eval τ = p.eval τ + s * n := by
  simp only [Poly.addCst, Poly.eval]; omega

theorem addCst_nrm (p : Poly) {s : Int} (hs : Sgn s) (n : Int) (u) :
    (p.addCst s n).nrm u ≤ p.nrm u + n.natAbs := by
  simp only [Poly.addCst, Poly.nrm]
  rcases hs with rfl | rfl <;> omega

/-! ## States -/

theorem Res.bind_ok {r : Res α} {f : α → St → Res β} {b st'} :
    r.bind f = .ok b st' ↔ ∃ a st, r = .ok a st ∧ f a st = .ok b st' := by
  cases r with
  | ok a st =>
    simp only [Res.bind, Res.ok.injEq]
    exact ⟨fun h => ⟨a, st, ⟨rfl, rfl⟩, h⟩, by rintro ⟨_, _, ⟨rfl, rfl⟩, h⟩; exact h⟩
  | _ => simp [Res.bind]

theorem Res.bind_fail {r : Res α} {f : α → St → Res β} :
    r.bind f = .fail ↔ r = .fail ∨ ∃ a st, r = .ok a st ∧ f a st = .fail := by
  cases r with
  | ok a st =>
    simp only [Res.bind, Res.ok.injEq, reduceCtorEq, false_or]
    exact ⟨fun h => ⟨a, st, ⟨rfl, rfl⟩, h⟩, by rintro ⟨_, _, ⟨rfl, rfl⟩, h⟩; exact h⟩
  | _ => simp [Res.bind]

/-- The state only grows. -/
structure Grow (st st' : St) : Prop where
  posted : ∃ l, st'.posted = st.posted ++ l
  delayed : ∃ l, st'.delayed = st.delayed ++ l
  h : st.h ≤ st'.h
  cs : st.cs ≤ st'.cs

theorem Grow.refl (st) : Grow st st := ⟨⟨[], by simp⟩, ⟨[], by simp⟩, Nat.le_refl _, Nat.le_refl _⟩

theorem Grow.trans {a b c} (h : Grow a b) (k : Grow b c) : Grow a c := by
  obtain ⟨l1, e1⟩ := h.posted
  obtain ⟨l2, e2⟩ := k.posted
  obtain ⟨d1, f1⟩ := h.delayed
  obtain ⟨d2, f2⟩ := k.delayed
  exact ⟨⟨l1 ++ l2, by rw [e2, e1, List.append_assoc]⟩, ⟨d1 ++ d2, by rw [f2, f1, List.append_assoc]⟩,
    Nat.le_trans h.h k.h, Nat.le_trans h.cs k.cs⟩

theorem Grow.post (st : St) (l) : Grow st (st.post l) :=
  ⟨⟨l, rfl⟩, ⟨[], by simp [St.post]⟩, Nat.le_refl _, Nat.le_refl _⟩

theorem Grow.newFd (st : St) : Grow st st.newFd :=
  ⟨⟨[], by simp [St.newFd]⟩, ⟨[], by simp [St.newFd]⟩, Nat.le_refl _, Nat.le_succ _⟩

theorem Grow.pushCell (st : St) : Grow st st.pushCell :=
  ⟨⟨[], by simp [St.pushCell]⟩, ⟨[], by simp [St.pushCell]⟩, Nat.le_succ _, Nat.le_refl _⟩

theorem Grow.unsorted (st : St) : Grow st st.unsorted :=
  ⟨⟨[], by simp [St.unsorted]⟩, ⟨[], by simp [St.unsorted]⟩, Nat.le_refl _, Nat.le_refl _⟩

theorem Grow.noteCoef (st : St) (n) : Grow st (st.noteCoef n) :=
  ⟨⟨[], by simp [St.noteCoef]⟩, ⟨[], by simp [St.noteCoef]⟩, Nat.le_refl _, Nat.le_refl _⟩

/-- All constraints, posted and delayed, are satisfied. -/
def Sat (τ : Var → Int) (st : St) : Prop :=
  satAll τ st.posted ∧ ∀ d ∈ st.delayed, satAll τ (d.1.post d.2)

theorem Sat.mono {τ st st'} (g : Grow st st') (h : Sat τ st') : Sat τ st := by
  obtain ⟨l, e⟩ := g.posted
  obtain ⟨d, f⟩ := g.delayed
  exact ⟨fun c hc => h.1 c (by rw [e]; exact List.mem_append_left _ hc),
    fun c hc => h.2 c (by rw [f]; exact List.mem_append_left _ hc)⟩

theorem sat_post {τ st l} : Sat τ (st.post l) ↔ Sat τ st ∧ satAll τ l := by
  simp only [Sat, St.post, satAll, List.mem_append]
  constructor
  · exact fun h => ⟨⟨fun c hc => h.1 c (.inl hc), h.2⟩, fun c hc => h.1 c (.inr hc)⟩
  · exact fun h => ⟨fun c hc => hc.elim (h.1.1 c) (h.2 c), h.1.2⟩

@[simp] theorem sat_newFd {τ} {st : St} : Sat τ st.newFd ↔ Sat τ st := Iff.rfl
@[simp] theorem sat_pushCell {τ} {st : St} : Sat τ st.pushCell ↔ Sat τ st := Iff.rfl
@[simp] theorem sat_unsorted {τ} {st : St} : Sat τ st.unsorted ↔ Sat τ st := Iff.rfl
@[simp] theorem sat_noteCoef {τ} {st : St} {n} : Sat τ (st.noteCoef n) ↔ Sat τ st := Iff.rfl

@[simp] theorem satAll_nil (τ) : satAll τ [] := by simp [satAll]
@[simp] theorem satAll_cons (τ c l) : satAll τ (c :: l) ↔ c.sat τ ∧ satAll τ l := by
  simp [satAll]

theorem sat_flush {τ} {st : St} : satAll τ st.flush.posted ↔ Sat τ st := by
  simp only [St.flush, satAll, List.mem_append, List.mem_flatMap, Sat]
  constructor
  · exact fun h => ⟨fun c hc => h c (.inl hc), fun d hd c hc => h c (.inr ⟨d, hd, hc⟩)⟩
  · rintro h c (hc | ⟨d, hd, hc⟩)
    · exact h.1 c hc
    · exact h.2 d hd c hc

/-- A variable that has been made. -/
def Alloc (st : St) : Var → Prop
  | .orig _ => True
  | .heap n => n < st.h
  | .fd n => n < st.cs

/-- A word made of variables that have been made. -/
def WAlloc (st : St) : W → Prop
  | .int _ => True
  | .var v => Alloc st v

theorem Alloc.mono {st st' v} (g : Grow st st') (h : Alloc st v) : Alloc st' v := by
  cases v with
  | orig => trivial
  | heap n => exact Nat.lt_of_lt_of_le h g.h
  | fd n => exact Nat.lt_of_lt_of_le h g.cs

theorem WAlloc.mono {st st' w} (g : Grow st st') (h : WAlloc st w) : WAlloc st' w := by
  cases w with
  | int => trivial
  | var v => exact Alloc.mono g h

/-- The words of a constraint. -/
def Cstr.words : Cstr → List W
  | .fdVar x => [x]
  | .xEqC x _ => [x]
  | .xEqY x y => [x, y]
  | .xPlusCEqY x _ y => [x, y]
  | .xNeqC x _ => [x]
  | .xNeqY x y => [x, y]
  | .xPlusCNeqY x _ y => [x, y]
  | .xLtY x y => [x, y]
  | .xLteC x _ => [x]
  | .xLteY x y => [x, y]
  | .xPlusCLteY x _ y => [x, y]
  | .xGteC x _ => [x]
  | .xPlusCGteY x _ y => [x, y]
  | .axEqY _ x y => [x, y]
  | .xPlusYEqZ x y z => [x, y, z]
  | .axPlusYEqZ _ x y z => [x, y, z]
  | .axPlusByEqZ _ x _ y z => [x, y, z]
  | .xPlusYPlusZEqT x y z t => [x, y, z, t]
  | .axPlusYPlusZEqT _ x y z t => [x, y, z, t]
  | .axPlusByPlusZEqT _ x _ y z t => [x, y, z, t]
  | .zeroPowerNEqY n y => [n, y]
  | .aPowerNEqY _ n y => [n, y]
  | .xPowerAEqY x _ y => [x, y]
  | .x2EqY x y => [x, y]
  | .xyEqZ x y z => [x, y, z]
  | .minXA x _ z => [x, z]
  | .minXY x y z => [x, y, z]
  | .maxXA x _ z => [x, z]
  | .maxXY x y z => [x, y, z]
  | .absXA x _ z => [x, z]
  | .absXY x y z => [x, y, z]
  | .quotRemAY _ y r z => [y, r, z]
  | .quotRemXA x _ r z => [x, r, z]
  | .quotRemXY x y r z => [x, y, r, z]

/-- The words of a delayed constraint. -/
def NL.words : NL → List W
  | .x2 x => [x]
  | .xy x y => [x, y]
  | .divAY _ y => [y]
  | .divXA x _ => [x]
  | .divXY x y => [x, y]
  | .zeroPowerN n => [n]
  | .aPowerN _ n => [n]
  | .xPowerA x _ => [x]
  | .minXA x _ => [x]
  | .minXY x y => [x, y]
  | .maxXA x _ => [x]
  | .maxXY x y => [x, y]
  | .absXA x _ => [x]
  | .absXY x y => [x, y]
  | .quotRemAY _ y r => [y, r]
  | .quotRemXA x _ r => [x, r]
  | .quotRemXY x y r => [x, y, r]

theorem sat_congr {τ τ' : Var → Int} {c : Cstr}
    (h : ∀ v, W.var v ∈ c.words → τ v = τ' v) : c.sat τ ↔ c.sat τ' := by
  have hv : ∀ w ∈ c.words, w.val τ = w.val τ' := by
    intro w hw
    cases w with
    | int => rfl
    | var v => exact h v hw
  cases c <;> simp only [Cstr.words, List.mem_cons, List.not_mem_nil, or_false, forall_eq_or_imp,
    forall_eq] at hv
  case xEqC x c =>
    cases x with
    | int => simp [Cstr.sat]
    | var v => simp only [Cstr.sat]; rw [h v (by simp [Cstr.words])]
  all_goals simp only [Cstr.sat, hv]

/-- The constraints only mention variables that have been made. -/
structure Good (st : St) : Prop where
  posted : ∀ c ∈ st.posted, ∀ w ∈ c.words, WAlloc st w
  delayed : ∀ d ∈ st.delayed, (∀ w ∈ d.1.words, WAlloc st w) ∧ WAlloc st d.2

theorem nl_words {d : NL} {res c w} (hc : c ∈ d.post res) (hw : w ∈ c.words) :
    w ∈ d.words ∨ w = res ∨ ∃ n, w = .int n := by
  cases d <;> simp only [NL.post, List.mem_cons, List.not_mem_nil, or_false] at hc <;>
    rcases hc with rfl | rfl <;> simp only [Cstr.words, NL.words, List.mem_cons, List.not_mem_nil, or_false] at hw ⊢ <;>
    grind

/-- The same values on the variables made so far. -/
def Agree (st : St) (τ τ' : Var → Int) : Prop := ∀ v, Alloc st v → τ v = τ' v

theorem Sat.congr {τ τ' st} (g : Good st) (a : Agree st τ τ') (h : Sat τ st) : Sat τ' st := by
  refine ⟨fun c hc => (sat_congr ?_).mp (h.1 c hc), fun d hd c hc => (sat_congr ?_).mp (h.2 d hd c hc)⟩
  · intro v hv
    exact a v (g.posted c hc _ hv)
  · intro v hv
    rcases nl_words hc hv with h1 | h1 | ⟨n, h1⟩
    · exact a v ((g.delayed d hd).1 _ h1)
    · have := (g.delayed d hd).2
      rw [← h1] at this; exact a v this
    · cases h1

theorem Good.of_grow {st st' : St} (g : Grow st st') (hp : st'.posted = st.posted)
    (hd : st'.delayed = st.delayed) (h : Good st) : Good st' :=
  ⟨fun c hc w hw => (h.posted c (hp ▸ hc) w hw).mono g,
    fun d hd' => ⟨fun w hw => ((h.delayed d (hd ▸ hd')).1 w hw).mono g,
      (h.delayed d (hd ▸ hd')).2.mono g⟩⟩

theorem Good.newFd {st : St} (h : Good st) : Good st.newFd := h.of_grow (Grow.newFd st) rfl rfl
theorem Good.pushCell {st : St} (h : Good st) : Good st.pushCell :=
  h.of_grow (Grow.pushCell st) rfl rfl
theorem Good.unsorted {st : St} (h : Good st) : Good st.unsorted :=
  h.of_grow (Grow.unsorted st) rfl rfl
theorem Good.noteCoef {st : St} (h : Good st) (n) : Good (st.noteCoef n) :=
  h.of_grow (Grow.noteCoef st n) rfl rfl

theorem Good.post {st : St} (h : Good st) {l} (hl : ∀ c ∈ l, ∀ w ∈ c.words, WAlloc st w) :
    Good (st.post l) := by
  refine ⟨fun c hc w hw => ?_, fun d hd => ⟨fun w hw => ?_, ?_⟩⟩
  · rcases List.mem_append.mp hc with hc | hc
    · exact (h.posted c hc w hw).mono (Grow.post st l)
    · exact (hl c hc w hw).mono (Grow.post st l)
  · exact ((h.delayed d hd).1 w hw).mono (Grow.post st l)
  · exact (h.delayed d hd).2.mono (Grow.post st l)

/-- Change the value of one variable. -/
def upd (τ : Var → Int) (v : Var) (n : Int) : Var → Int := fun x => if x = v then n else τ x

@[simp] theorem upd_same (τ v n) : upd τ v n v = n := by simp [upd]
theorem upd_ne {τ : Var → Int} {v x n} (h : x ≠ v) : upd τ v n x = τ x := by simp [upd, h]

theorem Dom.upd {τ v n} (h : Dom τ) (hn : 0 ≤ n ∧ n ≤ MAX) : Dom (upd τ v n) := by
  intro x; unfold FdMath.upd; split
  · exact hn
  · exact h x

theorem alloc_ne {st : St} {v z : Var} (h : Alloc st v) (hz : ¬ Alloc st z) : v ≠ z := by
  rintro rfl; exact hz h

theorem agree_upd {st τ z n} (hz : ¬ Alloc st z) : Agree st τ (upd τ z n) :=
  fun _ hv => (upd_ne (alloc_ne hv hz)).symm

theorem fresh_heap (st : St) : ¬ Alloc st (.heap st.h) := Nat.lt_irrefl _
theorem fresh_fd (st : St) : ¬ Alloc st (.fd st.cs) := Nat.lt_irrefl _

/-- `τ'` extends `τ` to a solution of the larger state. -/
structure Ext (st : St) (τ : Var → Int) (st' : St) (τ' : Var → Int) : Prop where
  agree : Agree st τ τ'
  dom : Dom τ'
  sat : Sat τ' st'

theorem Ext.trans {a b c τ τ1 τ2} (g : Grow a b) (h : Ext a τ b τ1) (k : Ext b τ1 c τ2) :
    Ext a τ c τ2 :=
  ⟨fun v hv => (h.agree v hv).trans (k.agree v (hv.mono g)), k.dom, k.sat⟩

theorem Ext.refl {st τ} (d : Dom τ) (s : Sat τ st) : Ext st τ st τ := ⟨fun _ _ => rfl, d, s⟩

/-- Posting constraints that hold. -/
theorem Ext.post {st τ l} (d : Dom τ) (s : Sat τ st) (h : satAll τ l) : Ext st τ (st.post l) τ :=
  ⟨fun _ _ => rfl, d, sat_post.mpr ⟨s, h⟩⟩

/-- A new FD variable, with any value. -/
theorem Ext.newFd {st τ n} (d : Dom τ) (g : Good st) (s : Sat τ st) (hn : 0 ≤ n ∧ n ≤ MAX) :
    Ext st τ st.newFd (upd τ (.fd st.cs) n) :=
  ⟨agree_upd (fresh_fd st), d.upd hn, show Sat _ st from Sat.congr g (agree_upd (fresh_fd st)) s⟩

theorem Ext.pushCell {st τ n} (d : Dom τ) (g : Good st) (s : Sat τ st) (hn : 0 ≤ n ∧ n ≤ MAX) :
    Ext st τ st.pushCell (upd τ (.heap st.h) n) :=
  ⟨agree_upd (fresh_heap st), d.upd hn, show Sat _ st from Sat.congr g (agree_upd (fresh_heap st)) s⟩

theorem val_agree {st τ τ' w} (a : Agree st τ τ') (h : WAlloc st w) : w.val τ = w.val τ' := by
  cases w with
  | int => rfl
  | var v => exact a v h

theorem evalM_agree {st τ τ' m} (a : Agree st τ τ') (h : ∀ q ∈ m, Alloc st q.2) :
    evalM τ m = evalM τ' m := by
  induction m with
  | nil => rfl
  | cons q l ih =>
    simp only [evalM_cons]
    rw [a q.2 (h q (by simp)), ih (fun q hq => h q (List.mem_cons_of_mem _ hq))]

theorem eval_agree {st τ τ'} {p : Poly} (a : Agree st τ τ') (h : ∀ q ∈ p.m, Alloc st q.2) :
    p.eval τ = p.eval τ' := by
  simp only [Poly.eval, evalM_agree a h]

/-! ## The delay stack -/

theorem push_ok {d st z st'} (h : push d st = .ok z st') :
    z = .heap st.h ∧ st' = { st with h := st.h + 1, delayed := st.delayed ++ [(d, .var (.heap st.h))] } := by
  unfold push at h
  simp only at h
  split at h
  · cases h
  · simp only [Res.ok.injEq] at h
    exact ⟨h.1.symm, h.2.symm⟩

theorem push_not_fail {d st} : push d st ≠ .fail := by
  unfold push; simp only; split <;> simp

theorem push_grow {d st z st'} (h : push d st = .ok z st') : Grow st st' := by
  obtain ⟨rfl, rfl⟩ := push_ok h
  exact ⟨⟨[], by simp⟩, ⟨_, rfl⟩, Nat.le_succ _, Nat.le_refl _⟩

theorem push_alloc {d st z st'} (h : push d st = .ok z st') : Alloc st' z := by
  obtain ⟨rfl, rfl⟩ := push_ok h
  exact Nat.lt_succ_self _

theorem push_good {d st z st'} (h : push d st = .ok z st') (g : Good st)
    (hd : ∀ w ∈ d.words, WAlloc st w) : Good st' := by
  have gr := push_grow h
  obtain ⟨rfl, rfl⟩ := push_ok h
  refine ⟨fun c hc w hw => (g.posted c hc w hw).mono gr, fun e he => ?_⟩
  rcases List.mem_append.mp he with he | he
  · exact ⟨fun w hw => ((g.delayed e he).1 w hw).mono gr, (g.delayed e he).2.mono gr⟩
  · simp only [List.mem_singleton] at he; subst he
    exact ⟨fun w hw => (hd w hw).mono gr, Nat.lt_succ_self _⟩

theorem push_sat {d st z st' τ} (h : push d st = .ok z st') (s : Sat τ st') :
    satAll τ (d.post (.var z)) := by
  obtain ⟨rfl, rfl⟩ := push_ok h
  exact s.2 (d, .var (.heap st.h)) (by simp)

theorem push_ext {d st z st' τ n} (h : push d st = .ok z st') (g : Good st)
    (hd : Dom τ) (s : Sat τ st) (hn : 0 ≤ n ∧ n ≤ MAX)
    (hc : satAll (upd τ z n) (d.post (.var z))) : Ext st τ st' (upd τ z n) := by
  obtain ⟨rfl, rfl⟩ := push_ok h
  have hs : Sat (upd τ (.heap st.h) n) st := Sat.congr g (agree_upd (fresh_heap st)) s
  refine ⟨agree_upd (fresh_heap st), hd.upd hn, hs.1, fun e he => ?_⟩
  rcases List.mem_append.mp he with he | he
  · exact hs.2 e he
  · simp only [List.mem_singleton] at he; subst he; exact hc

theorem push_new {d st z st'} (h : push d st = .ok z st') {v} (hv : Alloc st v) : v ≠ z := by
  obtain ⟨rfl, rfl⟩ := push_ok h
  exact alloc_ne hv (fresh_heap st)

/-! ## Loading a polynomial -/

/-- Positive coefficients. -/
def PosC (m : List (Int × Var)) : Prop := ∀ q ∈ m, 0 < q.1

/-- Coefficients that the primitive constraints do not clamp. -/
def SmallC (m : List (Int × Var)) : Prop := ∀ q ∈ m, 0 < q.1 ∧ q.1 ≤ MAX

theorem evalM_nonneg {τ m} (d : Dom τ) (h : PosC m) : 0 ≤ evalM τ m := by
  induction m with
  | nil => simp
  | cons q l ih =>
    simp only [evalM_cons]
    have h1 := ih (fun q hq => h q (List.mem_cons_of_mem _ hq))
    have h2 : 0 ≤ q.1 * τ q.2 := Int.mul_nonneg (Int.le_of_lt (h q (by simp))) (d _).1
    omega

theorem step3_sat {m0 m1 z load τ} (h0 : 0 < m0.1 ∧ m0.1 ≤ MAX) (h1 : 0 < m1.1 ∧ m1.1 ≤ MAX) :
    (step3 m0 m1 z load).sat τ ↔
      m0.1 * τ m0.2 + m1.1 * τ m1.2 + z.val τ = load.val τ := by
  have e0 : clamp m0.1 = m0.1 := clamp_id (by omega)
  have e1 : clamp m1.1 = m1.1 := clamp_id (by omega)
  unfold step3
  split
  · split
    · rename_i a b; simp only [Cstr.sat, W.val, a, b, Int.one_mul]
    · rename_i a b; simp only [Cstr.sat, W.val, a, e1, Int.one_mul]; omega
  · split
    · rename_i a b; simp only [Cstr.sat, W.val, b, e0, Int.one_mul]
    · simp only [Cstr.sat, W.val, e0, e1]

theorem step3_words {m0 m1 : Int × Var} {z load} {st : St} (h0 : Alloc st m0.2)
    (h1 : Alloc st m1.2) (hz : WAlloc st z) (hl : WAlloc st load) :
    ∀ c ∈ [step3 m0 m1 z load], ∀ w ∈ c.words, WAlloc st w := by
  intro c hc w hw
  simp only [List.mem_singleton] at hc; subst hc
  unfold step3 at hw
  (repeat' split at hw) <;>
    simp only [Cstr.words, List.mem_cons, List.not_mem_nil, or_false] at hw <;>
    rcases hw with rfl | rfl | rfl | rfl <;> assumption

theorem loadPolyRec_stat (m : List (Int × Var)) (load : W) (st : St) (g : Good st)
    (hm : ∀ q ∈ m, Alloc st q.2) (hl : WAlloc st load) :
    Grow st (loadPolyRec m load st) ∧ Good (loadPolyRec m load st) := by
  fun_induction loadPolyRec m load st with
  | case1 => exact ⟨Grow.refl _, g⟩
  | case2 m0 load st =>
    refine ⟨Grow.post _ _, g.post ?_⟩
    intro c hc w hw
    simp only [List.mem_singleton] at hc; subst hc
    simp only [Cstr.words, List.mem_cons, List.not_mem_nil, or_false] at hw
    rcases hw with rfl | rfl
    · exact hm m0 (by simp)
    · exact hl
  | case3 m0 m1 load st =>
    refine ⟨Grow.post _ _, g.post ?_⟩
    have a0 : WAlloc st (.var m0.2) := hm m0 (by simp)
    have a1 : WAlloc st (.var m1.2) := hm m1 (by simp)
    intro c hc w hw
    simp only [List.mem_singleton] at hc; subst hc
    (repeat' split at hw) <;>
      simp only [Cstr.words, List.mem_cons, List.not_mem_nil, or_false] at hw <;>
      rcases hw with rfl | rfl | rfl <;> assumption
  | case4 m0 m1 m2 l load st h =>
    exact ⟨Grow.post _ _, g.post (step3_words (hm m0 (by simp)) (hm m1 (by simp))
      (show Alloc st m2.2 from hm m2 (by simp)) hl)⟩
  | case5 m0 m1 m2 l load st h load1 ih =>
    have gr := Grow.newFd st
    have hn : Alloc st.newFd (.fd st.cs) := Nat.lt_succ_self _
    have gr2 := gr.trans (Grow.post st.newFd [step3 m0 m1 load1 load])
    have := ih (g.newFd.post (step3_words ((hm m0 (by simp)).mono gr) ((hm m1 (by simp)).mono gr)
      hn (hl.mono gr)))
      (fun q hq => (hm q (List.mem_cons_of_mem _ (List.mem_cons_of_mem _ hq))).mono gr2)
      (hn.mono (Grow.post _ _))
    exact ⟨gr2.trans this.1, this.2⟩

theorem loadPolyRec_sound (m : List (Int × Var)) (load : W) (st : St) (g : Good st)
    (hm : ∀ q ∈ m, Alloc st q.2) (hl : WAlloc st load)
    (hc : SmallC m) (hne : m ≠ []) {τ} (s : Sat τ (loadPolyRec m load st)) :
    load.val τ = evalM τ m := by
  fun_induction loadPolyRec m load st with
  | case1 => exact absurd rfl hne
  | case2 m0 load st =>
    have := (sat_post.mp s).2
    have h0 := hc m0 (by simp)
    simp only [satAll_cons, satAll_nil, and_true, Cstr.sat] at this
    rw [clamp_id (by omega)] at this
    simp only [evalM_cons, evalM_nil]; rw [← this]; simp [W.val]
  | case3 m0 m1 load st =>
    have := (sat_post.mp s).2
    have h0 := hc m0 (by simp)
    have h1 := hc m1 (by simp)
    simp only [satAll_cons, satAll_nil, and_true] at this
    have e0 : clamp m0.1 = m0.1 := clamp_id (by omega)
    have e1 : clamp m1.1 = m1.1 := clamp_id (by omega)
    simp only [evalM_cons, evalM_nil]
    (repeat' split at this) <;> simp only [Cstr.sat, e0, e1] at this <;>
      rw [← this] <;> simp_all [W.val] <;> omega
  | case4 m0 m1 m2 l load st h =>
    have := (sat_post.mp s).2
    simp only [satAll_cons, satAll_nil, and_true] at this
    rw [step3_sat (hc m0 (by simp)) (hc m1 (by simp))] at this
    rw [← this]
    simp only [h.1, evalM_cons, evalM_nil, h.2, W.val]; omega
  | case5 m0 m1 m2 l load st h load1 ih =>
    have gr := Grow.newFd st
    have hn : Alloc st.newFd (.fd st.cs) := Nat.lt_succ_self _
    have gr2 := gr.trans (Grow.post st.newFd [step3 m0 m1 load1 load])
    have hg := (g.newFd.post (step3_words ((hm m0 (by simp)).mono gr) ((hm m1 (by simp)).mono gr)
      (z := load1) hn (hl.mono gr)))
    have ha := (fun q hq => (hm q (List.mem_cons_of_mem _ (List.mem_cons_of_mem _ hq))).mono gr2)
    have hx : WAlloc (st.newFd.post [step3 m0 m1 load1 load]) load1 := hn.mono (Grow.post _ _)
    have e := ih hg ha hx
      (fun q hq => hc q (List.mem_cons_of_mem _ (List.mem_cons_of_mem _ hq))) (by simp) s
    have s1 := Sat.mono (loadPolyRec_stat (m2 :: l) load1 _ hg ha hx).1 s
    have := (sat_post.mp s1).2
    simp only [satAll_cons, satAll_nil, and_true] at this
    rw [step3_sat (hc m0 (by simp)) (hc m1 (by simp))] at this
    rw [← this, e]
    simp only [evalM_cons]; omega

theorem loadPolyRec_ext (m : List (Int × Var)) (load : W) (st : St) (g : Good st)
    (hm : ∀ q ∈ m, Alloc st q.2) (hl : WAlloc st load)
    (hc : SmallC m) {τ} (d : Dom τ) (s : Sat τ st) (hv : load.val τ = evalM τ m)
    (hle : evalM τ m ≤ MAX) : ∃ τ', Ext st τ (loadPolyRec m load st) τ' := by
  fun_induction loadPolyRec m load st generalizing τ with
  | case1 => exact ⟨τ, Ext.refl d s⟩
  | case2 m0 load st =>
    refine ⟨τ, Ext.post d s ?_⟩
    have h0 := hc m0 (by simp)
    simp only [satAll_cons, satAll_nil, and_true, Cstr.sat]
    rw [clamp_id (by omega)]
    simp only [evalM_cons, evalM_nil] at hv; rw [hv]; simp [W.val]
  | case3 m0 m1 load st =>
    refine ⟨τ, Ext.post d s ?_⟩
    have h0 := hc m0 (by simp)
    have h1 := hc m1 (by simp)
    simp only [satAll_cons, satAll_nil, and_true]
    have e0 : clamp m0.1 = m0.1 := clamp_id (by omega)
    have e1 : clamp m1.1 = m1.1 := clamp_id (by omega)
    simp only [evalM_cons, evalM_nil] at hv
    (repeat' split) <;> simp only [Cstr.sat, e0, e1, hv] <;> simp_all [W.val] <;> omega
  | case4 m0 m1 m2 l load st h =>
    refine ⟨τ, Ext.post d s ?_⟩
    simp only [satAll_cons, satAll_nil, and_true]
    rw [step3_sat (hc m0 (by simp)) (hc m1 (by simp)), hv]
    simp only [h.1, evalM_cons, evalM_nil, h.2, W.val]; omega
  | case5 m0 m1 m2 l load st h load1 ih =>
    have gr := Grow.newFd st
    have hn : Alloc st.newFd (.fd st.cs) := Nat.lt_succ_self _
    have gr2 := gr.trans (Grow.post st.newFd [step3 m0 m1 load1 load])
    have hg := (g.newFd.post (step3_words ((hm m0 (by simp)).mono gr) ((hm m1 (by simp)).mono gr)
      (z := load1) hn (hl.mono gr)))
    have ha := (fun q hq => (hm q (List.mem_cons_of_mem _ (List.mem_cons_of_mem _ hq))).mono gr2)
    have hx : WAlloc (st.newFd.post [step3 m0 m1 load1 load]) load1 := hn.mono (Grow.post _ _)
    have hc2 : SmallC (m2 :: l) :=
      fun q hq => hc q (List.mem_cons_of_mem _ (List.mem_cons_of_mem _ hq))
    have n1 : 0 ≤ evalM τ (m2 :: l) := evalM_nonneg d (fun q hq => (hc2 q hq).1)
    have n2 : evalM τ (m2 :: l) ≤ MAX := by
      have a0 : 0 ≤ m0.1 * τ m0.2 :=
        Int.mul_nonneg (Int.le_of_lt (hc m0 (by simp)).1) (d _).1
      have a1 : 0 ≤ m1.1 * τ m1.2 :=
        Int.mul_nonneg (Int.le_of_lt (hc m1 (by simp)).1) (d _).1
      rw [evalM_cons, evalM_cons] at hle; omega
    have x1 := Ext.newFd (n := evalM τ (m2 :: l)) d g s ⟨n1, n2⟩
    have ag := x1.agree
    have hsat : satAll (upd τ (.fd st.cs) (evalM τ (m2 :: l))) [step3 m0 m1 load1 load] := by
      simp only [satAll_cons, satAll_nil, and_true]
      rw [step3_sat (hc m0 (by simp)) (hc m1 (by simp)), ← ag _ (hm m0 (by simp)),
        ← ag _ (hm m1 (by simp)), ← val_agree ag hl, hv]
      show _ + (upd τ (.fd st.cs) (evalM τ (m2 :: l)) (.fd st.cs)) = _
      rw [upd_same]; simp only [evalM_cons]; omega
    have x2 := Ext.post (st := st.newFd) x1.dom x1.sat hsat
    have hm2 : evalM (upd τ (.fd st.cs) (evalM τ (m2 :: l))) (m2 :: l) = evalM τ (m2 :: l) :=
      (evalM_agree ag (fun q hq => hm q (List.mem_cons_of_mem _ (List.mem_cons_of_mem _ hq)))).symm
    obtain ⟨τ', x3⟩ := ih hg ha hx hc2 x2.dom x2.sat
      (by rw [hm2]; exact upd_same _ _ _) (by rw [hm2]; exact n2)
    exact ⟨τ', (x1.trans gr x2).trans gr2 x3⟩

theorem loadPoly_stat {m pref st} (g : Good st) (hm : ∀ q ∈ m, Alloc st q.2)
    (hp : ∀ v, pref = some v → Alloc st v) :
    Grow st (loadPoly m pref st).2 ∧ Good (loadPoly m pref st).2 ∧
      Alloc (loadPoly m pref st).2 (loadPoly m pref st).1 := by
  unfold loadPoly
  split
  · rename_i x
    have hx : Alloc st x := hm (1, x) (by simp)
    split
    · rename_i v
      refine ⟨Grow.post _ _, g.post ?_, (hp v rfl).mono (Grow.post _ _)⟩
      intro c hc w hw
      simp only [List.mem_singleton] at hc; subst hc
      simp only [Cstr.words, List.mem_cons, List.not_mem_nil, or_false] at hw
      rcases hw with rfl | rfl
      · exact hx
      · exact hp v rfl
    · exact ⟨Grow.refl _, g, hx⟩
  · split
    · rename_i v
      obtain ⟨a, b⟩ := loadPolyRec_stat m (.var v) st g hm (hp v rfl)
      exact ⟨a, b, (hp v rfl).mono a⟩
    · have gr := Grow.newFd st
      have hn : Alloc st.newFd (.fd st.cs) := Nat.lt_succ_self _
      obtain ⟨a, b⟩ := loadPolyRec_stat m (.var (.fd st.cs)) st.newFd g.newFd
        (fun q hq => (hm q hq).mono gr) hn
      exact ⟨gr.trans a, b, hn.mono a⟩

theorem loadPoly_sound {m pref st} (g : Good st) (hm : ∀ q ∈ m, Alloc st q.2)
    (hp : ∀ v, pref = some v → Alloc st v) (hc : SmallC m) (hne : m ≠ []) {τ}
    (s : Sat τ (loadPoly m pref st).2) : τ (loadPoly m pref st).1 = evalM τ m := by
  unfold loadPoly at s ⊢
  split at s
  · rename_i x
    split at s
    · have := (sat_post.mp s).2
      simp only [satAll_cons, satAll_nil, and_true, Cstr.sat, W.val] at this
      simp [← this]
    · simp
  · rename_i hne1
    split at s
    · rename_i v
      have := loadPolyRec_sound m (.var v) st g hm (hp v rfl) hc hne s
      exact this
    · have gr := Grow.newFd st
      have hn : Alloc st.newFd (.fd st.cs) := Nat.lt_succ_self _
      have := loadPolyRec_sound m (.var (.fd st.cs)) st.newFd g.newFd
        (fun q hq => (hm q hq).mono gr) hn hc hne s
      exact this

theorem loadPoly_ext {m pref st} (g : Good st) (hm : ∀ q ∈ m, Alloc st q.2)
    (hp : ∀ v, pref = some v → Alloc st v) (hc : SmallC m) {τ} (d : Dom τ) (s : Sat τ st)
    (hv : ∀ v, pref = some v → τ v = evalM τ m) (hle : evalM τ m ≤ MAX) :
    ∃ τ', Ext st τ (loadPoly m pref st).2 τ' := by
  unfold loadPoly
  split
  · rename_i x
    split
    · rename_i v
      refine ⟨τ, Ext.post d s ?_⟩
      have := hv v rfl
      simp only [evalM_cons, evalM_nil] at this
      simp only [satAll_cons, satAll_nil, and_true, Cstr.sat, W.val, this]; omega
    · exact ⟨τ, Ext.refl d s⟩
  · split
    · rename_i v
      exact loadPolyRec_ext m (.var v) st g hm (hp v rfl) hc d s (hv v rfl) hle
    · have gr := Grow.newFd st
      have hn : Alloc st.newFd (.fd st.cs) := Nat.lt_succ_self _
      have n1 : 0 ≤ evalM τ m := evalM_nonneg d (fun q hq => (hc q hq).1)
      have x1 := Ext.newFd (n := evalM τ m) d g s ⟨n1, hle⟩
      have hm2 : evalM (upd τ (.fd st.cs) (evalM τ m)) m = evalM τ m :=
        (evalM_agree x1.agree hm).symm
      obtain ⟨τ', x2⟩ := loadPolyRec_ext m (.var (.fd st.cs)) st.newFd g.newFd
        (fun q hq => (hm q hq).mono gr) hn hc x1.dom x1.sat
        (by rw [hm2]; exact upd_same _ _ _) (by rw [hm2]; exact hle)
      exact ⟨τ', x1.trans gr x2⟩

end Gp.FdMath
