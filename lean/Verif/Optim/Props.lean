import Verif.Optim.Lemmas
/-
C50: fd_minimize and fd_maximize give exactly the optimal solutions.
-/
namespace Gp.Optim

open Gp.FdRange Gp.Fd Gp.Label

/-- A solution of the constraints `ks` in the domains `s`. -/
def Sol (s : Store) (ks : List Prim) (σ : Nat → Nat) : Prop := (∀ v, Mem (s v).r (σ v)) ∧ ∀ k ∈ ks, k.holds (fun v => (σ v : Int))

/-- `m` is at least as good as `n`. -/
def AsGood : Dir → Nat → Nat → Prop
  | .min, m, n => m ≤ n
  | .max, m, n => n ≤ m

/-- The state after the constraints have been posted. -/
theorem posted (c : Cfg) (hc : c.Ok) (W : Nat → Bool) (M : Nat → Int) (hM : ∀ v, M v ≤ 268435455) (s : Store) (hs : GB c W M s)
    (ks : List Prim) (hk : ∀ k ∈ ks, k.CstOk ∧ k.Fits W M) (hz : ∀ x y z, Prim.xyEqZ x y z ∈ ks → 0 < (s x).r.min ∧ 0 < (s y).r.min)
    (xs : List Nat) (hx : ∀ k ∈ ks, ∀ v ∈ k.vars, v ∈ xs) :
    ∃ n0 ok st, (∀ n, n0 ≤ n → run c n (start s) (ks.map Prim.cstr) = some (ok, st)) ∧ (∀ σ, Sol s ks σ → ok = true ∧ Keep c W M σ st) ∧
      (ok = true → Ok c W M xs (ks.map Prim.cstr) st ∧
        ∀ a, Ok c W M xs (ks.map Prim.cstr) a → Sub a.dom st.dom → (∀ y ∈ xs, (a.dom y).ground = true) → Sol s ks (vals a)) := by
  have hG := gb_ok c W M
  have hu : ∀ k ∈ ks, UserOk c (GB c W M) xs k.cstr := fun k h => prim_ok hc k (hk k h).2 (hx k h)
  have hu' : ∀ u ∈ ks.map Prim.cstr, UserOk c (GB c W M) xs u := fun u h => by
    obtain ⟨k, hk', e⟩ := List.mem_map.1 h
    rw [← e]; exact hu k hk'
  obtain ⟨n0, ⟨ok, st⟩, p1, p2, p3, p4, p5⟩ := run_ok hc hG (vs := xs) (ks.map Prim.cstr) (start s) (start_ready hs)
    (fun fr h => by simp [start] at h) (fun u h => ⟨hu' u h, by
      obtain ⟨k, hk', e⟩ := List.mem_map.1 h
      rw [← e]; rfl⟩)
  refine ⟨n0, ok, st, p1, fun σ ⟨hσ, hh⟩ => ?_, fun ht => ?_⟩
  · have hle : ∀ v, (σ v : Int) ≤ M v := fun v =>
      Int.le_trans ((bounds_mem c _ (hs v).1.wf (hs v).1.ne).2.2 _ (hσ v)).2 (hs v).2.2.1
    exact p4 (DS σ) (fun u h => by
      obtain ⟨k, hk', e⟩ := List.mem_map.1 h
      rw [← e]
      exact prim_keep k (hk k hk').1 (hk k hk').2 hM σ hle (hh k hk'))
      ⟨fun x => ⟨σ x, rfl⟩, fun v n h => by rw [show n = σ v from h]; exact hσ v, fun id fr h => by simp [start] at h⟩
  have ht' : ok = true := ht
  obtain ⟨q1, q2, q3⟩ := p5 ht'
  refine ⟨⟨q1, q2, hu', fun u h => q3 u (hu' u h) (Or.inl h)⟩, fun a a1 a2 hgr => ?_⟩
  have hn : ∀ v, ((vals a v : Nat) : Int) = (a.dom v).r.min := fun v => Int.toNat_of_nonneg (val_mem a1 v).2
  have hsub : ∀ v, Mem (s v).r (vals a v) := fun v => p2 v _ (a2 v _ (by rw [hn]; exact (val_mem a1 v).1))
  refine ⟨hsub, fun k hk' => ?_⟩
  have hch := (a1.posted k.cstr (List.mem_map.2 ⟨k, hk', rfl⟩)).2 k.vars
  have := prim_check k (hk k hk').1 (hk k hk').2 hch a1.ready.good (fun v hv => hgr v (hx k hk' v hv)) (fun x y z e => by
    have := hz x y z (e ▸ hk')
    have b1 := ((bounds_mem c _ (hs x).1.wf (hs x).1.ne).2.2 _ (hsub x)).1
    have b2 := ((bounds_mem c _ (hs y).1.wf (hs y).1.ne).2.2 _ (hsub y)).1
    rw [hn] at b1 b2
    omega)
  simp only [hn]
  exact this

/-- C50: let any primitive constraints with no overflow be posted; then fd_minimize and fd_maximize of a variable, where the goal is a
labeling (any variable method, any value method) of a list with this variable and the ones of the constraints, terminate;
the answers are exactly the solutions with the best value, each of them is obtained once. (Hence they fail only if there is no solution.)
Missing: fd_maximize of a variable that may be 268435455 (see the violation), goals other than a labeling, and the cases which
are missing in C49. -/
theorem C50_answers_are_the_optimal_solutions_partial (c : Cfg) (hc : c.Ok) (W : Nat → Bool) (M : Nat → Int) (hM : ∀ v, M v ≤ 268435455) (s : Store) (hs : GB c W M s)
    (ks : List Prim) (hk : ∀ k ∈ ks, k.CstOk ∧ k.Fits W M) (hz : ∀ x y z, Prim.xyEqZ x y z ∈ ks → 0 < (s x).r.min ∧ 0 < (s y).r.min)
    (xs : List Nat) (hx : ∀ k ∈ ks, ∀ v ∈ k.vars, v ∈ xs) (o : Label.Opt) (hr : ∀ k n, 0 < n → o.rnd k n < n)
    (hW : ∀ x ∈ xs, W x = false ∨ (o.val ≠ .middle ∧ o.val ≠ .random)) (std : Bool) (seeds : Nat → Nat) (d : Dir) (x : Nat) (hxs : x ∈ xs)
    (hd : d = .max → M x < 268435455) :
    ∃ n0 ok st, (∀ n, n0 ≤ n → run c n (start s) (ks.map Prim.cstr) = some (ok, st)) ∧
      (ok = false → ¬ ∃ σ, Sol s ks σ) ∧
      (ok = true → ∃ n1 t1 l, (∀ n t, n1 ≤ n → t1 ≤ t → optimize c o std xs seeds d x n t st = some (.answers l)) ∧
        (∀ f : List Int, f ∈ l.map (answer xs) ↔
          ∃ σ, Sol s ks σ ∧ (∀ τ, Sol s ks τ → AsGood d (σ x) (τ x)) ∧ f = xs.map (fun y => (σ y : Int))) ∧
        (l.map (answer xs)).Nodup ∧ (∀ a ∈ l, ∀ y ∈ xs, (a.dom y).ground = true)) := by
  obtain ⟨n0, ok, st, p1, hkeep, hok⟩ := posted c hc W M hM s hs ks hk hz xs hx
  refine ⟨n0, ok, st, p1, fun hf ⟨σ, h⟩ => ?_, fun ht => ?_⟩
  · have := (hkeep σ h).1
    rw [hf] at this; cases this
  obtain ⟨hO, hsol⟩ := hok ht
  have hi : imax = 268435455 := rfl
  have hV : ∀ x ∈ xs, LOk W M xs o.val x := fun x h => ⟨h, hM x, hW x h⟩
  have hle : ∀ σ, Keep c W M σ st → (σ x : Int) ≤ M x := fun σ hkσ =>
    Int.le_trans ((bounds_mem c _ (hO.ready.good x).1.wf (hO.ready.good x).1.ne).2.2 _ (hkσ.below x _ rfl)).2 (hO.ready.good x).2.2.1
  have hfine : ∀ σ, Keep c W M σ st → Fine d (σ x) := by
    intro σ hkσ
    have h1 := hle σ hkσ
    have h2 := hM x
    cases d with
    | min => exact ⟨by omega, by omega⟩
    | max => have := hd rfl; exact ⟨by omega, by omega⟩
  have hstart : Fine d d.start := by
    cases d with
    | min => exact ⟨by decide, by decide⟩
    | max => exact ⟨by decide, by decide⟩
  obtain ⟨n1, t1, l, r1, b, b1, b2, b3, b4, b5⟩ := loop_ok hc hr hV std seeds d hxs hfine (fun a a1 a2 a3 => (hkeep _ (hsol a a1 a2 a3)).2) (rank d d.start + 1) st d.start 0
    (by omega) hO (fun σ => Iff.rfl) rfl hstart (Or.inr (fun σ hkσ => by
      have h1 := hle σ hkσ
      have h2 := hM x
      cases d with
      | min => show (σ x : Int) < imax ∨ (σ x : Int) = imax; omega
      | max => show (0 : Int) < σ x ∨ (σ x : Int) = 0; omega))
  have hans : ∀ a ∈ l, answer xs a = xs.map (fun y => ((vals a y : Nat) : Int)) := fun a ha =>
    List.map_congr_left (fun y _ => (Int.toNat_of_nonneg (val_mem (b2 a ha).1 y).2).symm)
  refine ⟨n1, t1, l, r1, fun f => ⟨fun hf => ?_, fun ⟨σ, h1, h2, h3⟩ => ?_⟩, b5, fun a ha => (b2 a ha).2.2.1⟩
  · obtain ⟨a, ha, e⟩ := List.mem_map.1 hf
    obtain ⟨a1, a2, a3, a4⟩ := b2 a ha
    refine ⟨vals a, hsol a a1 a2 a3, fun τ hτ => ?_, by rw [← e]; exact hans a ha⟩
    have := b1 τ (hkeep τ hτ).2
    cases d with
    | min =>
      have h' : ¬ (τ x : Int) < b := this
      show vals a x ≤ τ x
      omega
    | max =>
      have h' : ¬ b < (τ x : Int) := this
      show τ x ≤ vals a x
      omega
  · have hkσ := (hkeep σ h1).2
    obtain ⟨τ, hτ, e⟩ := b4 ⟨σ, hkσ⟩
    obtain ⟨a, ha, hka⟩ := (b3 τ hτ).1 e
    obtain ⟨a1, a2, a3, a4⟩ := b2 a ha
    have hg := h2 (vals a) (hsol a a1 a2 a3)
    have hb := b1 σ hkσ
    have he : (σ x : Int) = b := by
      cases d with
      | min =>
        have h' : ¬ (σ x : Int) < b := hb
        have hg' : σ x ≤ vals a x := hg
        omega
      | max =>
        have h' : ¬ b < (σ x : Int) := hb
        have hg' : vals a x ≤ σ x := hg
        omega
    obtain ⟨a', ha', hka'⟩ := (b3 σ hkσ).1 he
    obtain ⟨a1', _, a3', _⟩ := b2 a' ha'
    refine List.mem_map.2 ⟨a', ha', ?_⟩
    rw [h3]
    exact List.map_congr_left (fun y hy => ((ground_val (a1'.ready.good y).1 (a3' y hy)).2 _ (hka'.below y _ rfl)).symm)

/-- The answers of fd_minimize, fd_maximize for X, Y, Z in 0..4, X + Y #= Z, X #< Y (the hypotheses are shown beside C49). -/
def exOptim (v : Val) (m : Label.Var) (std : Bool) (d : Dir) (x : Nat) : Option (List (List Int)) :=
  match run exCfg 30 (start exS) (exKs.map Prim.cstr) with
  | some (true, st) => match optimize exCfg (exOpt v m) std [0, 1, 2] (fun k => k) d x 40 10 st with
    | some (.answers l) => some (l.map (answer [0, 1, 2]))
    | _ => none
  | _ => none

example : exOptim .min .firstFail true .max 2 = some [[0, 4, 4], [1, 3, 4]] := by decide +kernel
example : exOptim .min .firstFail true .max 0 = some [[1, 2, 3], [1, 3, 4]] := by decide +kernel
example : exOptim .max .largest false .min 2 = some [[0, 1, 1]] := by decide +kernel
example : (2 ∈ [0, 1, 2]) ∧ (fun _ : Nat => (4 : Int)) 2 < 268435455 := by decide

/-- C50 violated: whenever there is a solution where the variable is 268435455 (the value of fd_max_integer), fd_maximize does not
terminate: the constraint for a better value is `fd_domain(X, 268435456, 268435455)` whose first bound is clamped to 268435455
(fd_optim.pl:73-75, fd_inst.c:508-509), the same solution is found again and again. -/
theorem C50_maximize_diverges_violated (c : Cfg) (hc : c.Ok) (W : Nat → Bool) (M : Nat → Int) (hM : ∀ v, M v ≤ 268435455) (s : Store) (hs : GB c W M s)
    (ks : List Prim) (hk : ∀ k ∈ ks, k.CstOk ∧ k.Fits W M) (hz : ∀ x y z, Prim.xyEqZ x y z ∈ ks → 0 < (s x).r.min ∧ 0 < (s y).r.min)
    (xs : List Nat) (hx : ∀ k ∈ ks, ∀ v ∈ k.vars, v ∈ xs) (o : Label.Opt) (hr : ∀ k n, 0 < n → o.rnd k n < n)
    (hW : ∀ x ∈ xs, W x = false ∨ (o.val ≠ .middle ∧ o.val ≠ .random)) (std : Bool) (seeds : Nat → Nat) (x : Nat) (hxs : x ∈ xs)
    (σ : Nat → Nat) (hσ : Sol s ks σ) (hm : σ x = 268435455) :
    ∃ n0 st, (∀ n, n0 ≤ n → run c n (start s) (ks.map Prim.cstr) = some (true, st)) ∧
      ∀ t, ∃ n1, ∀ n, n1 ≤ n → optimize c o std xs seeds .max x n t st = some .more := by
  obtain ⟨n0, ok, st, p1, hkeep, hok⟩ := posted c hc W M hM s hs ks hk hz xs hx
  obtain ⟨ht, hkσ⟩ := hkeep σ hσ
  subst ht
  obtain ⟨hO, _⟩ := hok rfl
  refine ⟨n0, st, p1, ?_⟩
  have hi : imax = 268435455 := rfl
  have hV : ∀ x ∈ xs, LOk W M xs o.val x := fun x h => ⟨h, hM x, hW x h⟩
  have key : ∀ t k q b, Ok c W M xs (ks.map Prim.cstr) q → Keep c W M σ q → 0 ≤ b → b ≤ imax →
      ∃ n1, ∀ n, n1 ≤ n → loop c o std xs seeds .max x n t k q b = some .more := by
    intro t
    induction t with
    | zero => intro k q b _ _ _ _; exact ⟨0, fun n _ => rfl⟩
    | succ t ih =>
      intro k q b hq hkq h0 h1
      have hres : ∃ n1 ok q' P, (∀ n, n1 ≤ n → Dir.restrict .max c n q x b = some (ok, q')) ∧ OpOk c W M xs (ks.map Prim.cstr) q x P ok q' ∧ P (σ x) := by
        by_cases hb : b < imax
        · obtain ⟨n1, ok, q', r1, r2⟩ := restrict_ok hc .max hq hxs (hM x) (b := b) ⟨h0, hb⟩
          exact ⟨n1, ok, q', _, r1, r2, (by show b < (σ x : Int); omega)⟩
        · obtain ⟨n1, ok, q', r1, r2⟩ := dom_ok hc hq hxs imax imax (by omega)
          refine ⟨n1, ok, q', _, fun n hn => ?_, r2, by show imax ≤ (σ x : Int) ∧ (σ x : Int) ≤ imax; omega⟩
          have e0 : toValue imax = imax := by unfold toValue; rw [if_neg (by omega), if_neg (by omega)]
          have e1 : toValue (b + 1) = imax := by unfold toValue; rw [if_neg (by omega), if_pos (by omega)]
          show fdDomain c n q x (b + 1) imax = _
          unfold fdDomain
          rw [e0, e1, if_neg (by omega)]
          exact r1 n hn
      obtain ⟨n1, ok, q', P, r1, r2, hP⟩ := hres
      obtain ⟨n2, l, t', s1, s2⟩ := goal_ok hc hr hV std (seeds k) r2
      cases l with
      | nil =>
        obtain ⟨a, ha, _⟩ := s2.complete σ hkq hP
        cases ha
      | cons a l =>
        obtain ⟨a1, a2, a3, a4⟩ := s2.ok a (List.mem_cons_self ..)
        obtain ⟨e1, e2⟩ := read_eq .max a1 (a3 x hxs)
        have hle := Int.le_trans ((bounds_mem c _ (a1.ready.good x).1.wf (a1.ready.good x).1.ne).2.2 _ e2).2 (a1.ready.good x).2.2.1
        have := hM x
        obtain ⟨n3, u1⟩ := ih (k + 1) (restore q a) (Dir.read .max a x) (restore_ok hq a1.ready.notIn) (restore_keep.2 hkq) (by omega) (by omega)
        refine ⟨n1 + n2 + n3, fun n hn => ?_⟩
        unfold loop
        rw [r1 n (by omega), s1 n (by omega)]
        exact u1 n (by omega)
  exact fun t => key t 0 st 0 hO hkσ (by omega) (by omega)

/-- A variable in 268435450..268435455. -/
example : ∀ t, ∃ n1, ∀ n, n1 ≤ n →
    optimize exCfg (exOpt .min .firstFail) true [0] (fun k => k) .max 0 n t (start (fun _ => newInterval 268435450 268435455)) = some .more := by
  obtain ⟨n0, st, h1, h2⟩ := C50_maximize_diverges_violated exCfg exCfg_ok (fun _ => true) (fun _ => 268435455) (fun _ => by decide) (fun _ => newInterval 268435450 268435455)
    (fun _ => ⟨newInterval_ok exCfg (by decide) (by decide), rfl, (by decide : (268435455 : Int) ≤ 268435455), Or.inr ⟨rfl, rfl⟩⟩) [] (fun k h => by cases h) (fun x y z h => by cases h) [0]
    (fun k h => by cases h) (exOpt .min .firstFail) (fun _ _ h => Nat.mod_lt _ h) (fun x _ => Or.inr ⟨by decide, by decide⟩) true (fun k => k) 0 (by decide)
    (fun _ => 268435455) ⟨fun v => (by decide : (268435450 : Int) ≤ 268435455 ∧ (268435450 : Int) ≤ 268435455 ∧ (268435455 : Int) ≤ 268435455), fun k h => by cases h⟩ rfl
  have e := h1 n0 (Nat.le_refl _)
  have : st = start (fun _ => newInterval 268435450 268435455) := by
    simp only [List.map_nil, run] at e
    cases e; rfl
  rw [← this]; exact h2

end Gp.Optim
