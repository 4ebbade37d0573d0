import Verif.FdSymb.Lemmas
/- Lemmas on `fd_atmost/3`, `fd_atleast/3`, `fd_exactly/3`. -/
namespace Gp.FdSymb

open Gp.FdRange Gp.Fd

theorem countP_le {p q : Nat → Bool} : ∀ {xs : List Nat}, (∀ x ∈ xs, p x = true → q x = true) → xs.countP p ≤ xs.countP q
  | [], _ => by simp
  | x :: xs, h => by
    have ih := countP_le (xs := xs) (fun y hy => h y (by simp [hy]))
    have hx := h x (by simp)
    simp only [List.countP_cons]
    by_cases hp : p x = true
    · rw [if_pos hp, if_pos (hx hp)]; omega
    · rw [if_neg hp]; split <;> omega

theorem countP_lt {p q : Nat → Bool} : ∀ {xs : List Nat}, (∀ x ∈ xs, p x = true → q x = true) →
    (∃ x ∈ xs, p x = false ∧ q x = true) → xs.countP p < xs.countP q
  | [], _, h => by obtain ⟨_, h, _⟩ := h; cases h
  | x :: xs, h, ⟨y, hy, h1, h2⟩ => by
    have hle := countP_le (xs := xs) (fun y hy => h y (by simp [hy]))
    have hx := h x (by simp)
    simp only [List.countP_cons]
    rcases List.mem_cons.1 hy with rfl | hy
    · rw [if_neg (by simp [h1]), if_pos h2]; omega
    · have ih := countP_lt (xs := xs) (fun y hy => h y (by simp [hy])) ⟨y, hy, h1, h2⟩
      by_cases hp : p x = true
      · rw [if_pos hp, if_pos (hx hp)]; omega
      · rw [if_neg hp]; split <;> omega

theorem countP_one {p q : Nat → Bool} (x : Nat) : ∀ {xs : List Nat}, xs.Nodup → (∀ y ∈ xs, y ≠ x → p y = q y) →
    xs.countP q ≤ xs.countP p + 1
  | [], _, _ => by simp
  | y :: xs, hn, h => by
    obtain ⟨hy, hn⟩ := List.nodup_cons.1 hn
    simp only [List.countP_cons]
    by_cases e : y = x
    · subst e
      have : xs.countP q = xs.countP p := by
        refine Nat.le_antisymm (countP_le fun z hz => ?_) (countP_le fun z hz => ?_)
        · rw [h z (by simp [hz]) (fun e => hy (e ▸ hz))]; exact id
        · rw [h z (by simp [hz]) (fun e => hy (e ▸ hz))]; exact id
      split <;> split <;> omega
    · have ih := countP_one x hn (fun z hz => h z (by simp [hz]))
      rw [h y (by simp) e]
      omega

/-- Between the least and the greatest number any number of choices can be made. -/
theorem choose {lo hi : Nat → Bool} : ∀ {xs : List Nat} {k : Nat}, xs.Nodup → (∀ y ∈ xs, lo y = true → hi y = true) → xs.countP lo ≤ k →
    k ≤ xs.countP hi → ∃ ch : Nat → Bool, (∀ y ∈ xs, (lo y = true → ch y = true) ∧ (ch y = true → hi y = true)) ∧ xs.countP ch = k
  | [], k, _, _, _, h2 => ⟨fun _ => false, by simp, by simp at h2; simp [h2]⟩
  | x :: xs, k, hn, h, h1, h2 => by
    obtain ⟨hx, hn⟩ := List.nodup_cons.1 hn
    have hlh := h x (by simp)
    have hrest : ∀ y ∈ xs, lo y = true → hi y = true := fun y hy => h y (by simp [hy])
    have hle := countP_le hrest
    simp only [List.countP_cons] at h1 h2
    have go : ∀ (b : Bool) (k' : Nat), k = k' + (if b then 1 else 0) → (lo x = true → b = true) → (b = true → hi x = true) →
        xs.countP lo ≤ k' → k' ≤ xs.countP hi →
        ∃ ch : Nat → Bool, (∀ y ∈ x :: xs, (lo y = true → ch y = true) ∧ (ch y = true → hi y = true)) ∧ (x :: xs).countP ch = k := by
      intro b k' e b1 b2 k1 k2
      obtain ⟨ch, c1, c2⟩ := choose hn hrest k1 k2
      refine ⟨fun y => if y = x then b else ch y, fun y hy => ?_, ?_⟩
      · by_cases ey : y = x
        · subst ey; simp only [if_true]; exact ⟨b1, b2⟩
        · simp only [if_neg ey]
          exact c1 y ((List.mem_cons.1 hy).resolve_left ey)
      · simp only [List.countP_cons, if_true]
        have : xs.countP (fun y => if y = x then b else ch y) = xs.countP ch :=
          List.countP_congr fun y hy => by
            have ne : y ≠ x := fun e' => hx (e' ▸ hy)
            simp only [if_neg ne]
        rw [this, c2, e]
    by_cases hl : lo x = true
    · rw [if_pos hl] at h1
      rw [if_pos (hlh hl)] at h2
      exact go true (k - 1) (by simp; omega) (fun _ => rfl) (fun _ => hlh hl) (by omega) (by omega)
    · rw [if_neg hl] at h1
      by_cases hh : hi x = true
      · rw [if_pos hh] at h2
        by_cases hk : k ≤ xs.countP hi
        · exact go false k (by simp) (fun h => absurd h hl) (fun h => by cases h) (by omega) hk
        · exact go true (k - 1) (by simp; omega) (fun _ => rfl) (fun _ => hh) (by omega) (by omega)
      · rw [if_neg hh] at h2
        exact go false k (by simp) (fun h => absurd h hl) (fun h => by cases h) (by omega) (by omega)

/-- The number of variables whose value is `v`. -/
def count (xs : List Nat) (v : Int) (σ : Nat → Nat) : Nat := xs.countP (fun x => decide ((σ x : Int) = v))

/-- The values are in the domains. -/
def In (s : Store) (xs : List Nat) (σ : Nat → Nat) : Prop := ∀ x ∈ xs, Mem (s x).r (σ x)

/-- Values with `k` of them equal to `v`. -/
theorem pick {D : Nat → Nat → Prop} {lo hi : Nat → Bool} {xs : List Nat} {v : Int} {k : Nat} (hn : xs.Nodup)
    (hlh : ∀ y ∈ xs, lo y = true → hi y = true) (hhi : ∀ y ∈ xs, hi y = true → ∃ w : Nat, D y w ∧ (w : Int) = v)
    (hlo : ∀ y ∈ xs, lo y = false → ∃ w : Nat, D y w ∧ (w : Int) ≠ v) (h1 : xs.countP lo ≤ k) (h2 : k ≤ xs.countP hi) :
    ∃ σ : Nat → Nat, (∀ y ∈ xs, D y (σ y)) ∧ count xs v σ = k := by
  obtain ⟨ch, c1, c2⟩ := choose hn hlh h1 h2
  have key : ∀ y, ∃ w : Nat, y ∈ xs → D y w ∧ (ch y = true ↔ (w : Int) = v) := fun y => by
    by_cases hy : y ∈ xs
    · cases hc : ch y with
      | true =>
        obtain ⟨w, a, b⟩ := hhi y hy ((c1 y hy).2 hc)
        exact ⟨w, fun _ => ⟨a, by simp [b]⟩⟩
      | false =>
        obtain ⟨w, a, b⟩ := hlo y hy (by
          cases hl : lo y with
          | false => rfl
          | true => rw [(c1 y hy).1 hl] at hc; cases hc)
        exact ⟨w, fun _ => ⟨a, by simp [b]⟩⟩
    · exact ⟨0, fun h => absurd h hy⟩
  obtain ⟨σ, hσ⟩ := Classical.axiomOfChoice key
  refine ⟨σ, fun y hy => (hσ y hy).1, ?_⟩
  rw [← c2, count]
  exact List.countP_congr fun y hy => by simp only [decide_eq_true_eq]; exact (hσ y hy).2.symm

theorem tag_mem {c : Cfg} {x : Fdv} (hx : VarOk c x) {v : Int} (h : x.tag = some v) (m : Int) : Mem x.r m ↔ m = v := by
  obtain ⟨a, b, d⟩ := hx.int v h
  rw [mem_none a]; omega

theorem mem_nat {c : Cfg} {x : Fdv} (hx : VarOk c x) {m : Int} (h : Mem x.r m) : ∃ w : Nat, m = w := by
  have := (bounds_mem c _ hx.wf hx.ne).2.2 m h
  have := hx.nonneg
  exact ⟨m.toNat, (Int.toNat_of_nonneg (by omega)).symm⟩

theorem some_mem {c : Cfg} {x : Fdv} (hx : VarOk c x) : ∃ w : Nat, Mem x.r w := by
  have hb := (bounds_mem c _ hx.wf hx.ne).1
  obtain ⟨w, e⟩ := mem_nat hx hb
  exact ⟨w, e ▸ hb⟩

/-- A variable which is not `v` has another value. -/
theorem other_mem {c : Cfg} {x : Fdv} (hx : VarOk c x) {v : Int} (h : x.tag ≠ some v) : ∃ w : Nat, Mem x.r w ∧ (w : Int) ≠ v := by
  have hb := bounds_mem c _ hx.wf hx.ne
  cases ht : x.tag with
  | some n =>
    obtain ⟨w, e⟩ := mem_nat hx hb.1
    refine ⟨w, e ▸ hb.1, fun e' => h ?_⟩
    have := (tag_mem hx ht _).1 hb.1
    rw [ht]; congr 1; omega
  | none =>
    have hlt := hx.fdv ht
    by_cases e : x.r.min = v
    · obtain ⟨w, e'⟩ := mem_nat hx hb.2.1
      exact ⟨w, e' ▸ hb.2.1, by omega⟩
    · obtain ⟨w, e'⟩ := mem_nat hx hb.1
      exact ⟨w, e' ▸ hb.1, by omega⟩

theorem tell_value (c : Cfg) (hc : c.Ok) {x : Fdv} (hx : VarOk c x) {v : Int} (hv : Mem x.r v) :
    (tell c x (.value v)).ok = true ∧ VarOk c (tell c x (.value v)).v ∧ ∀ m, Mem (tell c x (.value v)).v.r m ↔ m = v := by
  have hT : VRepr c x (fun n => Mem x.r n) := ⟨fun _ h => h, fun _ h => Or.inl h⟩
  have told := C25_told c hc x _ (fun _ => True) (.value v) hx hT trivial
  have htest := (testValue_mem c x.r hx.wf v).2 hv
  have hok : (tell c x (.value v)).ok = true := by
    unfold tell tellValue
    dsimp only
    rw [htest]
    simp only [Bool.true_eq_false, if_false]
    split <;> rfl
  refine ⟨hok, told.ok hok, fun m => ?_⟩
  unfold tell tellValue
  dsimp only
  rw [htest]
  simp only [Bool.true_eq_false, if_false]
  by_cases hg : x.ground = true
  · rw [if_pos hg]
    rw [ground_mem hx hg] at hv
    dsimp only
    rw [ground_mem hx hg, hv]
  · rw [if_neg hg]
    dsimp only [setInt]
    rw [mem_none rfl]
    dsimp only
    omega

/-- Removing a value from a variable which is not instantiated. -/
theorem tell_not (c : Cfg) (hc : c.Ok) {x : Fdv} (hx : VarOk c x) (hs : Small c x) (ht : x.tag = none) (v : Int) :
    (tell c x (.notValue v)).ok = true ∧ VarOk c (tell c x (.notValue v)).v ∧ Small c (tell c x (.notValue v)).v ∧
      ∀ m : Nat, Mem (tell c x (.notValue v)).v.r m ↔ Mem x.r m ∧ (m : Int) ≠ v := by
  obtain ⟨e1, e2, _⟩ := C25_exact c hc x (fun _ => True) (.notValue v) hx hs trivial (fun r h => by cases h)
  have hok : (tell c x (.notValue v)).ok = true := by
    cases h : (tell c x (.notValue v)).ok with
    | true => rfl
    | false =>
      obtain ⟨w, a, b⟩ := other_mem (v := v) hx (by rw [ht]; simp)
      exact absurd ⟨a, b⟩ (e1.1 h w)
  exact ⟨hok, e2 hok⟩

theorem ground_none (x : Fdv) : x.ground = false ↔ x.tag = none := by
  unfold Fdv.ground; cases x.tag <;> simp

theorem upd_same {α : Type} (f : Nat → α) (x : Nat) (y : α) : upd f x y x = y := by simp [upd]

theorem upd_other {α : Type} (f : Nat → α) {x z : Nat} (y : α) (h : z ≠ x) : upd f x y z = f z := by simp [upd, h]

theorem notAll_res (c : Cfg) (hc : c.Ok) (v : Int) : ∀ (xs : List Nat) (s : Store), (∀ x ∈ xs, VarOk c (s x) ∧ Small c (s x)) →
    ∃ s', notAll c v xs s = some s' ∧ (∀ x ∈ xs, VarOk c (s' x) ∧ Small c (s' x)) ∧ (∀ x, x ∉ xs → s' x = s x) ∧
      ∀ x ∈ xs, ∀ m : Nat, Mem (s' x).r m ↔ Mem (s x).r m ∧ ((s x).tag = none → (m : Int) ≠ v)
  | [], s, _ => ⟨s, rfl, by simp, fun _ _ => rfl, by simp⟩
  | x :: xs, s, h => by
    have hx := h x (by simp)
    unfold notAll
    cases hg : (s x).ground with
    | true =>
      obtain ⟨s', e, a1, a2, a3⟩ := notAll_res c hc v xs s (fun y hy => h y (by simp [hy]))
      have ht : (s x).tag ≠ none := fun h => by rw [(ground_none _).2 h] at hg; cases hg
      simp only [if_true]
      have hxx : x ∉ xs → s' x = s x := a2 x
      refine ⟨s', e, fun y hy => ?_, fun y hy => a2 y (fun hh => hy (by simp [hh])), fun y hy m => ?_⟩
      · by_cases hm : y ∈ xs
        · exact a1 y hm
        · rw [a2 y hm]; exact h y hy
      · by_cases hm : y ∈ xs
        · exact a3 y hm m
        · have ey : y = x := (List.mem_cons.1 hy).resolve_right hm
          subst ey
          rw [a2 y hm]
          simp [ht]
    | false =>
      have ht := (ground_none _).1 hg
      obtain ⟨t1, t2, t3, t4⟩ := tell_not c hc hx.1 hx.2 ht v
      simp only [Bool.false_eq_true, if_false, t1, if_true]
      generalize (tell c (s x) (.notValue v)).v = v' at *
      obtain ⟨s', e, a1, a2, a3⟩ := notAll_res c hc v xs (upd s x v') (fun y hy => by
        by_cases ey : y = x
        · subst ey; rw [upd_same]; exact ⟨t2, t3⟩
        · rw [upd_other _ _ ey]; exact h y (by simp [hy]))
      refine ⟨s', e, fun y hy => ?_, fun y hy => ?_, fun y hy m => ?_⟩
      · by_cases hm : y ∈ xs
        · exact a1 y hm
        · have ey : y = x := (List.mem_cons.1 hy).resolve_right hm
          subst ey
          rw [a2 y hm, upd_same]; exact ⟨t2, t3⟩
      · rw [a2 y (fun hh => hy (by simp [hh])), upd_other _ _ (fun e => hy (by simp [e]))]
      · by_cases ey : y = x
        · subst ey
          by_cases hm : y ∈ xs
          · rw [a3 y hm m, upd_same, t4]
            simp only [ht, true_implies]
            exact ⟨fun h => h.1, fun h => ⟨h, fun _ => h.2⟩⟩
          · rw [a2 y hm, upd_same, t4]
            simp [ht]
        · have hm := (List.mem_cons.1 hy).resolve_left ey
          rw [a3 y hm m, upd_other _ _ ey]

theorem valAll_res (c : Cfg) (hc : c.Ok) (v : Int) : ∀ (xs : List Nat) (s : Store), (∀ x ∈ xs, VarOk c (s x)) →
    ∃ s', valAll c v xs s = some s' ∧ (∀ x ∈ xs, VarOk c (s' x)) ∧ (∀ x, x ∉ xs → s' x = s x) ∧
      ∀ x ∈ xs, ∀ m : Nat, Mem (s' x).r m ↔ Mem (s x).r m ∧ (Mem (s x).r v → (m : Int) = v)
  | [], s, _ => ⟨s, rfl, by simp, fun _ _ => rfl, by simp⟩
  | x :: xs, s, h => by
    have hx := h x (by simp)
    unfold valAll
    by_cases ht : testValue (s x).r v = true
    · rw [if_pos ht]
      have hm := (testValue_mem c _ hx.wf v).1 ht
      obtain ⟨t1, t2, t3⟩ := tell_value c hc hx hm
      rw [if_pos t1]
      generalize (tell c (s x) (.value v)).v = v' at *
      obtain ⟨s', e, a1, a2, a3⟩ := valAll_res c hc v xs (upd s x v') (fun y hy => by
        by_cases ey : y = x
        · subst ey; rw [upd_same]; exact t2
        · rw [upd_other _ _ ey]; exact h y (by simp [hy]))
      refine ⟨s', e, fun y hy => ?_, fun y hy => ?_, fun y hy m => ?_⟩
      · by_cases hm' : y ∈ xs
        · exact a1 y hm'
        · have ey : y = x := (List.mem_cons.1 hy).resolve_right hm'
          subst ey
          rw [a2 y hm', upd_same]; exact t2
      · rw [a2 y (fun hh => hy (by simp [hh])), upd_other _ _ (fun e => hy (by simp [e]))]
      · by_cases ey : y = x
        · subst ey
          have fin : (m : Int) = v ↔ Mem (s y).r m ∧ (Mem (s y).r v → (m : Int) = v) :=
            ⟨fun e => ⟨e ▸ hm, fun _ => e⟩, fun h => h.2 hm⟩
          by_cases hm' : y ∈ xs
          · rw [a3 y hm' m, upd_same, t3, t3, ← fin]
            simp
          · rw [a2 y hm', upd_same, t3, ← fin]
        · have hm := (List.mem_cons.1 hy).resolve_left ey
          rw [a3 y hm m, upd_other _ _ ey]
    · rw [if_neg ht]
      have hnm : ¬ Mem (s x).r v := fun h => ht ((testValue_mem c _ hx.wf v).2 h)
      obtain ⟨s', e, a1, a2, a3⟩ := valAll_res c hc v xs s (fun y hy => h y (by simp [hy]))
      refine ⟨s', e, fun y hy => ?_, fun y hy => a2 y (fun hh => hy (by simp [hh])), fun y hy m => ?_⟩
      · by_cases hm : y ∈ xs
        · exact a1 y hm
        · rw [a2 y hm]; exact h y hy
      · by_cases hm : y ∈ xs
        · exact a3 y hm m
        · have ey : y = x := (List.mem_cons.1 hy).resolve_right hm
          subst ey
          rw [a2 y hm]
          simp [hnm]

/-! The numbers computed -/

/-- The variable is `v`. -/
def lo (s : Store) (v : Int) (x : Nat) : Bool := decide ((s x).tag = some v)

/-- The variable can be `v`. -/
def hi (s : Store) (v : Int) (x : Nat) : Bool := testValue (s x).r v

theorem countP_not (p : Nat → Bool) (xs : List Nat) : (xs.length : Int) - (xs.countP (fun x => !p x) : Nat) = (xs.countP p : Nat) := by
  have := List.length_eq_countP_add_countP (l := xs) p
  have e : xs.countP (fun x => decide ¬p x = true) = xs.countP (fun x => !p x) := List.countP_congr fun x _ => by simp
  omega

theorem nbCan_eq (s : Store) (v : Int) (xs : List Nat) : nbCan s v xs = (xs.countP (hi s v) : Nat) := countP_not _ xs

theorem lo_hi {c : Cfg} {s : Store} {v : Int} {xs : List Nat} (h : ∀ x ∈ xs, VarOk c (s x)) : ∀ x ∈ xs, lo s v x = true → hi s v x = true := by
  intro x hx hl
  exact (testValue_mem c _ (h x hx).wf v).2 ((tag_mem (h x hx) (of_decide_eq_true hl) v).2 rfl)

theorem nbCan'_eq {c : Cfg} {s : Store} {v : Int} {xs : List Nat} (h : ∀ x ∈ xs, VarOk c (s x)) :
    nbCan' s v xs = (xs.countP (hi s v) : Nat) := by
  rw [← countP_not (hi s v) xs]
  unfold nbCan'
  congr 2
  refine List.countP_congr fun x hx => ?_
  have := lo_hi h x hx (v := v)
  unfold lo hi at *
  cases h1 : decide ((s x).tag = some v) <;> cases h2 : testValue (s x).r v <;> simp_all

theorem lo_count {c : Cfg} {s : Store} {v : Int} {xs : List Nat} (h : ∀ x ∈ xs, VarOk c (s x)) {σ : Nat → Nat} (hσ : In s xs σ) :
    ∀ x ∈ xs, lo s v x = true → decide ((σ x : Int) = v) = true := by
  intro x hx hl
  exact decide_eq_true ((tag_mem (h x hx) (of_decide_eq_true hl) _).1 (hσ x hx))

theorem count_hi {c : Cfg} {s : Store} {v : Int} {xs : List Nat} (h : ∀ x ∈ xs, VarOk c (s x)) {σ : Nat → Nat} (hσ : In s xs σ) :
    ∀ x ∈ xs, decide ((σ x : Int) = v) = true → hi s v x = true := by
  intro x hx hl
  have e := of_decide_eq_true hl
  exact (testValue_mem c _ (h x hx).wf v).2 (e ▸ hσ x hx)

theorem in_some {c : Cfg} {s : Store} {xs : List Nat} (h : ∀ x ∈ xs, VarOk c (s x)) : ∃ σ, In s xs σ := by
  have key : ∀ y, ∃ w : Nat, y ∈ xs → Mem (s y).r w := fun y => by
    by_cases hy : y ∈ xs
    · obtain ⟨w, hw⟩ := some_mem (h y hy); exact ⟨w, fun _ => hw⟩
    · exact ⟨0, fun h => absurd h hy⟩
  obtain ⟨σ, hσ⟩ := Classical.axiomOfChoice key
  exact ⟨σ, hσ⟩

theorem in_at {c : Cfg} {s : Store} {xs : List Nat} (h : ∀ x ∈ xs, VarOk c (s x)) {x m : Nat} (hm : Mem (s x).r m) :
    ∃ σ, In s xs σ ∧ σ x = m := by
  obtain ⟨σ, hσ⟩ := in_some h
  refine ⟨fun y => if y = x then m else σ y, fun y hy => ?_, by simp⟩
  by_cases e : y = x
  · subst e; simpa using hm
  · simpa [e] using hσ y hy

/-- With the value `m` for `x`, any number between the bounds. -/
theorem pick_at {c : Cfg} {s : Store} {xs : List Nat} {v : Int} (h : ∀ x ∈ xs, VarOk c (s x)) (hn : xs.Nodup) {x m : Nat}
    (hm : Mem (s x).r m) (hx : x ∈ xs) (k : Nat)
    (h1 : xs.countP (fun y => if y = x then decide ((m : Int) = v) else lo s v y) ≤ k)
    (h2 : k ≤ xs.countP (fun y => if y = x then decide ((m : Int) = v) else hi s v y)) :
    ∃ σ, In s xs σ ∧ σ x = m ∧ count xs v σ = k := by
  obtain ⟨σ, a, b⟩ := pick (D := fun y w => if y = x then w = m else Mem (s y).r w) hn
    (lo := fun y => if y = x then decide ((m : Int) = v) else lo s v y) (hi := fun y => if y = x then decide ((m : Int) = v) else hi s v y)
    (v := v)
    (fun y hy => by
      by_cases e : y = x
      · simp [e]
      · simpa [e] using lo_hi h y hy)
    (fun y hy => by
      by_cases e : y = x
      · simp [e]
      · simp only [e, if_false]
        intro hh
        have hv := (testValue_mem c _ (h y hy).wf v).1 hh
        obtain ⟨w, e'⟩ := mem_nat (h y hy) hv
        exact ⟨w, e' ▸ hv, e'.symm⟩)
    (fun y hy => by
      by_cases e : y = x
      · simp [e]
      · simp only [e, if_false]
        intro hh
        exact other_mem (h y hy) (of_decide_eq_false hh))
    h1 h2
  refine ⟨σ, fun y hy => ?_, by simpa using a x hx, b⟩
  have := a y hy
  by_cases e : y = x
  · subst e; simp only [if_true] at this; rw [this]; exact hm
  · simpa [e] using this

/-- Any number between the bounds. -/
theorem pick_any {c : Cfg} {s : Store} {xs : List Nat} {v : Int} (h : ∀ x ∈ xs, VarOk c (s x)) (hn : xs.Nodup) (k : Nat)
    (h1 : xs.countP (lo s v) ≤ k) (h2 : k ≤ xs.countP (hi s v)) : ∃ σ, In s xs σ ∧ count xs v σ = k :=
  pick (D := fun y w => Mem (s y).r w) hn (lo_hi h)
    (fun y hy hh => by
      have hv := (testValue_mem c _ (h y hy).wf v).1 hh
      obtain ⟨w, e'⟩ := mem_nat (h y hy) hv
      exact ⟨w, e' ▸ hv, e'.symm⟩)
    (fun y hy hh => other_mem (h y hy) (of_decide_eq_false hh)) h1 h2

end Gp.FdSymb
