import Verif.Atom.Model
namespace Gp.Atom

variable {P : Par}

/-- The `i`-th cell tried from `p`. -/
def cell (N p i : Nat) : Nat := (p + i) % N

theorem cell_lt {N p i : Nat} (h : 0 < N) : cell N p i < N := Nat.mod_lt _ h

theorem cell_zero {N p : Nat} (h : p < N) : cell N p 0 = p := Nat.mod_eq_of_lt h

theorem cell_next {N p i : Nat} (hN : 0 < N) :
    (if cell N p i + 1 = N then 0 else cell N p i + 1) = cell N p (i + 1) := by
  unfold cell
  have h1 : (p + i) % N < N := Nat.mod_lt _ hN
  have h2 : (p + (i + 1)) % N = ((p + i) % N + 1) % N := by
    rw [← Nat.add_assoc, Nat.add_mod (p + i) 1, Nat.add_mod ((p + i) % N) 1, Nat.mod_mod]
  rw [h2]
  by_cases h : (p + i) % N + 1 = N
  · rw [if_pos h, h, Nat.mod_self]
  · rw [if_neg h, Nat.mod_eq_of_lt (a := (p + i) % N + 1) (by omega)]

theorem cell_inj {N p i j : Nat} (hi : i < N) (hj : j < N) (h : cell N p i = cell N p j) : i = j := by
  unfold cell at h
  have e1 := Nat.div_add_mod (p + i) N
  have e2 := Nat.div_add_mod (p + j) N
  rw [h] at e1
  rcases Nat.lt_trichotomy ((p + i) / N) ((p + j) / N) with hd | hd | hd
  · have := Nat.mul_le_mul_left N hd
    rw [Nat.mul_succ] at this
    omega
  · rw [hd] at e1; omega
  · have := Nat.mul_le_mul_left N hd
    rw [Nat.mul_succ] at this
    omega

theorem cell_surj {N p s : Nat} (hp : p < N) (hs : s < N) : ∃ i, i < N ∧ cell N p i = s := by
  unfold cell
  by_cases h : p ≤ s
  · exact ⟨s - p, by omega, by rw [show p + (s - p) = s by omega]; exact Nat.mod_eq_of_lt hs⟩
  · refine ⟨s + N - p, by omega, ?_⟩
    rw [show p + (s + N - p) = s + N by omega, Nat.add_mod_right]
    exact Nat.mod_eq_of_lt hs

/-- The search stops at a cell. -/
def Stop (t : Nat → Option Inf) (name : Name) (hash p : Nat) : Prop :=
  t p = none ∨ ∃ a, t p = some a ∧ a.hash = hash ∧ a.name = name

theorem probe_spec {t : Nat → Option Inf} {name : Name} {hash p0 : Nat} (hN : 0 < P.max) (hp : p0 < P.max) :
    ∀ fuel i, fuel + i = P.max → 0 < fuel → (∀ j, j < i → ¬ Stop t name hash (cell P.max p0 j)) →
    (∃ k, k < P.max ∧ probe P t name hash p0 (cell P.max p0 i) fuel = some (some (cell P.max p0 k)) ∧
      Stop t name hash (cell P.max p0 k) ∧ ∀ j, j < k → ¬ Stop t name hash (cell P.max p0 j)) ∨
    (probe P t name hash p0 (cell P.max p0 i) fuel = some none ∧ ∀ j, j < P.max → ¬ Stop t name hash (cell P.max p0 j)) := by
  intro fuel
  induction fuel with
  | zero => intro i _ h; omega
  | succ fuel ih =>
    intro i hfi _ hmin
    rw [probe]
    cases ht : t (cell P.max p0 i) with
    | none => exact .inl ⟨i, by omega, rfl, .inl ht, hmin⟩
    | some a =>
      simp only
      by_cases hc : a.hash ≠ hash ∨ a.name ≠ name
      · rw [if_pos hc]
        have hns : ¬ Stop t name hash (cell P.max p0 i) := by
          rintro (h | ⟨a', h, h1, h2⟩)
          · rw [ht] at h; simp at h
          · rw [ht] at h
            simp only [Option.some.injEq] at h
            subst h
            rcases hc with hc | hc
            · exact hc h1
            · exact hc h2
        have hmin' : ∀ j, j < i + 1 → ¬ Stop t name hash (cell P.max p0 j) := by
          intro j hj
          by_cases hji : j = i
          · rw [hji]; exact hns
          · exact hmin j (by omega)
        rw [cell_next hN]
        by_cases h0 : cell P.max p0 (i + 1) = p0
        · rw [if_pos h0]
          refine .inr ⟨rfl, ?_⟩
          -- i + 1 = max
          have hi : i + 1 = P.max := by
            refine Classical.byContradiction fun hne => ?_
            have := cell_inj (N := P.max) (p := p0) (i := i + 1) (j := 0) (by omega) (by omega) (by rw [cell_zero hp]; exact h0)
            omega
          intro j hj
          exact hmin' j (by omega)
        · rw [if_neg h0]
          have hi : i + 1 ≠ P.max := by
            intro hi
            apply h0
            unfold cell
            rw [hi, Nat.add_mod_right]
            exact Nat.mod_eq_of_lt hp
          exact ih (i + 1) (by omega) (by omega) hmin'
      · rw [if_neg hc]
        have h1 : a.hash = hash := Classical.byContradiction fun h => hc (.inl h)
        have h2 : a.name = name := Classical.byContradiction fun h => hc (.inr h)
        exact .inl ⟨i, by omega, rfl, .inr ⟨a, ht, h1, h2⟩, hmin⟩

/-- The first cell of a name. -/
def home (P : Par) (name : Name) : Nat := hashString P name % P.max

/-- `locate` ends, at the first cell where the search stops, or with NULL if there is none. -/
theorem locate_spec (hN : 0 < P.max) (s : St) (name : Name) :
    (∃ k, k < P.max ∧ locate P s name (hashString P name) = some (some (cell P.max (home P name) k)) ∧
      Stop s.tbl name (hashString P name) (cell P.max (home P name) k) ∧
      ∀ j, j < k → ¬ Stop s.tbl name (hashString P name) (cell P.max (home P name) j)) ∨
    (locate P s name (hashString P name) = some none ∧
      ∀ j, j < P.max → ¬ Stop s.tbl name (hashString P name) (cell P.max (home P name) j)) := by
  have hp : home P name < P.max := Nat.mod_lt _ hN
  have := probe_spec (t := s.tbl) (name := name) (hash := hashString P name) hN hp P.max 0 (by omega) hN (by intro j hj; omega)
  rw [cell_zero hp] at this
  exact this

/-- The number of cells used. -/
def used (P : Par) (t : Nat → Option Inf) : Nat := (List.range P.max).countP (fun s => (t s).isSome)

/-- The invariant of the table. -/
structure Inv (P : Par) (s : St) : Prop where
  pos : 0 < P.max
  reach : ∀ p a, s.tbl p = some a → a.hash = hashString P a.name ∧ a.length = a.name.length % 65536 ∧
    ∃ i, i < P.max ∧ p = cell P.max (home P a.name) i ∧
    ∀ j, j < i → ¬ Stop s.tbl a.name (hashString P a.name) (cell P.max (home P a.name) j)
  nb : s.nb = used P s.tbl

theorem Inv.lt {s : St} (hi : Inv P s) {p : Nat} {a : Inf} (h : s.tbl p = some a) : p < P.max := by
  obtain ⟨_, _, i, _, rfl, _⟩ := hi.reach p a h
  exact cell_lt hi.pos

theorem Inv.unique {s : St} (hi : Inv P s) {p q : Nat} {a b : Inf} (hp : s.tbl p = some a) (hq : s.tbl q = some b)
    (h : a.name = b.name) : p = q := by
  obtain ⟨ha, _, i, hi1, hi2, hi3⟩ := hi.reach p a hp
  obtain ⟨hb, _, j, hj1, hj2, hj3⟩ := hi.reach q b hq
  rw [← h] at hb hj2 hj3
  rcases Nat.lt_trichotomy i j with hij | hij | hij
  · exact absurd (.inr ⟨a, by rw [← hi2]; exact hp, ha, rfl⟩) (hj3 i hij)
  · rw [hi2, hj2, hij]
  · exact absurd (.inr ⟨b, by rw [← hj2]; exact hq, hb, h.symm⟩) (hi3 j hij)

theorem used_lt_of_free {t : Nat → Option Inf} {p : Nat} (hp : p < P.max) (h : t p = none) : used P t < P.max := by
  unfold used
  have hle := List.countP_le_length (l := List.range P.max) (p := fun s => (t s).isSome)
  rw [List.length_range] at hle
  refine Nat.lt_of_le_of_ne hle fun he => ?_
  have := List.countP_eq_length.1 (he.trans List.length_range.symm) p (List.mem_range.2 hp)
  rw [h] at this
  simp at this

theorem full_of_no_free {t : Nat → Option Inf} (h : ∀ p, p < P.max → t p ≠ none) : used P t = P.max := by
  unfold used
  rw [List.countP_eq_length.2, List.length_range]
  intro p hp
  rw [List.mem_range] at hp
  cases ht : t p with
  | none => exact absurd ht (h p hp)
  | some _ => rfl

theorem used_add {t : Nat → Option Inf} {p : Nat} {a : Inf} (hp : p < P.max) (h : t p = none) :
    used P (fun x => if x = p then some a else t x) = used P t + 1 := by
  unfold used
  have : ∀ l : List Nat, l.Nodup → l.countP (fun s => (if s = p then some a else t s).isSome) =
      l.countP (fun s => (t s).isSome) + (if p ∈ l then 1 else 0) := by
    intro l hnd
    induction l with
    | nil => simp
    | cons x l ih =>
      rw [List.nodup_cons] at hnd
      have := ih hnd.2
      rw [List.countP_cons, List.countP_cons, this]
      by_cases hx : x = p
      · subst hx
        rw [if_neg hnd.1]
        simp [h]
      · have hm : (p ∈ x :: l) ↔ p ∈ l := by
          rw [List.mem_cons]
          exact ⟨fun h => h.resolve_left (fun h => hx h.symm), .inr⟩
        simp only [hm, if_neg hx]
        omega
  rw [this _ List.nodup_range, if_pos (List.mem_range.2 hp)]

/-- The three cases of a search. -/
theorem locate_cases {s : St} (hi : Inv P s) (name : Name) :
    (∃ p a, locate P s name (hashString P name) = some (some p) ∧ s.tbl p = some a ∧ a.name = name) ∨
    (∃ k, k < P.max ∧ locate P s name (hashString P name) = some (some (cell P.max (home P name) k)) ∧
      s.tbl (cell P.max (home P name) k) = none ∧ (∀ p a, s.tbl p = some a → a.name ≠ name) ∧
      ∀ j, j < k → ¬ Stop s.tbl name (hashString P name) (cell P.max (home P name) j)) ∨
    (locate P s name (hashString P name) = some none ∧ (∀ p a, s.tbl p = some a → a.name ≠ name) ∧ s.nb = P.max) := by
  rcases locate_spec hi.pos s name with ⟨k, hk, h1, h2, h3⟩ | ⟨h1, h2⟩
  · rcases h2 with h2 | ⟨a, h2, _, h4⟩
    · refine .inr (.inl ⟨k, hk, h1, h2, ?_, h3⟩)
      rintro p a hp rfl
      obtain ⟨ha, _, i, hi1, hi2, hi3⟩ := hi.reach p a hp
      rcases Nat.lt_trichotomy i k with hik | hik | hik
      · exact h3 i hik (.inr ⟨a, by rw [← hi2]; exact hp, ha, rfl⟩)
      · rw [← hik, ← hi2, hp] at h2; simp at h2
      · exact hi3 k hik (.inl h2)
    · exact .inl ⟨_, a, h1, h2, h4⟩
  · refine .inr (.inr ⟨h1, ?_, ?_⟩)
    · rintro p a hp rfl
      obtain ⟨ha, _, i, hi1, hi2, hi3⟩ := hi.reach p a hp
      exact h2 i hi1 (.inr ⟨a, by rw [← hi2]; exact hp, ha, rfl⟩)
    · rw [hi.nb]
      refine full_of_no_free fun p hp h => ?_
      obtain ⟨i, hi1, rfl⟩ := cell_surj (Nat.mod_lt (hashString P name) hi.pos) hp
      exact h2 i hi1 (.inl h)

theorem inv_empty (hN : 0 < P.max) : Inv P empty := by
  refine ⟨hN, fun p a h => by simp [empty] at h, ?_⟩
  unfold used empty
  rw [List.countP_eq_zero.2]
  simp

theorem inv_add {s : St} (hi : Inv P s) {name : Name} {k : Nat} (hk : k < P.max)
    (hf : s.tbl (cell P.max (home P name) k) = none) (hno : ∀ p a, s.tbl p = some a → a.name ≠ name)
    (hmin : ∀ j, j < k → ¬ Stop s.tbl name (hashString P name) (cell P.max (home P name) j)) :
    Inv P { tbl := fun x => if x = cell P.max (home P name) k then some ⟨name, hashString P name, name.length % 65536⟩
              else s.tbl x, nb := s.nb + 1 } := by
  refine ⟨hi.pos, ?_, ?_⟩
  · intro p a h
    simp only at h
    by_cases hp : p = cell P.max (home P name) k
    · rw [if_pos hp] at h
      simp only [Option.some.injEq] at h
      subst h
      refine ⟨rfl, rfl, k, hk, hp, fun j hj hst => ?_⟩
      have hne : cell P.max (home P name) j ≠ cell P.max (home P name) k := fun he => by
        have := cell_inj (by omega) hk he
        omega
      unfold Stop at hst
      simp only [if_neg hne] at hst
      exact hmin j hj hst
    · rw [if_neg hp] at h
      obtain ⟨ha, hl, i, hi1, hi2, hi3⟩ := hi.reach p a h
      refine ⟨ha, hl, i, hi1, hi2, fun j hj hst => ?_⟩
      unfold Stop at hst
      by_cases he : cell P.max (home P a.name) j = cell P.max (home P name) k
      · simp only [if_pos he] at hst
        rcases hst with h1 | ⟨b, h1, _, h3⟩
        · simp at h1
        · simp only [Option.some.injEq] at h1
          subst h1
          exact hno p a h h3.symm
      · simp only [if_neg he] at hst
        exact hi3 j hj hst
  · simp only
    rw [used_add (cell_lt hi.pos) hf, hi.nb]

/-- `create`. -/
theorem create_spec {s : St} (hi : Inv P s) (name : Name) :
    (∃ p a, create P s name = .ok (p, s) ∧ s.tbl p = some a ∧ a.name = name) ∨
    (∃ p s', create P s name = .ok (p, s') ∧ (∀ q a, s.tbl q = some a → a.name ≠ name) ∧ s.tbl p = none ∧ Inv P s' ∧
      s'.tbl = fun x => if x = p then some ⟨name, hashString P name, name.length % 65536⟩ else s.tbl x) ∨
    (create P s name = .full ∧ (∀ q a, s.tbl q = some a → a.name ≠ name) ∧ s.nb = P.max) := by
  unfold create
  rcases locate_cases hi name with ⟨p, a, h1, h2, h3⟩ | ⟨k, hk, h1, h2, h3, h4⟩ | ⟨h1, h2, h3⟩
  · exact .inl ⟨p, a, by simp only [h1, addAtom, h2], h2, h3⟩
  · exact .inr (.inl ⟨_, _, by simp only [h1, addAtom, h2], h3, h2, inv_add hi hk h2 h3 h4, rfl⟩)
  · exact .inr (.inr ⟨by simp only [h1, addAtom], h2, h3⟩)

end Gp.Atom
