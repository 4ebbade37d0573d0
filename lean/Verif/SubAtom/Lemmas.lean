import Verif.SubAtom.Model
/-! Lemmas about the enumeration of sub_atom/5. -/
namespace Gp.SubAtom

theorem pref_iff (s p : Text) : pref s p = true ↔ p.take s.length = s := by
  induction s generalizing p with
  | nil => simp [pref]
  | cons x s ih =>
    cases p with
    | nil => simp [pref]
    | cons y p =>
      simp only [pref, Bool.and_eq_true, beq_iff_eq, ih, List.length_cons, List.take_succ_cons, List.cons.injEq]
      constructor
      · rintro ⟨h1, h2⟩; exact ⟨h1.symm, h2⟩
      · rintro ⟨h1, h2⟩; exact ⟨h1.symm, h2⟩

theorem strstr_some {p s : Text} {k : Nat} (h : strstr p s = some k) :
    k ≤ p.length ∧ pref s (p.drop k) = true ∧ ∀ j, j < k → pref s (p.drop j) = false := by
  induction p generalizing k with
  | nil =>
    rw [strstr] at h
    split at h
    · rename_i hp; cases h; exact ⟨by simp, by simpa using hp, by omega⟩
    · simp at h
  | cons x p ih =>
    rw [strstr] at h
    split at h
    · rename_i hp; cases h; exact ⟨by simp, by simpa using hp, by omega⟩
    · rename_i hp
      simp only [Option.map_eq_some_iff] at h
      obtain ⟨k', h1, rfl⟩ := h
      obtain ⟨h2, h3, h4⟩ := ih h1
      refine ⟨by simp only [List.length_cons]; omega, by simpa using h3, ?_⟩
      intro j hj
      cases j with
      | zero => simpa using hp
      | succ j => simpa using h4 j (by omega)

theorem strstr_none {p s : Text} (h : strstr p s = none) (j : Nat) : pref s (p.drop j) = false := by
  induction p generalizing j with
  | nil =>
    rw [strstr] at h
    split at h
    · cases h
    · rename_i hp; simpa using hp
  | cons x p ih =>
    rw [strstr] at h
    split at h
    · cases h
    · rename_i hp
      simp only [Option.map_eq_none_iff] at h
      cases j with
      | zero => simpa using hp
      | succ j => simpa using ih h j

/-- Order of the enumeration: `b` first, then `l`. -/
def Lt (t u : BLA) : Prop := t.b < u.b ∨ (t.b = u.b ∧ t.l < u.l)

/-- The triples meant by `mask` (B, L, A fixed: 4, 2, 1; 8: the sub-atom is fixed). -/
def Pm (mask : Nat) (A sub : Text) (b l a : Int) (t : BLA) : Prop :=
  (0 ≤ t.b ∧ 0 ≤ t.l ∧ 0 ≤ t.a ∧ t.b + t.l + t.a = A.length) ∧
  match mask with
  | 0 => True
  | 1 => t.a = a
  | 2 => t.l = l
  | 3 => t.l = l ∧ t.a = a
  | 4 => t.b = b
  | 5 => t.b = b ∧ t.a = a
  | 6 => t.b = b ∧ t.l = l
  | 7 => t.b = b ∧ t.l = l
  | _ => t.l = sub.length ∧ pref sub (A.drop t.b.toNat) = true

theorem BLA.ext' {t u : BLA} (h1 : t.b = u.b) (h2 : t.l = u.l) (h3 : t.a = u.a) : t = u := by
  cases t; cases u; simp_all

theorem Pm_ext {mask A sub b l a} {t u : BLA} (h1 : Pm mask A sub b l a t) (h2 : Pm mask A sub b l a u)
    (hb : t.b = u.b) (hl : t.l = u.l) : t = u := by
  have := h1.1; have := h2.1
  exact BLA.ext' hb hl (by omega)

theorem next_spec (mask : Nat) (hm : mask = 0 ∨ mask = 1 ∨ mask = 2 ∨ mask = 4 ∨ mask = 8) (A sub : Text)
    (b l a : Int) (t : BLA) (h : Pm mask A sub b l a t) :
    match next mask A sub t with
    | none => ∀ u, Pm mask A sub b l a u → ¬ Lt t u
    | some t1 => Pm mask A sub b l a t1 ∧ Lt t t1 ∧ ∀ u, Pm mask A sub b l a u → Lt t u → u = t1 ∨ Lt t1 u := by
  obtain ⟨⟨h1, h2, h3, h4⟩, h5⟩ := h
  have ext : ∀ t1 u : BLA, Pm mask A sub b l a t1 → Pm mask A sub b l a u →
      ((t1.b < u.b ∨ (t1.b = u.b ∧ t1.l ≤ u.l))) → u = t1 ∨ Lt t1 u := by
    intro t1 u p1 p2 hh
    by_cases hc : t1.b = u.b ∧ t1.l = u.l
    · exact .inl (Pm_ext p2 p1 hc.1.symm hc.2.symm)
    · right; unfold Lt; omega
  rcases hm with rfl | rfl | rfl | rfl | rfl
  · simp only [next]
    by_cases c1 : t.l + 1 > (A.length : Int) - t.b
    · rw [if_pos c1]
      by_cases c2 : t.b + 1 > (A.length : Int)
      · rw [if_pos c2]; intro u ⟨hu, _⟩; unfold Lt; omega
      · rw [if_neg c2]
        have p1 : Pm 0 A sub b l a ⟨t.b + 1, 0, (A.length : Int) - (t.b + 1) - 0⟩ := by
          refine ⟨?_, trivial⟩; simp only; omega
        refine ⟨p1, by unfold Lt; simp only; omega, ?_⟩
        intro u hu hlt
        refine ext _ u p1 hu ?_
        have := hu.1; unfold Lt at hlt; simp only; omega
    · rw [if_neg c1]
      have p1 : Pm 0 A sub b l a ⟨t.b, t.l + 1, (A.length : Int) - t.b - (t.l + 1)⟩ := by
        refine ⟨?_, trivial⟩; simp only; omega
      refine ⟨p1, .inr ⟨rfl, by simp only; omega⟩, ?_⟩
      intro u hu hlt
      refine ext _ u p1 hu ?_
      have := hu.1; unfold Lt at hlt; simp only; omega
  · simp only [next]
    simp only [Pm] at h5
    by_cases c1 : t.b + 1 > (A.length : Int) - t.a
    · rw [if_pos c1]; intro u ⟨hu, hu'⟩; simp only at hu'; unfold Lt; omega
    · rw [if_neg c1]
      have p1 : Pm 1 A sub b l a ⟨t.b + 1, (A.length : Int) - (t.b + 1) - t.a, t.a⟩ := by
        refine ⟨?_, h5⟩; simp only; omega
      refine ⟨p1, by unfold Lt; simp only; omega, ?_⟩
      intro u hu hlt
      refine ext _ u p1 hu ?_
      obtain ⟨hu, hu'⟩ := hu
      simp only at hu'
      unfold Lt at hlt; simp only; omega
  · simp only [next]
    simp only [Pm] at h5
    by_cases c1 : t.b + 1 > (A.length : Int) - t.l
    · rw [if_pos c1]; intro u ⟨hu, hu'⟩; simp only at hu'; unfold Lt; omega
    · rw [if_neg c1]
      have p1 : Pm 2 A sub b l a ⟨t.b + 1, t.l, (A.length : Int) - (t.b + 1) - t.l⟩ := by
        refine ⟨?_, h5⟩; simp only; omega
      refine ⟨p1, by unfold Lt; simp only; omega, ?_⟩
      intro u hu hlt
      refine ext _ u p1 hu ?_
      obtain ⟨hu, hu'⟩ := hu
      simp only at hu'
      unfold Lt at hlt; simp only; omega
  · simp only [next]
    simp only [Pm] at h5
    by_cases c1 : t.l + 1 > (A.length : Int) - t.b
    · rw [if_pos c1]; intro u ⟨hu, hu'⟩; simp only at hu'; unfold Lt; omega
    · rw [if_neg c1]
      have p1 : Pm 4 A sub b l a ⟨t.b, t.l + 1, (A.length : Int) - t.b - (t.l + 1)⟩ := by
        refine ⟨?_, h5⟩; simp only; omega
      refine ⟨p1, .inr ⟨rfl, by simp only; omega⟩, ?_⟩
      intro u hu hlt
      refine ext _ u p1 hu ?_
      obtain ⟨hu, hu'⟩ := hu
      simp only at hu'
      unfold Lt at hlt; simp only; omega
  · simp only [next]
    simp only [Pm] at h5
    by_cases c1 : t.b + 1 > (A.length : Int) - t.l
    · rw [if_pos c1]; intro u ⟨hu, hu'⟩; simp only at hu'; unfold Lt; omega
    · rw [if_neg c1]
      cases hs : strstr (A.drop (t.b + 1).toNat) sub with
      | none =>
        simp only
        intro u ⟨hu, hu'⟩ hlt
        simp only at hu'
        have := strstr_none hs (u.b.toNat - (t.b + 1).toNat)
        rw [List.drop_drop, show (t.b + 1).toNat + (u.b.toNat - (t.b + 1).toNat) = u.b.toNat by
          unfold Lt at hlt; omega] at this
        rw [this] at hu'; cases hu'.2
      | some k =>
        simp only
        obtain ⟨k1, k2, k3⟩ := strstr_some hs
        rw [List.drop_drop] at k2
        have hlen : t.b + 1 + k + sub.length ≤ A.length := by
          have := (pref_iff _ _).1 k2
          have := congrArg List.length this
          simp only [List.length_take, List.length_drop] at this k1
          omega
        have p1 : Pm 8 A sub b l a ⟨t.b + 1 + k, t.l, (A.length : Int) - (t.b + 1 + k) - t.l⟩ := by
          refine ⟨by simp only; omega, h5.1, ?_⟩
          simp only
          rw [show (t.b + 1 + k).toNat = (t.b + 1).toNat + k by omega]
          exact k2
        refine ⟨p1, by unfold Lt; simp only; omega, ?_⟩
        intro u hu hlt
        refine ext _ u p1 hu ?_
        obtain ⟨hu, hu'⟩ := hu
        simp only at hu'
        simp only
        by_cases hub : u.b < t.b + 1 + k
        · exfalso
          have hj := k3 (u.b.toNat - (t.b + 1).toNat) (by unfold Lt at hlt; omega)
          rw [List.drop_drop, show (t.b + 1).toNat + (u.b.toNat - (t.b + 1).toNat) = u.b.toNat by
            unfold Lt at hlt; omega] at hj
          rw [hj] at hu'; cases hu'.2
        · omega

theorem triples_spec (mask : Nat) (hm : mask = 0 ∨ mask = 1 ∨ mask = 2 ∨ mask = 4 ∨ mask = 8) (A sub : Text)
    (b l a : Int) (t : BLA) (h : Pm mask A sub b l a t) :
    (triples mask A sub t).Pairwise Lt ∧
    ∀ u, u ∈ triples mask A sub t ↔ Pm mask A sub b l a u ∧ (u = t ∨ Lt t u) := by
  fun_induction triples mask A sub t with
  | case1 t hn =>
    have := next_spec mask hm A sub b l a t h
    rw [hn] at this
    refine ⟨by simp, fun u => ?_⟩
    simp only [List.mem_singleton]
    constructor
    · rintro rfl; exact ⟨h, .inl rfl⟩
    · rintro ⟨h1, h2 | h2⟩
      · exact h2
      · exact absurd h2 (this u h1)
  | case2 t t' hn ih =>
    have hs := next_spec mask hm A sub b l a t h
    rw [hn] at hs
    obtain ⟨s1, s2, s3⟩ := hs
    obtain ⟨i1, i2⟩ := ih s1
    have htr : ∀ u, u = t' ∨ Lt t' u → Lt t u := by
      rintro u (rfl | hu)
      · exact s2
      · unfold Lt at *; omega
    refine ⟨List.pairwise_cons.2 ⟨fun u hu => htr u ((i2 u).1 hu).2, i1⟩, fun u => ?_⟩
    rw [List.mem_cons, i2]
    constructor
    · rintro (rfl | ⟨h1, h2⟩)
      · exact ⟨h, .inl rfl⟩
      · exact ⟨h1, .inr (htr u h2)⟩
    · rintro ⟨h1, rfl | h2⟩
      · exact .inl rfl
      · exact .inr ⟨h1, s3 u h1 h2⟩

/-- All the triples tried by the enumeration. -/
def tried (mask : Nat) (A sub : Text) (b l a : Int) : List BLA :=
  match first mask A sub b l a with
  | none => []
  | some (t, nondet) =>
    if t.b < 0 ∨ t.l < 0 ∨ t.a < 0 then []
    else if nondet then triples mask A sub t else [t]

theorem enum_eq (mask : Nat) (A sub : Text) (before len after subA : Arg) (b l a : Int) :
    enum mask A sub before len after subA b l a
      = (tried mask A sub b l a).filterMap (solve mask A before len after subA) := by
  unfold enum tried
  cases first mask A sub b l a with
  | none => rfl
  | some r =>
    simp only
    split <;> rfl

theorem tried_spec (mask : Nat) (hm : mask ≤ 8) (A sub : Text) (b l a : Int)
    (hb : 0 ≤ b) (hl : 0 ≤ l) (ha : 0 ≤ a)
    (hb0 : mask ≠ 4 → mask ≠ 5 → mask ≠ 6 → mask ≠ 7 → b = 0)
    (hl0 : mask = 0 ∨ mask = 4 → l = 0) :
    (tried mask A sub b l a).Pairwise Lt ∧ ∀ u, u ∈ tried mask A sub b l a ↔ Pm mask A sub b l a u := by
  have nondet : ∀ (hm : mask = 0 ∨ mask = 1 ∨ mask = 2 ∨ mask = 4 ∨ mask = 8) (t : BLA),
      t.b + t.l + t.a = A.length →
      (0 ≤ t.b → 0 ≤ t.l → 0 ≤ t.a → Pm mask A sub b l a t) →
      (∀ u, Pm mask A sub b l a u → (0 ≤ t.b ∧ 0 ≤ t.l ∧ 0 ≤ t.a) ∧ (t.b < u.b ∨ (t.b = u.b ∧ t.l ≤ u.l))) →
      (if t.b < 0 ∨ t.l < 0 ∨ t.a < 0 then [] else triples mask A sub t).Pairwise Lt ∧
      ∀ u, u ∈ (if t.b < 0 ∨ t.l < 0 ∨ t.a < 0 then [] else triples mask A sub t) ↔ Pm mask A sub b l a u := by
    intro hm t hsum hP hu
    split
    · refine ⟨by simp, fun u => ?_⟩
      simp only [List.not_mem_nil, false_iff]
      intro hpu
      have := (hu u hpu).1
      omega
    · have hP := hP (by omega) (by omega) (by omega)
      obtain ⟨h1, h2⟩ := triples_spec mask hm A sub b l a t hP
      refine ⟨h1, fun u => ?_⟩
      rw [h2]
      constructor
      · exact fun h => h.1
      · intro h
        refine ⟨h, ?_⟩
        have := (hu u h).2
        by_cases hc : t.b = u.b ∧ t.l = u.l
        · exact .inl (Pm_ext h hP hc.1.symm hc.2.symm)
        · right; unfold Lt; omega
  have det : ∀ (t : BLA),
      (0 ≤ t.b → 0 ≤ t.l → 0 ≤ t.a → Pm mask A sub b l a t) →
      (∀ u, Pm mask A sub b l a u → u = t) →
      (if t.b < 0 ∨ t.l < 0 ∨ t.a < 0 then [] else [t]).Pairwise Lt ∧
      ∀ u, u ∈ (if t.b < 0 ∨ t.l < 0 ∨ t.a < 0 then [] else [t]) ↔ Pm mask A sub b l a u := by
    intro t hP hu
    split
    · refine ⟨by simp, fun u => ?_⟩
      simp only [List.not_mem_nil, false_iff]
      intro hpu
      have := hu u hpu
      subst this
      have := hpu.1
      omega
    · refine ⟨by simp, fun u => ?_⟩
      rw [List.mem_singleton]
      exact ⟨fun h => h ▸ hP (by omega) (by omega) (by omega), hu u⟩
  have hcase : mask = 0 ∨ mask = 1 ∨ mask = 2 ∨ mask = 3 ∨ mask = 4 ∨ mask = 5 ∨ mask = 6 ∨ mask = 7 ∨ mask = 8 := by
    omega
  unfold tried
  rcases hcase with rfl | rfl | rfl | rfl | rfl | rfl | rfl | rfl | rfl
  · simp only [first, if_true]
    refine nondet (by simp) ⟨b, l, (A.length : Int) - b - l⟩ ?_ (fun h1 h2 h3 => ⟨?_, trivial⟩) ?_
    · simp only; omega
    · simp only at *; omega
    intro u ⟨h, _⟩
    simp only
    have := hb0 (by omega) (by omega) (by omega) (by omega)
    have := hl0 (by omega)
    omega
  · simp only [first, if_true]
    refine nondet (by simp) ⟨b, (A.length : Int) - b - a, a⟩ ?_ (fun h1 h2 h3 => ⟨?_, rfl⟩) ?_
    · simp only; omega
    · simp only at *; omega
    intro u ⟨h, h'⟩
    simp only at h' ⊢
    have := hb0 (by omega) (by omega) (by omega) (by omega)
    omega
  · simp only [first, if_true]
    refine nondet (by simp) ⟨b, l, (A.length : Int) - b - l⟩ ?_ (fun h1 h2 h3 => ⟨?_, rfl⟩) ?_
    · simp only; omega
    · simp only at *; omega
    intro u ⟨h, h'⟩
    simp only at h' ⊢
    have := hb0 (by omega) (by omega) (by omega) (by omega)
    omega
  · simp only [first, Bool.false_eq_true, if_false]
    refine det ⟨(A.length : Int) - l - a, l, a⟩ (fun h1 h2 h3 => ⟨?_, rfl, rfl⟩) ?_
    · simp only at *; omega
    intro u ⟨h, h'⟩
    simp only at h'
    exact BLA.ext' (by simp only; omega) h'.1 h'.2
  · simp only [first, if_true]
    refine nondet (by simp) ⟨b, l, (A.length : Int) - b - l⟩ ?_ (fun h1 h2 h3 => ⟨?_, rfl⟩) ?_
    · simp only; omega
    · simp only at *; omega
    intro u ⟨h, h'⟩
    simp only at h' ⊢
    have := hl0 (by omega)
    omega
  · simp only [first, Bool.false_eq_true, if_false]
    refine det ⟨b, (A.length : Int) - b - a, a⟩ (fun h1 h2 h3 => ⟨?_, rfl, rfl⟩) ?_
    · simp only at *; omega
    intro u ⟨h, h'⟩
    simp only at h'
    exact BLA.ext' h'.1 (by simp only; omega) h'.2
  · simp only [first, Bool.false_eq_true, if_false]
    refine det ⟨b, l, (A.length : Int) - b - l⟩ (fun h1 h2 h3 => ⟨?_, rfl, rfl⟩) ?_
    · simp only at *; omega
    intro u ⟨h, h'⟩
    simp only at h'
    exact BLA.ext' h'.1 h'.2 (by simp only; omega)
  · simp only [first, Bool.false_eq_true, if_false]
    refine det ⟨b, l, (A.length : Int) - b - l⟩ (fun h1 h2 h3 => ⟨?_, rfl, rfl⟩) ?_
    · simp only at *; omega
    intro u ⟨h, h'⟩
    simp only at h'
    exact BLA.ext' h'.1 h'.2 (by simp only; omega)
  · have hb := hb0 (by omega) (by omega) (by omega) (by omega)
    subst hb
    cases hs : strstr A sub with
    | none =>
      simp only [first, Int.toNat_zero, List.drop_zero, hs]
      refine ⟨by simp, fun u => ?_⟩
      simp only [List.not_mem_nil, false_iff]
      intro ⟨_, h2⟩
      simp only at h2
      rw [strstr_none hs] at h2
      cases h2.2
    | some k =>
      simp only [first, Int.toNat_zero, List.drop_zero, hs, if_true]
      obtain ⟨k1, k2, k3⟩ := strstr_some hs
      refine nondet (by simp) ⟨k, sub.length, (A.length : Int) - k - sub.length⟩ ?_ (fun h1 h2 h3 => ⟨?_, rfl, k2⟩) ?_
      · simp only; omega
      · simp only at *; omega
      intro u ⟨h, h'⟩
      simp only at h' ⊢
      by_cases hlt : u.b < k
      · exfalso
        rw [k3 u.b.toNat (by omega)] at h'
        cases h'.2
      · omega

end Gp.SubAtom
