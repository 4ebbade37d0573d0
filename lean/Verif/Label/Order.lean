import Verif.Label.Search
/- The order of the values of a variable without constraint; the choice of the variable. -/
namespace Gp.Label

open Gp.FdRange Gp.Fd

variable {c : Cfg} {W : Nat → Bool} {M : Nat → Int} {vs : List Nat} {us : List UserCstr}

/-- The order in which the methods try the values of a sorted list: increasing, decreasing, the bounds in turn, from the middle (the
element of rank n / 2 of n elements, then the same with the rest). The number bounds the length of the list. -/
def orderN : Val → Nat → List Int → List Int
  | .min, _, l => l
  | .bisect, _, l => l
  | .max, _, l => l.reverse
  | .limitsMin, n + 1, a :: b :: l => a :: orderN .limitsMax n (b :: l)
  | .limitsMax, n + 1, a :: b :: l => (a :: b :: l).getD (l.length + 1) 0 :: orderN .limitsMin n ((a :: b :: l).dropLast)
  | .middle, n + 1, a :: b :: l =>
    (a :: b :: l).getD ((l.length + 2) / 2 - 1) 0 :: orderN .middle n ((a :: b :: l).eraseIdx ((l.length + 2) / 2 - 1))
  | _, _, l => l

/-- No constraint. -/
def Free (c : Cfg) (W : Nat → Bool) (M : Nat → Int) (q : QSt) : Prop := ∀ σ : Nat → Nat, (∀ v, Mem (q.dom v).r (σ v)) → Keep c W M σ q

/-- A restriction which keeps a value succeeds and gives exactly the values. -/
theorem free_op {q q' : QSt} {x : Nat} {P : Nat → Prop} {ok : Bool} (hO : Ok c W M vs us q) (hf : Free c W M q) (h : OpOk c W M vs us q x P ok q')
    (hne : ∃ n : Nat, Mem (q.dom x).r n ∧ P n) :
    ok = true ∧ Free c W M q' ∧ ∀ n : Nat, Mem (q'.dom x).r n ↔ Mem (q.dom x).r n ∧ P n := by
  have sat : ∀ n : Nat, Mem (q.dom x).r n → ∃ σ : Nat → Nat, (∀ v, Mem (q.dom v).r (σ v)) ∧ σ x = n := by
    intro n hn
    refine ⟨fun v => if v = x then n else (val q v).toNat, fun v => ?_, by simp⟩
    dsimp only
    split
    · next e => rw [e]; exact hn
    · rw [Int.toNat_of_nonneg (val_mem hO v).2]; exact (val_mem hO v).1
  have hok : ok = true := by
    obtain ⟨n, h1, h2⟩ := hne
    obtain ⟨σ, h3, h4⟩ := sat n h1
    exact (h.keep σ (hf σ h3) (by rw [h4]; exact h2)).1
  refine ⟨hok, fun σ hσ => (h.keep σ (hf σ (fun v => h.sub v _ (hσ v))) (h.told hok _ (hσ x))).2, fun n => ⟨fun hn => ⟨h.sub x n hn, h.told hok n hn⟩, fun ⟨h1, h2⟩ => ?_⟩⟩
  obtain ⟨σ, h3, h4⟩ := sat n h1
  have := (h.keep σ (hf σ h3) (by rw [h4]; exact h2)).2.below x (σ x) rfl
  rwa [h4] at this

/-- The listing of a domain. -/
theorem listing_iff {q q' : QSt} {x : Nat} {P : Nat → Prop} (hO : Ok c W M vs us q) (hO' : Ok c W M vs us q') {l l' : List Int} (hl : Listing (q.dom x).r l) (hs : l'.Pairwise (· < ·))
    (hd : ∀ n : Nat, Mem (q'.dom x).r n ↔ Mem (q.dom x).r n ∧ P n) (hp : ∀ n : Int, n ∈ l' ↔ n ∈ l ∧ P n.toNat) : Listing (q'.dom x).r l' := by
  refine ⟨hs, fun n => ?_⟩
  rw [hp, hl.2]
  constructor
  · intro ⟨h1, h2⟩
    have h0 := mem_nonneg (hO.ready.good x).1 h1
    have := (hd n.toNat).2 ⟨by rw [Int.toNat_of_nonneg h0]; exact h1, h2⟩
    rwa [Int.toNat_of_nonneg h0] at this
  · intro h1
    have h0 := mem_nonneg (hO'.ready.good x).1 h1
    have := (hd n.toNat).1 (by rw [Int.toNat_of_nonneg h0]; exact h1)
    rwa [Int.toNat_of_nonneg h0] at this

theorem ground_listing {q : QSt} (hO : Ok c W M vs us q) {x : Nat} {l : List Int} (hl : Listing (q.dom x).r l) :
    ((q.dom x).ground = true ↔ l.length = 1) ∧ l ≠ [] := by
  have hv := (hO.ready.good x).1
  obtain ⟨m1, m2, m3⟩ := bounds_mem c _ hv.wf hv.ne
  have hne : l ≠ [] := fun h => by have := (hl.2 _).2 m1; rw [h] at this; cases this
  refine ⟨⟨fun hg => ?_, fun h => ?_⟩, hne⟩
  · have hval := (ground_val hv hg).2
    match l, hl, hne with
    | [a], _, _ => rfl
    | a :: b :: l, hl, _ =>
      have ha := hval a ((hl.2 a).1 (by simp))
      have hb := hval b ((hl.2 b).1 (by simp))
      have := (List.pairwise_cons.1 hl.1).1 b (by simp)
      omega
  · match l, hl, h with
    | [a], hl, _ => exact ground_of hv (k := a) (fun n hn => by have := (hl.2 n).2 hn; simpa using this)

/-- One step of the order. -/
theorem order_step {q : QSt} (hO : Ok c W M vs us q) {x k : Nat} {m : Val} (hm : m ≠ .random) (hb : m ≠ .bisect) {l : List Int} (hl : Listing (q.dom x).r l)
    (hlen : 2 ≤ l.length) (hs : Sel (q.dom x) m k) :
    ∃ l2, orderN m l.length l = (k : Int) :: orderN (nextMethod m) l2.length l2 ∧ l2.length = l.length - 1 ∧ l2.Pairwise (· < ·) ∧
      ∀ n : Int, n ∈ l2 ↔ n ∈ l ∧ n.toNat ≠ k := by
  obtain ⟨a, b, l, rfl⟩ : ∃ a b l', l = a :: b :: l' := by
    match l, hlen with
    | a :: b :: l, _ => exact ⟨a, b, l, rfl⟩
  have hv := (hO.ready.good x).1
  obtain ⟨m1, m2, m3⟩ := bounds_mem c _ hv.wf hv.ne
  have hsort := List.pairwise_iff_getElem.1 hl.1
  have h0 : ∀ n ∈ a :: b :: l, 0 ≤ n := fun n hn => by
    have := mem_nonneg hv ((hl.2 n).1 hn); exact this
  have key : ∀ i, (hi : i < (a :: b :: l).length) → (a :: b :: l)[i] = (k : Int) → ((a :: b :: l).eraseIdx i).length = (a :: b :: l).length - 1 ∧ ((a :: b :: l).eraseIdx i).Pairwise (· < ·) ∧
      ∀ n : Int, n ∈ (a :: b :: l).eraseIdx i ↔ n ∈ a :: b :: l ∧ n.toNat ≠ k := by
    intro i hi he
    refine ⟨List.length_eraseIdx_of_lt hi, hl.1.sublist (List.eraseIdx_sublist _ _), fun n => ?_⟩
    rw [List.mem_eraseIdx_iff_getElem]
    constructor
    · rintro ⟨j, hj, hne, e⟩
      have hmem : n ∈ a :: b :: l := by rw [← e]; exact List.getElem_mem hj
      refine ⟨hmem, ?_⟩
      have := h0 n hmem
      rcases Nat.lt_or_gt_of_ne hne with h | h
      · have := hsort j i hj hi h; omega
      · have := hsort i j hi hj h; omega
    · rintro ⟨h1, h2⟩
      obtain ⟨j, hj, e⟩ := List.getElem_of_mem h1
      refine ⟨j, hj, fun h => ?_, e⟩
      subst h
      omega
  have hlast : (a :: b :: l)[(a :: b :: l).length - 1] = (q.dom x).r.max := by
    obtain ⟨j, hj, e⟩ := List.getElem_of_mem ((hl.2 _).2 m2)
    have h1 := m3 _ ((hl.2 _).1 (List.getElem_mem (show (a :: b :: l).length - 1 < (a :: b :: l).length by omega)))
    by_cases h : j = (a :: b :: l).length - 1
    · subst h; exact e
    · have := hsort j ((a :: b :: l).length - 1) hj (by omega) (by omega); omega
  have hfirst : (a :: b :: l)[0] = (q.dom x).r.min := by
    obtain ⟨j, hj, e⟩ := List.getElem_of_mem ((hl.2 _).2 m1)
    have h1 := m3 _ ((hl.2 _).1 (List.getElem_mem (show 0 < (a :: b :: l).length by omega)))
    by_cases h : j = 0
    · subst h; exact e
    · have := hsort 0 j (by omega) hj (by omega); omega
  have hlastD : (a :: b :: l).dropLast = (a :: b :: l).eraseIdx ((a :: b :: l).length - 1) := by rw [List.eraseIdx_length_sub_one]
  cases m with
  | bisect => exact absurd rfl hb
  | random => exact absurd rfl hm
  | min =>
    have e := hs.min (Or.inl rfl)
    exact ⟨b :: l, by simp only [orderN, nextMethod]; rw [e, ← hfirst]; rfl, key 0 (by simp) (by rw [e]; exact hfirst)⟩
  | limitsMin =>
    have e := hs.min (Or.inr rfl)
    exact ⟨b :: l, by simp only [List.length_cons, orderN, nextMethod]; rw [e, ← hfirst]; rfl, key 0 (by simp) (by rw [e]; exact hfirst)⟩
  | max =>
    have e := hs.max (Or.inl rfl)
    obtain ⟨k1, k2, k3⟩ := key ((a :: b :: l).length - 1) (by simp) (by rw [e]; exact hlast)
    rw [← hlastD] at k1 k2 k3
    refine ⟨_, ?_, k1, k2, k3⟩
    simp only [orderN, nextMethod]
    have : a :: b :: l = (a :: b :: l).dropLast ++ [(k : Int)] := by
      rw [e, ← hlast]
      have := List.dropLast_concat_getLast (l := a :: b :: l) (by simp)
      rw [List.getLast_eq_getElem] at this
      exact this.symm
    conv => lhs; rw [this]
    rw [List.reverse_append]
    rfl
  | limitsMax =>
    have e := hs.max (Or.inr rfl)
    obtain ⟨k1, k2, k3⟩ := key ((a :: b :: l).length - 1) (by simp) (by rw [e]; exact hlast)
    rw [← hlastD] at k1 k2 k3
    refine ⟨_, ?_, k1, k2, k3⟩
    rw [k1]
    simp only [List.length_cons, orderN, nextMethod]
    rw [e, ← hlast]
    simp
  | middle =>
    have e := hs.mid (Or.inl rfl) _ hl
    have hi : (l.length + 2) / 2 - 1 < (a :: b :: l).length := by simp; omega
    obtain ⟨k1, k2, k3⟩ := key ((l.length + 2) / 2 - 1) hi (by
      rw [e, List.getD_eq_getElem?_getD, List.length_cons, List.length_cons, List.getElem?_eq_getElem hi]; rfl)
    refine ⟨_, ?_, k1, k2, k3⟩
    rw [k1]
    simp only [List.length_cons, orderN, nextMethod]
    rw [e]
    rfl

/-- The order of the values of one variable without constraint. -/
theorem order_done (hc : c.Ok) (o : Opt) (hr : ∀ k n, 0 < n → o.rnd k n < n) {x : Nat} : ∀ (N : Nat) (m : Val) (s : St) (l : List Int), LOk W M vs m x → m ≠ .random → l.length = N → Ok c W M vs us s.q →
    Free c W M s.q → Listing (s.q.dom x).r l →
    ∃ n0 as t, (∀ n, n0 ≤ n → search c o n (.indomain x m) s (.std []) = some (as, t)) ∧ (∀ y, t.q.inQ y = false) ∧
      as.map (fun a => val a x) = orderN m l.length l ∧ ∀ a ∈ as, (a.dom x).ground = true := by
  intro N
  induction N using Nat.strongRecOn with
  | _ N ih =>
    intro m s l hx hm hlen hO hf hl
    obtain ⟨hgl, hne⟩ := ground_listing hO hl
    have hv := (hO.ready.good x).1
    cases hg : (s.q.dom x).ground with
    | true =>
      have h1 := hgl.1 hg
      refine ⟨2, [s.q], s, fun n hn => ?_, hO.ready.notIn, ?_, fun a ha => by rw [List.mem_singleton.1 ha]; exact hg⟩
      · obtain ⟨n, rfl⟩ : ∃ n', n = n' + 2 := ⟨n - 2, by omega⟩
        unfold search
        rw [if_pos hg]
        rfl
      · match l, h1 with
        | [a], _ =>
          have := (hl.2 _).2 (val_mem hO x).1
          have e : val s.q x = a := by simpa using this
          simp only [List.map_cons, List.map_nil, e]
          cases m <;> rfl
    | false =>
      have h2 : 2 ≤ l.length := by
        have : l.length ≠ 0 := by simpa using hne
        have : l.length ≠ 1 := fun h => by rw [hgl.2 h] at hg; cases hg
        omega
      obtain ⟨k, seed, e, hs⟩ := select_ok o hr hO hg m
      by_cases hb : m = .bisect
      · have hsort := List.pairwise_iff_getElem.1 hl.1
        have hk := hs.mid (Or.inr hb) l hl
        have hi : l.length / 2 - 1 < l.length := by omega
        rw [List.getD_eq_getElem?_getD, List.getElem?_eq_getElem hi, Option.getD_some] at hk
        have h0 : ∀ n ∈ l, 0 ≤ n := fun n hn => mem_nonneg hv ((hl.2 n).1 hn)
        have t1 : ∀ n : Int, n ∈ l.take (l.length / 2) ↔ n ∈ l ∧ n.toNat ≤ k := by
          intro n
          rw [List.mem_take_iff_getElem]
          constructor
          · rintro ⟨j, hj, e⟩
            have hm : n ∈ l := by rw [← e]; exact List.getElem_mem _
            refine ⟨hm, ?_⟩
            have := h0 n hm
            by_cases h : j = l.length / 2 - 1
            · subst h; omega
            · have := hsort j (l.length / 2 - 1) (by omega) hi (by omega); omega
          · rintro ⟨h1, h3⟩
            obtain ⟨j, hj, e⟩ := List.getElem_of_mem h1
            have := h0 n h1
            refine ⟨j, ?_, e⟩
            by_cases h : j < l.length / 2
            · omega
            · have := hsort (l.length / 2 - 1) j hi hj (by omega); omega
        have t2 : ∀ n : Int, n ∈ l.drop (l.length / 2) ↔ n ∈ l ∧ k < n.toNat := by
          intro n
          rw [List.mem_drop_iff_getElem]
          constructor
          · rintro ⟨j, hj, e⟩
            have hm : n ∈ l := by rw [← e]; exact List.getElem_mem _
            refine ⟨hm, ?_⟩
            have := h0 n hm
            have := hsort (l.length / 2 - 1) (l.length / 2 + j) hi (by omega) (by omega); omega
          · rintro ⟨h1, h3⟩
            obtain ⟨j, hj, e⟩ := List.getElem_of_mem h1
            have := h0 n h1
            by_cases h : j < l.length / 2
            · by_cases h' : j = l.length / 2 - 1
              · subst h'; omega
              · have := hsort j (l.length / 2 - 1) hj hi (by omega); omega
            · exact ⟨j - l.length / 2, by omega, by rw [← e]; congr 1; omega⟩
        obtain ⟨n0, ok, q, p1, p2⟩ := (bisect_ok (k := k) (st := s.q) hc hO hx hg).1
        obtain ⟨f1, f2, f3⟩ := free_op hO hf p2 ⟨k, hs.mem, Nat.le_refl _⟩
        cases f1
        have hOq := p2.next rfl
        obtain ⟨n1, as, t, r1, r2, r3, r4⟩ := ih (l.take (l.length / 2)).length (by simp; omega) m { s with q := q, seed := seed } _ hx hm rfl hOq f2
          (listing_iff hO hOq hl (hl.1.sublist (List.take_sublist _ _)) f3 t1)
        have hOb : Ok c W M vs us (back { s with seed := seed } t).q := back_ok (s := { s with seed := seed }) hO r2
        have hfb : Free c W M (back { s with seed := seed } t).q := fun σ hσ => back_keep (s := { s with seed := seed }) (hf σ hσ)
        obtain ⟨n2, ok, q', p3, p4⟩ := (bisect_ok (k := k) (st := (back { s with seed := seed } t).q) hc hOb hx hg).2
        have hmax : ∃ n : Nat, Mem (s.q.dom x).r n ∧ k < n := by
          have h1 := hs.bisect hb
          obtain ⟨_, m2, _⟩ := bounds_mem c _ hv.wf hv.ne
          exact ⟨(s.q.dom x).r.max.toNat, by rw [Int.toNat_of_nonneg (by omega)]; exact m2, by omega⟩
        obtain ⟨g1, g2, g3⟩ := free_op hOb hfb p4 hmax
        cases g1
        have hOq' := p4.next rfl
        obtain ⟨n3, as', t', r1', r2', r3', r4'⟩ := ih (l.drop (l.length / 2)).length (by simp; omega) m { back { s with seed := seed } t with q := q' } _ hx hm rfl hOq' g2
          (listing_iff hO hOq' hl (hl.1.sublist (List.drop_sublist _ _)) g3 t2)
        refine ⟨n0 + n1 + n2 + n3 + 2, as ++ as', t', fun n hn => ?_, r2', ?_, fun a ha => ?_⟩
        · obtain ⟨n, rfl⟩ : ∃ n', n = n' + 2 := ⟨n - 2, by omega⟩
          have halt : search c o (n + 1) (.alt x m k) (back { s with seed := seed } t) (.std []) = some (as', t') := by
            unfold search
            rw [if_pos hb, p3 n (by omega)]
            exact r1' n (by omega)
          unfold search
          rw [if_neg (by rw [hg]; simp), e]
          dsimp only
          rw [if_pos hb, p1 (n + 1) (by omega)]
          dsimp only
          rw [r1 (n + 1) (by omega)]
          dsimp only
          rw [halt]
        · rw [List.map_append, r3, r3', hb]
          simp only [orderN]
          exact List.take_append_drop _ _
        · rcases List.mem_append.1 ha with ha | ha
          · exact r4 a ha
          · exact r4' a ha
      · obtain ⟨n0, ok, q, p1, p2⟩ := assign_ok (k := k) (st := s.q) hc hO hx.1 hg hs.mem
        obtain ⟨f1, f2, f3⟩ := free_op hO hf p2 ⟨k, hs.mem, rfl⟩
        cases f1
        have hOq := p2.next rfl
        have hgq : (q.dom x).ground = true := ground_of (k := k) (hOq.ready.good x).1 (fun n hn => by rw [p2.told rfl n hn])
        have hvq : val q x = k := by
          have := (f3 (val q x).toNat).1 (by rw [Int.toNat_of_nonneg (val_mem hOq x).2]; exact (val_mem hOq x).1)
          have := this.2
          have := (val_mem hOq x).2
          omega
        obtain ⟨l2, o1, o2, o3, o4⟩ := order_step hO hm hb hl h2 hs
        have hOb : Ok c W M vs us (back { s with seed := seed } { s with q := q, seed := seed }).q := back_ok (s := { s with seed := seed }) hO hOq.ready.notIn
        have hfb : Free c W M (back { s with seed := seed } { s with q := q, seed := seed }).q := fun σ hσ => back_keep (s := { s with seed := seed }) (hf σ hσ)
        obtain ⟨n2, ok, q', p3, p4⟩ := remove_ok (st := (back { s with seed := seed } { s with q := q, seed := seed }).q) hc hOb hx hg hs hb
        have hne2 : ∃ n : Nat, Mem (s.q.dom x).r n ∧ n ≠ k := by
          cases l2 with
          | nil => simp at o2; omega
          | cons a l2 =>
            have h1 := (o4 a).1 (by simp)
            have h3 := (hl.2 _).1 h1.1
            exact ⟨a.toNat, by rw [Int.toNat_of_nonneg (mem_nonneg hv h3)]; exact h3, h1.2⟩
        obtain ⟨g1, g2, g3⟩ := free_op hOb hfb p4 hne2
        cases g1
        have hOq' := p4.next rfl
        have hx2 : LOk W M vs (nextMethod m) x := by
          refine ⟨hx.1, hx.2.1, hx.2.2.imp id (fun h => ?_)⟩
          cases m with
          | middle => exact absurd rfl h.1
          | random => exact absurd rfl h.2
          | _ => exact ⟨by simp [nextMethod], by simp [nextMethod]⟩
        obtain ⟨n3, as', t', r1', r2', r3', r4'⟩ := ih l2.length (by omega) (nextMethod m)
          { back { s with seed := seed } { s with q := q, seed := seed } with q := q' } l2 hx2 (by cases m <;> simp_all [nextMethod]) rfl hOq' g2
          (listing_iff hO hOq' hl o3 g3 o4)
        refine ⟨n0 + n2 + n3 + 2, q :: as', t', fun n hn => ?_, r2', ?_, fun a ha => ?_⟩
        · obtain ⟨n, rfl⟩ : ∃ n', n = n' + 2 := ⟨n - 2, by omega⟩
          have halt : search c o (n + 1) (.alt x m k) (back { s with seed := seed } { s with q := q, seed := seed }) (.std []) = some (as', t') := by
            unfold search
            rw [if_neg hb, p3 n (by omega)]
            exact r1' n (by omega)
          have hlab : search c o (n + 1) .label { s with q := q, seed := seed } (.std []) = some ([q], { s with q := q, seed := seed }) := rfl
          unfold search
          rw [if_neg (by rw [hg]; simp), e]
          dsimp only
          rw [if_neg hb, p1 (n + 1) (by omega)]
          dsimp only
          rw [hlab]
          dsimp only
          rw [halt]
          rfl
        · rw [List.map_cons, r3', o1, hvq]
        · rcases List.mem_cons.1 ha with ha | ha
          · rw [ha]; exact hgq
          · exact r4' a ha

end Gp.Label
