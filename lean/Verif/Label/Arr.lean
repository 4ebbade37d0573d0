import Verif.Label.Model
/- The array of the variables: what a choice point restores is the same set of variables. -/
namespace Gp.Label

open Gp.FdRange Gp.Fd

/-- The same first `n` cells up to the order, the same other cells. -/
def Same (n : Nat) (a b : List Nat) : Prop := (a.take n).Perm (b.take n) ∧ a.drop n = b.drop n

theorem Same.refl (n : Nat) (a : List Nat) : Same n a a := ⟨.refl _, rfl⟩

theorem Same.symm {n : Nat} {a b : List Nat} (h : Same n a b) : Same n b a := ⟨h.1.symm, h.2.symm⟩

theorem Same.trans {n : Nat} {a b d : List Nat} (h : Same n a b) (h' : Same n b d) : Same n a d := ⟨h.1.trans h'.1, h.2.trans h'.2⟩

theorem Same.perm {n : Nat} {a b : List Nat} (h : Same n a b) : a.Perm b := by
  rw [← List.take_append_drop n a, ← List.take_append_drop n b, h.2]
  exact h.1.append_right _

theorem Same.length {n : Nat} {a b : List Nat} (h : Same n a b) : a.length = b.length := h.perm.length_eq

theorem Same.mono {n m : Nat} {a b : List Nat} (h : Same n a b) (hle : n ≤ m) : Same m a b := by
  have hk : ∀ l : List Nat, l.take m = l.take n ++ (l.drop n).take (m - n) ∧ l.drop m = (l.drop n).drop (m - n) := by
    intro l
    constructor
    · rw [← List.take_append_drop n (l.take m), List.take_take, Nat.min_eq_left hle, List.drop_take]
    · rw [List.drop_drop, Nat.add_sub_cancel' hle]
  obtain ⟨h1, h2⟩ := h
  refine ⟨?_, ?_⟩
  · rw [(hk a).1, (hk b).1, h2]
    exact h1.append_right _
  · rw [(hk a).2, (hk b).2, h2]

theorem Same.mem {n : Nat} {a b : List Nat} (h : Same n a b) (x : Nat) : x ∈ a.take n ↔ x ∈ b.take n := h.1.mem_iff

theorem swap_length (l : List Nat) (i j : Nat) : (swap l i j).length = l.length := by simp [swap]

theorem swap_same {l : List Nat} {i j n : Nat} (hi : i < n) (hj : j < n) (hn : n ≤ l.length) : Same n (swap l i j) l := by
  have hi' : i < l.length := by omega
  have hj' : j < l.length := by omega
  constructor
  · unfold swap
    rw [List.take_set, List.take_set]
    have e1 : l.getD j 0 = (l.take n)[j]'(by simp; omega) := by simp [hj']
    have e2 : l.getD i 0 = (l.take n)[i]'(by simp; omega) := by simp [hi']
    rw [e1, e2]
    exact List.set_set_perm (by simp; omega) (by simp; omega)
  · unfold swap
    rw [List.drop_set_of_lt hj, List.drop_set_of_lt hi]

/-- The array of `t` comes from the array of `s`: whatever the order of its first cells, the undo gives back the cells of `s`. -/
def Back (s t : St) : Prop :=
  t.n ≤ t.arr.length ∧ ∃ ext, t.tr = ext ++ s.tr ∧ ∀ arr, Same t.n arr t.arr →
    (undo ext t.n arr).1 = s.n ∧ Same s.n (undo ext t.n arr).2 s.arr

theorem Back.refl {s : St} (h : s.n ≤ s.arr.length) : Back s s := ⟨h, [], rfl, fun _ ha => ⟨rfl, ha⟩⟩

/-- The constraints are not concerned. -/
theorem Back.congr {s t s' t' : St} (h : Back s t) (e1 : s'.n = s.n) (e2 : s'.arr = s.arr) (e3 : s'.tr = s.tr)
    (d1 : t'.n = t.n) (d2 : t'.arr = t.arr) (d3 : t'.tr = t.tr) : Back s' t' := by
  unfold Back at h ⊢
  rw [e1, e2, e3, d1, d2, d3]; exact h

/-- The start may be reordered. -/
theorem Back.start {s s' t : St} (h : Back s' t) (e1 : s'.n = s.n) (e2 : Same s.n s'.arr s.arr) (e3 : s'.tr = s.tr) : Back s t := by
  obtain ⟨h0, ext, h1, h2⟩ := h
  refine ⟨h0, ext, h1.trans (by rw [e3]), fun arr ha => ?_⟩
  obtain ⟨p1, p2⟩ := h2 arr ha
  rw [e1] at p1 p2
  exact ⟨p1, p2.trans e2⟩

theorem back_arr {s t : St} (h : Back s t) : (back s t).n = s.n ∧ Same s.n (back s t).arr s.arr ∧ (back s t).tr = s.tr := by
  obtain ⟨_, ext, h1, h2⟩ := h
  have hl : t.tr.length - s.tr.length = ext.length := by rw [h1]; simp
  have e1 : t.tr.take (t.tr.length - s.tr.length) = ext := by rw [hl, h1]; simp
  have e2 : t.tr.drop (t.tr.length - s.tr.length) = s.tr := by rw [hl, h1]; simp
  unfold back
  rw [e1, e2]
  obtain ⟨p1, p2⟩ := h2 t.arr (.refl _ _)
  exact ⟨p1, p2, rfl⟩

theorem Back.trans {a b d : St} (h : Back a b) (h' : Back b d) : Back a d := by
  obtain ⟨h0, e1, h1, h2⟩ := h
  obtain ⟨g0, e2, g1, g2⟩ := h'
  refine ⟨g0, e2 ++ e1, by rw [g1, h1, List.append_assoc], fun arr ha => ?_⟩
  obtain ⟨p1, p2⟩ := g2 arr ha
  have hu : ∀ (e2 e1 : List Undo) n arr, undo (e2 ++ e1) n arr = undo e1 (undo e2 n arr).1 (undo e2 n arr).2 := by
    intro e2
    induction e2 with
    | nil => intro e1 n arr; rfl
    | cons x e2 ih => intro e1 n arr; cases x <;> exact ih _ _ _
  rw [hu, p1]
  exact h2 _ p2

/-- A reordering. -/
theorem back_swap {s : St} {arr : List Nat} {seed : Nat} (hs : s.n ≤ s.arr.length) (h : Same s.n arr s.arr) : Back s { s with arr := arr, seed := seed } :=
  ⟨by rw [h.length]; exact hs, [], rfl, fun a ha => ⟨rfl, ha.trans h⟩⟩

/-! ### The loops -/

theorem scan_spec (c : Cfg) (o : Opt) (s : Store) (n : Nat) : ∀ (k p : Nat) (arr : List Nat) (res : Option Nat) (ng : Nat),
    k + p = n → n ≤ arr.length → (∀ e, res = some e → e < p ∧ (s (arr.getD e 0)).ground = false) →
    (res = none → ∀ i, i < p → (s (arr.getD i 0)).ground = true) → ng = ((arr.take p).filter (fun y => (s y).ground)).length →
    Same n (scan c o s k p arr res ng).1 arr ∧
    (∀ e, (scan c o s k p arr res ng).2.1 = some e → e < n ∧ (s ((scan c o s k p arr res ng).1.getD e 0)).ground = false) ∧
    ((scan c o s k p arr res ng).2.1 = none → ∀ i, i < n → (s (arr.getD i 0)).ground = true) ∧
    (scan c o s k p arr res ng).2.2 = ((arr.take n).filter (fun y => (s y).ground)).length := by
  intro k
  induction k with
  | zero =>
    intro p arr res ng hk hn hr hz hg
    have : p = n := by omega
    subst this
    exact ⟨.refl _ _, hr, hz, hg⟩
  | succ k ih =>
    intro p arr res ng hk hn hr hz hg
    have hp : p < arr.length := by omega
    have htake : arr.take (p + 1) = arr.take p ++ [arr.getD p 0] := by
      rw [List.take_add_one]; simp [hp]
    unfold scan
    dsimp only
    by_cases hgr : (s (arr.getD p 0)).ground = true
    · rw [if_pos hgr]
      refine ih (p + 1) arr res (ng + 1) (by omega) hn (fun e he => ⟨by have := (hr e he).1; omega, (hr e he).2⟩) (fun h i hi => ?_) ?_
      · by_cases hip : i = p
        · rw [hip]; exact hgr
        · exact hz h i (by omega)
      · rw [htake, List.filter_append, hg, List.filter_cons_of_pos (p := fun y => (s y).ground) hgr]; simp
    · have hgf : (s (arr.getD p 0)).ground = false := by simpa using hgr
      have hcount : ng = ((arr.take (p + 1)).filter (fun y => (s y).ground)).length := by
        rw [htake, List.filter_append, hg, List.filter_cons_of_neg (p := fun y => (s y).ground) hgr]; simp
      rw [if_neg hgr]
      cases res with
      | none =>
        dsimp only
        exact ih (p + 1) arr (some p) ng (by omega) hn (fun e he => by cases he; exact ⟨by omega, hgf⟩) (fun h => by cases h) hcount
      | some e =>
        dsimp only
        obtain ⟨he1, he2⟩ := hr e rfl
        by_cases hb : better c o s (arr.getD e 0) (arr.getD p 0) = true
        · rw [if_pos hb]
          by_cases hro : o.reorder = true
          · rw [if_pos hro]
            have hsw : Same (p + 1) (swap arr e p) arr := swap_same (by omega) (by omega) (by omega)
            obtain ⟨i1, i2, i3, i4⟩ := ih (p + 1) (swap arr e p) (some e) ng (by omega) (by rw [swap_length]; exact hn)
              (fun e' he' => by
                cases he'
                refine ⟨by omega, ?_⟩
                have : (swap arr e p).getD e 0 = arr.getD p 0 := by
                  unfold swap
                  rw [List.getD_eq_getElem?_getD, List.getElem?_set_ne (by omega), List.getElem?_set_self (by omega)]
                  rfl
                rw [this]; exact hgf)
              (fun h => by cases h)
              (by rw [hcount]; exact (hsw.1.filter _).length_eq.symm)
            have hsw' := hsw.mono (show p + 1 ≤ n by omega)
            refine ⟨i1.trans hsw', i2, fun h i hi => ?_, ?_⟩
            · have := i3 h
              have hall : ∀ y ∈ (swap arr e p).take n, (s y).ground = true := by
                intro y hy
                obtain ⟨j, hj, e⟩ := List.mem_take_iff_getElem.1 hy
                have := this j (by omega)
                rw [List.getD_eq_getElem?_getD, List.getElem?_eq_getElem (by omega), Option.getD_some, e] at this
                exact this
              refine hall _ ((hsw'.mem _).2 ?_)
              exact List.mem_take_iff_getElem.2 ⟨i, by omega, by simp [show i < arr.length by omega]⟩
            · rw [i4]; exact (hsw'.1.filter _).length_eq
          · rw [if_neg hro]
            exact ih (p + 1) arr (some p) ng (by omega) hn (fun e he => by cases he; exact ⟨by omega, hgf⟩) (fun h => by cases h) hcount
        · rw [if_neg hb]
          exact ih (p + 1) arr (some e) ng (by omega) hn (fun e' he => by cases he; exact ⟨by omega, he2⟩) (fun h => by cases h) hcount

/-- What the choice of a variable does. -/
structure PickOk (s : St) (r : St × Option Nat) : Prop where
  q : r.1.q = s.q
  back : Back s r.1
  /-- Nothing is lost. -/
  empty : r.2 = none → ∀ y ∈ s.arr.take s.n, (s.q.dom y).ground = true
  var : ∀ x, r.2 = some x → x ∈ s.arr.take s.n ∧ (s.q.dom x).ground = false ∧
    (∀ y ∈ r.1.arr.take r.1.n, y ∈ s.arr.take s.n) ∧
    ∀ y ∈ s.arr.take s.n, (s.q.dom y).ground = false → y = x ∨ y ∈ r.1.arr.take r.1.n
  same : r.2 = none → ∀ y, y ∈ r.1.arr.take r.1.n ↔ y ∈ s.arr.take s.n

theorem getD_mem_take {l : List Nat} {i n : Nat} (h : i < n) (hn : n ≤ l.length) : l.getD i 0 ∈ l.take n :=
  List.mem_take_iff_getElem.2 ⟨i, by omega, by simp [show i < l.length by omega]⟩

theorem pickRandom_ok (o : Opt) (hr : ∀ k n, 0 < n → o.rnd k n < n) (s : St) : ∀ (n : Nat) (t : St), t.q = s.q → t.n = s.n → t.tr = s.tr →
    n ≤ s.n → s.n ≤ t.arr.length → Same s.n t.arr s.arr →
    (∀ y ∈ t.arr.take s.n, (s.q.dom y).ground = false → y ∈ t.arr.take n) → PickOk s (pickRandom o n t) := by
  intro n
  induction n with
  | zero =>
    intro t hq hn htr _ hlen hsame hall
    have hb : Back s t := ⟨by omega, [], htr, fun a ha => ⟨hn, by rw [hn] at ha; exact ha.trans hsame⟩⟩
    have hnone : ∀ y ∈ s.arr.take s.n, (s.q.dom y).ground = true := by
      intro y hy
      cases hg : (s.q.dom y).ground with
      | true => rfl
      | false => exact absurd (hall y ((hsame.mem y).2 hy) hg) (by simp)
    refine ⟨hq, hb, fun _ => hnone, fun x h => by simp [pickRandom] at h, fun _ y => ?_⟩
    show y ∈ t.arr.take t.n ↔ _
    rw [hn]
    exact hsame.mem y
  | succ n ih =>
    intro t hq hn htr hle hlen hsame hall
    unfold pickRandom
    dsimp only
    have hi := hr t.seed (n + 1) (by omega)
    generalize o.rnd t.seed (n + 1) = i at hi
    have hsw : Same (n + 1) (swap t.arr i n) t.arr := swap_same hi (by omega) (by omega)
    have hsw' := hsw.mono hle
    have hlast : (swap t.arr i n).take (n + 1) = (swap t.arr i n).take n ++ [t.arr.getD i 0] := by
      rw [List.take_add_one, List.getElem?_eq_getElem (by rw [swap_length]; omega)]
      simp only [Option.toList]
      congr 2
      unfold swap
      rw [List.getElem_set_self]
    by_cases hg : (t.q.dom (t.arr.getD i 0)).ground = true
    · rw [if_pos hg]
      rw [hq] at hg
      refine ih _ hq hn htr (by omega) (by rw [swap_length]; exact hlen) (hsw'.trans hsame) (fun y hy hgy => ?_)
      have h1 := (hsw.mem y).2 (hall y ((hsw'.mem y).1 hy) hgy)
      rw [hlast] at h1
      rcases List.mem_append.1 h1 with h2 | h2
      · exact h2
      · rw [List.mem_singleton] at h2
        rw [h2] at hgy; rw [hgy] at hg; cases hg
    · rw [if_neg hg]
      have hgf : (s.q.dom (t.arr.getD i 0)).ground = false := by rw [← hq]; simpa using hg
      refine ⟨hq, ⟨(by show n ≤ (swap t.arr i n).length; rw [swap_length]; omega), [.cnt t.n], (by rw [← htr]; rfl), fun a ha => ⟨hn, ?_⟩⟩,
        fun h => (by cases h), fun x h => ?_, fun h => (by cases h)⟩
      · exact (Same.mono ha (show n ≤ s.n by omega)).trans (hsw'.trans hsame)
      · cases h
        refine ⟨(hsame.mem _).1 (getD_mem_take (by omega) hlen), hgf, fun y hy => ?_, fun y hy hgy => ?_⟩
        · have hy : y ∈ (swap t.arr i n).take n := hy
          have h1 : y ∈ (swap t.arr i n).take (n + 1) := by rw [hlast]; exact List.mem_append_left _ hy
          have h2 : y ∈ t.arr.take s.n := by
            have := (hsw.mem y).1 h1
            exact List.mem_of_mem_take (i := n + 1) (by rw [List.take_take, Nat.min_eq_left hle]; exact this)
          exact (hsame.mem y).1 h2
        · have h1 := (hsw.mem y).2 (hall y ((hsame.mem y).2 hy) hgy)
          rw [hlast] at h1
          rcases List.mem_append.1 h1 with h2 | h2
          · exact Or.inr h2
          · exact Or.inl (List.mem_singleton.1 h2)

theorem pack_spec {s : St} {ng : Nat} (hs : s.n ≤ s.arr.length) (hng : ng = ((s.arr.take s.n).filter (fun y => (s.q.dom y).ground)).length) :
    Back s (pack s ng) ∧ (pack s ng).arr.take (pack s ng).n = (s.arr.take s.n).filter (fun y => !(s.q.dom y).ground) ∧
    ∀ e, e < s.n → (s.q.dom (s.arr.getD e 0)).ground = false → (pack s ng).arr.getD e 0 ∈ (s.arr.take s.n).filter (fun y => !(s.q.dom y).ground) := by
  have hlen : ((s.arr.take s.n).filter (fun y => !(s.q.dom y).ground)).length = s.n - ng := by
    have h1 : (s.arr.take s.n).length = s.n := by simp; omega
    have hf : ∀ l : List Nat, l.length = (l.filter (fun y => (s.q.dom y).ground)).length + (l.filter (fun y => !(s.q.dom y).ground)).length := by
      intro l
      induction l with
      | nil => rfl
      | cons a l ih => cases h : (s.q.dom a).ground <;> simp [List.filter_cons, h] <;> omega
    have := hf (s.arr.take s.n)
    rw [h1] at this
    omega
  have hng' : ng ≤ s.n := by
    have := List.length_filter_le (fun y => (s.q.dom y).ground) (s.arr.take s.n)
    rw [← hng, List.length_take] at this
    omega
  refine ⟨⟨?_, [.pack s.n (s.arr.take (s.n - ng))], rfl, fun a ha => ⟨rfl, ?_⟩⟩, ?_, fun e he hg => ?_⟩
  · show s.n - ng ≤ (_ ++ _ : List Nat).length
    rw [List.length_append, hlen]; omega
  · obtain ⟨_, h2⟩ := ha
    show Same s.n (s.arr.take (s.n - ng) ++ a.drop (s.arr.take (s.n - ng)).length) s.arr
    have e1 : (s.arr.take (s.n - ng)).length = s.n - ng := by simp; omega
    have e2 : a.drop (s.n - ng) = s.arr.drop (s.n - ng) := by
      have h3 : a.drop (s.n - ng) = (((s.arr.take s.n).filter (fun y => !(s.q.dom y).ground)) ++ s.arr.drop (s.n - ng)).drop (s.n - ng) := h2
      rw [h3, List.drop_append_of_le_length (by omega), List.drop_eq_nil_of_le (by omega), List.nil_append]
    rw [e1, e2, List.take_append_drop]
    exact .refl _ _
  · show (((s.arr.take s.n).filter (fun y => !(s.q.dom y).ground)) ++ s.arr.drop (s.n - ng)).take (s.n - ng) = _
    rw [List.take_append_of_le_length (by omega), List.take_of_length_le (by omega)]
  · show (((s.arr.take s.n).filter (fun y => !(s.q.dom y).ground)) ++ s.arr.drop (s.n - ng)).getD e 0 ∈ _
    by_cases h : e < s.n - ng
    · rw [List.getD_eq_getElem?_getD, List.getElem?_append_left (by omega), List.getElem?_eq_getElem (by omega), Option.getD_some]
      exact List.getElem_mem _
    · rw [List.getD_eq_getElem?_getD, List.getElem?_append_right (by omega), hlen, List.getElem?_drop,
        show s.n - ng + (e - (s.n - ng)) = e by omega, ← List.getD_eq_getElem?_getD]
      exact List.mem_filter.2 ⟨getD_mem_take he hs, by rw [hg]; rfl⟩

theorem pick_ok (c : Cfg) (o : Opt) (hr : ∀ k n, 0 < n → o.rnd k n < n) (s : St) (hs : s.n ≤ s.arr.length) : PickOk s (pick c o s) := by
  unfold pick
  by_cases h0 : s.n = 0
  · rw [if_pos h0]
    exact ⟨rfl, Back.refl hs, fun _ y hy => (by rw [h0] at hy; simp at hy), fun x h => (by cases h), fun _ y => Iff.rfl⟩
  · rw [if_neg h0]
    have key : PickOk s (pickBest c o s) := by
      unfold pickBest
      obtain ⟨h1, h2, h3, h4⟩ := scan_spec c o s.q.dom s.n s.n 0 s.arr none 0 rfl hs (fun e h => by cases h) (fun _ i hi => by omega) rfl
      generalize scan c o s.q.dom s.n 0 s.arr none 0 = r at h1 h2 h3 h4
      obtain ⟨arr, res, ng⟩ := r
      dsimp only at h1 h2 h3 h4 ⊢
      have hlen : s.n ≤ arr.length := by rw [h1.length]; exact hs
      cases res with
      | none =>
        refine ⟨rfl, back_swap hs h1, fun _ y hy => ?_, fun x h => (by cases h), fun _ y => h1.mem y⟩
        obtain ⟨i, hi, e⟩ := List.mem_take_iff_getElem.1 hy
        have := h3 rfl i (by omega)
        rw [List.getD_eq_getElem?_getD, List.getElem?_eq_getElem (by omega), Option.getD_some, e] at this
        exact this
      | some e =>
        obtain ⟨he, hg⟩ := h2 e rfl
        dsimp only
        by_cases hp : s.n > 50 ∧ ng ≥ s.n / 2
        · rw [if_pos hp]
          obtain ⟨p1, p2, p3⟩ := pack_spec (s := { s with arr := arr }) (ng := ng) hlen (by rw [h4]; exact (h1.1.filter _).length_eq.symm)
          refine ⟨rfl, (back_swap hs h1).trans p1, fun h => (by cases h), fun x h => ?_, fun h => by cases h⟩
          cases h
          have hx := List.mem_filter.1 (p3 e he hg)
          refine ⟨(h1.mem _).1 hx.1, by simpa using hx.2, fun y hy => ?_, fun y hy hgy => Or.inr ?_⟩
          · rw [p2] at hy
            exact (h1.mem y).1 (List.mem_filter.1 hy).1
          · rw [p2]
            exact List.mem_filter.2 ⟨(h1.mem y).2 hy, by simp only [hgy]; rfl⟩
        · rw [if_neg hp]
          refine ⟨rfl, back_swap hs h1, fun h => (by cases h), fun x h => ?_, fun h => by cases h⟩
          cases h
          exact ⟨(h1.mem _).1 (getD_mem_take he hlen), hg, fun y hy => (h1.mem y).1 hy, fun y hy _ => Or.inr ((h1.mem y).2 hy)⟩
    cases hv : o.var with
    | random =>
      exact pickRandom_ok o hr s s.n s rfl rfl rfl (Nat.le_refl _) hs (.refl _ _) (fun y hy _ => hy)
    | firstFail => exact key
    | mostConstrained => exact key
    | smallest => exact key
    | largest => exact key
    | maxRegret => exact key

end Gp.Label
