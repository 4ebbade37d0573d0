import Verif.Label.Ops
/- The selected values and the restrictions of the labeling. -/
namespace Gp.Label

open Gp.FdRange Gp.Fd

variable {c : Cfg} {W : Nat → Bool} {M : Nat → Int} {vs : List Nat} {us : List UserCstr}

/-- The bounds of a variable which is not instantiated. -/
theorem nground {st : QSt} (hO : Ok c W M vs us st) {x : Nat} (hg : (st.dom x).ground = false) :
    VarOk c (st.dom x) ∧ (st.dom x).tag = none ∧ Mem (st.dom x).r (st.dom x).r.min ∧ Mem (st.dom x).r (st.dom x).r.max ∧
    (st.dom x).r.min < (st.dom x).r.max ∧ (∀ n, Mem (st.dom x).r n → (st.dom x).r.min ≤ n ∧ n ≤ (st.dom x).r.max) ∧
    (st.dom x).r.max ≤ M x ∧ 0 ≤ (st.dom x).r.min := by
  obtain ⟨h1, h2, h3, h4⟩ := hO.ready.good x
  have ht := (ground_iff _).1 hg
  obtain ⟨m1, m2, m3⟩ := bounds_mem c _ h1.wf h1.ne
  exact ⟨h1, ht, m1, m2, h1.fdv ht, m3, h3, h1.nonneg⟩

/-- The value of a variable with one value. -/
theorem ground_of {v : Fdv} (hv : VarOk c v) {k : Int} (h : ∀ n : Nat, Mem v.r n → (n : Int) = k) : v.ground = true := by
  cases hg : v.ground with
  | true => rfl
  | false =>
    have ht := (ground_iff _).1 hg
    have hlt := hv.fdv ht
    have h0 := hv.nonneg
    obtain ⟨m1, m2, m3⟩ := bounds_mem c _ hv.wf hv.ne
    have a := h v.r.min.toNat (by rw [Int.toNat_of_nonneg h0]; exact m1)
    have b := h v.r.max.toNat (by rw [Int.toNat_of_nonneg (by omega)]; exact m2)
    omega

theorem ground_val {v : Fdv} (hv : VarOk c v) (hg : v.ground = true) : Mem v.r v.r.min ∧ ∀ n, Mem v.r n → n = v.r.min := by
  obtain ⟨m1, m2, m3⟩ := bounds_mem c _ hv.wf hv.ne
  refine ⟨m1, fun n hn => ?_⟩
  cases ht : v.tag with
  | none => rw [(ground_iff _).2 ht] at hg; cases hg
  | some k => have := hv.int k ht; have := m3 n hn; omega

/-- The ith value. -/
theorem ith_mem {v : Fdv} (hv : VarOk c v) {i : Int} (h1 : 1 ≤ i) (h2 : i ≤ v.nb) :
    Mem v.r (ithElem v.r i) ∧ (i < v.nb → ithElem v.r i < v.r.max) ∧ ∀ l, Listing v.r l → ithElem v.r i = l.getD (i - 1).toNat 0 := by
  have hl := elems_listing v.r hv.ne
  have hn := hv.nb _ hl
  rw [ithElem_elems v.r hv.ne, if_pos (by omega)]
  have hlt : (i - 1).toNat < (elems v.r).length := by omega
  rw [List.getElem?_eq_getElem hlt, Option.getD_some]
  refine ⟨(hl.2 _).1 (List.getElem_mem hlt), fun h3 => ?_, fun l hl' => by
    rw [listing_elems hv.ne hl', List.getD_eq_getElem?_getD, List.getElem?_eq_getElem hlt]; rfl⟩
  have hlt' : i.toNat < (elems v.r).length := by omega
  have a := (List.pairwise_iff_getElem.1 hl.1) (i - 1).toNat i.toNat hlt hlt' (by omega)
  have b := (bounds_mem c _ hv.wf hv.ne).2.2 _ ((hl.2 _).1 (List.getElem_mem hlt'))
  omega

/-- Two values. -/
theorem nb_two {v : Fdv} (hv : VarOk c v) (hlt : v.r.min < v.r.max) : 2 ≤ v.nb := by
  have hl := elems_listing v.r hv.ne
  have hn := hv.nb _ hl
  obtain ⟨m1, m2, m3⟩ := bounds_mem c _ hv.wf hv.ne
  have a := (hl.2 _).2 m1
  have b := (hl.2 _).2 m2
  match he : elems v.r, hn with
  | [], _ => rw [he] at a; cases a
  | [k], _ => rw [he] at a b; simp at a b; omega
  | _ :: _ :: _, hn => simp at hn; omega

/-- What a selected value is. -/
structure Sel (v : Fdv) (m : Val) (k : Nat) : Prop where
  mem : Mem v.r k
  min : m = .min ∨ m = .limitsMin → (k : Int) = v.r.min
  max : m = .max ∨ m = .limitsMax → (k : Int) = v.r.max
  bisect : m = .bisect → (k : Int) < v.r.max
  mid : m = .middle ∨ m = .bisect → ∀ l, Listing v.r l → (k : Int) = l.getD (l.length / 2 - 1) 0

theorem select_ok (o : Opt) (hr : ∀ k n, 0 < n → o.rnd k n < n) {s : St} (hO : Ok c W M vs us s.q) {x : Nat} (hg : (s.q.dom x).ground = false) (m : Val) :
    ∃ (k : Nat) (seed : Nat), selectValue o s x m = ((k : Int), { s with seed := seed }) ∧ Sel (s.q.dom x) m k := by
  obtain ⟨hv, ht, m1, m2, hlt, m3, hM, h0⟩ := nground hO hg
  have h2 := nb_two hv hlt
  have fin : ∀ (z : Int) (seed : Nat), selectValue o s x m = (z, { s with seed := seed }) → Mem (s.q.dom x).r z → (m = .min ∨ m = .limitsMin → z = (s.q.dom x).r.min) →
      (m = .max ∨ m = .limitsMax → z = (s.q.dom x).r.max) → (m = .bisect → z < (s.q.dom x).r.max) →
      (m = .middle ∨ m = .bisect → ∀ l, Listing (s.q.dom x).r l → z = l.getD (l.length / 2 - 1) 0) →
      ∃ (k : Nat) (seed : Nat), selectValue o s x m = ((k : Int), { s with seed := seed }) ∧ Sel (s.q.dom x) m k := by
    intro z seed e a1 a2 a3 a4 a5
    have hz := m3 z a1
    have hz' : ((z.toNat : Nat) : Int) = z := Int.toNat_of_nonneg (by omega)
    exact ⟨z.toNat, seed, by rw [hz']; exact e, by rw [hz']; exact a1, by rw [hz']; exact a2, by rw [hz']; exact a3, by rw [hz']; exact a4, by rw [hz']; exact a5⟩
  have half : (s.q.dom x).nb.tdiv 2 = (s.q.dom x).nb / 2 := Int.tdiv_eq_ediv_of_nonneg (by omega)
  have mid : ∀ l, Listing (s.q.dom x).r l → ithElem (s.q.dom x).r ((s.q.dom x).nb.tdiv 2) = l.getD (l.length / 2 - 1) 0 := by
    intro l hl
    rw [(ith_mem hv (i := (s.q.dom x).nb.tdiv 2) (by omega) (by omega)).2.2 l hl]
    have := hv.nb l hl
    congr 1
    omega
  cases m with
  | min => exact fin _ s.seed rfl m1 (fun _ => rfl) (fun h => by rcases h with h | h <;> cases h) (fun h => by cases h) (fun h => by rcases h with h | h <;> cases h)
  | limitsMin => exact fin _ s.seed rfl m1 (fun _ => rfl) (fun h => by rcases h with h | h <;> cases h) (fun h => by cases h) (fun h => by rcases h with h | h <;> cases h)
  | max => exact fin _ s.seed rfl m2 (fun h => by rcases h with h | h <;> cases h) (fun _ => rfl) (fun h => by cases h) (fun h => by rcases h with h | h <;> cases h)
  | limitsMax => exact fin _ s.seed rfl m2 (fun h => by rcases h with h | h <;> cases h) (fun _ => rfl) (fun h => by cases h) (fun h => by rcases h with h | h <;> cases h)
  | middle =>
    have := ith_mem hv (i := (s.q.dom x).nb.tdiv 2) (by omega) (by omega)
    exact fin _ s.seed rfl this.1 (fun h => by rcases h with h | h <;> cases h) (fun h => by rcases h with h | h <;> cases h) (fun h => by cases h)
      (fun _ l hl => mid l hl)
  | bisect =>
    have := ith_mem hv (i := (s.q.dom x).nb.tdiv 2) (by omega) (by omega)
    exact fin _ s.seed rfl this.1 (fun h => by rcases h with h | h <;> cases h) (fun h => by rcases h with h | h <;> cases h) (fun _ => this.2.1 (by omega))
      (fun _ l hl => mid l hl)
  | random =>
    have hk := hr s.seed (s.q.dom x).nb.toNat (by omega)
    have := ith_mem hv (i := ((o.rnd s.seed (s.q.dom x).nb.toNat : Nat) : Int) + 1) (by omega) (by omega)
    exact fin _ (s.seed + 1) rfl this.1 (fun h => by rcases h with h | h <;> cases h) (fun h => by rcases h with h | h <;> cases h) (fun h => by cases h) (fun h => by rcases h with h | h <;> cases h)

/-- The methods which never remove a value inside the domain. -/
def Val.bound (m : Val) : Prop := m ≠ .middle ∧ m ≠ .random

/-- A variable may be labelled by the method `m`. -/
def LOk (W : Nat → Bool) (M : Nat → Int) (vs : List Nat) (m : Val) (x : Nat) : Prop := x ∈ vs ∧ M x ≤ imax ∧ (W x = false ∨ m.bound)

theorem OpOk.mono {st : QSt} {x : Nat} {P Q : Nat → Prop} {ok : Bool} {st' : QSt} (h : OpOk c W M vs us st x P ok st')
    (hPQ : ∀ n : Nat, Mem (st.dom x).r n → (P n ↔ Q n)) : OpOk c W M vs us st x Q ok st' where
  notIn := h.notIn
  sub := h.sub
  ground := h.ground
  told := fun hok n hn => (hPQ n (h.sub x n hn)).1 (h.told hok n hn)
  next := h.next
  keep := fun σ hk hq => h.keep σ hk ((hPQ _ (hk.below x _ rfl)).2 hq)
  size := fun hok ⟨n, h1, h2⟩ => h.size hok ⟨n, h1, fun hp => h2 ((hPQ n h1).1 hp)⟩

/-- The assignment of a selected value. -/
theorem assign_ok (hc : c.Ok) {st : QSt} (hO : Ok c W M vs us st) {x k : Nat} (hx : x ∈ vs) (hg : (st.dom x).ground = false)
    (hm : Mem (st.dom x).r k) :
    ∃ n0 ok st', (∀ n, n0 ≤ n → assign c n st x k = some (ok, st')) ∧ OpOk c W M vs us st x (fun n => n = k) ok st' := by
  obtain ⟨hv, _⟩ := nground hO hg
  obtain ⟨n0, ok, st', h1, h2⟩ := op_ok hc hO hx (op := .value k) trivial
  refine ⟨n0, ok, st', fun n hn => ?_, h2.mono (fun n _ => ?_)⟩
  · rw [assign_tell c n st x k hg ((testValue_mem c _ hv.wf _).2 hm)]
    exact h1 n hn
  · show (n : Int) = k ↔ n = k
    omega

/-- The removal of a selected value. -/
theorem remove_ok (hc : c.Ok) {st : QSt} (hO : Ok c W M vs us st) {x k : Nat} {m : Val} (hx : LOk W M vs m x) (hg : (st.dom x).ground = false)
    (hs : Sel (st.dom x) m k) (hb : m ≠ .bisect) :
    ∃ n0 ok st', (∀ n, n0 ≤ n → tellOp c n st x (.notValue k) = some (ok, st')) ∧ OpOk c W M vs us st x (fun n => n ≠ k) ok st' := by
  obtain ⟨hv, ht, m1, m2, hlt, m3, hM, h0⟩ := nground hO hg
  obtain ⟨h1, h2, h3⟩ := hx
  rcases h3 with hw | hw
  · obtain ⟨n0, ok, st', p1, p2⟩ := op_ok hc hO h1 (op := .notValue k) hw
    refine ⟨n0, ok, st', p1, p2.mono (fun n _ => ?_)⟩
    show (n : Int) ≠ k ↔ n ≠ k
    omega
  · have hE := (hO.ready.good x).2
    obtain ⟨b1, b2⟩ := not_bound hc hv ht hE.1 (hE.2.2.imp id (fun h => h.2)) (by omega)
    have hk : (k : Int) = (st.dom x).r.min ∨ (k : Int) = (st.dom x).r.max := by
      cases m with
      | min => exact Or.inl (hs.min (Or.inl rfl))
      | limitsMin => exact Or.inl (hs.min (Or.inr rfl))
      | max => exact Or.inr (hs.max (Or.inl rfl))
      | limitsMax => exact Or.inr (hs.max (Or.inr rfl))
      | middle => exact absurd rfl hw.1
      | random => exact absurd rfl hw.2
      | bisect => exact absurd rfl hb
    rcases hk with hk | hk
    · obtain ⟨n0, ok, st', p1, p2⟩ := op_ok hc hO h1 (op := .interval ((st.dom x).r.min + 1) imax) (show -2147483648 < (st.dom x).r.min + 1 by omega)
      refine ⟨n0, ok, st', fun n hn => ?_, p2.mono (fun n hn => ?_)⟩
      · rw [hk, tellOp_congr c n st x _ _ b1]; exact p1 n hn
      · have := m3 n hn
        show (st.dom x).r.min + 1 ≤ n ∧ (n : Int) ≤ imax ↔ n ≠ k
        omega
    · obtain ⟨n0, ok, st', p1, p2⟩ := op_ok hc hO h1 (op := .interval 0 ((st.dom x).r.max - 1)) (show (-2147483648 : Int) < 0 by omega)
      refine ⟨n0, ok, st', fun n hn => ?_, p2.mono (fun n hn => ?_)⟩
      · rw [hk, tellOp_congr c n st x _ _ b2]; exact p1 n hn
      · have := m3 n hn
        show (0 : Int) ≤ n ∧ (n : Int) ≤ (st.dom x).r.max - 1 ↔ n ≠ k
        omega

/-- The two parts of a bisection. -/
theorem bisect_ok (hc : c.Ok) {st : QSt} (hO : Ok c W M vs us st) {x k : Nat} {m : Val} (hx : LOk W M vs m x) (hg : (st.dom x).ground = false) :
    (∃ n0 ok st', (∀ n, n0 ≤ n → tellOp c n st x (.interval 0 k) = some (ok, st')) ∧ OpOk c W M vs us st x (fun n => n ≤ k) ok st') ∧
    ∃ n0 ok st', (∀ n, n0 ≤ n → tellOp c n st x (.interval (k + 1) imax) = some (ok, st')) ∧ OpOk c W M vs us st x (fun n => k < n) ok st' := by
  obtain ⟨hv, ht, m1, m2, hlt, m3, hM, h0⟩ := nground hO hg
  obtain ⟨h1, h2, _⟩ := hx
  constructor
  · obtain ⟨n0, ok, st', p1, p2⟩ := op_ok hc hO h1 (op := .interval 0 k) (show (-2147483648 : Int) < 0 by omega)
    refine ⟨n0, ok, st', p1, p2.mono (fun n hn => ?_)⟩
    show (0 : Int) ≤ n ∧ (n : Int) ≤ k ↔ n ≤ k
    omega
  · obtain ⟨n0, ok, st', p1, p2⟩ := op_ok hc hO h1 (op := .interval (k + 1) imax) (show (-2147483648 : Int) < k + 1 by omega)
    refine ⟨n0, ok, st', p1, p2.mono (fun n hn => ?_)⟩
    have := m3 n hn
    show (k + 1 : Int) ≤ n ∧ (n : Int) ≤ imax ↔ k < n
    omega

end Gp.Label
