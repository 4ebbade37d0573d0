import Verif.Optim.Model
import Verif.Label.Props
/- Lemmas for fd_minimize, fd_maximize. -/
namespace Gp.Optim

open Gp.FdRange Gp.Fd Gp.Label

variable {c : Cfg} {W : Nat → Bool} {M : Nat → Int} {us : List UserCstr} {xs : List Nat} {o : Label.Opt}

/-- The labeling of a list. -/
structure LRes (c : Cfg) (W : Nat → Bool) (M : Nat → Int) (us : List UserCstr) (xs : List Nat) (q : QSt) (l : List QSt) (t : QSt) : Prop where
  notIn : ∀ y, t.inQ y = false
  ok : ∀ a ∈ l, Ok c W M xs us a ∧ Sub a.dom q.dom ∧ ∀ x ∈ xs, (a.dom x).ground = true
  complete : ∀ σ, Keep c W M σ q → ∃ a ∈ l, Keep c W M σ a
  nodup : (l.map (answer xs)).Nodup

theorem label_ok (hc : c.Ok) (hr : ∀ k n, 0 < n → o.rnd k n < n) (hV : ∀ x ∈ xs, LOk W M xs o.val x) (std : Bool) (seed : Nat) {q : QSt}
    (hO : Ok c W M xs us q) :
    ∃ n1 l t, (∀ n, n1 ≤ n → labeling c o std n q xs seed = some (l, t)) ∧ LRes c W M us xs q l t.q := by
  have hsearch : ∃ s0 ctl, s0.q = q ∧ (∀ n, labeling c o std n q xs seed = search c o n .label s0 ctl) ∧
      (ctl = .std xs ∨ ctl = .mth) ∧ Inv c W M xs us xs s0 none ctl := by
    cases std with
    | true =>
      exact ⟨⟨q, 0, [], [], seed⟩, .std xs, rfl, fun n => (by unfold labeling; rw [if_pos rfl]), Or.inl rfl, hO, Nat.le_refl _, fun _ h => (by cases h),
        fun y hy => hy⟩
    | false =>
      refine ⟨⟨q, (selArray q.dom xs).length, selArray q.dom xs, [], seed⟩, .mth, rfl, fun n => (by unfold labeling; rw [if_neg (by simp)]),
        Or.inr rfl, hO, Nat.le_refl _, fun _ h => (by cases h), fun y hy => ?_, fun y hy => ?_⟩
      · simp only [List.take_length] at hy
        exact (List.mem_filter.1 hy).1
      · simp only [List.take_length]
        cases hg : (q.dom y).ground with
        | true => exact Or.inr (Or.inl rfl)
        | false => exact Or.inl (List.mem_filter.2 ⟨hy, by simp [hg]⟩)
  obtain ⟨s0, ctl, e0, e1, e3, hinv⟩ := hsearch
  obtain ⟨n1, ⟨l, t⟩, r1, r2⟩ := (below hc hr hV (size xs s0.q.dom + 1) s0 ctl (by omega)).1 hinv
  refine ⟨n1, l, t, fun n hn => by rw [e1]; exact r1 n hn, r2.notIn, fun a ha => ?_, fun σ hk => ?_, ?_⟩
  · obtain ⟨a1, a2, a3, _⟩ := r2.ok a ha
    rw [e0] at a2
    refine ⟨a1, a2, fun x hx => ?_⟩
    rcases e3 with e3 | e3
    · rw [e3] at a3; exact a3 x (Or.inl hx)
    · rw [e3] at a3; exact a3 x hx
  · exact r2.complete σ (by rw [e0]; exact hk) (fun _ h => by cases h)
  · refine List.pairwise_map.2 (r2.pw.imp (fun {a b} hd => ?_))
    rcases e3 with e3 | e3
    · rw [e3] at hd
      exact lex_ne (fun z hz => ordR_ne hz rfl) (lex_answer hd)
    · rw [e3] at hd
      obtain ⟨y, hy, hne⟩ := hd
      intro he
      exact hne (List.map_inj_left.1 he y hy)

/-- A test of an instantiated variable. -/
theorem test_ok {vs : List Nat} {q : QSt} (hO : Ok c W M vs us q) {x : Nat} {P : Nat → Prop} {b : Bool} (hg : (q.dom x).ground = true)
    (hb : b = true ↔ P (q.dom x).r.min.toNat) : OpOk c W M vs us q x P b q := by
  have hv := ground_val (hO.ready.good x).1 hg
  have hn : ∀ n : Nat, Mem (q.dom x).r n → n = (q.dom x).r.min.toNat := fun n h => by have := hv.2 _ h; omega
  refine ⟨hO.ready.notIn, fun _ _ h => h, fun _ h => h, fun ok n h => ?_, fun _ => hO, fun σ hk hP => ⟨?_, hk⟩, fun ok ⟨n, h1, h2⟩ => ?_⟩
  · rw [hn n h]; exact hb.1 ok
  · refine hb.2 ?_
    rw [← hn (σ x) (hk.below x _ rfl)]; exact hP
  · exact absurd (by rw [hn n h1]; exact hb.1 ok) h2

theorem dom_ok (hc : c.Ok) {vs : List Nat} {q : QSt} (hO : Ok c W M vs us q) {x : Nat} (hx : x ∈ vs) (a b : Int) (ha : 0 ≤ a) :
    ∃ n0 ok q', (∀ n, n0 ≤ n → domInterval c n q x a b = some (ok, q')) ∧ OpOk c W M vs us q x (fun n => a ≤ n ∧ (n : Int) ≤ b) ok q' := by
  unfold domInterval
  cases hg : (q.dom x).ground with
  | true =>
    refine ⟨0, _, q, fun n _ => by rw [if_pos rfl], test_ok hO hg ?_⟩
    have h0 := (hO.ready.good x).1.nonneg
    rw [decide_eq_true_iff, Int.toNat_of_nonneg h0]
  | false =>
    obtain ⟨n0, ok, q', h1, h2⟩ := op_ok hc hO hx (op := .interval a b) (show -2147483648 < a by omega)
    exact ⟨n0, ok, q', fun n hn => by rw [if_neg (by simp)]; exact h1 n hn, h2⟩

theorem unify_ok (hc : c.Ok) {vs : List Nat} {q : QSt} (hO : Ok c W M vs us q) {x : Nat} (hx : x ∈ vs) (b : Int) :
    ∃ n0 ok q', (∀ n, n0 ≤ n → unifyInt c n q x b = some (ok, q')) ∧ OpOk c W M vs us q x (fun n => (n : Int) = b) ok q' := by
  unfold unifyInt
  cases hg : (q.dom x).ground with
  | true =>
    refine ⟨0, _, q, fun n _ => by rw [if_pos rfl], test_ok hO hg ?_⟩
    have h0 := (hO.ready.good x).1.nonneg
    rw [decide_eq_true_iff, Int.toNat_of_nonneg h0]
  | false =>
    obtain ⟨n0, ok, q', h1, h2⟩ := op_ok hc hO hx (op := .value b) trivial
    exact ⟨n0, ok, q', fun n hn => by rw [if_neg (by simp)]; exact h1 n hn, h2⟩

theorem restore_ok {vs : List Nat} {q t : QSt} (hO : Ok c W M vs us q) (hn : ∀ y, t.inQ y = false) : Ok c W M vs us (restore q t) where
  ready := ⟨hO.ready.good, hO.ready.frames, hO.ready.ids, hO.ready.wired, hO.ready.date, hn, hO.ready.settled⟩
  noSwt := hO.noSwt
  user := hO.user
  posted := fun u hu => ⟨⟨(hO.posted u hu).1.frames, (hO.posted u hu).1.nodeps⟩, (hO.posted u hu).2⟩

theorem restore_keep {q t : QSt} {σ : Nat → Nat} : Keep c W M σ (restore q t) ↔ Keep c W M σ q :=
  ⟨fun h => ⟨h.inh, h.below, h.frames⟩, fun h => ⟨h.inh, h.below, h.frames⟩⟩

/-- A constraint on `x` followed by the goal. -/
structure GRes (c : Cfg) (W : Nat → Bool) (M : Nat → Int) (us : List UserCstr) (xs : List Nat) (q : QSt) (x : Nat) (P : Nat → Prop) (l : List QSt) (t : QSt) : Prop where
  notIn : ∀ y, t.inQ y = false
  ok : ∀ a ∈ l, Ok c W M xs us a ∧ Sub a.dom q.dom ∧ (∀ x ∈ xs, (a.dom x).ground = true) ∧ ∀ n : Nat, Mem (a.dom x).r n → P n
  complete : ∀ σ, Keep c W M σ q → P (σ x) → ∃ a ∈ l, Keep c W M σ a
  nodup : (l.map (answer xs)).Nodup

theorem goal_ok (hc : c.Ok) (hr : ∀ k n, 0 < n → o.rnd k n < n) (hV : ∀ x ∈ xs, LOk W M xs o.val x) (std : Bool) (seed : Nat) {q q' : QSt} {x : Nat}
    {P : Nat → Prop} {ok : Bool} (h : OpOk c W M xs us q x P ok q') :
    ∃ n1 l t, (∀ n, n1 ≤ n → callGoal c o std n xs seed (some (ok, q')) = some (l, t)) ∧ GRes c W M us xs q x P l t := by
  cases ok with
  | false =>
    refine ⟨0, [], q', fun _ _ => rfl, h.notIn, fun a ha => (by cases ha), fun σ hk hP => ?_, .nil⟩
    have := (h.keep σ hk hP).1
    cases this
  | true =>
    obtain ⟨n1, l, t, h1, h2⟩ := label_ok hc hr hV std seed (h.next rfl)
    refine ⟨n1, l, t.q, fun n hn => by simp only [callGoal, h1 n hn], h2.notIn, fun a ha => ?_, fun σ hk hP => h2.complete σ (h.keep σ hk hP).2, h2.nodup⟩
    obtain ⟨a1, a2, a3⟩ := h2.ok a ha
    exact ⟨a1, fun v n hn => h.sub v n (a2 v n hn), a3, fun n hn => h.told rfl n (a2 x n hn)⟩

/-! ### The loop -/

/-- `n` is better than the bound `b`. -/
def Better : Dir → Int → Int → Prop
  | .min, b, n => n < b
  | .max, b, n => b < n

/-- The bounds for which the constraint is right. -/
def Fine : Dir → Int → Prop
  | .min, b => 0 ≤ b ∧ b ≤ imax
  | .max, b => 0 ≤ b ∧ b < imax

/-- What decreases. -/
def rank : Dir → Int → Nat
  | .min, b => b.toNat
  | .max, b => (imax - b).toNat

theorem rank_lt {d : Dir} {b n : Int} (hb : Fine d b) (hn : Fine d n) (h : Better d b n) : rank d n < rank d b := by
  cases d
  · have h : n < b := h
    have h1 : 0 ≤ n := hn.1
    show n.toNat < b.toNat
    omega
  · have h : b < n := h
    have h1 : n < imax := hn.2
    show (imax - n).toNat < (imax - b).toNat
    omega

theorem restrict_ok (hc : c.Ok) (d : Dir) {vs : List Nat} {q : QSt} (hO : Ok c W M vs us q) {x : Nat} (hx : x ∈ vs) (hM : M x ≤ 268435455) {b : Int} (hb : Fine d b) :
    ∃ n0 ok q', (∀ n, n0 ≤ n → d.restrict c n q x b = some (ok, q')) ∧ OpOk c W M vs us q x (fun n => Better d b n) ok q' := by
  have hi : imax = 268435455 := rfl
  have hle : ∀ n : Nat, Mem (q.dom x).r n → (n : Int) ≤ M x := fun n hn =>
    Int.le_trans ((bounds_mem c _ (hO.ready.good x).1.wf (hO.ready.good x).1.ne).2.2 _ hn).2 (hO.ready.good x).2.2.1
  cases d with
  | min =>
    obtain ⟨h0, h1⟩ := hb
    have e : ∀ n, Dir.restrict .min c n q x b = domInterval c n q x 0 (b - 1) := by
      intro n
      have e0 : toValue 0 = 0 := by unfold toValue; rw [if_neg (by omega), if_neg (by omega)]
      have e1 : toValue (b - 1) = b - 1 := by unfold toValue; rw [if_neg (by omega), if_neg (by omega)]
      show fdDomain c n q x 0 (b - 1) = _
      unfold fdDomain
      rw [e0, e1, if_neg (by omega)]
    obtain ⟨n0, ok, q', p1, p2⟩ := dom_ok hc hO hx 0 (b - 1) (by omega)
    refine ⟨n0, ok, q', fun n hn => by rw [e]; exact p1 n hn, p2.mono (fun n _ => ?_)⟩
    show (0 : Int) ≤ n ∧ (n : Int) ≤ b - 1 ↔ (n : Int) < b
    omega
  | max =>
    obtain ⟨h0, h1⟩ := hb
    have e : ∀ n, Dir.restrict .max c n q x b = domInterval c n q x (b + 1) imax := by
      intro n
      have e0 : toValue imax = imax := by unfold toValue; rw [if_neg (by omega), if_neg (by omega)]
      have e1 : toValue (b + 1) = b + 1 := by unfold toValue; rw [if_neg (by omega), if_neg (by omega)]
      show fdDomain c n q x (b + 1) imax = _
      unfold fdDomain
      rw [e0, e1, if_neg (by omega)]
    obtain ⟨n0, ok, q', p1, p2⟩ := dom_ok hc hO hx (b + 1) imax (by omega)
    refine ⟨n0, ok, q', fun n hn => by rw [e]; exact p1 n hn, p2.mono (fun n hn => ?_)⟩
    have := hle n hn
    show b + 1 ≤ (n : Int) ∧ (n : Int) ≤ imax ↔ b < (n : Int)
    omega

/-- The values of an answer. -/
def vals (a : QSt) (v : Nat) : Nat := (a.dom v).r.min.toNat

theorem read_eq (d : Dir) {vs : List Nat} {a : QSt} (ha : Ok c W M vs us a) {x : Nat} (hg : (a.dom x).ground = true) : d.read a x = vals a x ∧ Mem (a.dom x).r (vals a x) := by
  have hv := (ha.ready.good x).1
  have h := ground_val hv hg
  obtain ⟨m1, m2, _⟩ := bounds_mem c _ hv.wf hv.ne
  have e := h.2 _ m2
  have h0 := hv.nonneg
  have e2 : ((vals a x : Nat) : Int) = (a.dom x).r.min := Int.toNat_of_nonneg h0
  rw [e2]
  cases d
  · exact ⟨rfl, m1⟩
  · exact ⟨e, m1⟩

/-- What the loop gives: the solutions with the best value `b`. -/
def Best (c : Cfg) (W : Nat → Bool) (M : Nat → Int) (us : List UserCstr) (xs : List Nat) (d : Dir) (x : Nat) (q : QSt) (l : List QSt) : Prop :=
  ∃ b : Int, (∀ σ, Keep c W M σ q → ¬ Better d b (σ x)) ∧ (∀ a ∈ l, Ok c W M xs us a ∧ Sub a.dom q.dom ∧ (∀ y ∈ xs, (a.dom y).ground = true) ∧ (vals a x : Int) = b) ∧
    (∀ σ, Keep c W M σ q → ((σ x : Int) = b ↔ ∃ a ∈ l, Keep c W M σ a)) ∧
    ((∃ σ, Keep c W M σ q) → ∃ σ, Keep c W M σ q ∧ (σ x : Int) = b) ∧ (l.map (answer xs)).Nodup

theorem loop_ok (hc : c.Ok) (hr : ∀ k n, 0 < n → o.rnd k n < n) (hV : ∀ x ∈ xs, LOk W M xs o.val x) (std : Bool) (seeds : Nat → Nat) (d : Dir) {x : Nat} (hx : x ∈ xs)
    {q0 : QSt} (hfine : ∀ σ, Keep c W M σ q0 → Fine d (σ x))
    (hsol : ∀ a, Ok c W M xs us a → Sub a.dom q0.dom → (∀ y ∈ xs, (a.dom y).ground = true) → Keep c W M (vals a) q0) :
    ∀ N q b k, rank d b < N → Ok c W M xs us q → (∀ σ, Keep c W M σ q ↔ Keep c W M σ q0) → q.dom = q0.dom → Fine d b →
      ((∃ σ, Keep c W M σ q0 ∧ (σ x : Int) = b) ∨ ∀ σ, Keep c W M σ q0 → Better d b (σ x) ∨ (σ x : Int) = b) →
      ∃ n0 t0 l, (∀ n t, n0 ≤ n → t0 ≤ t → loop c o std xs seeds d x n t k q b = some (.answers l)) ∧ Best c W M us xs d x q0 l := by
  intro N
  induction N with
  | zero => intro q b k h; omega
  | succ N ih =>
    intro q b k hrank hO hq hdom hb hst
    obtain ⟨n0, ok, q', p1, p2⟩ := restrict_ok hc d hO hx (hV x hx).2.1 hb
    obtain ⟨n1, l, t, r1, r2⟩ := goal_ok hc hr hV std (seeds k) p2
    cases l with
    | cons a l =>
      obtain ⟨a1, a2, a3, a4⟩ := r2.ok a (List.mem_cons_self ..)
      obtain ⟨e1, e2⟩ := read_eq d a1 (a3 x hx)
      have hbet : Better d b (vals a x) := a4 _ e2
      have hk := hsol a a1 (by rw [← hdom]; exact a2) a3
      have hf := hfine _ hk
      obtain ⟨n2, t2, l', s1, s2⟩ := ih (restore q a) (d.read a x) (k + 1) (by
          rw [e1]
          have := rank_lt hb hf hbet
          omega) (restore_ok hO a1.ready.notIn) (fun σ => by rw [restore_keep]; exact hq σ) hdom (by rw [e1]; exact hf)
        (Or.inl ⟨vals a, hk, e1.symm⟩)
      refine ⟨n0 + n1 + n2, t2 + 1, l', fun n t hn ht => ?_, s2⟩
      obtain ⟨t, rfl⟩ : ∃ t', t = t' + 1 := ⟨t - 1, by omega⟩
      unfold loop
      rw [p1 n (by omega), r1 n (by omega)]
      exact s1 n t (by omega) (by omega)
    | nil =>
      have hno : ∀ σ, Keep c W M σ q → ¬ Better d b (σ x) := fun σ hk hB => by
        obtain ⟨a, ha, _⟩ := r2.complete σ hk hB
        cases ha
      obtain ⟨n2, ok2, q2, u1, u2⟩ := unify_ok hc (restore_ok hO r2.notIn) hx b
      obtain ⟨n3, l, t3, v1, v2⟩ := goal_ok hc hr hV std (seeds (k + 1)) u2
      refine ⟨n0 + n1 + n2 + n3, 1, l, fun n t' hn ht => ?_, b, fun σ hk => hno σ ((hq σ).2 hk), fun a ha => ?_, fun σ hk => ⟨fun he => ?_, fun ⟨a, ha, hka⟩ => ?_⟩,
        fun ⟨σ, hk⟩ => ?_, v2.nodup⟩
      · obtain ⟨t', rfl⟩ : ∃ t2, t' = t2 + 1 := ⟨t' - 1, by omega⟩
        unfold loop
        rw [p1 n (by omega), r1 n (by omega)]
        dsimp only
        rw [u1 n (by omega), v1 n (by omega)]
      · obtain ⟨a1, a2, a3, a4⟩ := v2.ok a ha
        exact ⟨a1, by rw [← hdom]; exact a2, a3, a4 _ (read_eq d a1 (a3 x hx)).2⟩
      · exact v2.complete σ (restore_keep.2 ((hq σ).2 hk)) he
      · obtain ⟨a1, a2, a3, a4⟩ := v2.ok a ha
        exact a4 _ (hka.below x _ rfl)
      · rcases hst with h | h
        · exact h
        · exact ⟨σ, hk, (h σ hk).resolve_left (hno σ ((hq σ).2 hk))⟩

end Gp.Optim
