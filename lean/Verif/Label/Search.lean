import Verif.Label.Value
/- The search. -/
namespace Gp.Label

open Gp.FdRange Gp.Fd

variable {c : Cfg} {W : Nat → Bool} {M : Nat → Int} {vs : List Nat} {us : List UserCstr}

/-- The order of the values of a variable with a method. -/
def ordR : Val → Int → Int → Prop
  | .min | .bisect => fun a b => a < b
  | .max => fun a b => b < a
  | _ => fun a b => a ≠ b

theorem ordR_ne {m : Val} {a b : Int} (h : ordR m a b) : a ≠ b := by
  cases m <;> simp only [ordR] at h <;> omega

theorem ordR_next (m : Val) : ordR (nextMethod m) = ordR m := by cases m <;> rfl

/-- The value of a variable in an answer. -/
def val (a : QSt) (x : Nat) : Int := (a.dom x).r.min

/-- The lexicographic order. -/
def Lex (R : Int → Int → Prop) : List Nat → QSt → QSt → Prop
  | [], _, _ => False
  | x :: xs, a, b => R (val a x) (val b x) ∨ (val a x = val b x ∧ Lex R xs a b)

/-- How two answers differ. -/
def Diff (R : Int → Int → Prop) (V : List Nat) : Ctl → Option Nat → QSt → QSt → Prop
  | .std xs, none, a, b => Lex R xs a b
  | .std xs, some x, a, b => Lex R (x :: xs) a b
  | .mth, _, a, b => ∃ y ∈ V, val a y ≠ val b y

theorem Diff.head {R : Int → Int → Prop} {V : List Nat} {ctl : Ctl} {x : Nat} {a b : QSt} (hR : ∀ a b, R a b → a ≠ b) (hx : x ∈ V)
    (h : R (val a x) (val b x)) : Diff R V ctl (some x) a b := by
  cases ctl with
  | std xs => exact Or.inl h
  | mth => exact ⟨x, hx, hR _ _ h⟩

theorem Diff.tail {R : Int → Int → Prop} {V : List Nat} {ctl : Ctl} {x : Nat} {a b : QSt} (h : Diff R V ctl none a b)
    (he : val a x = val b x) : Diff R V ctl (some x) a b := by
  cases ctl with
  | std xs => exact Or.inr ⟨he, h⟩
  | mth => exact h

/-- The variables which remain. -/
def Todo (V : List Nat) (s : St) (jx : Option Nat) : Ctl → Prop
  | .std xs => ∀ y ∈ xs, y ∈ V
  | .mth => (∀ y ∈ s.arr.take s.n, y ∈ V) ∧ ∀ y ∈ V, y ∈ s.arr.take s.n ∨ (s.q.dom y).ground = true ∨ jx = some y

/-- The variables of an answer. -/
def Goal (V : List Nat) (jx : Option Nat) (a : QSt) : Ctl → Prop
  | .std xs => ∀ y, y ∈ xs ∨ jx = some y → (a.dom y).ground = true
  | .mth => ∀ y ∈ V, (a.dom y).ground = true

/-- The state of a call. -/
structure Inv (c : Cfg) (W : Nat → Bool) (M : Nat → Int) (vs : List Nat) (us : List UserCstr) (V : List Nat) (s : St) (jx : Option Nat) (ctl : Ctl) : Prop where
  ok : Ok c W M vs us s.q
  len : s.n ≤ s.arr.length
  var : ∀ x, jx = some x → x ∈ V
  todo : Todo V s jx ctl

/-- The answers of a call: `C` is what the values of the variable of the call satisfy. -/
structure Res (c : Cfg) (W : Nat → Bool) (M : Nat → Int) (vs : List Nat) (us : List UserCstr) (R : Int → Int → Prop) (V : List Nat) (s : St)
    (jx : Option Nat) (ctl : Ctl) (C : Nat → Prop) (r : List QSt × St) : Prop where
  back : Back s r.2
  notIn : ∀ y, r.2.q.inQ y = false
  ok : ∀ a ∈ r.1, Ok c W M vs us a ∧ Sub a.dom s.q.dom ∧ Goal V jx a ctl ∧ ∀ x, jx = some x → ∀ n : Nat, Mem (a.dom x).r n → C n
  complete : ∀ σ, Keep c W M σ s.q → (∀ x, jx = some x → C (σ x)) → ∃ a ∈ r.1, Keep c W M σ a
  pw : r.1.Pairwise (Diff R V ctl jx)

/-- The call terminates with these answers. -/
def Done (c : Cfg) (o : Opt) (W : Nat → Bool) (M : Nat → Int) (vs : List Nat) (us : List UserCstr) (R : Int → Int → Prop) (V : List Nat) (j : Job) (s : St)
    (jx : Option Nat) (ctl : Ctl) (C : Nat → Prop) : Prop :=
  ∃ n0 r, (∀ n, n0 ≤ n → search c o n j s ctl = some r) ∧ Res c W M vs us R V s jx ctl C r

/-- Backtracking. -/
theorem back_ok {s t : St} (hO : Ok c W M vs us s.q) (hn : ∀ y, t.q.inQ y = false) : Ok c W M vs us (back s t).q where
  ready := ⟨hO.ready.good, hO.ready.frames, hO.ready.ids, hO.ready.wired, hO.ready.date, hn, hO.ready.settled⟩
  noSwt := hO.noSwt
  user := hO.user
  posted := fun u hu => ⟨⟨(hO.posted u hu).1.frames, (hO.posted u hu).1.nodeps⟩, (hO.posted u hu).2⟩

theorem back_keep {s t : St} {σ : Nat → Nat} (h : Keep c W M σ s.q) : Keep c W M σ (back s t).q := ⟨h.inh, h.below, h.frames⟩

/-- A variable whose values are all the same has the same value in two answers. -/
theorem val_eq {a b : QSt} (ha : Ok c W M vs us a) (hb : Ok c W M vs us b) {x : Nat} {k : Int} (h1 : ∀ n, Mem (a.dom x).r n → n = k)
    (h2 : ∀ n, Mem (b.dom x).r n → n = k) : val a x = val b x := by
  have hva := (ha.ready.good x).1
  have hvb := (hb.ready.good x).1
  exact (h1 _ (bounds_mem c _ hva.wf hva.ne).1).trans (h2 _ (bounds_mem c _ hvb.wf hvb.ne).1).symm

theorem val_mem {a : QSt} (ha : Ok c W M vs us a) (x : Nat) : Mem (a.dom x).r (val a x) ∧ 0 ≤ val a x := by
  have hva := (ha.ready.good x).1
  exact ⟨(bounds_mem c _ hva.wf hva.ne).1, hva.nonneg⟩

/-- The todo list after a restriction. -/
theorem Todo.restrict {V : List Nat} {s : St} {jx : Option Nat} {ctl : Ctl} {q : QSt} (h : Todo V s jx ctl)
    (hg : ∀ y, (s.q.dom y).ground = true → (q.dom y).ground = true) : Todo V { s with q := q } jx ctl := by
  cases ctl with
  | std xs => exact h
  | mth => exact ⟨h.1, fun y hy => (h.2 y hy).imp id (Or.imp (hg y) id)⟩

theorem Todo.restrict' {V : List Nat} {s : St} {x : Nat} {ctl : Ctl} {q : QSt} (h : Todo V s (some x) ctl)
    (hg : ∀ y, (s.q.dom y).ground = true → (q.dom y).ground = true) (hx : (q.dom x).ground = true) : Todo V { s with q := q } none ctl := by
  cases ctl with
  | std xs => exact h
  | mth =>
    refine ⟨h.1, fun y hy => ?_⟩
    rcases h.2 y hy with h | h | h
    · exact Or.inl h
    · exact Or.inr (Or.inl (hg y h))
    · cases h; exact Or.inr (Or.inl hx)

/-- A failed restriction. -/
theorem fail_res {R : Int → Int → Prop} {V : List Nat} {s : St} {x : Nat} {ctl : Ctl} {C : Nat → Prop} {q : QSt} (hl : s.n ≤ s.arr.length)
    (h : OpOk c W M vs us s.q x C false q) : Res c W M vs us R V s (some x) ctl C ([], { s with q := q }) where
  back := (Back.refl hl).congr rfl rfl rfl rfl rfl rfl
  notIn := h.notIn
  ok := fun a ha => (by cases ha)
  complete := fun σ hk hC => by have := (h.keep σ hk (hC x rfl)).1; cases this
  pw := .nil

/-- A restriction followed by a call on the same variable. -/
theorem same_res {R : Int → Int → Prop} {V : List Nat} {s : St} {x : Nat} {ctl : Ctl} {C : Nat → Prop} {q : QSt} {r : List QSt × St}
    (h : OpOk c W M vs us s.q x C true q) (hr : Res c W M vs us R V { s with q := q } (some x) ctl (fun _ => True) r) :
    Res c W M vs us R V s (some x) ctl C r where
  back := hr.back.congr rfl rfl rfl rfl rfl rfl
  notIn := hr.notIn
  ok := fun a ha => by
    obtain ⟨h1, h2, h3, _⟩ := hr.ok a ha
    refine ⟨h1, fun v n hn => h.sub v n (h2 v n hn), h3, fun y hy n hn => ?_⟩
    cases hy
    exact h.told rfl n (h2 x n hn)
  complete := fun σ hk hC => hr.complete σ (h.keep σ hk (hC x rfl)).2 (fun _ _ => trivial)
  pw := hr.pw

/-- The assignment of the variable followed by the rest. -/
theorem next_res {R : Int → Int → Prop} {V : List Nat} {s : St} {x k : Nat} {ctl : Ctl} {q : QSt} {r : List QSt × St}
    (h : OpOk c W M vs us s.q x (fun n => n = k) true q) (hr : Res c W M vs us R V { s with q := q } none ctl (fun _ => True) r) :
    Res c W M vs us R V s (some x) ctl (fun n => n = k) r := by
  have hval : ∀ a, Ok c W M vs us a → Sub a.dom q.dom → ∀ n, Mem (a.dom x).r n → n = (k : Int) := by
    intro a ha hs n hn
    have h0 := mem_nonneg (ha.ready.good x).1 hn
    have := h.told rfl n.toNat (hs x _ (by rw [Int.toNat_of_nonneg h0]; exact hn))
    omega
  refine ⟨hr.back.congr rfl rfl rfl rfl rfl rfl, hr.notIn, fun a ha => ?_, fun σ hk hC => hr.complete σ (h.keep σ hk (hC x rfl)).2 (fun _ h => by cases h), ?_⟩
  · obtain ⟨h1, h2, h3, _⟩ := hr.ok a ha
    have hg : (a.dom x).ground = true := ground_of (h1.ready.good x).1 (fun n hn => hval a h1 h2 n hn)
    refine ⟨h1, fun v n hn => h.sub v n (h2 v n hn), ?_, fun y hy n hn => ?_⟩
    · cases ctl with
      | std xs =>
        intro y hy
        rcases hy with hy | hy
        · exact h3 y (Or.inl hy)
        · cases hy; exact hg
      | mth => exact h3
    · cases hy
      have := hval a h1 h2 n hn
      omega
  · refine List.Pairwise.imp_of_mem (fun {a b} ha hb hd => ?_) hr.pw
    obtain ⟨a1, a2, _⟩ := hr.ok a ha
    obtain ⟨b1, b2, _⟩ := hr.ok b hb
    exact hd.tail (val_eq a1 b1 (hval a a1 a2) (hval b b1 b2))

/-- A call on an instantiated variable. -/
theorem ground_res {R : Int → Int → Prop} {V : List Nat} {s : St} {x : Nat} {ctl : Ctl} {r : List QSt × St} (hO : Ok c W M vs us s.q)
    (hg : (s.q.dom x).ground = true) (hr : Res c W M vs us R V s none ctl (fun _ => True) r) :
    Res c W M vs us R V s (some x) ctl (fun _ => True) r := by
  have hv := ground_val (hO.ready.good x).1 hg
  refine ⟨hr.back, hr.notIn, fun a ha => ?_, fun σ hk hC => hr.complete σ hk (fun _ h => by cases h), ?_⟩
  · obtain ⟨h1, h2, h3, _⟩ := hr.ok a ha
    refine ⟨h1, h2, ?_, fun _ _ _ _ => trivial⟩
    cases ctl with
    | std xs =>
      intro y hy
      rcases hy with hy | hy
      · exact h3 y (Or.inl hy)
      · cases hy
        exact ground_of (h1.ready.good x).1 (fun n hn => hv.2 _ (h2 x n hn))
    | mth => exact h3
  · refine List.Pairwise.imp_of_mem (fun {a b} ha hb hd => ?_) hr.pw
    obtain ⟨a1, a2, _⟩ := hr.ok a ha
    obtain ⟨b1, b2, _⟩ := hr.ok b hb
    have k : ∀ a : QSt, Ok c W M vs us a → Sub a.dom s.q.dom → ∀ n, Mem (a.dom x).r n → n = (s.q.dom x).r.min := by
      intro a ha hs n hn
      have h0 := mem_nonneg (ha.ready.good x).1 hn
      refine hv.2 n ?_
      have := hs x n.toNat (by rw [Int.toNat_of_nonneg h0]; exact hn)
      rwa [Int.toNat_of_nonneg h0] at this
    exact hd.tail (val_eq a1 b1 (k a a1 a2) (k b b1 b2))

/-- A choice point: the answers of the first branch, then the ones of the other branch. -/
theorem choice_res {R : Int → Int → Prop} {V : List Nat} {s s0 : St} {x : Nat} {ctl : Ctl} {P Q : Nat → Prop} {l l' : List QSt} {t t' : St}
    (hR : ∀ a b, R a b → a ≠ b) (hx : x ∈ V) (hPQ : ∀ n, P n ∨ Q n) (hord : ∀ m n : Nat, Mem (s.q.dom x).r m → Mem (s.q.dom x).r n → P m → Q n → R m n)
    (h1 : Res c W M vs us R V s (some x) ctl P (l, t)) (h2 : Res c W M vs us R V (back s t) (some x) ctl Q (l', t'))
    (hs : s0.n = s.n ∧ s0.arr = s.arr ∧ s0.tr = s.tr ∧ s0.q = s.q) :
    Res c W M vs us R V s0 (some x) ctl (fun _ => True) (l ++ l', t') := by
  obtain ⟨e1, e2, e3⟩ := back_arr h1.back
  refine ⟨(h2.back.start e1 e2 e3).congr hs.1 hs.2.1 hs.2.2.1 rfl rfl rfl, h2.notIn, fun a ha => ?_, fun σ hk _ => ?_, ?_⟩
  · rw [hs.2.2.2]
    rcases List.mem_append.1 ha with ha | ha
    · obtain ⟨a1, a2, a3, _⟩ := h1.ok a ha
      exact ⟨a1, a2, a3, fun _ _ _ _ => trivial⟩
    · obtain ⟨a1, a2, a3, _⟩ := h2.ok a ha
      exact ⟨a1, a2, a3, fun _ _ _ _ => trivial⟩
  · rw [hs.2.2.2] at hk
    rcases hPQ (σ x) with h | h
    · obtain ⟨a, ha, h'⟩ := h1.complete σ hk (fun y hy => by cases hy; exact h)
      exact ⟨a, List.mem_append_left _ ha, h'⟩
    · obtain ⟨a, ha, h'⟩ := h2.complete σ (back_keep hk) (fun y hy => by cases hy; exact h)
      exact ⟨a, List.mem_append_right _ ha, h'⟩
  · refine List.pairwise_append.2 ⟨h1.pw, h2.pw, fun a ha b hb => Diff.head hR hx ?_⟩
    obtain ⟨a1, a2, _, a4⟩ := h1.ok a ha
    obtain ⟨b1, b2, _, b4⟩ := h2.ok b hb
    obtain ⟨va, na⟩ := val_mem a1 x
    obtain ⟨vb, nb⟩ := val_mem b1 x
    rw [← Int.toNat_of_nonneg na] at va ⊢
    rw [← Int.toNat_of_nonneg nb] at vb ⊢
    exact hord _ _ (a2 x _ va) (b2 x _ vb) (a4 x rfl _ va) (b4 x rfl _ vb)

section
variable {o : Opt} {V : List Nat}

/-- The methods of the calls of a labeling. -/
structure MOk (o : Opt) (m : Val) : Prop where
  ord : ordR m = ordR o.val
  bound : o.val.bound → m.bound

theorem MOk.next {m : Val} (h : MOk o m) : MOk o (nextMethod m) where
  ord := (ordR_next m).trans h.ord
  bound := fun hb => by
    have := h.bound hb
    cases m with
    | middle => exact absurd rfl this.1
    | random => exact absurd rfl this.2
    | _ => exact ⟨by simp [nextMethod], by simp [nextMethod]⟩

/-- Every call terminates with its answers when the size is less than `N`. -/
def Below (c : Cfg) (o : Opt) (W : Nat → Bool) (M : Nat → Int) (vs : List Nat) (us : List UserCstr) (V : List Nat) (N : Nat) : Prop :=
  ∀ s ctl, size vs s.q.dom < N →
    (Inv c W M vs us V s none ctl → Done c o W M vs us (ordR o.val) V .label s none ctl (fun _ => True)) ∧
    ∀ x m, MOk o m → Inv c W M vs us V s (some x) ctl → Done c o W M vs us (ordR o.val) V (.indomain x m) s (some x) ctl (fun _ => True)

/-- `Pl_Indomain_Alt_0`. -/
theorem alt_done (hc : c.Ok) (hV : ∀ x ∈ V, LOk W M vs o.val x) {N : Nat} (ih : Below c o W M vs us V N) {s : St} {ctl : Ctl} {x k : Nat} {m : Val} (hm : MOk o m)
    (hN : size vs s.q.dom ≤ N) (hi : Inv c W M vs us V s (some x) ctl) (hg : (s.q.dom x).ground = false) (hs : Sel (s.q.dom x) m k) :
    Done c o W M vs us (ordR o.val) V (.alt x m k) s (some x) ctl (if m = .bisect then fun n => k < n else fun n => n ≠ k) := by
  have hx := hV x (hi.var x rfl)
  have hx' : LOk W M vs m x := ⟨hx.1, hx.2.1, hx.2.2.imp id hm.bound⟩
  by_cases hb : m = .bisect
  · rw [if_pos hb]
    obtain ⟨n0, ok, q, p1, p2⟩ := (bisect_ok (k := k) hc hi.ok hx' hg).2
    cases ok with
    | false =>
      refine ⟨n0 + 1, _, fun n hn => ?_, fail_res hi.len p2⟩
      obtain ⟨n, rfl⟩ : ∃ n', n = n' + 1 := ⟨n - 1, by omega⟩
      unfold search
      rw [if_pos hb, p1 n (by omega)]
    | true =>
      have hsz := p2.size rfl ⟨k, hs.mem, by omega⟩
      obtain ⟨n1, r, q1, q2⟩ := (ih { s with q := q } ctl (by show size vs q.dom < N; omega)).2 x m hm ⟨p2.next rfl, hi.len, hi.var, hi.todo.restrict p2.ground⟩
      refine ⟨n0 + n1 + 1, r, fun n hn => ?_, same_res p2 q2⟩
      obtain ⟨n, rfl⟩ : ∃ n', n = n' + 1 := ⟨n - 1, by omega⟩
      unfold search
      rw [if_pos hb, p1 n (by omega)]
      exact q1 n (by omega)
  · rw [if_neg hb]
    obtain ⟨n0, ok, q, p1, p2⟩ := remove_ok hc hi.ok hx' hg hs hb
    cases ok with
    | false =>
      refine ⟨n0 + 1, _, fun n hn => ?_, fail_res hi.len p2⟩
      obtain ⟨n, rfl⟩ : ∃ n', n = n' + 1 := ⟨n - 1, by omega⟩
      unfold search
      rw [if_neg hb, p1 n (by omega)]
    | true =>
      have hsz := p2.size rfl ⟨k, hs.mem, by omega⟩
      obtain ⟨n1, r, q1, q2⟩ := (ih { s with q := q } ctl (by show size vs q.dom < N; omega)).2 x (nextMethod m) hm.next ⟨p2.next rfl, hi.len, hi.var, hi.todo.restrict p2.ground⟩
      refine ⟨n0 + n1 + 1, r, fun n hn => ?_, same_res p2 q2⟩
      obtain ⟨n, rfl⟩ : ∃ n', n = n' + 1 := ⟨n - 1, by omega⟩
      unfold search
      rw [if_neg hb, p1 n (by omega)]
      exact q1 n (by omega)

theorem Todo.same {s t : St} {jx : Option Nat} {ctl : Ctl} (h : Todo V s jx ctl) (hq : t.q.dom = s.q.dom) (hn : t.n = s.n)
    (hs : Same s.n t.arr s.arr) : Todo V t jx ctl := by
  cases ctl with
  | std xs => exact h
  | mth =>
    unfold Todo
    rw [hn, hq]
    exact ⟨fun y hy => h.1 y ((hs.mem y).1 hy), fun y hy => (h.2 y hy).imp (hs.mem y).2 id⟩

/-- `Pl_Indomain_2` on a variable which is not instantiated. -/
theorem indomain_done (hc : c.Ok) (hr : ∀ k n, 0 < n → o.rnd k n < n) (hV : ∀ x ∈ V, LOk W M vs o.val x) {N : Nat} (ih : Below c o W M vs us V N) {s : St} {ctl : Ctl} {x : Nat} {m : Val} (hm : MOk o m)
    (hN : size vs s.q.dom ≤ N) (hi : Inv c W M vs us V s (some x) ctl) (hg : (s.q.dom x).ground = false) :
    Done c o W M vs us (ordR o.val) V (.indomain x m) s (some x) ctl (fun _ => True) := by
  have hx := hV x (hi.var x rfl)
  have hx' : LOk W M vs m x := ⟨hx.1, hx.2.1, hx.2.2.imp id hm.bound⟩
  obtain ⟨k, seed, e, hs⟩ := select_ok o hr hi.ok hg m
  obtain ⟨hv, ht, m1, m2, hlt, m3, hM, h0⟩ := nground hi.ok hg
  have two : ∀ z : Int, Mem (s.q.dom x).r z → ∃ n : Nat, Mem (s.q.dom x).r n ∧ (n : Int) = z := by
    intro z hz
    have := m3 z hz
    exact ⟨z.toNat, by rw [Int.toNat_of_nonneg (by omega)]; exact hz, by omega⟩
  -- The rest, after the first branch.
  have rest : ∀ (P : Nat → Prop) (r : List QSt × St), Res c W M vs us (ordR o.val) V { s with seed := seed } (some x) ctl P r →
      (∀ n, P n ∨ (if m = .bisect then fun n => k < n else fun n => n ≠ k) n) →
      (∀ i j : Nat, Mem (s.q.dom x).r i → Mem (s.q.dom x).r j → P i → (if m = .bisect then fun n => k < n else fun n => n ≠ k) j → ordR o.val i j) →
      ∃ n1 l' t', (∀ n, n1 ≤ n → search c o n (.alt x m k) (back { s with seed := seed } r.2) ctl = some (l', t')) ∧
        Res c W M vs us (ordR o.val) V s (some x) ctl (fun _ => True) (r.1 ++ l', t') := by
    intro P r hP hPQ hord
    have hi' : Inv c W M vs us V (back { s with seed := seed } r.2) (some x) ctl := by
      obtain ⟨e1, e2, e3⟩ := back_arr hP.back
      refine ⟨back_ok hi.ok hP.notIn, by rw [e1, e2.length]; exact hi.len, hi.var, hi.todo.same rfl e1 e2⟩
    obtain ⟨n1, ⟨l', t'⟩, q1, q2⟩ := alt_done (s := back { s with seed := seed } r.2) hc hV ih hm hN hi' hg hs
    exact ⟨n1, l', t', q1, choice_res (s := { s with seed := seed }) (fun a b h => ordR_ne h) (hi.var x rfl) hPQ hord hP q2 ⟨rfl, rfl, rfl, rfl⟩⟩
  by_cases hb : m = .bisect
  · obtain ⟨n0, ok, q, p1, p2⟩ := (bisect_ok (k := k) (st := s.q) hc hi.ok hx' hg).1
    have hord : ∀ i j : Nat, Mem (s.q.dom x).r i → Mem (s.q.dom x).r j → i ≤ k → (if m = .bisect then fun n => k < n else fun n => n ≠ k) j → ordR o.val i j := by
      intro i j _ _ h1 h2
      rw [if_pos hb] at h2
      rw [← hm.ord, hb]
      show (i : Int) < j
      have : k < j := h2
      omega
    have hPQ : ∀ n, n ≤ k ∨ (if m = .bisect then fun n => k < n else fun n => n ≠ k) n := by
      intro n
      rw [if_pos hb]
      show n ≤ k ∨ k < n
      omega
    cases ok with
    | false =>
      obtain ⟨n1, l', t', q1, q2⟩ := rest _ ([], { s with q := q, seed := seed }) (fail_res (s := { s with seed := seed }) hi.len p2) hPQ hord
      refine ⟨n0 + n1 + 1, _, fun n hn => ?_, q2⟩
      obtain ⟨n, rfl⟩ : ∃ n', n = n' + 1 := ⟨n - 1, by omega⟩
      unfold search
      rw [if_neg (by rw [hg]; simp), e]
      dsimp only
      rw [if_pos hb, p1 n (by omega)]
      dsimp only
      rw [q1 n (by omega)]
    | true =>
      obtain ⟨z, hz1, hz2⟩ := two _ m2
      have hsz := p2.size rfl ⟨z, hz1, by have := hs.bisect hb; omega⟩
      obtain ⟨n1, r, q1, q2⟩ := (ih { s with q := q, seed := seed } ctl (by show size vs q.dom < N; omega)).2 x m hm
        ⟨p2.next rfl, hi.len, hi.var, Todo.restrict (s := { s with seed := seed }) (hi.todo.same rfl rfl (.refl _ _)) p2.ground⟩
      obtain ⟨n2, l', t', q3, q4⟩ := rest _ r (same_res (s := { s with seed := seed }) p2 q2) hPQ hord
      refine ⟨n0 + n1 + n2 + 1, _, fun n hn => ?_, q4⟩
      obtain ⟨n, rfl⟩ : ∃ n', n = n' + 1 := ⟨n - 1, by omega⟩
      unfold search
      rw [if_neg (by rw [hg]; simp), e]
      dsimp only
      rw [if_pos hb, p1 n (by omega)]
      dsimp only
      rw [q1 n (by omega)]
      dsimp only
      rw [q3 n (by omega)]
  · obtain ⟨n0, ok, q, p1, p2⟩ := assign_ok (k := k) (st := s.q) hc hi.ok hx'.1 hg hs.mem
    have hord : ∀ i j : Nat, Mem (s.q.dom x).r i → Mem (s.q.dom x).r j → i = k → (if m = .bisect then fun n => k < n else fun n => n ≠ k) j → ordR o.val i j := by
      intro i j _ hj h1 h2
      rw [if_neg hb] at h2
      have h2' : j ≠ k := h2
      have hj' := m3 j hj
      rw [← hm.ord, h1]
      cases m with
      | min => have := hs.min (Or.inl rfl); show (k : Int) < j; omega
      | max => have := hs.max (Or.inl rfl); show (j : Int) < k; omega
      | bisect => exact absurd rfl hb
      | limitsMin => show (k : Int) ≠ j; omega
      | limitsMax => show (k : Int) ≠ j; omega
      | middle => show (k : Int) ≠ j; omega
      | random => show (k : Int) ≠ j; omega
    have hPQ : ∀ n, n = k ∨ (if m = .bisect then fun n => k < n else fun n => n ≠ k) n := by
      intro n
      rw [if_neg hb]
      show n = k ∨ n ≠ k
      omega
    cases ok with
    | false =>
      obtain ⟨n1, l', t', q1, q2⟩ := rest _ ([], { s with q := q, seed := seed }) (fail_res (s := { s with seed := seed }) hi.len p2) hPQ hord
      refine ⟨n0 + n1 + 1, _, fun n hn => ?_, q2⟩
      obtain ⟨n, rfl⟩ : ∃ n', n = n' + 1 := ⟨n - 1, by omega⟩
      unfold search
      rw [if_neg (by rw [hg]; simp), e]
      dsimp only
      rw [if_neg hb, p1 n (by omega)]
      dsimp only
      rw [q1 n (by omega)]
    | true =>
      have hsz : size vs q.dom < size vs s.q.dom := by
        obtain ⟨z, hz1, hz2⟩ := two _ m2
        obtain ⟨w, hw1, hw2⟩ := two _ m1
        by_cases hzk : z = k
        · exact p2.size rfl ⟨w, hw1, by omega⟩
        · exact p2.size rfl ⟨z, hz1, hzk⟩
      have hok := p2.next rfl
      have hgx : (q.dom x).ground = true := ground_of (k := k) (hok.ready.good x).1 (fun n hn => by rw [p2.told rfl n hn])
      obtain ⟨n1, r, q1, q2⟩ := (ih { s with q := q, seed := seed } ctl (by show size vs q.dom < N; omega)).1
        ⟨hok, hi.len, fun _ h => (by cases h), Todo.restrict' (s := { s with seed := seed }) (hi.todo.same rfl rfl (.refl _ _)) p2.ground hgx⟩
      obtain ⟨n2, l', t', q3, q4⟩ := rest _ r (next_res (s := { s with seed := seed }) p2 q2) hPQ hord
      refine ⟨n0 + n1 + n2 + 1, _, fun n hn => ?_, q4⟩
      obtain ⟨n, rfl⟩ : ∃ n', n = n' + 1 := ⟨n - 1, by omega⟩
      unfold search
      rw [if_neg (by rw [hg]; simp), e]
      dsimp only
      rw [if_neg hb, p1 n (by omega)]
      dsimp only
      rw [q1 n (by omega)]
      dsimp only
      rw [q3 n (by omega)]

/-- The end of a labeling. -/
theorem end_res {s t : St} {ctl : Ctl} (hO : Ok c W M vs us s.q) (hb : Back s t) (hq : t.q = s.q) (hgoal : Goal V none s.q ctl) :
    Res c W M vs us (ordR o.val) V s none ctl (fun _ => True) ([t.q], t) where
  back := hb
  notIn := by rw [hq]; exact hO.ready.notIn
  ok := fun a ha => by
    rw [List.mem_singleton.1 ha, hq]
    exact ⟨hO, fun _ _ h => h, hgoal, fun _ h => by cases h⟩
  complete := fun σ hk _ => ⟨t.q, List.mem_singleton.2 rfl, by rw [hq]; exact hk⟩
  pw := List.pairwise_singleton _ _

theorem below (hc : c.Ok) (hr : ∀ k n, 0 < n → o.rnd k n < n) (hV : ∀ x ∈ V, LOk W M vs o.val x) : ∀ N, Below c o W M vs us V N := by
  intro N
  induction N with
  | zero => intro s ctl h; omega
  | succ N ih =>
    have ing : ∀ s ctl, size vs s.q.dom < N + 1 → (Inv c W M vs us V s none ctl → Done c o W M vs us (ordR o.val) V .label s none ctl (fun _ => True)) →
        ∀ x m, MOk o m → Inv c W M vs us V s (some x) ctl → Done c o W M vs us (ordR o.val) V (.indomain x m) s (some x) ctl (fun _ => True) := by
      intro s ctl hs hl x m hm hi
      cases hg : (s.q.dom x).ground with
      | false => exact indomain_done hc hr hV ih hm (by omega) hi hg
      | true =>
        obtain ⟨n0, r, p1, p2⟩ := hl ⟨hi.ok, hi.len, fun _ h => (by cases h), Todo.restrict' (q := s.q) hi.todo (fun _ h => h) hg⟩
        refine ⟨n0 + 1, r, fun n hn => ?_, ground_res hi.ok hg p2⟩
        obtain ⟨n, rfl⟩ : ∃ n', n = n' + 1 := ⟨n - 1, by omega⟩
        unfold search
        rw [if_pos hg]
        exact p1 n (by omega)
    have lab : ∀ s ctl, size vs s.q.dom < N + 1 → Inv c W M vs us V s none ctl → Done c o W M vs us (ordR o.val) V .label s none ctl (fun _ => True) := by
      intro s ctl hs hi
      cases ctl with
      | std xs =>
        induction xs with
        | nil =>
          refine ⟨1, _, fun n hn => ?_, end_res hi.ok (Back.refl hi.len) rfl (fun y hy => by rcases hy with hy | hy <;> cases hy)⟩
          obtain ⟨n, rfl⟩ : ∃ n', n = n' + 1 := ⟨n - 1, by omega⟩
          rfl
        | cons x xs ihx =>
          have hi' : Inv c W M vs us V s none (.std xs) := ⟨hi.ok, hi.len, hi.var, fun y hy => hi.todo y (List.mem_cons_of_mem _ hy)⟩
          obtain ⟨n0, r, p1, p2⟩ := ing s (.std xs) hs ihx x o.val ⟨rfl, id⟩ ⟨hi.ok, hi.len, fun y h => (by cases h; exact hi.todo x List.mem_cons_self), hi'.todo⟩
          refine ⟨n0 + 1, r, fun n hn => ?_, p2.back, p2.notIn, fun a ha => ?_, fun σ hk _ => p2.complete σ hk (fun _ _ => trivial), p2.pw⟩
          · obtain ⟨n, rfl⟩ : ∃ n', n = n' + 1 := ⟨n - 1, by omega⟩
            exact p1 n (by omega)
          · obtain ⟨a1, a2, a3, _⟩ := p2.ok a ha
            refine ⟨a1, a2, fun y hy => a3 y ?_, fun _ h => by cases h⟩
            rcases hy with hy | hy
            · rcases List.mem_cons.1 hy with hy | hy
              · exact Or.inr (by rw [hy])
              · exact Or.inl hy
            · cases hy
      | mth =>
        have hp := pick_ok c o hr s hi.len
        cases hpk : pick c o s with
        | mk t res =>
          rw [hpk] at hp
          cases res with
          | none =>
            refine ⟨1, _, fun n hn => ?_, end_res (t := t) hi.ok hp.back hp.q (fun y hy => ?_)⟩
            · obtain ⟨n, rfl⟩ : ∃ n', n = n' + 1 := ⟨n - 1, by omega⟩
              unfold search nextVar
              rw [hpk]
            · rcases hi.todo.2 y hy with h | h | h
              · exact hp.empty rfl y h
              · exact h
              · cases h
          | some x =>
            obtain ⟨h1, h2, h3, h4⟩ := hp.var x rfl
            have hq : t.q = s.q := hp.q
            have hinv : Inv c W M vs us V t (some x) .mth := by
              refine ⟨by rw [hq]; exact hi.ok, hp.back.1, fun y h => (by cases h; exact hi.todo.1 x h1), fun y hy => hi.todo.1 y (h3 y hy), fun y hy => ?_⟩
              rw [hq]
              rcases hi.todo.2 y hy with h | h | h
              · cases hg : (s.q.dom y).ground with
                | true => exact Or.inr (Or.inl rfl)
                | false =>
                  rcases h4 y h hg with h | h
                  · exact Or.inr (Or.inr (by rw [h]))
                  · exact Or.inl h
              · exact Or.inr (Or.inl h)
              · cases h
            obtain ⟨n0, r, p1, p2⟩ := indomain_done hc hr hV ih (m := o.val) ⟨rfl, id⟩ (by rw [hq]; omega) hinv (by rw [hq]; exact h2)
            refine ⟨n0 + 1, r, fun n hn => ?_, hp.back.trans p2.back, p2.notIn, fun a ha => ?_, fun σ hk _ => p2.complete σ (by rw [hq]; exact hk) (fun _ _ => trivial), p2.pw⟩
            · obtain ⟨n, rfl⟩ : ∃ n', n = n' + 1 := ⟨n - 1, by omega⟩
              unfold search nextVar
              rw [hpk]
              exact p1 n (by omega)
            · obtain ⟨a1, a2, a3, _⟩ := p2.ok a ha
              exact ⟨a1, by rw [← hq]; exact a2, a3, fun _ h => by cases h⟩
    exact fun s ctl hs => ⟨lab s ctl hs, ing s ctl hs (lab s ctl hs)⟩

end

end Gp.Label
