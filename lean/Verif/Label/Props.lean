import Verif.Label.Choice
/-
C49: the labeling gives every solution exactly once.
-/
namespace Gp.Label

open Gp.FdRange Gp.Fd

/-- The values of the variables in an answer. -/
def answer (xs : List Nat) (a : QSt) : List Int := xs.map (fun x => (a.dom x).r.min)

theorem lex_answer {R : Int → Int → Prop} {a b : QSt} : ∀ {xs : List Nat}, Lex R xs a b → List.Lex R (answer xs a) (answer xs b)
  | _ :: _, Or.inl h => .rel h
  | x :: xs, Or.inr ⟨he, h⟩ => by
    have e : (a.dom x).r.min = (b.dom x).r.min := he
    show List.Lex R ((a.dom x).r.min :: answer xs a) ((b.dom x).r.min :: answer xs b)
    rw [e]
    exact .cons (lex_answer h)

theorem lex_ne {R : Int → Int → Prop} (hR : ∀ a, ¬ R a a) : ∀ {l l' : List Int}, List.Lex R l l' → l ≠ l'
  | _, _, .rel h => fun e => by cases e; exact hR _ h
  | _, _, .cons h => fun e => by cases e; exact lex_ne hR h rfl
  | _, _, .nil => fun e => by cases e

/-- C49: let any primitive constraints with no overflow be posted on any variables; then fd_labeling with any variable method and
any value method terminates on a list `xs` with all the variables of the constraints: the answers obtained by backtracking are exactly
the solutions, each of them is obtained once; the variables are instantiated; with the standard variable method the answers are in
increasing lexicographic order with the value methods `min` and `bisect`, decreasing with `max`.
Missing: products by a variable which may be 0 (`hz`), overflows, other constraints (see C26); `middle` and `random` for variables greater
than the maximum of the vectors (`hW`); plain Prolog variables. -/
theorem C49_answers_are_the_solutions_partial (c : Cfg) (hc : c.Ok) (W : Nat → Bool) (M : Nat → Int) (hM : ∀ v, M v ≤ 268435455) (s : Store) (hs : GB c W M s)
    (ks : List Prim) (hk : ∀ k ∈ ks, k.CstOk ∧ k.Fits W M) (hz : ∀ x y z, Prim.xyEqZ x y z ∈ ks → 0 < (s x).r.min ∧ 0 < (s y).r.min)
    (xs : List Nat) (hx : ∀ k ∈ ks, ∀ v ∈ k.vars, v ∈ xs) (o : Opt) (hr : ∀ k n, 0 < n → o.rnd k n < n)
    (hW : ∀ x ∈ xs, W x = false ∨ (o.val ≠ .middle ∧ o.val ≠ .random)) (std : Bool) (seed : Nat) :
    ∃ n0 ok st, (∀ n, n0 ≤ n → run c n (start s) (ks.map Prim.cstr) = some (ok, st)) ∧
      (ok = false → ¬ ∃ σ : Nat → Nat, (∀ v, Mem (s v).r (σ v)) ∧ ∀ k ∈ ks, k.holds (fun v => (σ v : Int))) ∧
      (ok = true → ∃ n1 l t, (∀ n, n1 ≤ n → labeling c o std n st xs seed = some (l, t)) ∧
        (∀ f : List Int, f ∈ l.map (answer xs) ↔
          ∃ σ : Nat → Nat, (∀ v, Mem (s v).r (σ v)) ∧ (∀ k ∈ ks, k.holds (fun v => (σ v : Int))) ∧ f = xs.map (fun x => (σ x : Int))) ∧
        (l.map (answer xs)).Nodup ∧ (∀ a ∈ l, ∀ x ∈ xs, (a.dom x).ground = true) ∧
        (std = true → (o.val = .min ∨ o.val = .bisect → (l.map (answer xs)).Pairwise (List.Lex (fun a b => a < b))) ∧
          (o.val = .max → (l.map (answer xs)).Pairwise (List.Lex (fun a b => b < a))))) := by
  have hG := gb_ok c W M
  have hu : ∀ k ∈ ks, UserOk c (GB c W M) xs k.cstr := fun k h => prim_ok hc k (hk k h).2 (hx k h)
  have hu' : ∀ u ∈ ks.map Prim.cstr, UserOk c (GB c W M) xs u := fun u h => by
    obtain ⟨k, hk', e⟩ := List.mem_map.1 h
    rw [← e]; exact hu k hk'
  obtain ⟨n0, ⟨ok, st⟩, p1, p2, p3, p4, p5⟩ := run_ok hc hG (vs := xs) (ks.map Prim.cstr) (start s) (start_ready hs)
    (fun fr h => by simp [start] at h) (fun u h => ⟨hu' u h, by
      obtain ⟨k, hk', e⟩ := List.mem_map.1 h
      rw [← e]; rfl⟩)
  have hkeep : ∀ σ : Nat → Nat, (∀ v, Mem (s v).r (σ v)) → (∀ k ∈ ks, k.holds (fun v => (σ v : Int))) →
      ok = true ∧ Keep c W M σ st := by
    intro σ hσ hh
    have hle : ∀ v, (σ v : Int) ≤ M v := fun v =>
      Int.le_trans ((bounds_mem c _ (hs v).1.wf (hs v).1.ne).2.2 _ (hσ v)).2 (hs v).2.2.1
    exact p4 (DS σ) (fun u h => by
      obtain ⟨k, hk', e⟩ := List.mem_map.1 h
      rw [← e]
      exact prim_keep k (hk k hk').1 (hk k hk').2 hM σ hle (hh k hk'))
      ⟨fun x => ⟨σ x, rfl⟩, fun v n h => by rw [show n = σ v from h]; exact hσ v, fun id fr h => by simp [start] at h⟩
  refine ⟨n0, ok, st, p1, fun hf ⟨σ, h1, h2⟩ => ?_, fun ht => ?_⟩
  · have := (hkeep σ h1 h2).1
    rw [hf] at this; cases this
  have ht' : ok = true := ht
  obtain ⟨q1, q2, q3⟩ := p5 ht'
  have hO : Ok c W M xs (ks.map Prim.cstr) st := ⟨q1, q2, hu', fun u h => q3 u (hu' u h) (Or.inl h)⟩
  have hV : ∀ x ∈ xs, LOk W M xs o.val x := fun x h => ⟨h, hM x, hW x h⟩
  -- The search.
  have hsearch : ∃ s0 ctl, s0.q = st ∧ (∀ n, labeling c o std n st xs seed = search c o n .label s0 ctl) ∧ (std = true → ctl = .std xs) ∧
      (ctl = .std xs ∨ ctl = .mth) ∧ Inv c W M xs (ks.map Prim.cstr) xs s0 none ctl := by
    cases std with
    | true =>
      exact ⟨⟨st, 0, [], [], seed⟩, .std xs, rfl, fun n => (by unfold labeling; rw [if_pos rfl]), fun _ => rfl, Or.inl rfl, hO, Nat.le_refl _, fun _ h => (by cases h),
        fun y hy => hy⟩
    | false =>
      refine ⟨⟨st, (selArray st.dom xs).length, selArray st.dom xs, [], seed⟩, .mth, rfl, fun n => (by unfold labeling; rw [if_neg (by simp)]), fun h => (by cases h),
        Or.inr rfl, hO, Nat.le_refl _, fun _ h => (by cases h), fun y hy => ?_, fun y hy => ?_⟩
      · simp only [List.take_length] at hy
        exact (List.mem_filter.1 hy).1
      · simp only [List.take_length]
        cases hg : (st.dom y).ground with
        | true => exact Or.inr (Or.inl rfl)
        | false => exact Or.inl (List.mem_filter.2 ⟨hy, by simp [hg]⟩)
  obtain ⟨s0, ctl, e0, e1, e2, e3, hinv⟩ := hsearch
  obtain ⟨n1, ⟨l, t⟩, r1, r2⟩ := (below hc hr hV (size xs s0.q.dom + 1) s0 ctl (by omega)).1 hinv
  have hgr : ∀ a ∈ l, ∀ x ∈ xs, (a.dom x).ground = true := by
    intro a ha x hx'
    obtain ⟨_, _, a3, _⟩ := r2.ok a ha
    rcases e3 with e3 | e3
    · rw [e3] at a3; exact a3 x (Or.inl hx')
    · rw [e3] at a3; exact a3 x hx'
  refine ⟨n1, l, t, fun n hn => by rw [e1]; exact r1 n hn, fun f => ⟨fun hf => ?_, fun ⟨σ, h1, h2, h3⟩ => ?_⟩, ?_, hgr, fun hstd => ⟨fun hm => ?_, fun hm => ?_⟩⟩
  · obtain ⟨a, ha, e⟩ := List.mem_map.1 hf
    obtain ⟨a1, a2, _, _⟩ := r2.ok a ha
    have a2' : Sub a.dom st.dom := by rw [← e0]; exact a2
    have hsub : ∀ v, Mem (s v).r (a.dom v).r.min := by
      intro v
      have := val_mem a1 v
      have h' := p2 v (val a v).toNat (a2' v _ (by rw [Int.toNat_of_nonneg this.2]; exact this.1))
      rw [Int.toNat_of_nonneg this.2] at h'
      exact h'
    have hn : ∀ v, (((a.dom v).r.min.toNat : Nat) : Int) = (a.dom v).r.min := fun v => Int.toNat_of_nonneg (val_mem a1 v).2
    refine ⟨fun v => (a.dom v).r.min.toNat, fun v => by rw [hn]; exact hsub v, fun k hk' => ?_, ?_⟩
    · have hch := (a1.posted k.cstr (List.mem_map.2 ⟨k, hk', rfl⟩)).2 k.vars
      have := prim_check k (hk k hk').1 (hk k hk').2 hch a1.ready.good (fun v hv => hgr a ha v (hx k hk' v hv)) (fun x y z e => by
        have := hz x y z (e ▸ hk')
        have b1 := ((bounds_mem c _ (hs x).1.wf (hs x).1.ne).2.2 _ (hsub x)).1
        have b2 := ((bounds_mem c _ (hs y).1.wf (hs y).1.ne).2.2 _ (hsub y)).1
        omega)
      simp only [hn]
      exact this
    · rw [← e]
      simp only [answer, hn]
  · obtain ⟨a, ha, hk'⟩ := r2.complete σ (by rw [e0]; exact (hkeep σ h1 h2).2) (fun _ h => by cases h)
    refine List.mem_map.2 ⟨a, ha, ?_⟩
    rw [h3]
    refine List.map_congr_left (fun x hx' => ?_)
    obtain ⟨a1, _⟩ := r2.ok a ha
    exact ((ground_val (a1.ready.good x).1 (hgr a ha x hx')).2 _ (hk'.below x _ rfl)).symm
  · refine List.pairwise_map.2 (r2.pw.imp (fun {a b} hd => ?_))
    rcases e3 with e3 | e3
    · rw [e3] at hd
      exact lex_ne (fun z hz => ordR_ne hz rfl) (lex_answer hd)
    · rw [e3] at hd
      obtain ⟨y, hy, hne⟩ := hd
      intro he
      exact hne (List.map_inj_left.1 he y hy)
  · have hpw := r2.pw
    rw [e2 hstd] at hpw
    refine List.pairwise_map.2 (hpw.imp (fun {a b} hd => ?_))
    have := lex_answer hd
    rcases hm with hm | hm <;> rw [hm] at this <;> exact this
  · have hpw := r2.pw
    rw [e2 hstd] at hpw
    refine List.pairwise_map.2 (hpw.imp (fun {a b} hd => ?_))
    have := lex_answer hd
    rw [hm] at this; exact this

/-- The options of the examples. -/
def exOpt (v : Val) (m : Var) : Opt := ⟨v, m, true, fun _ => 0, fun k n => k % n⟩

/-- X, Y, Z, T in 0..4, X + Y #= Z, X #< Y. -/
def exKs : List Prim := [.xPlusYEqZ 0 1 2, .xLtY 0 1]

def exS : Store := fun _ => newInterval 0 4

theorem exS_ok : GB exCfg (fun _ => false) (fun _ => 4) exS := fun _ =>
  ⟨newInterval_ok exCfg (by decide) (by decide), rfl, (by decide : (4 : Int) ≤ 4), Or.inl (by decide : (4 : Int) ≤ 127)⟩

/-- The hypotheses are met. -/
example : exCfg.Ok ∧ (∀ k ∈ exKs, k.CstOk ∧ k.Fits (fun _ => false) (fun _ => 4)) ∧ (∀ k ∈ exKs, ∀ v ∈ k.vars, v ∈ [0, 1, 2]) ∧
    (∀ v m, ∀ k n, 0 < n → (exOpt v m).rnd k n < n) := ⟨exCfg_ok, by decide, by decide, fun _ _ _ _ h => Nat.mod_lt _ h⟩

/-- The answers of the labeling of the example. -/
def exAnswers (v : Val) (m : Var) (std : Bool) : Option (List (List Int)) :=
  match run exCfg 30 (start exS) (exKs.map Prim.cstr) with
  | some (true, st) => (labeling exCfg (exOpt v m) std 40 st [0, 1, 2] 0).map (fun r => r.1.map (answer [0, 1, 2]))
  | _ => none

example : exAnswers .min .firstFail true = some [[0, 1, 1], [0, 2, 2], [0, 3, 3], [0, 4, 4], [1, 2, 3], [1, 3, 4]] := by decide +kernel
example : exAnswers .bisect .firstFail true = some [[0, 1, 1], [0, 2, 2], [0, 3, 3], [0, 4, 4], [1, 2, 3], [1, 3, 4]] := by decide +kernel
example : exAnswers .max .firstFail true = some [[1, 3, 4], [1, 2, 3], [0, 4, 4], [0, 3, 3], [0, 2, 2], [0, 1, 1]] := by decide +kernel
example : exAnswers .limitsMin .largest false = some [[0, 1, 1], [0, 4, 4], [0, 2, 2], [1, 2, 3], [0, 3, 3], [1, 3, 4]] := by decide +kernel

/-! ## The values -/

/-- C49: the values of one variable without constraint are obtained in the order of the value method: increasing (`min`, `bisect`),
decreasing (`max`), the bounds in turn (`bounds`), from the middle (`middle`: see `orderN`). -/
theorem C49_order_of_the_values (c : Cfg) (hc : c.Ok) (W : Nat → Bool) (M : Nat → Int) (hM : ∀ v, M v ≤ 268435455) (s : Store) (hs : GB c W M s) (x : Nat)
    (o : Opt) (hr : ∀ k n, 0 < n → o.rnd k n < n) (hm : o.val ≠ .random) (hW : W x = false ∨ o.val ≠ .middle) (seed : Nat) (l : List Int)
    (hl : l.Pairwise (fun a b => a < b) ∧ ∀ n, n ∈ l ↔ Mem (s x).r n) :
    ∃ n0 as t, (∀ n, n0 ≤ n → labeling c o true n (start s) [x] seed = some (as, t)) ∧
      as.map (fun a => (a.dom x).r.min) = orderN o.val l.length l ∧ ∀ a ∈ as, (a.dom x).ground = true := by
  have hO : Ok c W M [x] [] (start s) := ⟨start_ready hs, fun fr h => (by simp [start] at h), fun u h => (by cases h), fun u h => (by cases h)⟩
  have hf : Free c W M (start s) := fun σ hσ =>
    ⟨fun x => ⟨σ x, rfl⟩, fun v n h => by rw [show n = σ v from h]; exact hσ v, fun id fr h => by simp [start] at h⟩
  obtain ⟨n0, as, t, h1, _, h3, h4⟩ := order_done hc o hr (us := []) l.length o.val ⟨start s, 0, [], [], seed⟩ l
    ⟨List.mem_singleton.2 rfl, hM x, hW.imp id (fun h => ⟨h, hm⟩)⟩ hm rfl hO hf hl
  refine ⟨n0 + 1, as, t, fun n hn => ?_, h3, h4⟩
  obtain ⟨n, rfl⟩ : ∃ n', n = n' + 1 := ⟨n - 1, by omega⟩
  unfold labeling
  rw [if_pos rfl]
  exact h1 n (by omega)

/-- The hypotheses are met, the orders. -/
example : [0, 1, 2, 3, 4].Pairwise (fun a b : Int => a < b) ∧ ∀ n : Int, n ∈ [0, 1, 2, 3, 4] ↔ Mem (exS 0).r n := by
  refine ⟨by decide, fun n => ?_⟩
  show n ∈ [0, 1, 2, 3, 4] ↔ (0 : Int) ≤ 4 ∧ 0 ≤ n ∧ n ≤ 4
  simp only [List.mem_cons, List.not_mem_nil, or_false]
  omega

example : orderN .min 5 [0, 1, 2, 3, 4] = [0, 1, 2, 3, 4] ∧ orderN .bisect 5 [0, 1, 2, 3, 4] = [0, 1, 2, 3, 4] ∧
    orderN .max 5 [0, 1, 2, 3, 4] = [4, 3, 2, 1, 0] ∧ orderN .limitsMin 5 [0, 1, 2, 3, 4] = [0, 4, 1, 3, 2] ∧
    orderN .middle 6 [0, 1, 2, 3, 4, 5] = [2, 1, 3, 0, 4, 5] := by decide

/-- For an odd number of values the method `middle` starts before the middle: 0 for 0..2. -/
theorem C49_middle_witness :
    (labeling exCfg (exOpt .middle .firstFail) true 20 (start (fun _ => newInterval 0 2)) [0] 0).map (fun r => r.1.map (answer [0])) =
      some [[0], [1], [2]] := by decide +kernel

/-- A sparse variable whose greatest value is greater than the maximum of the vectors loses values: 120..139 with the method `middle` and vectors
of 0..127 gives 9 answers instead of 20. -/
theorem C49_wide_witness :
    (labeling exCfg (exOpt .middle .firstFail) true 40 (start (fun _ => newInterval 120 139)) [0] 0).map (fun r => r.1.map (answer [0])) =
      some [[129], [123], [122], [124], [121], [125], [120], [126], [127]] := by decide +kernel

/-! ## The variables -/

/-- C49: the variable selected by a method is not instantiated and is a best one for the criterion of the manual; without reordering
it is the leftmost best one. Missing: an array which is packed (see the witness). -/
theorem C49_variable_choice_partial (c : Cfg) (o : Opt) (s : St) (hv : ∀ v, VarOk c (s.q.dom v)) (hs : s.n ≤ s.arr.length) (hm : o.var ≠ .random)
    (hp : s.n ≤ 50 ∨ ((s.arr.take s.n).filter (fun y => (s.q.dom y).ground)).length < s.n / 2) :
    ((pick c o s).2 = none → ∀ y ∈ s.arr.take s.n, (s.q.dom y).ground = true) ∧
    ∀ x, (pick c o s).2 = some x → x ∈ s.arr.take s.n ∧ (s.q.dom x).ground = false ∧
      (∀ y ∈ s.arr.take s.n, (s.q.dom y).ground = false → ∀ lx ly, Listing (s.q.dom x).r lx → Listing (s.q.dom y).r ly →
        Prefer o.var (o.nbc x) (o.nbc y) lx ly) ∧
      (o.reorder = false → ∃ i, i < s.n ∧ s.arr[i]? = some x ∧ ∀ j y, j < i → s.arr[j]? = some y → (s.q.dom y).ground = false →
        ∀ lx ly, Listing (s.q.dom x).r lx → Listing (s.q.dom y).r ly → ¬ Prefer o.var (o.nbc y) (o.nbc x) ly lx) := by
  unfold pick
  by_cases h0 : s.n = 0
  · rw [if_pos h0]
    exact ⟨fun _ y hy => by rw [h0] at hy; simp at hy, fun x h => by cases h⟩
  rw [if_neg h0, if_neg hm]
  unfold pickBest
  obtain ⟨s1, s2, s3, s4⟩ := scan_spec c o s.q.dom s.n s.n 0 s.arr none 0 rfl hs (fun e h => by cases h) (fun _ i h => by omega) (by simp)
  obtain ⟨b1, b2⟩ := scan_best (c := c) (o := o) (s := s.q.dom) s.n s.n 0 s.arr none 0 rfl hs (fun j h => by omega)
  generalize scan c o s.q.dom s.n 0 s.arr none 0 = r at *
  obtain ⟨arr, res, ng⟩ := r
  dsimp only at *
  cases res with
  | none =>
    dsimp only
    refine ⟨fun _ y hy => ?_, fun x h => by cases h⟩
    obtain ⟨i, hi, e⟩ := List.mem_take_iff_getElem.1 hy
    have := s3 rfl i (by omega)
    rwa [List.getD_eq_getElem?_getD, List.getElem?_eq_getElem (by omega), Option.getD_some, e] at this
  | some e =>
    dsimp only
    rw [if_neg (by omega)]
    obtain ⟨c1, c2, c3, c4⟩ := b1
    have hlen : arr.length = s.arr.length := s1.length
    refine ⟨fun h => (by cases h), fun x hx => ?_⟩
    have hx' : arr.getD e 0 = x := by simpa using hx
    rw [hx'] at c2 c3 c4
    have hmem : x ∈ s.arr.take s.n := by
      rw [← hx']
      exact (s1.mem _).1 (getD_mem_take c1 (by omega))
    refine ⟨hmem, c2, fun y hy hgy lx ly hlx hly => ?_, fun hro => ⟨e, c1, ?_, fun j y hj hjy hgy lx ly hlx hly hpr => ?_⟩⟩
    · obtain ⟨i, hi, ei⟩ := List.mem_take_iff_getElem.1 ((s1.mem y).2 hy)
      have hgd : arr.getD i 0 = y := by rw [List.getD_eq_getElem?_getD, List.getElem?_eq_getElem (by omega), Option.getD_some, ei]
      exact (better_prefer hv c2 hgy hm hlx hly).1 (by have := c3 i (by omega) (by rw [hgd]; exact hgy); rwa [hgd] at this)
    · rw [b2 hro] at hx'
      rw [List.getElem?_eq_getElem (by omega)]
      rw [List.getD_eq_getElem?_getD, List.getElem?_eq_getElem (by omega), Option.getD_some] at hx'
      rw [hx']
    · rw [b2 hro] at c4
      have hgd : s.arr.getD j 0 = y := by rw [List.getD_eq_getElem?_getD, hjy]; rfl
      have := c4 hro j hj (by rw [hgd]; exact hgy)
      rw [hgd, (better_prefer hv hgy c2 hm hly hlx).2 hpr] at this
      cases this

/-- Three variables, one is instantiated. -/
example : let q := start (fun v => if v = 1 then newInt 3 else if v = 2 then newInterval 0 1 else newInterval 0 9)
    (pick exCfg (exOpt .min .firstFail) ⟨q, 3, [0, 1, 2], [], 0⟩).2 = some 2 ∧
    (pick exCfg (exOpt .min .largest) ⟨q, 3, [0, 1, 2], [], 0⟩).2 = some 0 := by decide +kernel

/-- The store of the witness: 0 and 27..51 are instantiated, 2 has two values, the other variables have ten values. -/
def exStore52 : Store := fun v => if v = 0 ∨ 27 ≤ v then newInt 3 else if v = 2 then newInterval 0 1 else newInterval 0 9

/-- The selected variable is read after the packing of the array (fd_values_c.c:640-658): among 52 variables, 26 of them instantiated,
`first_fail` selects a variable with ten values although another one has two values. -/
theorem C49_packing_witness : ¬ ∀ (c : Cfg) (o : Opt) (s : St), (∀ v, VarOk c (s.q.dom v)) → s.n ≤ s.arr.length → o.var = .firstFail →
    ∀ x, (pick c o s).2 = some x → ∀ y ∈ s.arr.take s.n, (s.q.dom y).ground = false → (s.q.dom x).nb ≤ (s.q.dom y).nb := by
  intro h
  have hv : ∀ v, VarOk exCfg (exStore52 v) := by
    intro v
    unfold exStore52
    split
    · refine ⟨⟨by decide, fun w h => by cases h⟩, by decide, by decide, fun l hl => ?_, fun n h => by cases h; decide, fun h => by cases h⟩
      exact nb_ok (r := (newInt 3).r) (nb := 1) (by decide) (by decide) l hl
    · split
      · exact newInterval_ok exCfg (by decide) (by decide)
      · exact newInterval_ok exCfg (by decide) (by decide)
  have := h exCfg { exOpt .min .firstFail with reorder := false } ⟨start exStore52, 52, List.range 52, [], 0⟩ hv (by decide) rfl 3 (by decide +kernel) 2 (by decide) (by decide)
  exact absurd this (by decide)

end Gp.Label
