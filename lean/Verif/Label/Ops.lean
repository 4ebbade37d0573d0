import Verif.Label.Arr
import Verif.Fd.QueueProg
/- What the restriction of a variable does, from C26. -/
namespace Gp.Label

open Gp.FdRange Gp.Fd

variable {c : Cfg} {W : Nat → Bool} {M : Nat → Int} {vs : List Nat} {us : List UserCstr}

/-- A state between two constraints, where the constraints `us` have been posted. -/
structure Ok (c : Cfg) (W : Nat → Bool) (M : Nat → Int) (vs : List Nat) (us : List UserCstr) (st : QSt) : Prop where
  ready : Ready c (GB c W M) vs st
  noSwt : NoSwt st.frames
  user : ∀ u ∈ us, UserOk c (GB c W M) vs u
  posted : ∀ u ∈ us, Posted st u ∧ ∀ V, Checked (GB c W M) V u st

/-- The values `σ` are in the domains and are kept by the constraints. -/
def Keep (c : Cfg) (W : Nat → Bool) (M : Nat → Int) (σ : Nat → Nat) (st : QSt) : Prop := KeepSt (GB c W M) (DS σ) st

/-- The constraint `X in r`. -/
def one (x : Nat) (op : Op) : UserCstr := ⟨[⟨x, fun _ => .tell op, [], false⟩], none⟩

theorem install_one (c : Cfg) (st : QSt) (x : Nat) (op : Op) : install c st (one x op) = tellVar c st x op := by
  unfold install one instBlks instBlk runBlk
  dsimp only [List.isEmpty]
  rw [if_pos rfl]
  cases h : tellVar c st x op with
  | mk ok st' => cases ok <;> simp [instBlks]

theorem tellOp_post (c : Cfg) (n : Nat) (st : QSt) (x : Nat) (op : Op) : tellOp c n st x op = post c n st (one x op) := by
  unfold tellOp post
  rw [install_one]

/-- The same tell: the same result. -/
theorem tellOp_congr (c : Cfg) (n : Nat) (st : QSt) (x : Nat) (op op' : Op) (h : tell c (st.dom x) op = tell c (st.dom x) op') :
    tellOp c n st x op = tellOp c n st x op' := by
  unfold tellOp tellVar
  have : (beforeAdd st).dom = st.dom := rfl
  rw [this, h]

/-- The assignment is a tell when the value is in the domain. -/
theorem assign_tell (c : Cfg) (n : Nat) (st : QSt) (x : Nat) (v : Int) (hg : (st.dom x).ground = false) (ht : testValue (st.dom x).r v = true) :
    assign c n st x v = tellOp c n st x (.value v) := by
  unfold assign tellOp tellVar
  have : (beforeAdd st).dom = st.dom := rfl
  have e : tell c (st.dom x) (.value v) = ⟨true, setInt (st.dom x) v, intEv (st.dom x) v, false⟩ := by
    unfold tell tellValue
    dsimp only
    rw [if_neg (by rw [ht]; simp), if_neg (by rw [hg]; simp)]
  rw [this, e]
  rfl

theorem one_ok (hc : c.Ok) {x : Nat} {op : Op} (hx : x ∈ vs) (ho : OpW c (W x) op) : UserOk c (GB c W M) vs (one x op) where
  blks := by
    intro b hb
    rw [List.mem_singleton.1 hb]
    exact ⟨fun s op' hs h => by cases h; exact gb_tell hc hs x op ho, fun _ _ _ _ _ _ n => Iff.rfl, hx⟩
  swt := fun f deps h => by cases h

theorem one_keep {σ : Nat → Nat} {x : Nat} {op : Op} (h : opMem op (σ x)) : KeepUser (GB c W M) (DS σ) (one x op) where
  blks := by
    intro b hb
    rw [List.mem_singleton.1 hb]
    exact fun s _ _ => ⟨fun h => (by cases h), fun op' h' n hn => (by cases h'; rw [show n = σ x from hn]; exact h)⟩
  swt := fun f deps h => by cases h

/-- The number of values of `vs`. -/
theorem size_mono {s s' : Store} (vs : List Nat) (h : ∀ x, (s' x).nb.toNat ≤ (s x).nb.toNat) :
    size vs s' ≤ size vs s ∧ ∀ x ∈ vs, (s' x).nb.toNat < (s x).nb.toNat → size vs s' < size vs s := by
  unfold size
  induction vs with
  | nil => simp
  | cons y vs ih =>
    simp only [List.map_cons, List.sum_cons, List.mem_cons]
    have := h y
    refine ⟨by omega, fun x hx hlt => ?_⟩
    rcases hx with hx | hx
    · rw [hx] at hlt; omega
    · have := ih.2 x hx hlt; omega

theorem nb_sub {v v' : Fdv} (hv : VarOk c v) (hv' : VarOk c v') (h : ∀ n, Mem v'.r n → Mem v.r n) :
    v'.nb.toNat ≤ v.nb.toNat ∧ ∀ n, Mem v.r n → ¬ Mem v'.r n → v'.nb.toNat < v.nb.toNat := by
  have h1 := hv.nbElem
  have h2 := hv'.nbElem
  have hle := nb_le hv.ne hv'.ne h
  refine ⟨by omega, fun n hn hn' => ?_⟩
  have hne : nbElem v.r ≠ nbElem v'.r := fun he => hn' ((nb_same hv.ne hv'.ne h he n).1 hn)
  have h0 : 0 ≤ nbElem v'.r := by rw [nbElem_elems v'.r hv'.ne]; omega
  omega

/-- The result of a restriction of `x` to the values in `P`. -/
structure OpOk (c : Cfg) (W : Nat → Bool) (M : Nat → Int) (vs : List Nat) (us : List UserCstr) (st : QSt) (x : Nat) (P : Nat → Prop)
    (ok : Bool) (st' : QSt) : Prop where
  notIn : ∀ y, st'.inQ y = false
  sub : Sub st'.dom st.dom
  ground : ∀ y, (st.dom y).ground = true → (st'.dom y).ground = true
  told : ok = true → ∀ n : Nat, Mem (st'.dom x).r n → P n
  next : ok = true → Ok c W M vs us st'
  keep : ∀ σ, Keep c W M σ st → P (σ x) → ok = true ∧ Keep c W M σ st'
  size : ok = true → (∃ n : Nat, Mem (st.dom x).r n ∧ ¬ P n) → size vs st'.dom < size vs st.dom

theorem op_ok (hc : c.Ok) {st : QSt} (hO : Ok c W M vs us st) {x : Nat} {op : Op} (hx : x ∈ vs) (ho : OpW c (W x) op) :
    ∃ n0 ok st', (∀ n, n0 ≤ n → tellOp c n st x op = some (ok, st')) ∧ OpOk c W M vs us st x (opMem op) ok st' := by
  have hG := gb_ok c W M
  have hu := one_ok (vs := vs) (M := M) hc hx ho
  obtain ⟨n0, ⟨ok, st'⟩, p1, p2, p3, p4, p5, p6, p7, p8, p9⟩ := post_ok hc hG hO.ready (one x op) hu
  have htold : ok = true → ∀ n : Nat, Mem (st'.dom x).r n → opMem op n := by
    intro hok n hn
    have hi : (install c (beforeAdd st) (one x op)).1 = true := by
      cases h : (install c (beforeAdd st) (one x op)).1 with
      | true => rfl
      | false => have h' : ok = false := p9 h
                 rw [h'] at hok; cases hok
    have hsub := p8.sub x n hn
    rw [install_one] at hi hsub
    have hv := hG _ hO.ready.good x
    have htok : (tell c ((beforeAdd st).dom x) op).ok = true := by
      unfold tellVar at hi
      dsimp only at hi
      split at hi
      · assumption
      · cases hi
    have ht := (tell_exact hc hv.1 hv.2 (gb_tell hc hO.ready.good x op ho).1).2 htok
    rw [(tellVar_fields htok).2.1, upd_same] at hsub
    exact ((ht.2.1 n).1 hsub).2
  have hnext : ok = true → Ok c W M vs us st' := by
    intro hok
    cases hok
    obtain ⟨c1, c2, c3, c4⟩ := post_checked hc hG hO.ready hO.noSwt hu rfl (p1 n0 (Nat.le_refl _))
    refine ⟨(p5 rfl).1, c1, hO.user, fun u hm => ?_⟩
    obtain ⟨h1, h2⟩ := hO.posted u hm
    obtain ⟨d1, d2⟩ := c4 u (hO.user u hm) h1
    exact ⟨d1, fun V => d2 V (h2 V)⟩
  refine ⟨n0, ok, st', fun n hn => by rw [tellOp_post]; exact p1 n hn, p4.notIn, p2, p3, htold, hnext, fun σ hk hP => ?_, fun hok ⟨n, h1, h2⟩ => ?_⟩
  · exact p6 (DS σ) (one_keep hP) hk
  · have hg' := (hnext hok).ready.good
    have hnb := fun y => nb_sub (hG _ hO.ready.good y).1 (hG _ hg' y).1 (p2 y)
    exact (size_mono vs (fun y => (hnb y).1)).2 x hx ((hnb x).2 n h1 (fun h => h2 (htold hok n h)))

/-! ### The restrictions of the labeling -/

theorem vec_ext {v w : Vec} (hl : v.length = w.length) (h : ∀ n, bit v n = bit w n) : v = w := by
  apply List.ext_getElem hl
  intro i h1 h2
  apply BitVec.eq_of_getLsbD_eq
  intro j hj
  have := h (i * 64 + j)
  rw [bit_mk v i j hj, bit_mk w i j hj, List.getD_eq_getElem?_getD, List.getD_eq_getElem?_getD, List.getElem?_eq_getElem h1,
    List.getElem?_eq_getElem h2] at this
  exact this

/-- A variable is determined by its values, `extra_cstr` and whether it is sparse. -/
theorem fdv_ext {v w : Fdv} (hv : VarOk c v) (hw : VarOk c w) (hm : ∀ n, Mem v.r n ↔ Mem w.r n) (he : v.r.extra = w.r.extra)
    (hs : v.r.vec.isSome = w.r.vec.isSome) : v = w := by
  obtain ⟨a1, a2, a3⟩ := bounds_mem c v.r hv.wf hv.ne
  obtain ⟨b1, b2, b3⟩ := bounds_mem c w.r hw.wf hw.ne
  have hmin : v.r.min = w.r.min := by have := a3 _ ((hm _).2 b1); have := b3 _ ((hm _).1 a1); omega
  have hmax : v.r.max = w.r.max := by have := a3 _ ((hm _).2 b2); have := b3 _ ((hm _).1 a2); omega
  have hnb : v.nb = w.nb := by
    rw [hv.nbElem, hw.nbElem]; exact nb_eq hv.ne hw.ne (fun n => (hm n).symm)
  have hvec : v.r.vec = w.r.vec := by
    cases e1 : v.r.vec with
    | none =>
      cases e2 : w.r.vec with
      | none => rfl
      | some b => rw [e1, e2] at hs; cases hs
    | some a =>
      cases e2 : w.r.vec with
      | none => rw [e1, e2] at hs; cases hs
      | some b =>
        congr 1
        refine vec_ext (((hv.wf.2 a e1).1).trans ((hw.wf.2 b e2).1).symm) (fun n => ?_)
        have h := hm n
        unfold Mem at h
        rw [e1, e2] at h
        simp only [hv.ne, hw.ne, true_and, Int.toNat_natCast] at h
        have h0 : (0 : Int) ≤ n := Int.natCast_nonneg n
        simp only [h0, true_and] at h
        cases hb : bit a n <;> cases hb' : bit b n <;> simp_all
  have htag : v.tag = w.tag := by
    cases e1 : v.tag with
    | none =>
      cases e2 : w.tag with
      | none => rfl
      | some m => have := hv.fdv e1; have := (hw.int m e2).2; omega
    | some n =>
      cases e2 : w.tag with
      | none => have := hw.fdv e2; have := (hv.int n e1).2; omega
      | some m =>
        have := (hv.int n e1).2; have := (hw.int m e2).2
        congr 1; omega
  obtain ⟨t1, n1, r1, r2, r3, r4⟩ := v
  obtain ⟨t2, n2, s1, s2, s3, s4⟩ := w
  simp_all

theorem ev_ext {v v' : Fdv} {e e' : Ev} (h : EvOk v v' False e) (h' : EvOk v v' False e') : e = e' := by
  obtain ⟨a1, a2, a3, a4, a5⟩ := h
  obtain ⟨b1, b2, b3, b4, b5⟩ := h'
  obtain ⟨x1, x2, x3, x4, x5⟩ := e
  obtain ⟨y1, y2, y3, y4, y5⟩ := e'
  have k : ∀ {a b : Bool} {P : Prop}, (a = true ↔ P) → (b = true ↔ P) → a = b := by
    intro a b P h1 h2
    cases a <;> cases b <;> simp_all
  have := k a1 b1; have := k a2 b2; have := k a3 b3; have := k a4 b4; have := k a5 b5
  simp_all

theorem inter_sparse {r : Range} {a b : Int} (hs : r.vec.isSome = true) : (inter c (initInterval a b) r).vec.isSome = true := by
  cases hv : r.vec with
  | none => rw [hv] at hs; cases hs
  | some w =>
    have e : inter c (initInterval a b) r = interSS c (sparseArg c (initInterval a b)) (sparseArg c r) := by
      unfold inter
      rw [hv]
      rfl
    rw [e]
    have h0 : (sparseArg c (initInterval a b)).vec.isSome = true := rfl
    generalize sparseArg c (initInterval a b) = r1 at h0 ⊢
    unfold interSS
    dsimp only
    split
    · exact h0
    · split
      · exact h0
      · unfold fromVector
        split
        · rfl
        · simp only [Range.setEmpty]
          split <;> simp_all

/-- The removal of a bound is the restriction to the rest of the interval. -/
theorem not_bound (hc : c.Ok) {v : Fdv} (hv : VarOk c v) (hg : v.tag = none) (he : v.r.extra = false)
    (hw : v.r.max ≤ c.vmax ∨ v.r.vec = none) (hm : v.r.max ≤ imax) :
    tell c v (.notValue v.r.min) = tell c v (.interval (v.r.min + 1) imax) ∧
    tell c v (.notValue v.r.max) = tell c v (.interval 0 (v.r.max - 1)) := by
  have hlt := hv.fdv hg
  have hgf := (ground_iff v).2 hg
  obtain ⟨m1, m2, m3⟩ := bounds_mem c v.r hv.wf hv.ne
  have hi : imax = 268435455 := rfl
  cases hvec : v.r.vec with
  | none =>
    have hnb := hv.nbElem
    unfold nbElem at hnb
    rw [hvec] at hnb
    dsimp only at hnb
    have t1 : testValue v.r v.r.min = true := (testValue_mem c v.r hv.wf _).2 m1
    have t2 : testValue v.r v.r.max = true := (testValue_mem c v.r hv.wf _).2 m2
    have hx1 : tell c v (.notValue v.r.min) = removeValue c v v.r.min := by
      show notBody c v.r.min _ v = _
      unfold notBody
      rw [if_neg (by rw [t1]; simp), if_neg (by rw [hgf]; simp), if_neg (by rintro ⟨_, h, _⟩; exact h rfl)]
    have hx2 : tell c v (.notValue v.r.max) = removeValue c v v.r.max := by
      show notBody c v.r.max _ v = _
      unfold notBody
      rw [if_neg (by rw [t2]; simp), if_neg (by rw [hgf]; simp), if_neg (by rintro ⟨_, _, h⟩; exact h rfl)]
    have hx3 : ∀ a b, tell c v (.interval a b) = tellIntervInterv v a b := by
      intro a b
      show tellInterval c v a b = _
      unfold tellInterval
      rw [if_neg (by rw [hgf]; simp), if_neg (by rw [hvec]; simp)]
    have h0 := hv.nonneg
    rw [hx1, hx2, hx3, hx3]
    obtain ⟨tg, nb, ex, mn, mx, vec⟩ := v
    dsimp only at hvec hnb hlt hg hm h0 he ⊢
    subst hvec hg he
    have hmx : (if imax ≤ mx then imax else mx) = mx := by split <;> omega
    have hmn : (if (0 : Int) ≥ mn then 0 else mn) = mn := by split <;> omega
    constructor
    · unfold removeValue tellIntervInterv
      dsimp only [Option.map]
      rw [if_pos (show mn + 1 ≥ mn by omega), hmx, if_pos rfl, if_pos rfl]
      by_cases h2 : nb = 2
      · rw [if_pos h2, if_neg (by omega), if_pos (by omega), show mn + 1 = mx by omega]
      · rw [if_neg h2, if_neg (by omega), if_neg (by omega)]
        unfold setInterval intervalEv
        dsimp only
        rw [if_pos (by omega), if_pos (by omega), decide_eq_true (by omega : mn ≠ mn + 1), decide_eq_false (by omega : ¬ mx ≠ mx),
          show nb - 1 = mx - (mn + 1) + 1 by omega]
    · unfold removeValue tellIntervInterv
      dsimp only [Option.map]
      rw [if_pos (show mx - 1 ≤ mx by omega), hmn, if_neg (show ¬ mx = mn by omega), if_neg (show ¬ mx = mn by omega), if_pos (rfl : mx = mx)]
      by_cases h2 : nb = 2
      · rw [if_pos h2, if_neg (by omega), if_pos (by omega)]
      · rw [if_neg h2, if_neg (by omega), if_neg (by omega)]
        unfold setInterval intervalEv
        dsimp only
        rw [if_pos (by omega), if_pos (by omega), decide_eq_true (by omega : mx ≠ mx - 1), decide_eq_false (by omega : ¬ mn ≠ mn),
          show nb - 1 = mx - 1 - mn + 1 by omega]
  | some w =>
    have hsm : v.r.max ≤ c.vmax := by
      rcases hw with h | h
      · exact h
      · rw [hvec] at h; cases h
    have key : ∀ op op' : Op, OpSmall op → OpSmall op' → OpWf c op → OpWf c op' → (∀ n : Nat, Mem v.r n → (opMem op n ↔ opMem op' n)) →
        (∃ n : Nat, Mem v.r n ∧ opMem op n) →
        ((tell c v op).ok = true → (tell c v op').ok = true → (tell c v op).v.r.vec.isSome = (tell c v op').v.r.vec.isSome) →
        tell c v op = tell c v op' := by
      intro op op' s1 s2 f1 f2 hop ⟨n, hn1, hn2⟩ hs
      obtain ⟨x1, x2⟩ := small_extra c hc v op hv ⟨hsm, he⟩ s1
      obtain ⟨y1, y2⟩ := small_extra c hc v op' hv ⟨hsm, he⟩ s2
      obtain ⟨p1, p2⟩ := tell_exact hc hv he ⟨f1, x2, fun _ => x1⟩
      obtain ⟨q1, q2⟩ := tell_exact hc hv he ⟨f2, y2, fun _ => y1⟩
      have ok1 : (tell c v op).ok = true := by
        cases h : (tell c v op).ok with
        | true => rfl
        | false => exact absurd hn2 (p1 h n hn1)
      have ok2 : (tell c v op').ok = true := by
        cases h : (tell c v op').ok with
        | true => rfl
        | false => exact absurd ((hop n hn1).1 hn2) (q1 h n hn1)
      obtain ⟨a1, a2, a3⟩ := p2 ok1
      obtain ⟨b1, b2, b3⟩ := q2 ok2
      have hv' : (tell c v op).v = (tell c v op').v := by
        refine fdv_ext a1 b1 (fun n => ?_) (x1.trans y1.symm) (hs ok1 ok2)
        have hk : ∀ n : Nat, Mem (tell c v op).v.r n ↔ Mem (tell c v op').v.r n := fun n => by
          rw [a2, b2]
          exact ⟨fun h => ⟨h.1, (hop n h.1).1 h.2⟩, fun h => ⟨h.1, (hop n h.1).2 h.2⟩⟩
        constructor
        · intro h
          have h0 := mem_nonneg a1 h
          have := (hk n.toNat).1 (by rw [Int.toNat_of_nonneg h0]; exact h)
          rwa [Int.toNat_of_nonneg h0] at this
        · intro h
          have h0 := mem_nonneg b1 h
          have := (hk n.toNat).2 (by rw [Int.toNat_of_nonneg h0]; exact h)
          rwa [Int.toNat_of_nonneg h0] at this
      have hev : (tell c v op).ev = (tell c v op').ev := ev_ext a3 (by rw [hv']; exact b3)
      generalize tell c v op = A at *
      generalize tell c v op' = B at *
      obtain ⟨A1, A2, A3, A4⟩ := A
      obtain ⟨B1, B2, B3, B4⟩ := B
      simp_all
    have hsome : ∀ op, (∃ x, op = .notValue x) ∨ (∃ a b, op = .interval a b) → (tell c v op).ok = true → VarOk c (tell c v op).v →
        (tell c v op).v.r.vec.isSome = decide ((tell c v op).v.r.min < (tell c v op).v.r.max) := by
      intro op hop hok hvo
      have hfdv : (tell c v op).v.tag = none → (tell c v op).v.r.vec.isSome = true →
          (tell c v op).v.r.vec.isSome = decide ((tell c v op).v.r.min < (tell c v op).v.r.max) := by
        intro h1 h2
        rw [h2, decide_eq_true (hvo.fdv h1)]
      have hset : ∀ n, (setInt v n).r.vec.isSome = decide ((setInt v n).r.min < (setInt v n).r.max) := by
        intro n
        show false = decide (n < n)
        rw [decide_eq_false (by omega)]
      rcases hop with ⟨x, rfl⟩ | ⟨a, b, rfl⟩
      · revert hfdv hok hvo
        rcases Bool.eq_false_or_eq_true (testValue v.r x) with ht | ht
        case inr =>
          have e : tell c v (.notValue x) = ⟨true, v, Ev.empty, false⟩ := by
            show notBody c x _ v = _
            unfold notBody
            rw [if_pos ht]
          rw [e]
          intro _ _ hf; exact hf hg (by rw [hvec]; rfl)
        case inl =>
          have e : tell c v (.notValue x) = removeValue c v x := by
            show notBody c x _ v = _
            unfold notBody
            rw [if_neg (by rw [ht]; simp), if_neg (by rw [hgf]; simp), if_neg (by rw [hvec]; simp)]
          rw [e]
          unfold removeValue
          rw [hvec]
          split
          · intro _ _ _; exact hset _
          · dsimp only [Option.map]
            split
            · intro _ _ hf; exact hf hg rfl
            · split
              · intro _ _ hf; exact hf hg rfl
              · intro _ _ hf; exact hf hg rfl
      · revert hfdv hok hvo
        have e : tell c v (.interval a b) = tellRangeRange c v (initInterval a b) := by
          show tellInterval c v a b = _
          unfold tellInterval
          rw [if_neg (by rw [hgf]; simp), if_pos (by rw [hvec]; rfl)]
        rw [e]
        unfold tellRangeRange
        dsimp only
        have hin := inter_sparse (c := c) (a := a) (b := b) (show v.r.vec.isSome = true by rw [hvec]; rfl)
        generalize inter c (initInterval a b) v.r = r at hin ⊢
        split
        · intro h; cases h
        · split
          · intro _ _ _; exact hset _
          · unfold updRange
            split
            · intro _ _ hf; exact hf hg hin
            · split
              · intro _ _ hf; exact hf hg (by rw [hvec]; rfl)
              · intro _ _ hf; exact hf hg (by rw [hvec]; rfl)
    have hsame : ∀ op op', ((∃ x, op = .notValue x) ∨ (∃ a b, op = .interval a b)) → ((∃ x, op' = .notValue x) ∨ (∃ a b, op' = .interval a b)) →
        OpSmall op → OpSmall op' → OpWf c op → OpWf c op' → (∀ n : Nat, Mem v.r n → (opMem op n ↔ opMem op' n)) →
        (tell c v op).ok = true → (tell c v op').ok = true → (tell c v op).v.r.vec.isSome = (tell c v op').v.r.vec.isSome := by
      intro op op' k1 k2 s1 s2 f1 f2 hop ok1 ok2
      obtain ⟨x1, x2⟩ := small_extra c hc v op hv ⟨hsm, he⟩ s1
      obtain ⟨y1, y2⟩ := small_extra c hc v op' hv ⟨hsm, he⟩ s2
      obtain ⟨a1, a2, _⟩ := (tell_exact hc hv he ⟨f1, x2, fun _ => x1⟩).2 ok1
      obtain ⟨b1, b2, _⟩ := (tell_exact hc hv he ⟨f2, y2, fun _ => y1⟩).2 ok2
      rw [hsome op k1 ok1 a1, hsome op' k2 ok2 b1]
      have sub1 : ∀ n : Nat, Mem (tell c v op).v.r n → Mem (tell c v op').v.r n := fun n h => (b2 n).2 ⟨((a2 n).1 h).1, (hop n ((a2 n).1 h).1).1 ((a2 n).1 h).2⟩
      have sub2 : ∀ n : Nat, Mem (tell c v op').v.r n → Mem (tell c v op).v.r n := fun n h => (a2 n).2 ⟨((b2 n).1 h).1, (hop n ((b2 n).1 h).1).2 ((b2 n).1 h).2⟩
      have e1 := sub_max a1 b1 sub2
      have e2 := sub_max b1 a1 sub1
      have e3 := sub_min a1 b1 sub2
      have e4 := sub_min b1 a1 sub1
      rw [show (tell c v op).v.r.min = (tell c v op').v.r.min by omega, show (tell c v op).v.r.max = (tell c v op').v.r.max by omega]
    have h0 := hv.nonneg
    constructor
    · have hop : ∀ n : Nat, Mem v.r n → (opMem (.notValue v.r.min) n ↔ opMem (.interval (v.r.min + 1) imax) n) := by
        intro n hn
        have := m3 n hn
        show (n : Int) ≠ v.r.min ↔ v.r.min + 1 ≤ n ∧ n ≤ imax
        omega
      refine key _ _ trivial ?_ trivial ?_ hop ⟨v.r.max.toNat, by rw [Int.toNat_of_nonneg (by omega)]; exact m2, ?_⟩
        (hsame _ _ (Or.inl ⟨_, rfl⟩) (Or.inr ⟨_, _, rfl⟩) trivial ?_ trivial ?_ hop)
      · show -2147483648 < v.r.min + 1; omega
      · show -2147483648 < v.r.min + 1; omega
      · show ((v.r.max.toNat : Nat) : Int) ≠ v.r.min; omega
      · show -2147483648 < v.r.min + 1; omega
      · show -2147483648 < v.r.min + 1; omega
    · have hop : ∀ n : Nat, Mem v.r n → (opMem (.notValue v.r.max) n ↔ opMem (.interval 0 (v.r.max - 1)) n) := by
        intro n hn
        have := m3 n hn
        show (n : Int) ≠ v.r.max ↔ 0 ≤ (n : Int) ∧ (n : Int) ≤ v.r.max - 1
        omega
      refine key _ _ trivial ?_ trivial ?_ hop ⟨v.r.min.toNat, by rw [Int.toNat_of_nonneg (by omega)]; exact m1, ?_⟩
        (hsame _ _ (Or.inl ⟨_, rfl⟩) (Or.inr ⟨_, _, rfl⟩) trivial ?_ trivial ?_ hop)
      · show (-2147483648 : Int) < 0; omega
      · show (-2147483648 : Int) < 0; omega
      · show ((v.r.min.toNat : Nat) : Int) ≠ v.r.max; omega
      · show (-2147483648 : Int) < 0; omega
      · show (-2147483648 : Int) < 0; omega

end Gp.Label
