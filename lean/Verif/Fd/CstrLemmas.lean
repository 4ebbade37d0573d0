import Verif.Fd.Cstr
import Verif.Fd.QueueGround
/- The blocks of the primitive constraints are correct constraints for the propagation (`FOk`). -/
namespace Gp.Fd

open Gp.FdRange

/-- The stores considered: nothing is lost, the maxima are bounded by `M`; the variables which are not in the window of the vectors are
intervals and are only told intervals (`W`). -/
def GB (c : Cfg) (W : Nat → Bool) (M : Nat → Int) (s : Store) : Prop :=
  ∀ v, VarOk c (s v) ∧ (s v).r.extra = false ∧ (s v).r.max ≤ M v ∧
    ((s v).r.max ≤ c.vmax ∨ (W v = true ∧ (s v).r.vec = none))

theorem gb_ok (c : Cfg) (W : Nat → Bool) (M : Nat → Int) : StoreOk c (GB c W M) := fun s h v => ⟨(h v).1, (h v).2.1⟩

/-- The operations which may be told to a variable of `W`. -/
def OpW (c : Cfg) (w : Bool) : Op → Prop
  | .value _ => True
  | .notValue _ => w = false
  | .interval a _ => -2147483648 < a
  | .range r => w = false ∧ WF c r ∧ (r.vec = none → r.extra = false)

theorem sub_max {c : Cfg} {v v' : Fdv} (hv : VarOk c v) (hv' : VarOk c v') (h : ∀ n : Nat, Mem v'.r n → Mem v.r n) : v'.r.max ≤ v.r.max := by
  have h1 := bounds_mem c v'.r hv'.wf hv'.ne
  have h2 := bounds_mem c v.r hv.wf hv.ne
  have := mem_sub hv' h _ h1.2.1
  exact (h2.2.2 _ this).2

theorem sub_min {c : Cfg} {v v' : Fdv} (hv : VarOk c v) (hv' : VarOk c v') (h : ∀ n : Nat, Mem v'.r n → Mem v.r n) : v.r.min ≤ v'.r.min := by
  have h1 := bounds_mem c v'.r hv'.wf hv'.ne
  have h2 := bounds_mem c v.r hv.wf hv.ne
  have := mem_sub hv' h _ h1.1
  exact (h2.2.2 _ this).1

theorem gb_tell {c : Cfg} (hc : c.Ok) {W : Nat → Bool} {M : Nat → Int} {s : Store} (hs : GB c W M s) (x : Nat) (op : Op) (ho : OpW c (W x) op) :
    NoLoss c (s x) op ∧ ((tell c (s x) op).ok = true → GB c W M (upd s x (tell c (s x) op).v)) := by
  obtain ⟨hv, he, hm, hw⟩ := hs x
  have hwf : OpWf c op := by
    cases op with
    | value _ => trivial
    | notValue _ => trivial
    | interval a b => exact ho
    | range r => exact ho.2.1
  have key : (tell c (s x) op).v.r.extra = false ∧ (tell c (s x) op).warn = false ∧
      ((s x).r.max ≤ c.vmax ∨ (W x = true ∧ (tell c (s x) op).v.r.vec = none)) := by
    rcases hw with hw | ⟨hw, hvec⟩
    · have hop : OpSmall op := by
        cases op with
        | value _ => trivial
        | notValue _ => trivial
        | interval a b => exact ho
        | range r => exact ho.2.2
      have := small_extra c hc (s x) op hv ⟨hw, he⟩ hop
      exact ⟨this.1, this.2, Or.inl hw⟩
    · cases op with
      | notValue _ => rw [hw] at ho; cases ho
      | range r => have := ho.1; rw [hw] at this; cases this
      | value n =>
        unfold tell tellValue
        dsimp only
        split
        · exact ⟨he, by simp [he], Or.inr ⟨hw, hvec⟩⟩
        · split
          · exact ⟨he, rfl, Or.inr ⟨hw, hvec⟩⟩
          · exact ⟨he, rfl, Or.inr ⟨hw, rfl⟩⟩
      | interval a b =>
        unfold tell tellInterval
        dsimp only
        split
        · exact ⟨he, rfl, Or.inr ⟨hw, hvec⟩⟩
        · rw [if_neg (by rw [hvec]; simp)]
          unfold tellIntervInterv
          dsimp only
          generalize (if a ≥ (s x).r.min then a else (s x).r.min) = mn
          generalize (if b ≤ (s x).r.max then b else (s x).r.max) = mx
          split
          · exact ⟨he, rfl, Or.inr ⟨hw, hvec⟩⟩
          · split
            · exact ⟨he, rfl, Or.inr ⟨hw, rfl⟩⟩
            · unfold setInterval
              split
              · exact ⟨he, rfl, Or.inr ⟨hw, hvec⟩⟩
              · exact ⟨he, rfl, Or.inr ⟨hw, hvec⟩⟩
  have hn : NoLoss c (s x) op := ⟨hwf, key.2.1, fun _ => key.1⟩
  refine ⟨hn, fun hok v => ?_⟩
  by_cases hx : v = x
  · rw [hx, upd_same]
    have ht := (tell_exact hc hv he hn).2 hok
    have hle := sub_max hv ht.1 (fun n h => ((ht.2.1 n).1 h).1)
    refine ⟨ht.1, key.1, by omega, ?_⟩
    rcases key.2.2 with h | h
    · exact Or.inl (by omega)
    · exact Or.inr h
  · rw [upd_ne _ _ hx]; exact hs v

/-! ### The readings -/

theorem ev_congr (w : Int → Int) (r r' : Rd) : ∀ t : Tm, (∀ p, (p, Mk.min) ∈ t.marks → r.lo p = r'.lo p) →
    (∀ p, (p, Mk.max) ∈ t.marks → r.hi p = r'.hi p) → (∀ p, (p, Mk.val) ∈ t.marks → r.vl p = r'.vl p) → t.ev w r = t.ev w r' := by
  intro t
  induction t with
  | cst n => intros; rfl
  | mn p => intro h1 _ _; exact h1 p (by simp [Tm.marks])
  | mx p => intro _ h2 _; exact h2 p (by simp [Tm.marks])
  | vl p => intro _ _ h3; exact h3 p (by simp [Tm.marks])
  | bin o a b iha ihb =>
    intro h1 h2 h3
    unfold Tm.ev
    rw [iha (fun p hp => h1 p (by simp [Tm.marks, hp])) (fun p hp => h2 p (by simp [Tm.marks, hp])) (fun p hp => h3 p (by simp [Tm.marks, hp])),
      ihb (fun p hp => h1 p (by simp [Tm.marks, hp])) (fun p hp => h2 p (by simp [Tm.marks, hp])) (fun p hp => h3 p (by simp [Tm.marks, hp]))]
  | ite0 t a b iht iha ihb =>
    intro h1 h2 h3
    unfold Tm.ev
    rw [iht (fun p hp => h1 p (by simp [Tm.marks, hp])) (fun p hp => h2 p (by simp [Tm.marks, hp])) (fun p hp => h3 p (by simp [Tm.marks, hp])),
      iha (fun p hp => h1 p (by simp [Tm.marks, hp])) (fun p hp => h2 p (by simp [Tm.marks, hp])) (fun p hp => h3 p (by simp [Tm.marks, hp])),
      ihb (fun p hp => h1 p (by simp [Tm.marks, hp])) (fun p hp => h2 p (by simp [Tm.marks, hp])) (fun p hp => h3 p (by simp [Tm.marks, hp]))]

theorem mem_params : ∀ (ms : List (Nat × Mk)) (p : Nat) (m : Mk), (p, m) ∈ ms → p ∈ params ms := by
  intro ms
  induction ms with
  | nil => intro p m h; cases h
  | cons a ms ih =>
    intro p m h
    obtain ⟨q, k⟩ := a
    unfold params
    by_cases hq : p = q
    · rw [hq]; simp
    · rcases List.mem_cons.1 h with h | h
      · cases h; exact absurd rfl hq
      · exact List.mem_cons.2 (Or.inr (List.mem_filter.2 ⟨ih p m h, by simp [hq]⟩))

theorem dep_mem (a : Nat → Nat) (x : Nat) (g : Rg) (p : Nat) (m : Mk) (h : (p, m) ∈ g.marks) :
    (a p, chainOf g.marks p) ∈ (mkBlk a (x, g)).deps :=
  List.mem_map.2 ⟨(p, chainOf g.marks p), List.mem_map.2 ⟨p, mem_params _ _ _ h, rfl⟩, rfl⟩

theorem ground_same {c : Cfg} {v v' : Fdv} (hv : VarOk c v) (hv' : VarOk c v') (hs : ∀ n : Int, Mem v'.r n → Mem v.r n) (hg : v.ground = true) :
    v'.ground = true ∧ v'.r.min = v.r.min ∧ v'.r.max = v.r.min ∧ v.r.max = v.r.min := by
  have hb := bounds_mem c v'.r hv'.wf hv'.ne
  have hb' := bounds_mem c v.r hv.wf hv.ne
  have h1 := (ground_mem hv hg _).1 (hs _ hb.1)
  have h2 := (ground_mem hv hg _).1 (hs _ hb.2.1)
  have h3 := (ground_mem hv hg _).1 hb'.2.1
  refine ⟨?_, h1, h2, h3⟩
  cases hg' : v'.ground with
  | true => rfl
  | false =>
    have := hv'.fdv ((ground_iff v').1 hg')
    omega

/-- The readings of a block are the same if no watched event happened. -/
theorem rd_same {c : Cfg} {s s' : Store} (hs : ∀ v, VarOk c (s v)) (hs' : ∀ v, VarOk c (s' v)) (hsub : Sub s' s) (a : Nat → Nat) (x : Nat) (g : Rg)
    (hd : ∀ d ∈ (mkBlk a (x, g)).deps, ¬ evAt d.2 (s d.1) (s' d.1))
    (hv : ∀ p, (p, Mk.val) ∈ g.marks → (s (a p)).ground = true) :
    (∀ p, (p, Mk.min) ∈ g.marks → (s (a p)).r.min = (s' (a p)).r.min) ∧
    (∀ p, (p, Mk.max) ∈ g.marks → (s (a p)).r.max = (s' (a p)).r.max) ∧
    (∀ p, (p, Mk.val) ∈ g.marks → (s (a p)).r.min = (s' (a p)).r.min) ∧
    (∀ p, (p, Mk.dom) ∈ g.marks → (p, Mk.val) ∉ g.marks → ∀ n, Mem (s (a p)).r n ↔ Mem (s' (a p)).r n) := by
  have hgr : ∀ p, (p, Mk.val) ∈ g.marks → (s (a p)).r.min = (s' (a p)).r.min ∧ (s (a p)).r.max = (s' (a p)).r.max := by
    intro p hp
    obtain ⟨_, h2, h3, h4⟩ := ground_same (hs (a p)) (hs' (a p)) (hsub (a p)) (hv p hp)
    exact ⟨h2.symm, by rw [h3, h4]⟩
  have hdom : ∀ p, (p, Mk.dom) ∈ g.marks → (p, Mk.val) ∉ g.marks → ∀ n, Mem (s (a p)).r n ↔ Mem (s' (a p)).r n := by
    intro p hp hnv n
    have := hd _ (dep_mem a x g p _ hp)
    rw [show chainOf g.marks p = 3 by unfold chainOf; rw [if_neg hnv, if_pos hp]] at this
    apply Classical.byContradiction
    intro hc
    exact this ⟨n, hc⟩
  have hdb : ∀ p, (p, Mk.dom) ∈ g.marks → (p, Mk.val) ∉ g.marks →
      (s (a p)).r.min = (s' (a p)).r.min ∧ (s (a p)).r.max = (s' (a p)).r.max := by
    intro p hp hnv
    have h := hdom p hp hnv
    have h1 := sub_min (hs (a p)) (hs' (a p)) (fun n hn => hsub _ _ hn)
    have h2 := sub_max (hs (a p)) (hs' (a p)) (fun n hn => hsub _ _ hn)
    have h3 := sub_min (hs' (a p)) (hs (a p)) (fun n hn => (h n).1 hn)
    have h4 := sub_max (hs' (a p)) (hs (a p)) (fun n hn => (h n).1 hn)
    omega
  refine ⟨fun p hp => ?_, fun p hp => ?_, fun p hp => (hgr p hp).1, hdom⟩
  · by_cases h4 : (p, Mk.val) ∈ g.marks
    · exact (hgr p h4).1
    · by_cases h3 : (p, Mk.dom) ∈ g.marks
      · exact (hdb p h3 h4).1
      · have := hd _ (dep_mem a x g p _ hp)
        unfold chainOf at this
        rw [if_neg h4, if_neg h3, if_pos hp] at this
        by_cases h2 : (p, Mk.max) ∈ g.marks
        · rw [if_pos h2] at this
          simp only [evAt, not_or, Classical.not_not] at this
          exact this.1.symm
        · rw [if_neg h2] at this
          simp only [evAt, Classical.not_not] at this
          exact this.symm
  · by_cases h4 : (p, Mk.val) ∈ g.marks
    · exact (hgr p h4).2
    · by_cases h3 : (p, Mk.dom) ∈ g.marks
      · exact (hdb p h3 h4).2
      · have := hd _ (dep_mem a x g p _ hp)
        unfold chainOf at this
        rw [if_neg h4, if_neg h3] at this
        by_cases h2 : (p, Mk.min) ∈ g.marks
        · rw [if_pos h2, if_pos hp] at this
          simp only [evAt, not_or, Classical.not_not] at this
          exact this.2.symm
        · rw [if_neg h2] at this
          simp only [evAt, Classical.not_not] at this
          exact this.symm

/-- What a block needs for the stores `GB`: the lower bounds are not -2^31, the other ranges are told to small variables. -/
def RgOk (c : Cfg) (W : Nat → Bool) (M : Nat → Int) (a : Nat → Nat) (b : Nat × Rg) : Prop :=
  match b.2 with
  | .itv lo _ => ∀ s, GB c W M s → -2147483648 < lo.ev toInt32 (rd s a)
  | .compl _ => W (a b.1) = false
  | .single _ => True
  | .dom p => W (a b.1) = false ∧ W (a p) = false

theorem act_tell {a : Nat → Nat} {g : Rg} {s : Store} {op : Op} (h : g.act a s = .tell op) :
    op = g.op s a ∧ ∀ p, (p, Mk.val) ∈ g.marks → (s (a p)).ground = true := by
  unfold Rg.act at h
  split at h
  · next ht =>
    cases h
    refine ⟨rfl, fun p hp => ?_⟩
    have := List.all_eq_true.1 ht _ hp
    simpa using this
  · cases h

theorem act_exit {a : Nat → Nat} {g : Rg} {s : Store} (h : g.act a s = .exit) : ∃ p, (p, Mk.val) ∈ g.marks ∧ (s (a p)).ground = false := by
  unfold Rg.act at h
  split at h
  · cases h
  · next ht =>
    simp only [Bool.not_eq_true, List.all_eq_false, Bool.or_eq_true, decide_eq_true_eq, not_or, Classical.not_not] at ht
    obtain ⟨⟨p, m⟩, h1, h2, h3⟩ := ht
    dsimp only at h2 h3
    rw [h2] at h1
    exact ⟨p, h1, by simpa using h3⟩

theorem act_val {a : Nat → Nat} {g : Rg} {s : Store} (h : ∀ p, (p, Mk.val) ∈ g.marks → (s (a p)).ground = true) : g.act a s = .tell (g.op s a) := by
  unfold Rg.act
  rw [if_pos]
  rw [List.all_eq_true]
  intro ⟨p, m⟩ hm
  cases m with
  | val => simpa using h p hm
  | _ => simp

theorem mkBlk_ok {c : Cfg} (hc : c.Ok) {W : Nat → Bool} {M : Nat → Int} {vs : List Nat} {a : Nat → Nat} {b : Nat × Rg} (hb : RgOk c W M a b)
    (hx : a b.1 ∈ vs) : FOk c (GB c W M) vs (mkBlk a b).x (mkBlk a b).f (mkBlk a b).deps where
  closed := by
    intro s op hs hop
    refine gb_tell hc hs _ op ?_
    obtain ⟨ho, _⟩ := act_tell (g := b.2) hop
    rw [ho]
    obtain ⟨x, g⟩ := b
    cases g with
    | itv lo hi => exact hb s hs
    | compl t => exact hb
    | single t => trivial
    | dom p =>
      have hv := hs (a p)
      exact ⟨hb.1, hv.1.wf, fun _ => hv.2.1⟩
  watch := by
    intro s s' hs hs' hsub hd
    show ActEq (b.2.act a s) (b.2.act a s')
    have hok : ∀ v, VarOk c (s v) := fun v => (hs v).1
    have hok' : ∀ v, VarOk c (s' v) := fun v => (hs' v).1
    obtain ⟨x, g⟩ := b
    dsimp only
    cases ha : g.act a s with
    | fail => unfold Rg.act at ha; split at ha <;> cases ha
    | exit =>
      obtain ⟨p, hp, hg⟩ := act_exit ha
      have := hd _ (dep_mem a x g p _ hp)
      rw [show chainOf g.marks p = 4 by unfold chainOf; rw [if_pos hp]] at this
      have hg' : (s' (a p)).ground = false := by
        cases h : (s' (a p)).ground with
        | false => rfl
        | true =>
          refine absurd ⟨(ground_iff _).1 hg, fun hn => ?_⟩ this
          rw [(ground_iff _).2 hn] at h; cases h
      cases ha' : g.act a s' with
      | fail => unfold Rg.act at ha'; split at ha' <;> cases ha'
      | exit => trivial
      | tell op =>
        have := (act_tell ha').2 p hp
        rw [hg'] at this; cases this
    | tell op =>
      obtain ⟨ho, hv⟩ := act_tell ha
      obtain ⟨r1, r2, r3, r4⟩ := rd_same hok hok' hsub a x g hd hv
      have hv' : ∀ p, (p, Mk.val) ∈ g.marks → (s' (a p)).ground = true := fun p hp =>
        (ground_same (hok (a p)) (hok' (a p)) (hsub (a p)) (hv p hp)).1
      rw [act_val hv', ho]
      show ∀ n, opMem (g.op s a) n ↔ opMem (g.op s' a) n
      intro n
      cases g with
      | itv lo hi =>
        have e1 := ev_congr toInt32 (rd s a) (rd s' a) lo (fun p hp => r1 p (by simp [Rg.marks, hp])) (fun p hp => r2 p (by simp [Rg.marks, hp]))
          (fun p hp => r3 p (by simp [Rg.marks, hp]))
        have e2 := ev_congr toInt32 (rd s a) (rd s' a) hi (fun p hp => r1 p (by simp [Rg.marks, hp])) (fun p hp => r2 p (by simp [Rg.marks, hp]))
          (fun p hp => r3 p (by simp [Rg.marks, hp]))
        simp only [Rg.op, e1, e2]
      | compl t =>
        have e1 := ev_congr toInt32 (rd s a) (rd s' a) t r1 r2 r3
        simp only [Rg.op, e1]
      | single t =>
        have e1 := ev_congr toInt32 (rd s a) (rd s' a) t r1 r2 r3
        simp only [Rg.op, e1]
      | dom p =>
        exact r4 p (by simp [Rg.marks]) (by simp [Rg.marks]) n
  told := hx

theorem mkCstr_ok {c : Cfg} (hc : c.Ok) {W : Nat → Bool} {M : Nat → Int} {vs : List Nat} {a : Nat → Nat} {bs : List (Nat × Rg)}
    (hb : ∀ b ∈ bs, RgOk c W M a b ∧ a b.1 ∈ vs) : UserOk c (GB c W M) vs (mkCstr a bs) where
  blks := by
    intro b h
    obtain ⟨b', h', e⟩ := List.mem_map.1 h
    rw [← e]
    exact mkBlk_ok hc (hb b' h').1 (hb b' h').2
  swt := fun f deps h => by cases h

/-! ### No overflow -/

/-- A bound of the absolute value of a term when the values of the parameters are at most `B`. -/
def Tm.bnd (B : Nat → Nat) : Tm → Nat
  | .cst n => n.natAbs
  | .mn p => B p
  | .mx p => B p
  | .vl p => B p
  | .bin .add a b => a.bnd B + b.bnd B
  | .bin .sub a b => a.bnd B + b.bnd B
  | .bin .mul a b => a.bnd B * b.bnd B
  | .bin .divUp a b => a.bnd B + b.bnd B + 1
  | .bin .divDn a _ => a.bnd B
  | .bin _ _ _ => 4294967296
  | .ite0 _ a b => a.bnd B + b.bnd B

/-- No intermediate result overflows. -/
def Tm.Fits (B : Nat → Nat) : Tm → Prop
  | .bin o a b => a.Fits B ∧ b.Fits B ∧ (Tm.bin o a b).bnd B < 2147483648
  | .ite0 t a b => t.Fits B ∧ a.Fits B ∧ b.Fits B
  | _ => True

instance (B : Nat → Nat) : (t : Tm) → Decidable (t.Fits B)
  | .bin o a b => by
    unfold Tm.Fits
    have := instDecidableFits B a
    have := instDecidableFits B b
    exact inferInstance
  | .ite0 t a b => by
    unfold Tm.Fits
    have := instDecidableFits B t
    have := instDecidableFits B a
    have := instDecidableFits B b
    exact inferInstance
  | .cst _ | .mn _ | .mx _ | .vl _ => isTrue trivial

theorem toInt32_id {n : Int} (h : n.natAbs < 2147483648) : toInt32 n = n := by
  unfold toInt32; omega

theorem natAbs_tdiv_le (a b : Int) : (a.tdiv b).natAbs ≤ a.natAbs := by
  rw [Int.natAbs_tdiv]
  exact Nat.div_le_self _ _

theorem fits_ev (B : Nat → Nat) (r : Rd) (h1 : ∀ p, (r.lo p).natAbs ≤ B p) (h2 : ∀ p, (r.hi p).natAbs ≤ B p) (h3 : ∀ p, (r.vl p).natAbs ≤ B p) :
    ∀ t : Tm, t.Fits B → t.ev toInt32 r = t.ev id r ∧ (t.ev id r).natAbs ≤ t.bnd B := by
  intro t
  induction t with
  | cst n => intro _; exact ⟨rfl, Nat.le_refl _⟩
  | mn p => intro _; exact ⟨rfl, h1 p⟩
  | mx p => intro _; exact ⟨rfl, h2 p⟩
  | vl p => intro _; exact ⟨rfl, h3 p⟩
  | bin o a b iha ihb =>
    intro ⟨ha, hb, hlt⟩
    obtain ⟨ea, la⟩ := iha ha
    obtain ⟨eb, lb⟩ := ihb hb
    cases o with
    | add =>
      simp only [Tm.ev, Bop.ev, Tm.bnd, id] at hlt ⊢
      rw [ea, eb]
      refine ⟨toInt32_id (by omega), by omega⟩
    | sub =>
      simp only [Tm.ev, Bop.ev, Tm.bnd, id] at hlt ⊢
      rw [ea, eb]
      refine ⟨toInt32_id (by omega), by omega⟩
    | mul =>
      simp only [Tm.ev, Bop.ev, Tm.bnd, id] at hlt ⊢
      rw [ea, eb]
      have : (a.ev id r * b.ev id r).natAbs ≤ a.bnd B * b.bnd B := by
        rw [Int.natAbs_mul]; exact Nat.mul_le_mul la lb
      exact ⟨toInt32_id (by omega), this⟩
    | divUp =>
      simp only [Tm.ev, Bop.ev, Tm.bnd, id] at hlt ⊢
      rw [ea, eb, toInt32_id (n := a.ev id r + b.ev id r) (by omega), toInt32_id (n := a.ev id r + b.ev id r - 1) (by omega)]
      have := natAbs_tdiv_le (a.ev id r + b.ev id r - 1) (b.ev id r)
      exact ⟨toInt32_id (by omega), by omega⟩
    | divDn =>
      simp only [Tm.ev, Bop.ev, Tm.bnd, id] at hlt ⊢
      rw [ea, eb]
      have := natAbs_tdiv_le (a.ev id r) (b.ev id r)
      exact ⟨toInt32_id (by omega), by omega⟩
    | and => simp only [Tm.bnd] at hlt; omega
    | or => simp only [Tm.bnd] at hlt; omega
    | xor => simp only [Tm.bnd] at hlt; omega
  | ite0 t a b iht iha ihb =>
    intro ⟨ht, ha, hb⟩
    obtain ⟨et, lt⟩ := iht ht
    obtain ⟨ea, la⟩ := iha ha
    obtain ⟨eb, lb⟩ := ihb hb
    simp only [Tm.ev, Tm.bnd]
    rw [et]
    split
    · exact ⟨ea, by omega⟩
    · exact ⟨eb, by omega⟩

/-! ### Bounds -/

/-- `Tm.pol true t`: the term does not decrease when the domains shrink (a lower bound); `Tm.pol false t`: an upper bound. -/
def Tm.pol (up : Bool) : Tm → Bool
  | .cst _ => true
  | .mn _ => up
  | .mx _ => !up
  | .vl _ => true
  | .bin .add a b => a.pol up && b.pol up
  | .bin .sub a b => a.pol up && b.pol (!up)
  | .bin .mul (.cst n) b => decide (0 ≤ n) && b.pol up
  | .bin .divUp a (.cst n) => decide (0 < n) && a.pol up
  | .bin .divDn a (.cst n) => decide (0 < n) && a.pol up
  | _ => false

theorem tdiv_mono {a b n : Int} (hn : 0 < n) (h : a ≤ b) : a.tdiv n ≤ b.tdiv n := by
  rw [Int.tdiv_eq_ediv, Int.tdiv_eq_ediv]
  have hs : n.sign = 1 := Int.sign_eq_one_of_pos hn
  rw [hs]
  have hle := Int.ediv_le_ediv hn h
  by_cases ha : 0 ≤ a ∨ n ∣ a
  · rw [if_pos ha]
    by_cases hb : 0 ≤ b ∨ n ∣ b
    · rw [if_pos hb]; omega
    · rw [if_neg hb]; omega
  · rw [if_neg ha]
    by_cases hb : 0 ≤ b ∨ n ∣ b
    · rw [if_pos hb]
      rcases hb with hb | hb
      · have h1 : a / n < 0 := Int.ediv_neg_of_neg_of_pos (by omega) hn
        have h2 := Int.ediv_nonneg hb (Int.le_of_lt hn)
        omega
      · obtain ⟨k, rfl⟩ := hb
        have h1 : a / n < k := by
          apply Int.ediv_lt_of_lt_mul hn
          rcases Int.lt_or_eq_of_le h with h | h
          · rw [Int.mul_comm]; exact h
          · exact absurd (Or.inr ⟨k, h⟩) ha
        rw [Int.mul_ediv_cancel_left _ (by omega)]
        omega
    · rw [if_neg hb]; omega

theorem pol_le (r : Rd) (σ : Nat → Int) (h1 : ∀ p, r.lo p ≤ σ p) (h2 : ∀ p, σ p ≤ r.hi p) : ∀ t : Tm, (∀ p, (p, Mk.val) ∈ t.marks → r.vl p = σ p) →
    (t.pol true = true → t.ev id r ≤ t.ev id ⟨σ, σ, σ⟩) ∧ (t.pol false = true → t.ev id ⟨σ, σ, σ⟩ ≤ t.ev id r) := by
  intro t
  induction t with
  | cst n => intro _; exact ⟨fun _ => Int.le_refl _, fun _ => Int.le_refl _⟩
  | mn p => intro _; exact ⟨fun _ => h1 p, fun h => by cases h⟩
  | mx p => intro _; exact ⟨fun h => (by cases h), fun _ => h2 p⟩
  | vl p =>
    intro hv
    have := hv p (by simp [Tm.marks])
    simp only [Tm.ev]
    exact ⟨fun _ => by omega, fun _ => by omega⟩
  | ite0 t a b _ _ _ => intro _; exact ⟨fun h => (by cases h), fun h => by cases h⟩
  | bin o a b iha ihb =>
    intro hv
    obtain ⟨a1, a2⟩ := iha (fun p hp => hv p (by simp [Tm.marks, hp]))
    obtain ⟨b1, b2⟩ := ihb (fun p hp => hv p (by simp [Tm.marks, hp]))
    cases o with
    | add =>
      simp only [Tm.pol, Bool.and_eq_true, Tm.ev, Bop.ev, id]
      exact ⟨fun ⟨h, h'⟩ => Int.add_le_add (a1 h) (b1 h'), fun ⟨h, h'⟩ => Int.add_le_add (a2 h) (b2 h')⟩
    | sub =>
      simp only [Tm.pol, Bool.and_eq_true, Tm.ev, Bop.ev, id, Bool.not_true, Bool.not_false]
      exact ⟨fun ⟨h, h'⟩ => Int.sub_le_sub (a1 h) (b2 h'), fun ⟨h, h'⟩ => Int.sub_le_sub (a2 h) (b1 h')⟩
    | mul =>
      cases a with
      | cst n =>
        simp only [Tm.pol, Bool.and_eq_true, decide_eq_true_eq, Tm.ev, Bop.ev, id]
        exact ⟨fun ⟨h, h'⟩ => Int.mul_le_mul_of_nonneg_left (b1 h') h, fun ⟨h, h'⟩ => Int.mul_le_mul_of_nonneg_left (b2 h') h⟩
      | _ => exact ⟨fun h => (by cases h), fun h => by cases h⟩
    | divUp =>
      cases b with
      | cst n =>
        simp only [Tm.pol, Bool.and_eq_true, decide_eq_true_eq, Tm.ev, Bop.ev, id]
        exact ⟨fun ⟨h, h'⟩ => tdiv_mono h (by have := a1 h'; omega), fun ⟨h, h'⟩ => tdiv_mono h (by have := a2 h'; omega)⟩
      | _ => exact ⟨fun h => (by cases h), fun h => by cases h⟩
    | divDn =>
      cases b with
      | cst n =>
        simp only [Tm.pol, Bool.and_eq_true, decide_eq_true_eq, Tm.ev, Bop.ev, id]
        exact ⟨fun ⟨h, h'⟩ => tdiv_mono h (a1 h'), fun ⟨h, h'⟩ => tdiv_mono h (a2 h')⟩
      | _ => exact ⟨fun h => (by cases h), fun h => by cases h⟩
    | and => exact ⟨fun h => (by cases h), fun h => by cases h⟩
    | or => exact ⟨fun h => (by cases h), fun h => by cases h⟩
    | xor => exact ⟨fun h => (by cases h), fun h => by cases h⟩

end Gp.Fd
