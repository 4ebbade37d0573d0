import Verif.ListBip.Reverse
namespace Gp.ListBip
open Gp.Heap Gp.Unify

variable {ι : Type} {N : Adr} {s s' s'' s0 : St} {E : Env}

theorem finish2 {A B : Nat → (Adr → T) → Prop} {P : (Adr → T) → Prop} {k lo : Nat} {cp : Option CP} {r : Bool}
    {Inv : Nat → CP → Prop} (hsim : Sim N s0 s A B) (hlo : lo ≤ k)
    (hskip : ∀ j, j < k → ∀ ρ, Model N s.mem ρ → ¬ B j ρ) (hiff : ∀ ρ, Model N s.mem ρ → (B k ρ ↔ P ρ))
    (hn : cp = none → ∀ j, k < j → ∀ ρ, Model N s.mem ρ → ¬ B j ρ) (hc : ∀ c, cp = some c → Inv (k + 1) c)
    (hs : r = true → Step N s P s') (hf : r = false → NoAnswer N s P) : Good N s0 A Inv lo (.ret r s' cp) := by
  refine ⟨k, hlo, fun j _ hj => hsim.none (hskip j hj), ?_, ?_, ?_, hc⟩
  · intro hr; exact hsim.step (hs hr) hiff
  · intro hr; exact hsim.none (fun ρ hρ hb => hf hr ρ hρ ((hiff ρ hρ).mp hb))
  · intro hcp j hj; exact hsim.none (hn hcp j hj)

theorem getInteger_res (hok : Ok N s) {w : Cell} {n : Int} {r : Bool} (hw : ValidWord N s.lssa s.mem w)
    (h : getInteger E s n w = some (r, s')) :
    (r = true → Step N s (fun ρ => eval s.mem ρ w = .int n) s') ∧
      (r = false → NoAnswer N s (fun ρ => eval s.mem ρ w = .int n)) := by
  obtain ⟨v, d1, d2, d3, d4⟩ := deref_ok hok hw
  unfold getInteger at h
  rw [d1] at h
  have other : (∀ ρ, Model N s.mem ρ → eval s.mem ρ v = .int n → v = .int n) →
      some (decide (v = .int n), s) = some (r, s') →
      (r = true → Step N s (fun ρ => eval s.mem ρ w = .int n) s') ∧
      (r = false → NoAnswer N s (fun ρ => eval s.mem ρ w = .int n)) := by
    intro hv h
    simp only [Option.some.injEq, Prod.mk.injEq] at h
    obtain ⟨rfl, rfl⟩ := h
    constructor
    · intro hd
      have hd := of_decide_eq_true hd
      refine Step.refl hok ?_
      intro ρ hρ
      rw [d4 ρ hρ, hd]; rfl
    · intro hd ρ hρ he
      rw [d4 ρ hρ] at he
      exact of_decide_eq_false hd (hv ρ hρ he)
  cases v with
  | ref a =>
    simp only [Option.some.injEq, Prod.mk.injEq] at h
    obtain ⟨rfl, rfl⟩ := h
    refine ⟨fun _ => ?_, by simp⟩
    refine (bind_step hok d2.1 (d3 a rfl) (w := .int n) trivial (by simp)).congr ?_
    intro ρ hρ
    rw [d4 ρ hρ]; rfl
  | fdv a => exact d2.elim
  | fn i j => exact d2.elim
  | raw i => exact d2.elim
  | int i => exact other (fun ρ hρ he => by simp only [Unify.eval, T.int.injEq] at he; rw [he]) h
  | atm i => exact other (fun ρ hρ he => by simp [Unify.eval] at he) h
  | lst i => exact other (fun ρ hρ he => by simp [Unify.eval] at he) h
  | stc i =>
    obtain ⟨f, k, hf, _⟩ := d2
    exact other (fun ρ hρ he => by simp [Unify.eval, hf] at he) h
  | flt i =>
    obtain ⟨x, hf⟩ := d2
    exact other (fun ρ hρ he => by simp only [Unify.eval, hf] at he; split at he <;> simp at he) h

/-! length/2 on terms -/

theorem len_zero {l n : T} {m : Int} : Len 0 l m n ↔ l = nil ∧ n = .int m := by
  constructor
  · intro h; cases h; exact ⟨rfl, rfl⟩
  · rintro ⟨rfl, rfl⟩; exact .base

theorem len_succ {k : Nat} {l n : T} {m : Int} : Len (k + 1) l m n ↔ ∃ h t, l = .lst h t ∧ Len k t (m + 1) n := by
  constructor
  · intro h; cases h with
    | step h => exact ⟨_, _, rfl, h⟩
  · rintro ⟨h, b, rfl, h'⟩; exact .step h'

theorem Len.int {i : Nat} {l n : T} {m : Int} (h : Len i l m n) : n = .int (m + i) := by
  induction h with
  | base => simp
  | step _ ih => rw [ih]; congr 1; omega

theorem Len.list {i : Nat} {l n : T} {m : Int} (h : Len i l m n) : l = nil ∨ ∃ x y, l = .lst x y := by
  cases h with
  | base => exact .inl rfl
  | step _ => exact .inr ⟨_, _, rfl⟩

/-- The derivations of length/2 after `k` uses of the recursive clause. -/
def BL (s : St) (l n : Cell) (k : Nat) : Nat → (Adr → T) → Prop :=
  fun j ρ => ∃ i, j = k + i ∧ Len i (eval s.mem ρ l) k (eval s.mem ρ n)

theorem bl_base {l n : Cell} {k : Nat} (ρ : Adr → T) :
    BL s l n k k ρ ↔ (eval s.mem ρ l = nil ∧ eval s.mem ρ n = .int k) := by
  constructor
  · rintro ⟨i, hi, ha⟩
    have : i = 0 := by omega
    subst this
    exact len_zero.mp ha
  · intro h; exact ⟨0, rfl, len_zero.mpr h⟩

theorem bl_skip {l n : Cell} {k j : Nat} (hj : j < k) (ρ : Adr → T) : ¬ BL s l n k j ρ := by
  rintro ⟨i, hi, _⟩; omega

theorem bl_pos {l n : Cell} {k : Nat} (hok : Ok N s)
    (hne : ∀ ρ, Model N s.mem ρ → ¬ Len 0 (eval s.mem ρ l) k (eval s.mem ρ n)) :
    Sim N s s (BL s l n k) (fun j ρ => k + 1 ≤ j ∧ BL s l n k j ρ) := by
  refine Sim.refl hok ?_
  intro j ρ hρ
  constructor
  · rintro ⟨i, rfl, ha⟩
    cases i with
    | zero => exact absurd ha (hne ρ hρ)
    | succ i => exact ⟨by omega, i + 1, rfl, ha⟩
  · exact fun h => h.2

theorem length_cons {l n l' : Cell} {k : Nat} (h1 : ValidWord N s.lssa s.mem l) (h2 : ValidWord N s.lssa s.mem n)
    {P : (Adr → T) → Prop} (hst : Step N s P s')
    (hP : ∀ ρ x a, Model N s.mem ρ → eval s.mem ρ l = .lst x a → P ρ)
    (e1 : ∀ ρ, Model N s'.mem ρ → ∃ x, eval s.mem ρ l = .lst x (eval s'.mem ρ l')) :
    Sim N s s' (fun j ρ => k + 1 ≤ j ∧ BL s l n k j ρ) (BL s' l' n (k + 1)) := by
  refine hst.sim ?_ ?_ ?_
  · rintro j ρ hρ hρ' _ ⟨i, rfl, ha⟩
    obtain ⟨x, hx⟩ := e1 ρ hρ'
    refine ⟨by omega, i + 1, by omega, len_succ.mpr ⟨x, _, hx, ?_⟩⟩
    rw [hst.grow.eval h2] at ha
    exact ha
  · rintro j ρ hρ ⟨hj, i, rfl, ha⟩
    obtain ⟨i, rfl⟩ : ∃ i', i = i' + 1 := ⟨i - 1, by omega⟩
    obtain ⟨x, a, q1, _⟩ := len_succ.mp ha
    exact hP ρ x a hρ q1
  · rintro j ρ ρ' hρ' hag ⟨hj, i, rfl, ha⟩
    rw [← hag.eval h1, ← hag.eval h2] at ha
    obtain ⟨i, rfl⟩ : ∃ i', i = i' + 1 := ⟨i - 1, by omega⟩
    obtain ⟨y, a, q1, q3⟩ := len_succ.mp ha
    obtain ⟨x, hx⟩ := e1 ρ' hρ'
    rw [hx] at q1
    simp only [T.lst.injEq] at q1
    refine ⟨i, by omega, ?_⟩
    rw [hst.grow.eval h2, q1.2]
    exact q3

/-- The choice points of length/2. -/
def InvL (N : Adr) (s0 : St) (A : Nat → (Adr → T) → Prop) (lo : Nat) (c : CP) : Prop :=
  ∃ A' k, lo = k + 1 ∧ (∀ j ρ, lo ≤ j → (A' j ρ ↔ A j ρ)) ∧ Sim N s0 c.st A' (BL c.st c.a0 c.a1 k) ∧
    ValidWord N c.st.lssa c.st.mem c.a0 ∧ ValidWord N c.st.lssa c.st.mem c.a1 ∧ c.a2 = .int k ∧ UV c.st.mem c.a0

theorem lengthNil_good {A A' : Nat → (Adr → T) → Prop} {l n : Cell} {k lo : Nat} {o : Out}
    (hA : ∀ j ρ, lo ≤ j → (A' j ρ ↔ A j ρ))
    (hsim : Sim N s0 s A' (BL s l n k)) (h1 : ValidWord N s.lssa s.mem l)
    (h2 : ValidWord N s.lssa s.mem n) (hu : UV s.mem l) (hlo : lo ≤ k)
    (h : lengthNil E s l n k = some o) : Good N s0 A' (InvL N s0 A) lo o := by
  unfold lengthNil at h
  split at h
  · simp at h
  next r1 s1 hn =>
  split at h
  · simp at h
  next r s2 hi =>
  simp only [Option.some.injEq] at h
  subst h
  obtain ⟨_, hst⟩ := getNil_step hsim.ok h1 hu hn
  have hl := hst.lssa
  obtain ⟨g1, g2⟩ := getInteger_res hst.ok (by rw [hl]; exact hst.grow.valid h2) hi
  refine finish2 hsim hlo (fun j hj ρ _ => bl_skip hj ρ) (fun ρ _ => bl_base ρ) (by simp) ?_ ?_ ?_
  · intro c hc
    simp only [Option.some.injEq] at hc
    subst hc
    exact ⟨A', k, rfl, fun j ρ hj => hA j ρ (by omega), hsim, h1, h2, rfl, hu⟩
  · intro hr
    refine hst.trans (g1 hr) ?_ (fun ρ _ h => h.1) ?_
    · intro ρ hρ hρ' q1 q2
      rw [hst.grow.eval h2] at q2
      exact ⟨q1, q2⟩
    · intro ρ ρ' hρ' hag q
      show eval s1.mem ρ' n = _
      rw [hst.grow.eval h2, hag.eval h2]
      exact q.2
  · rintro hr ρ hρ ⟨q1, q2⟩
    obtain ⟨ρ', m', ag⟩ := hst.up ρ hρ q1
    refine g2 hr ρ' m' ?_
    show eval s1.mem ρ' n = _
    rw [hst.grow.eval h2, ag.eval h2]
    exact q2

theorem lengthLoop_good {A : Nat → (Adr → T) → Prop} {l nw : Cell} {n : Int} {iso : Bool} {f k : Nat} {o : Out}
    (hn : 0 ≤ n → nw = .int n)
    (hsim : Sim N s0 s A (BL s l nw k)) (h1 : ValidWord N s.lssa s.mem l)
    (h2 : ValidWord N s.lssa s.mem nw)
    (h : lengthLoop E iso nw n f s l k = some o) : Good N s0 A (InvL N s0 A) 0 o := by
  induction f generalizing s l k with
  | zero => simp [lengthLoop] at h
  | succ f ih =>
    obtain ⟨v, d1, d2, d3, d4⟩ := deref_ok hsim.ok h1
    rw [lengthLoop, d1] at h
    have other : (∀ a, v ≠ .ref a) → varOrList v = false → v ≠ NIL_WORD → ∀ j, NoAnswer N s0 (A j) := by
      intro hn1 hn2 hn3 j
      refine hsim.none ?_
      rintro ρ hρ ⟨i, rfl, ha⟩
      rcases ha.list with h | ⟨x, y, h⟩
      · exact not_nil d2 d4 hn1 hn3 ρ hρ h
      · exact not_list hsim.ok d2 d4 hn2 ρ hρ _ _ h
    have fin : (∀ a, v ≠ .ref a) → varOrList v = false → v ≠ NIL_WORD →
        (if iso then some (.ret false s none) else some (.err .typeList)) = some o → Good N s0 A (InvL N s0 A) 0 o := by
      intro hn1 hn2 hn3 h
      have := other hn1 hn2 hn3
      split at h
      · simp only [Option.some.injEq] at h
        subst h
        exact good_none s (fun j _ => this j)
      · simp only [Option.some.injEq] at h
        subst h
        exact fun j _ => this j
    cases v with
    | lst adr =>
      simp only [reduceCtorEq, if_false] at h
      have hpos : ∀ ρ, Model N s.mem ρ → ¬ Len 0 (eval s.mem ρ l) k (eval s.mem ρ nw) := by
        intro ρ hρ ha
        have := (len_zero.mp ha).1
        rw [d4 ρ hρ] at this
        simp [Unify.eval] at this
      split at h
      · next hlt =>
        have hno : ∀ j, NoAnswer N s0 (A j) := by
          intro j
          refine hsim.none ?_
          rintro ρ hρ ⟨i, rfl, ha⟩
          have e := ha.int
          rw [hn hlt.1] at e
          simp only [Unify.eval, T.int.injEq] at e
          cases i with
          | zero => exact hpos ρ hρ ha
          | succ i => omega
        split at h
        · simp only [Option.some.injEq] at h
          subst h
          exact good_none s (fun j _ => hno j)
        · split at h
          · simp at h
          · simp only [Option.some.injEq] at h
            subst h
            exact good_none s (fun j _ => hno j)
          · simp only [Option.some.injEq] at h
            subst h
            exact fun j _ => hno j
      · obtain ⟨c1, c2, c3, c4, c5, c6, c7, c8⟩ := lst_cells hsim.ok d2
        have hnext : Sim N s s (BL s l nw k) (BL s (s.mem (adr + 1)) nw (k + 1)) := by
          refine (bl_pos hsim.ok hpos).trans (length_cons h1 h2 (Step.refl hsim.ok (P := fun _ => True) (fun _ _ => trivial))
            (fun _ _ _ _ _ => trivial) ?_)
          intro ρ hρ
          refine ⟨ρ adr, ?_⟩
          rw [d4 ρ hρ, c6 ρ hρ]; rfl
        exact ih (k := k + 1) (hsim.trans hnext) c5 h2 h
    | ref a =>
      simp only [reduceCtorEq, if_false] at h
      have hu : UV s.mem l := ⟨a, d1⟩
      split at h
      · split at h
        · next he =>
          simp only [Option.some.injEq] at h
          subst h
          intro j _
          refine hsim.none ?_
          rintro ρ hρ ⟨i, rfl, ha⟩
          have e := ha.int
          rw [← he, ← d4 ρ hρ] at e
          rcases ha.list with q | ⟨x, y, q⟩ <;> rw [q] at e <;> simp at e
        · exact lengthNil_good (fun _ _ _ => Iff.rfl) hsim h1 h2 hu (by omega) h
      · next hge =>
        have hnw := hn (by omega)
        have ev : ∀ ρ, eval s.mem ρ nw = .int n := by intro ρ; rw [hnw]; rfl
        split at h
        · next hk =>
          split at h
          · simp at h
          next r s' hg =>
          simp only [Option.some.injEq] at h
          subst h
          obtain ⟨rfl, hst⟩ := getNil_step hsim.ok (w := .ref a) d2 (uv_self (d3 a rfl)) hg
          refine finish2 (P := fun ρ => eval s.mem ρ (.ref a) = nil) hsim (Nat.zero_le _) (fun j hj ρ _ => bl_skip hj ρ)
            ?_ ?_ (by simp) (fun _ => hst) (by simp)
          · intro ρ hρ
            rw [bl_base, d4 ρ hρ, ev, hk]
            simp
          · rintro _ j hj ρ hρ ⟨i, hi, ha⟩
            have e := ha.int
            rw [ev, T.int.injEq] at e
            omega
        · next hk =>
          split at h
          next s1 S hg =>
            split at h
            · simp at h
            next s2 S1 hx =>
            split at h
            · simp at h
            next s3 S2 l' ht =>
            obtain ⟨x, hx⟩ := unifyVoid1_var.mp hx
            have hop := openVV hsim.ok (w := .ref a) d2 hg hx ht
            have hl := hop.step.lssa
            have hpos : ∀ ρ, Model N s.mem ρ → ¬ Len 0 (eval s.mem ρ l) k (eval s.mem ρ nw) := by
              intro ρ hρ ha
              have := (len_zero.mp ha).2
              rw [ev, T.int.injEq] at this
              exact hk this
            have hnext : Sim N s s3 (BL s l nw k) (BL s3 l' nw (k + 1)) := by
              refine (bl_pos hsim.ok hpos).trans (length_cons h1 h2 hop.step ?_ ?_)
              · intro ρ x y hρ he
                exact ⟨x, y, by rw [← d4 ρ hρ]; exact he⟩
              · intro ρ hρ
                exact ⟨_, by rw [d4 ρ (hop.step.down ρ hρ).1]; exact hop.eq ρ hρ⟩
            exact ih (k := k + 1) (hsim.trans hnext) (by rw [hl]; exact hop.vt) (by rw [hl]; exact hop.step.grow.valid h2) h
          next => simp at h
    | atm i =>
      dsimp only at h
      by_cases hv : Cell.atm i = NIL_WORD
      · rw [if_pos hv] at h
        have hnil : ∀ ρ, Model N s.mem ρ → eval s.mem ρ l = nil := by
          intro ρ hρ; rw [d4 ρ hρ, hv]; rfl
        have hnolater : ∀ j, k < j → ∀ ρ, Model N s.mem ρ → ¬ BL s l nw k j ρ := by
          rintro j hj ρ hρ ⟨i, hi, ha⟩
          obtain ⟨i, rfl⟩ : ∃ i', i = i' + 1 := ⟨i - 1, by omega⟩
          obtain ⟨x, a, q1, _⟩ := len_succ.mp ha
          rw [hnil ρ hρ] at q1
          simp at q1
        split at h
        · next hk =>
          simp only [Option.some.injEq] at h
          subst h
          refine finish2 (P := fun _ => True) hsim (Nat.zero_le k) (fun j hj ρ _ => bl_skip hj ρ) ?_ (fun _ => hnolater) (by simp)
            (fun _ => Step.refl hsim.ok (fun _ _ => trivial)) (by simp)
          intro ρ hρ
          rw [bl_base, hnil ρ hρ, hn (by omega), hk]
          simp [Unify.eval]
        · split at h
          · simp at h
          next r s' hg =>
          simp only [Option.some.injEq] at h
          subst h
          obtain ⟨g1, g2⟩ := getInteger_res hsim.ok h2 hg
          refine finish2 hsim (Nat.zero_le k) (fun j hj ρ _ => bl_skip hj ρ) ?_ (fun _ => hnolater) (by simp) g1 g2
          intro ρ hρ
          rw [bl_base, hnil ρ hρ]
          simp
      · rw [if_neg hv] at h
        exact fin (by simp) rfl hv h
    | int i | stc i | flt i =>
      simp only [reduceCtorEq, if_false] at h
      exact fin (by simp) rfl (by simp) h
    | fdv i => exact d2.elim
    | fn i j => exact d2.elim
    | raw i => exact d2.elim

theorem length2_good {l nw : Cell} {iso : Bool} {o : Out} (hok : Ok N s)
    (h1 : ValidWord N s.lssa s.mem l) (h2 : ValidWord N s.lssa s.mem nw)
    (h : length2 E iso s l nw = some o) :
    Good N s (BL s l nw 0) (InvL N s (BL s l nw 0)) 0 o := by
  obtain ⟨v, d1, d2, d3, d4⟩ := deref_ok hok h2
  have hsim : Sim N s s (BL s l nw 0) (BL s l v 0) := by
    refine Sim.refl hok ?_
    intro j ρ hρ
    simp only [BL, d4 ρ hρ]
  have no : (∀ ρ, Model N s.mem ρ → ∀ z : Nat, eval s.mem ρ v ≠ .int z) → ∀ j, NoAnswer N s (BL s l nw 0 j) := by
    intro hv j
    refine hsim.none ?_
    rintro ρ hρ ⟨i, rfl, ha⟩
    have e := ha.int
    rw [show ((0 : Nat) : Int) + (i : Int) = (i : Int) by omega] at e
    exact hv ρ hρ i e
  unfold length2 at h
  rw [d1] at h
  cases v with
  | int n =>
    simp only at h
    split at h
    · simp only [Option.some.injEq] at h
      subst h
      exact fun j _ => no (fun ρ _ z hz => by simp only [Unify.eval, T.int.injEq] at hz; omega) j
    · exact lengthLoop_good (k := 0) (fun _ => rfl) hsim h1 d2 h
  | ref a => exact lengthLoop_good (k := 0) (by intro h; omega) hsim h1 d2 h
  | fdv i => exact d2.elim
  | fn i j => exact d2.elim
  | raw i => exact d2.elim
  | atm i | lst i =>
    simp only [Option.some.injEq] at h
    subst h
    exact fun j _ => no (fun ρ _ z hz => by simp [Unify.eval] at hz) j
  | stc i =>
    simp only [Option.some.injEq] at h
    subst h
    obtain ⟨f, k, hf, _⟩ := d2
    exact fun j _ => no (fun ρ _ z hz => by simp [Unify.eval, hf] at hz) j
  | flt i =>
    simp only [Option.some.injEq] at h
    subst h
    obtain ⟨x, hf⟩ := d2
    exact fun j _ => no (fun ρ _ z hz => by simp only [Unify.eval, hf] at hz; split at hz <;> simp at hz) j

theorem lengthAlt_good {A : Nat → (Adr → T) → Prop} {lo : Nat} {c : CP} {o : Out} (hi : InvL N s0 A lo c)
    (h : lengthAlt E c = some o) : Good N s0 A (InvL N s0 A) lo o := by
  obtain ⟨A', k, rfl, hA, hsim, v0, v1, e2, huv⟩ := hi
  unfold lengthAlt at h
  rw [e2] at h
  simp only at h
  split at h
  next s1 S hg =>
    split at h
    · simp at h
    next s2 S1 hx =>
    split at h
    · simp at h
    next s3 S2 l' ht =>
    obtain ⟨x, hx⟩ := unifyVoid1_var.mp hx
    have hop := openVV hsim.ok v0 hg hx ht
    have hl := hop.step.lssa
    obtain ⟨u1, _⟩ := openVV_uv hsim.ok v0 huv hg hx ht
    have hnext : Sim N c.st s3 (fun j ρ => k + 1 ≤ j ∧ BL c.st c.a0 c.a1 k j ρ) (BL s3 l' c.a1 (k + 1)) :=
      length_cons v0 v1 hop.step (fun ρ x y _ he => ⟨x, y, he⟩) (fun ρ hρ => ⟨_, hop.eq ρ hρ⟩)
    have hA' : ∀ j ρ, k + 1 ≤ j → ((k + 1 ≤ j ∧ A' j ρ) ↔ A j ρ) := by
      intro j ρ hj; simp only [hj, true_and]; exact hA j ρ hj
    refine Good.of_eq (A' := fun j ρ => k + 1 ≤ j ∧ A' j ρ) hA' ?_
    exact lengthNil_good (k := k + 1) hA' ((hsim.restrict (k + 1)).trans hnext) (by rw [hl]; exact hop.vt)
      (by rw [hl]; exact hop.step.grow.valid v1) u1 (Nat.le_refl _) h
  next => simp at h

/-! nth/3 -/

theorem nth_zero {l x : T} : Nth 0 l x ↔ ∃ t, l = .lst x t := by
  constructor
  · intro h; cases h; exact ⟨_, rfl⟩
  · rintro ⟨t, rfl⟩; exact .base

theorem nth_succ {k : Nat} {l x : T} : Nth (k + 1) l x ↔ ∃ h t, l = .lst h t ∧ Nth k t x := by
  constructor
  · intro h; cases h with
    | step h => exact ⟨_, _, rfl, h⟩
  · rintro ⟨h, t, rfl, h'⟩; exact .step h'

theorem Nth.list {k : Nat} {l x : T} (h : Nth k l x) : ∃ h t, l = .lst h t := by
  cases h with
  | base => exact ⟨_, _, rfl⟩
  | step _ => exact ⟨_, _, rfl⟩

theorem nthLoop_res {A : (Adr → T) → Prop} {x l : Cell} {n : Nat} {o : Out}
    (hsim : Sim N s0 s (fun _ : Unit => A) (fun _ ρ => Nth n (eval s.mem ρ l) (eval s.mem ρ x)))
    (h1 : ValidWord N s.lssa s.mem l) (h2 : ValidWord N s.lssa s.mem x)
    (h : nthLoop E x n s l = some o) :
    ∃ r s', o = .ret r s' none ∧ (r = true → Answer N s0 A s') ∧ (r = false → NoAnswer N s0 A) := by
  induction n generalizing s l with
  | zero =>
    rw [nthLoop] at h
    split at h
    · simp at h
    · next hg =>
      simp only [Option.some.injEq] at h
      subst h
      refine ⟨false, s, rfl, by simp, fun _ => hsim.none (i := ()) ?_⟩
      intro ρ hρ ha
      exact getList_none hsim.ok h1 hg ρ hρ ha.list
    · next s1 S hg =>
      split at h
      · simp at h
      next s2 S1 e hx =>
      split at h
      · simp at h
      next s3 S2 l' ht =>
      have hop := openVV hsim.ok h1 hg hx ht
      have hl := hop.step.lssa
      simp only at h
      unfold retUnify at h
      split at h
      · simp at h
      next r s' hun =>
      simp only [Option.some.injEq] at h
      subst h
      have hs3 : Sim N s s3 (fun _ : Unit => fun ρ => Nth 0 (eval s.mem ρ l) (eval s.mem ρ x))
          (fun _ ρ => eval s3.mem ρ e = eval s3.mem ρ x) := by
        refine hop.step.sim ?_ ?_ ?_
        · intro _ ρ hρ hρ' _ he
          rw [hop.step.grow.eval h2] at he
          rw [hop.eq ρ hρ', he]
          exact .base
        · intro _ ρ hρ ha; exact ha.list
        · intro _ ρ ρ' hρ' hag ha
          rw [← hag.eval h1, ← hag.eval h2] at ha
          obtain ⟨t, ht⟩ := nth_zero.mp ha
          rw [hop.eq ρ' hρ'] at ht
          simp only [T.lst.injEq] at ht
          rw [hop.step.grow.eval h2]; exact ht.1
      have hs := hsim.trans hs3
      refine ⟨r, s', rfl, ?_, ?_⟩
      · intro hr; subst hr
        exact hs.step (i := ()) (unify_step hs.ok (by rw [hl]; exact hop.vx) (by rw [hl]; exact hop.step.grow.valid h2) hun) (fun _ _ => Iff.rfl)
      · intro hr; subst hr
        exact hs.none (i := ()) (unify_none hs.ok (by rw [hl]; exact hop.vx) (by rw [hl]; exact hop.step.grow.valid h2) hun)
  | succ n ih =>
    rw [nthLoop] at h
    split at h
    · simp at h
    · next hg =>
      simp only [Option.some.injEq] at h
      subst h
      refine ⟨false, s, rfl, by simp, fun _ => hsim.none (i := ()) ?_⟩
      intro ρ hρ ha
      exact getList_none hsim.ok h1 hg ρ hρ ha.list
    · next s1 S hg =>
      split at h
      · simp at h
      next s2 S1 e hx =>
      split at h
      · simp at h
      next s3 S2 l' ht =>
      have hop := openVV hsim.ok h1 hg hx ht
      have hl := hop.step.lssa
      simp only at h
      refine ih (hsim.trans (hop.step.sim ?_ ?_ ?_)) (by rw [hl]; exact hop.vt) (by rw [hl]; exact hop.step.grow.valid h2) h
      · intro _ ρ hρ hρ' _ he
        rw [hop.step.grow.eval h2] at he
        rw [hop.eq ρ hρ']
        exact .step he
      · intro _ ρ hρ ha; exact ha.list
      · intro _ ρ ρ' hρ' hag ha
        rw [← hag.eval h1, ← hag.eval h2] at ha
        obtain ⟨y, t, ht, ha⟩ := nth_succ.mp ha
        rw [hop.eq ρ' hρ'] at ht
        simp only [T.lst.injEq] at ht
        rw [hop.step.grow.eval h2, ht.2]
        exact ha

end Gp.ListBip
