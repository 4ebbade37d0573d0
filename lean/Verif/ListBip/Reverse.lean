import Verif.ListBip.Append
namespace Gp.ListBip
open Gp.Heap Gp.Unify

variable {ι : Type} {N : Adr} {s s' s'' s0 : St} {E : Env}

theorem finish {A B : Nat → (Adr → T) → Prop} {l u v : Cell} {k lo : Nat} {cp : Option CP} {o : Out}
    {Inv : Nat → CP → Prop} (hsim : Sim N s0 s A B) (hl : ValidWord N s.lssa s.mem l)
    (hu : ValidWord N s.lssa s.mem u) (hv : ValidWord N s.lssa s.mem v) (hvar : UV s.mem l) (hlo : lo ≤ k)
    (hskip : ∀ j, j < k → ∀ ρ, Model N s.mem ρ → ¬ B j ρ)
    (hiff : ∀ ρ, Model N s.mem ρ → (B k ρ ↔ (eval s.mem ρ l = nil ∧ eval s.mem ρ u = eval s.mem ρ v)))
    (hn : cp = none → ∀ j, k < j → ∀ ρ, Model N s.mem ρ → ¬ B j ρ) (hc : ∀ c, cp = some c → Inv (k + 1) c)
    (h : nilUnify E s l u v cp = some o) : Good N s0 A Inv lo o := by
  obtain ⟨r, s', rfl, hs, hf⟩ := nilUnify_res hsim.ok hl hu hv hvar h
  refine ⟨k, hlo, fun j _ hj => hsim.none (hskip j hj), ?_, ?_, ?_, hc⟩
  · intro hr; exact hsim.step (hs hr) hiff
  · intro hr; exact hsim.none (fun ρ hρ hb => hf hr ρ hρ ((hiff ρ hρ).mp hb))
  · intro hcp j hj; exact hsim.none (hn hcp j hj)

theorem good_none {A : Nat → (Adr → T) → Prop} {Inv : Nat → CP → Prop} {lo : Nat} (s2 : St)
    (h : ∀ j, lo ≤ j → NoAnswer N s0 (A j)) : Good N s0 A Inv lo (.ret false s2 none) :=
  ⟨lo, Nat.le_refl _, fun j h1 _ => h j h1, by simp, fun _ => h lo (Nat.le_refl _), fun _ j hj => h j (by omega), by simp⟩

/-! reverse/2 on terms -/

theorem rev_zero {t l a : T} : Rev 0 t l a ↔ t = nil ∧ l = a := by
  constructor
  · intro h; cases h; exact ⟨rfl, rfl⟩
  · rintro ⟨rfl, rfl⟩; exact .base

theorem rev_succ {k : Nat} {t l a : T} : Rev (k + 1) t l a ↔ ∃ h b, t = .lst h b ∧ Rev k b l (.lst h a) := by
  constructor
  · intro h; cases h with
    | step h => exact ⟨_, _, rfl, h⟩
  · rintro ⟨h, b, rfl, h'⟩; exact .step h'

theorem Rev.length {i n : Nat} {t l a : T} (h : Rev i t l a) (ha : IsL n a) : IsL (i + n) l := by
  induction h generalizing n with
  | base => simpa using ha
  | step _ ih => rw [show ∀ k, k + 1 + n = k + (n + 1) by omega]; exact ih (.step ha)

/-- The derivations of reverse after `k` uses of the recursive clause. -/
def BR (s : St) (l1 l2 r : Cell) (k : Nat) : Nat → (Adr → T) → Prop :=
  fun j ρ => ∃ i, j = k + i ∧ Rev i (eval s.mem ρ l1) (eval s.mem ρ l2) (eval s.mem ρ r)

theorem br_base {l1 l2 r : Cell} {k : Nat} (ρ : Adr → T) :
    BR s l1 l2 r k k ρ ↔ (eval s.mem ρ l1 = nil ∧ eval s.mem ρ r = eval s.mem ρ l2) := by
  constructor
  · rintro ⟨i, hi, ha⟩
    have : i = 0 := by omega
    subst this
    exact ⟨(rev_zero.mp ha).1, (rev_zero.mp ha).2.symm⟩
  · intro h; exact ⟨0, rfl, rev_zero.mpr ⟨h.1, h.2.symm⟩⟩

theorem br_skip {l1 l2 r : Cell} {k j : Nat} (hj : j < k) (ρ : Adr → T) : ¬ BR s l1 l2 r k j ρ := by
  rintro ⟨i, hi, _⟩; omega

theorem pushList_step (hok : Ok N s) {x r w : Cell} (hx : ValidWord N s.lssa s.mem x) (hr : ValidWord N s.lssa s.mem r)
    (gx : Global s.lssa x) (gr : Global s.lssa r) (h : pushList s x r = some (s', w)) :
    Step N s (fun _ => True) s' ∧ ValidWord N s.lssa s'.mem w ∧ Global s.lssa w ∧
      ∀ ρ, Model N s'.mem ρ → eval s'.mem ρ w = .lst (eval s.mem ρ x) (eval s.mem ρ r) := by
  unfold pushList at h
  split at h
  · simp at h
  next s1 h1 =>
  split at h
  · simp at h
  next s2 h2 =>
  simp only [Option.some.injEq, Prod.mk.injEq] at h
  obtain ⟨rfl, rfl⟩ := h
  obtain ⟨p1, p2, p3, p4⟩ := push_step hok hx gx h1
  have hl := p1.lssa
  obtain ⟨q1, q2, q3, q4⟩ := push_step p1.ok (w := r) (by rw [hl]; exact p1.grow.valid hr) (by rw [hl]; exact gr) h2
  have htop := hok.top
  rw [hl, p3] at q4
  have m1 : s2.mem s.h = x := by rw [q2, p3, set_other _ _ _ _ (by omega), p2, set_same]
  have m2 : s2.mem (s.h + 1) = r := by rw [q2, p3, set_same]
  have hst : Step N s (fun _ => True) s2 := p1.trans q1 (fun _ _ _ _ _ => trivial) (fun _ _ _ => trivial) (fun _ _ _ _ _ => trivial)
  refine ⟨hst, ⟨by omega, by omega, ?_, ?_⟩, by simp [Global], ?_⟩
  · rw [m1]; exact valid_isTerm hx
  · rw [m2]; exact valid_isTerm hr
  · intro ρ hρ
    have e1 := hρ s.h (by omega) (by rw [m1]; exact valid_isTerm hx)
    have e2 := hρ (s.h + 1) (by omega) (by rw [m2]; exact valid_isTerm hr)
    rw [m1, hst.grow.eval hx] at e1
    rw [m2, hst.grow.eval hr] at e2
    simp only [Unify.eval, e1, e2]

/-- One element of L1 moved to the accumulator. -/
theorem reverse_cons {l1 l2 r l1' r' x : Cell} {k : Nat} (h1 : ValidWord N s.lssa s.mem l1)
    (h2 : ValidWord N s.lssa s.mem l2) (hr : ValidWord N s.lssa s.mem r) {P : (Adr → T) → Prop}
    (hst : Step N s P s')
    (hP : ∀ ρ x a, Model N s.mem ρ → eval s.mem ρ l1 = .lst x a → P ρ)
    (e1 : ∀ ρ, Model N s'.mem ρ → eval s.mem ρ l1 = .lst (eval s'.mem ρ x) (eval s'.mem ρ l1'))
    (e3 : ∀ ρ, Model N s'.mem ρ → eval s'.mem ρ r' = .lst (eval s'.mem ρ x) (eval s.mem ρ r)) :
    Sim N s s' (fun j ρ => k + 1 ≤ j ∧ BR s l1 l2 r k j ρ) (BR s' l1' l2 r' (k + 1)) := by
  refine hst.sim ?_ ?_ ?_
  · rintro j ρ hρ hρ' _ ⟨i, rfl, ha⟩
    refine ⟨by omega, i + 1, by omega, rev_succ.mpr ⟨_, _, e1 ρ hρ', ?_⟩⟩
    rw [hst.grow.eval h2, e3 ρ hρ'] at ha
    exact ha
  · rintro j ρ hρ ⟨hj, i, rfl, ha⟩
    obtain ⟨i, rfl⟩ : ∃ i', i = i' + 1 := ⟨i - 1, by omega⟩
    obtain ⟨x, a, q1, _⟩ := rev_succ.mp ha
    exact hP ρ x a hρ q1
  · rintro j ρ ρ' hρ' hag ⟨hj, i, rfl, ha⟩
    rw [← hag.eval h1, ← hag.eval h2, ← hag.eval hr] at ha
    obtain ⟨i, rfl⟩ : ∃ i', i = i' + 1 := ⟨i - 1, by omega⟩
    obtain ⟨y, a, q1, q3⟩ := rev_succ.mp ha
    rw [e1 ρ' hρ'] at q1
    simp only [T.lst.injEq] at q1
    refine ⟨i, by omega, ?_⟩
    rw [hst.grow.eval h2, q1.2, e3 ρ' hρ', q1.1]
    exact q3

theorem br_pos {l1 l2 r : Cell} {k : Nat} (hok : Ok N s)
    (hne : ∀ ρ, Model N s.mem ρ → ¬ Rev 0 (eval s.mem ρ l1) (eval s.mem ρ l2) (eval s.mem ρ r)) :
    Sim N s s (BR s l1 l2 r k) (fun j ρ => k + 1 ≤ j ∧ BR s l1 l2 r k j ρ) := by
  refine Sim.refl hok ?_
  intro j ρ hρ
  constructor
  · rintro ⟨i, rfl, ha⟩
    cases i with
    | zero => exact absurd ha (hne ρ hρ)
    | succ i => exact ⟨by omega, i + 1, rfl, ha⟩
  · exact fun h => h.2

/-- `Pl_Get_List`, two `Pl_Unify_Variable` and the allocation of the new accumulator. -/
theorem reverse_open {l1 l2 r x l1' r' : Cell} {k : Nat} {s1 s2 s3 s4 : St} {S S1 S2 : Sreg} (hok : Ok N s)
    (h1 : ValidWord N s.lssa s.mem l1) (h2 : ValidWord N s.lssa s.mem l2) (hr : ValidWord N s.lssa s.mem r)
    (gr : Global s.lssa r) (hu : UV s.mem l1)
    (hg : getList s l1 = some (some (s1, S))) (hx : unifyVariable s1 S = some (s2, S1, x))
    (ht : unifyVariable s2 S1 = some (s3, S2, l1')) (hp : pushList s3 x r = some (s4, r')) :
    Sim N s s4 (fun j ρ => k + 1 ≤ j ∧ BR s l1 l2 r k j ρ) (BR s4 l1' l2 r' (k + 1)) ∧
      ValidWord N s4.lssa s4.mem l1' ∧ ValidWord N s4.lssa s4.mem l2 ∧ ValidWord N s4.lssa s4.mem r' ∧
      Global s4.lssa r' ∧ UV s4.mem l1' ∧
      ∀ ρ, Model N s4.mem ρ → ∃ y, eval s4.mem ρ r' = .lst y (eval s.mem ρ r) := by
  have hop := openVV hok h1 hg hx ht
  have hl := hop.step.lssa
  obtain ⟨u1, u2, u3, b, hb, hwr⟩ := openVV_uv hok h1 hu hg hx ht
  have hr3 : ValidWord N s3.lssa s3.mem r := by rw [hl]; exact hop.step.grow.valid hr
  obtain ⟨p1, p2, p3, p4⟩ := pushList_step hop.step.ok (by rw [hl]; exact hop.vx) hr3 (by rw [hl]; exact hop.gx)
    (by rw [hl]; exact gr) hp
  have hl4 := p1.lssa
  have hst : Step N s (fun ρ => ∃ x y, eval s.mem ρ l1 = .lst x y) s4 :=
    hop.step.trans p1 (fun _ _ _ h _ => h) (fun _ _ h => h) (fun _ _ _ _ _ => trivial)
  have e3 : ∀ ρ, Model N s4.mem ρ → eval s4.mem ρ r' = .lst (eval s4.mem ρ x) (eval s.mem ρ r) := by
    intro ρ hρ
    rw [p4 ρ hρ, hop.step.grow.eval hr, p1.grow.eval hop.vx]
  have hll : s4.lssa = s.lssa := by rw [hl4, hl]
  refine ⟨reverse_cons (x := x) h1 h2 hr hst (fun ρ x a _ h => ⟨x, a, h⟩) ?_ e3, by rw [hll]; exact p1.grow.valid hop.vt,
    by rw [hll]; exact hst.grow.valid h2, by rw [hl4]; exact p2, by rw [hl4]; exact p3, ?_, fun ρ hρ => ⟨_, e3 ρ hρ⟩⟩
  · intro ρ hρ
    rw [hop.eq ρ (p1.down ρ hρ).1, p1.grow.eval hop.vx, p1.grow.eval hop.vt]
  · -- the new variable is not changed by the allocation
    subst u3
    unfold pushList at hp
    split at hp
    · simp at hp
    next q1 hq1 =>
    split at hp
    · simp at hp
    next q2 hq2 =>
    simp only [Option.some.injEq, Prod.mk.injEq] at hp
    obtain ⟨rfl, _⟩ := hp
    obtain ⟨b, hb, hwr⟩ : ∃ a, deref s.mem l1 = some (.ref a) ∧ Wr s a x s3 := ⟨b, hb, hwr⟩
    obtain ⟨v, d1, d2, d3, d4⟩ := deref_ok hok h1
    rw [hb] at d1
    simp only [Option.some.injEq] at d1
    subst d1
    have ht := hwr.tail hok (d3 b rfl)
    refine uv_self ?_
    rw [(push_eq hq2).2, (push_eq hq1).2]
    simp only
    have := hwr.h
    rw [set_other _ _ _ _ (by omega), set_other _ _ _ _ (by omega)]
    exact ht

theorem reverseExtend_good {A : Nat → (Adr → T) → Prop} {l1 l2 r : Cell} {n k lo : Nat} {o : Out}
    {Inv : Nat → CP → Prop}
    (hsim : Sim N s0 s A (BR s l1 l2 r k)) (h1 : ValidWord N s.lssa s.mem l1)
    (h2 : ValidWord N s.lssa s.mem l2) (hr : ValidWord N s.lssa s.mem r) (gr : Global s.lssa r) (hu : UV s.mem l1)
    (hlo : lo ≤ k)
    (hn : ∀ i ρ, Model N s.mem ρ → Rev i (eval s.mem ρ l1) (eval s.mem ρ l2) (eval s.mem ρ r) → i = n)
    (h : reverseExtend E l2 n s l1 r = some o) : Good N s0 A Inv lo o := by
  induction n generalizing s l1 r k with
  | zero =>
    rw [reverseExtend] at h
    refine finish hsim h1 hr h2 hu hlo (fun j hj ρ _ => br_skip hj ρ) (fun ρ _ => br_base ρ) ?_ (by simp) h
    rintro _ j hj ρ hρ ⟨i, hi, ha⟩
    have := hn i ρ hρ ha
    omega
  | succ n ih =>
    rw [reverseExtend] at h
    split at h
    next s1 S hg =>
      split at h
      · simp at h
      next s2 S1 x hx =>
      split at h
      · simp at h
      next s3 S2 l1' ht =>
      split at h
      · simp at h
      next s4 r' hp =>
      obtain ⟨c1, c2, c3, c4, c5, c6, _⟩ := reverse_open (k := k) hsim.ok h1 h2 hr gr hu hg hx ht hp
      have hnext := (br_pos (k := k) hsim.ok (fun ρ hρ ha => absurd (hn 0 ρ hρ ha) (by omega))).trans c1
      refine ih (hsim.trans hnext) c2 c3 c4 c5 c6 (by omega) ?_ h
      intro i ρ hρ ha
      obtain ⟨i', hi', ha'⟩ := (hnext.down ρ hρ).2 (k + 1 + i) ⟨i, rfl, ha⟩
      have := hn _ ρ (hnext.down ρ hρ).1 ha'
      omega
    next => simp at h

/-- The choice points of reverse/2. -/
def InvR (N : Adr) (s0 : St) (A : Nat → (Adr → T) → Prop) (lo : Nat) (c : CP) : Prop :=
  ∃ A' k, lo = k + 1 ∧ (∀ j ρ, lo ≤ j → (A' j ρ ↔ A j ρ)) ∧ Sim N s0 c.st A' (BR c.st c.a0 c.a1 c.a2 k) ∧
    ValidWord N c.st.lssa c.st.mem c.a0 ∧ ValidWord N c.st.lssa c.st.mem c.a1 ∧
    ValidWord N c.st.lssa c.st.mem c.a2 ∧ Global c.st.lssa c.a2 ∧ UV c.st.mem c.a0

theorem reverseLoop_good {A : Nat → (Adr → T) → Prop} {l1 l2 r : Cell} {f k : Nat} {o : Out}
    (hsim : Sim N s0 s A (BR s l1 l2 r k)) (h1 : ValidWord N s.lssa s.mem l1)
    (h2 : ValidWord N s.lssa s.mem l2) (hr : ValidWord N s.lssa s.mem r) (gr : Global s.lssa r)
    (hL : ∀ ρ, Model N s.mem ρ → IsL k (eval s.mem ρ r))
    (h : reverseLoop E l2 f s l1 r k = some o) : Good N s0 A (InvR N s0 A) 0 o := by
  induction f generalizing s l1 r k with
  | zero => simp [reverseLoop] at h
  | succ f ih =>
    obtain ⟨v, d1, d2, d3, d4⟩ := deref_ok hsim.ok h1
    rw [reverseLoop, d1] at h
    have other : (∀ a, v ≠ .ref a) → varOrList v = false → v ≠ NIL_WORD → some (.ret false s none) = some o →
        Good N s0 A (InvR N s0 A) 0 o := by
      intro hn1 hn2 hn3 h
      simp only [Option.some.injEq] at h
      subst h
      refine good_none s ?_
      intro j _
      refine hsim.none ?_
      rintro ρ hρ ⟨i, rfl, ha⟩
      cases i with
      | zero => exact not_nil d2 d4 hn1 hn3 ρ hρ (rev_zero.mp ha).1
      | succ i =>
        obtain ⟨x, a, q1, _⟩ := rev_succ.mp ha
        exact not_list hsim.ok d2 d4 hn2 ρ hρ _ _ q1
    cases v with
    | lst adr =>
      simp only at h
      split at h
      · simp at h
      next s1 r' hp =>
      obtain ⟨c1, c2, c3, c4, c5, c6, c7, c8⟩ := lst_cells hsim.ok d2
      have htop := hsim.ok.top
      have gx : Global s.lssa (s.mem adr) := fun b hb => (hsim.ok.wf adr (by omega) c3).2.1 b hb (by omega)
      obtain ⟨p1, p2, p3, p4⟩ := pushList_step hsim.ok c7 hr gx gr hp
      have hl := p1.lssa
      have d2' : ValidWord N s1.lssa s1.mem (.lst adr) := by rw [hl]; exact p1.grow.valid d2
      obtain ⟨_, _, _, _, c5', c6', _, _⟩ := lst_cells p1.ok d2'
      have e3 : ∀ ρ, Model N s1.mem ρ → eval s1.mem ρ r' = .lst (eval s1.mem ρ (.ref adr)) (eval s.mem ρ r) := by
        intro ρ hρ
        rw [p4 ρ hρ, c8 ρ (p1.down ρ hρ).1]; rfl
      have hnext : Sim N s s1 (BR s l1 l2 r k) (BR s1 (s1.mem (adr + 1)) l2 r' (k + 1)) := by
        refine (br_pos hsim.ok ?_).trans (reverse_cons (x := .ref adr) h1 h2 hr p1 (fun _ _ _ _ _ => trivial) ?_ e3)
        · intro ρ hρ ha
          have := (rev_zero.mp ha).1
          rw [d4 ρ hρ] at this
          simp [Unify.eval] at this
        · intro ρ hρ
          rw [d4 ρ (p1.down ρ hρ).1, c6' ρ hρ]; rfl
      refine ih (hsim.trans hnext) c5' (by rw [hl]; exact p1.grow.valid h2) (by rw [hl]; exact p2) (by rw [hl]; exact p3) ?_ h
      intro ρ hρ
      rw [e3 ρ hρ]
      exact .step (hL ρ (p1.down ρ hρ).1)
    | ref a =>
      simp only [reduceCtorEq, if_false] at h
      split at h
      · simp at h
      next len2 hl2 =>
      split at h
      · next hge =>
        obtain ⟨b, hb, hL2⟩ := listLength_spec hsim.ok h2 hl2 (by omega) hge
        have key : ∀ i ρ, Model N s.mem ρ → Rev i (eval s.mem ρ l1) (eval s.mem ρ l2) (eval s.mem ρ r) → i + k = b := by
          intro i ρ hρ ha
          exact (ha.length (hL ρ hρ)).unique (hL2 ρ hρ)
        split at h
        · next hlt =>
          simp only [Option.some.injEq] at h
          subst h
          refine good_none s ?_
          intro j _
          refine hsim.none ?_
          rintro ρ hρ ⟨i, rfl, ha⟩
          have := key i ρ hρ ha
          omega
        · next hge2 =>
          refine reverseExtend_good hsim h1 h2 hr gr ⟨a, d1⟩ (by omega) ?_ h
          intro i ρ hρ ha
          have := key i ρ hρ ha
          omega
      · refine finish hsim h1 hr h2 ⟨a, d1⟩ (by omega) (fun j hj ρ _ => br_skip hj ρ) (fun ρ _ => br_base ρ) (by simp) ?_ h
        intro c hc
        simp only [Option.some.injEq] at hc
        subst hc
        exact ⟨A, k, rfl, fun _ _ _ => Iff.rfl, hsim, h1, h2, hr, gr, ⟨a, d1⟩⟩
    | atm i =>
      simp only at h
      split at h
      · next hv =>
        have hnil : ∀ ρ, Model N s.mem ρ → eval s.mem ρ l1 = nil := by
          intro ρ hρ; rw [d4 ρ hρ, hv]; rfl
        unfold retUnify at h
        split at h
        · simp at h
        next q s' hun =>
        simp only [Option.some.injEq] at h
        subst h
        have hiff : ∀ ρ, Model N s.mem ρ → (BR s l1 l2 r k k ρ ↔ eval s.mem ρ r = eval s.mem ρ l2) := by
          intro ρ hρ
          rw [br_base]
          exact ⟨fun h => h.2, fun h => ⟨hnil ρ hρ, h⟩⟩
        refine ⟨k, by omega, fun j _ hj => hsim.none (fun ρ _ => br_skip hj ρ), ?_, ?_, ?_, by simp⟩
        · intro hq; subst hq; exact hsim.step (unify_step hsim.ok hr h2 hun) hiff
        · intro hq; subst hq; exact hsim.none (fun ρ hρ hb => unify_none hsim.ok hr h2 hun ρ hρ ((hiff ρ hρ).mp hb))
        · intro _ j hj
          refine hsim.none ?_
          rintro ρ hρ ⟨i, hi, ha⟩
          obtain ⟨i, rfl⟩ : ∃ i', i = i' + 1 := ⟨i - 1, by omega⟩
          obtain ⟨x, a, q1, _⟩ := rev_succ.mp ha
          rw [hnil ρ hρ] at q1
          simp at q1
      · next hv => exact other (by simp) rfl hv h
    | int i | stc i | flt i =>
      simp only [reduceCtorEq, if_false] at h
      exact other (by simp) rfl (by simp) h
    | fdv i => exact d2.elim
    | fn i j => exact d2.elim
    | raw i => exact d2.elim

theorem reverseAlt_good {A : Nat → (Adr → T) → Prop} {lo : Nat} {c : CP} {o : Out} (hi : InvR N s0 A lo c)
    (h : reverseAlt E c = some o) : Good N s0 A (InvR N s0 A) lo o := by
  obtain ⟨A', k, rfl, hA, hsim, v0, v1, v2, g2, huv⟩ := hi
  unfold reverseAlt at h
  split at h
  next s1 S hg =>
    split at h
    · simp at h
    next s2 S1 x hx =>
    split at h
    · simp at h
    next s3 S2 l1' ht =>
    split at h
    · simp at h
    next s4 r' hp =>
    obtain ⟨c1, c2, c3, c4, c5, c6, _⟩ := reverse_open (k := k) hsim.ok v0 v1 v2 g2 huv hg hx ht hp
    have hA' : ∀ j ρ, k + 1 ≤ j → ((k + 1 ≤ j ∧ A' j ρ) ↔ A j ρ) := by
      intro j ρ hj; simp only [hj, true_and]; exact hA j ρ hj
    refine Good.of_eq (A' := fun j ρ => k + 1 ≤ j ∧ A' j ρ) hA' ?_
    have hs := (hsim.restrict (k + 1)).trans c1
    refine finish hs c2 c4 c3 c6 (Nat.le_refl _) (fun j hj ρ _ => br_skip hj ρ) (fun ρ _ => br_base ρ) (by simp) ?_ h
    intro c' hc
    simp only [Option.some.injEq] at hc
    subst hc
    exact ⟨_, k + 1, rfl, fun j ρ hj => hA' j ρ (by omega), hs, c2, c3, c4, c5, c6⟩
  next => simp at h

end Gp.ListBip
