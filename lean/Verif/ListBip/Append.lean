import Verif.ListBip.Open2
namespace Gp.ListBip
open Gp.Heap Gp.Unify

variable {ι : Type} {N : Adr} {s s' s'' s0 : St} {E : Env}

/-- What a call or an alternative has to establish. -/
def Good (N : Adr) (s : St) (A : Nat → (Adr → T) → Prop) (Inv : Nat → CP → Prop) (lo : Nat) : Out → Prop
  | .err _ => ∀ j, lo ≤ j → NoAnswer N s (A j)
  | .ret r s' cp =>
    ∃ k, lo ≤ k ∧ (∀ j, lo ≤ j → j < k → NoAnswer N s (A j)) ∧
      (r = true → Answer N s (A k) s') ∧ (r = false → NoAnswer N s (A k)) ∧
      (cp = none → ∀ j, k < j → NoAnswer N s (A j)) ∧ ∀ c, cp = some c → Inv (k + 1) c

theorem redo_none {alt : CP → Option Out} {os : List Out} (h : Redo alt none os) : os = [] := by
  cases h; rfl

theorem follows_of {A : Nat → (Adr → T) → Prop} {Inv : Nat → CP → Prop} {alt : CP → Option Out}
    (halt : ∀ lo c o, Inv lo c → alt c = some o → Good N s A Inv lo o) {os : List Out} {lo : Nat} {o : Out}
    (hg : Good N s A Inv lo o) (hr : Redo alt o.cp os) : Follows N s A lo (o :: os) := by
  induction os generalizing lo o with
  | nil =>
    cases o with
    | err e => exact ⟨rfl, hg⟩
    | ret r s' cp =>
      obtain ⟨k, h1, h2, h3, h4, h5, h6⟩ := hg
      exact ⟨k, h1, h2, h3, h4, fun h => ⟨rfl, h5 h⟩, fun _ => trivial⟩
  | cons o' os ih =>
    cases o with
    | err e => exact absurd (redo_none hr) (by simp)
    | ret r s' cp =>
      obtain ⟨k, h1, h2, h3, h4, h5, h6⟩ := hg
      refine ⟨k, h1, h2, h3, h4, ?_, ?_⟩
      · intro h; subst h; exact absurd (redo_none hr) (by simp)
      · intro _
        cases hr with
        | redo hc hr' => exact ih (halt _ _ _ (h6 _ rfl) hc) hr'

theorem run_follows {A : Nat → (Adr → T) → Prop} {Inv : Nat → CP → Prop} {alt : CP → Option Out} {first : Option Out}
    (hfirst : ∀ o, first = some o → Good N s A Inv 0 o)
    (halt : ∀ lo c o, Inv lo c → alt c = some o → Good N s A Inv lo o) {os : List Out} (h : Run first alt os) :
    Follows N s A 0 os := by
  obtain ⟨o, os', h1, rfl, h2⟩ := h
  exact follows_of halt (hfirst o h1) h2

/-! append/3 on terms -/

theorem app_zero {t1 t2 t3 : T} : App 0 t1 t2 t3 ↔ t1 = nil ∧ t2 = t3 := by
  constructor
  · intro h; cases h; exact ⟨rfl, rfl⟩
  · rintro ⟨rfl, rfl⟩; exact .base

theorem app_succ {k : Nat} {t1 t2 t3 : T} :
    App (k + 1) t1 t2 t3 ↔ ∃ h a b, t1 = .lst h a ∧ t3 = .lst h b ∧ App k a t2 b := by
  constructor
  · intro h; cases h with
    | step h => exact ⟨_, _, _, rfl, rfl, h⟩
  · rintro ⟨h, a, b, rfl, rfl, h'⟩; exact .step h'

/-- Proper lists. -/
inductive IsL : Nat → T → Prop
  | base : IsL 0 nil
  | step {n : Nat} {h t : T} : IsL n t → IsL (n + 1) (.lst h t)

theorem IsL.unique {n k : Nat} {t : T} (h : IsL n t) (h' : IsL k t) : n = k := by
  induction h generalizing k with
  | base => cases h'; rfl
  | step _ ih => cases h' with | step h' => rw [ih h']

theorem App.length {i a : Nat} {t1 t2 t3 : T} (h : App i t1 t2 t3) (h2 : IsL a t2) : IsL (i + a) t3 := by
  induction h with
  | base => simpa using h2
  | step _ ih => rw [show ∀ k, k + 1 + a = k + a + 1 by omega]; exact .step (ih h2)

/-- The cells of a list. -/
theorem lst_cells (hok : Ok N s) {a : Adr} (h : ValidWord N s.lssa s.mem (.lst a)) :
    a + 1 < N ∧ a + 1 < s.lssa ∧ isTerm (s.mem a) = true ∧ isTerm (s.mem (a + 1)) = true ∧
      ValidWord N s.lssa s.mem (s.mem (a + 1)) ∧ (∀ ρ, Model N s.mem ρ → eval s.mem ρ (s.mem (a + 1)) = ρ (a + 1)) ∧
      ValidWord N s.lssa s.mem (s.mem a) ∧ (∀ ρ, Model N s.mem ρ → eval s.mem ρ (s.mem a) = ρ a) := by
  obtain ⟨h1, h2, h3, h4⟩ := h
  exact ⟨h1, h2, h3, h4, (hok.wf _ h1 h4).1, fun ρ hρ => (hρ _ h1 h4).symm, (hok.wf a (by omega) h3).1,
    fun ρ hρ => (hρ a (by omega) h3).symm⟩

theorem listLength_spec (hok : Ok N s) {f : Nat} {w : Cell} {n r : Int} (hw : ValidWord N s.lssa s.mem w)
    (h : listLength s.mem f w n = some r) (hn : 0 ≤ n) (hr : 0 ≤ r) :
    ∃ k : Nat, r = n + k ∧ ∀ ρ, Model N s.mem ρ → IsL k (eval s.mem ρ w) := by
  induction f generalizing w n with
  | zero => simp [listLength] at h
  | succ f ih =>
    obtain ⟨v, d1, d2, d3, d4⟩ := deref_ok hok hw
    rw [listLength, d1] at h
    simp only at h
    split at h
    · next hv =>
      subst hv
      simp only [Option.some.injEq] at h
      refine ⟨0, by omega, ?_⟩
      intro ρ hρ; rw [d4 ρ hρ]; exact .base
    · cases v with
      | ref a => simp only [Option.some.injEq] at h; omega
      | lst a =>
        simp only at h
        obtain ⟨_, _, _, _, c5, c6, _⟩ := lst_cells hok d2
        obtain ⟨k, h1, h2⟩ := ih c5 h (by omega)
        refine ⟨k + 1, by omega, ?_⟩
        intro ρ hρ
        have := h2 ρ hρ
        rw [c6 ρ hρ] at this
        rw [d4 ρ hρ]
        exact .step this
      | _ => simp only [Option.some.injEq] at h; omega

/-! append/3 -/

/-- The derivations of append after `k` uses of the recursive clause. -/
def BA (s : St) (l1 l2 l3 : Cell) (k : Nat) : Nat → (Adr → T) → Prop :=
  fun j ρ => ∃ i, j = k + i ∧ App i (eval s.mem ρ l1) (eval s.mem ρ l2) (eval s.mem ρ l3)

/-- The choice points of append/3: the derivations of rank `lo` and more remain. -/
def InvA (N : Adr) (s0 : St) (A : Nat → (Adr → T) → Prop) (lo : Nat) (c : CP) : Prop :=
  ∃ A' k, lo = k + 1 ∧ (∀ j ρ, lo ≤ j → (A' j ρ ↔ A j ρ)) ∧ Sim N s0 c.st A' (BA c.st c.a0 c.a1 c.a2 k) ∧
    ValidWord N c.st.lssa c.st.mem c.a0 ∧ ValidWord N c.st.lssa c.st.mem c.a1 ∧
    ValidWord N c.st.lssa c.st.mem c.a2 ∧ UV c.st.mem c.a0

theorem ba_skip {A : Nat → (Adr → T) → Prop} {l1 l2 l3 : Cell} {k : Nat} (h : Sim N s0 s A (BA s l1 l2 l3 k))
    {j : Nat} (hj : j < k) : NoAnswer N s0 (A j) :=
  h.none (by rintro ρ _ ⟨i, hi, _⟩; omega)

theorem append_finish {A : Nat → (Adr → T) → Prop} {l1 l2 l3 : Cell} {k lo : Nat} {cp : Option CP} {o : Out}
    {Inv : Nat → CP → Prop}
    (hsim : Sim N s0 s A (BA s l1 l2 l3 k)) (h1 : ValidWord N s.lssa s.mem l1)
    (h2 : ValidWord N s.lssa s.mem l2) (h3 : ValidWord N s.lssa s.mem l3) (hu : UV s.mem l1) (hlo : lo ≤ k)
    (hn : cp = none → ∀ i ρ, Model N s.mem ρ → ¬ App (i + 1) (eval s.mem ρ l1) (eval s.mem ρ l2) (eval s.mem ρ l3))
    (hc : ∀ c, cp = some c → Inv (k + 1) c)
    (h : nilUnify E s l1 l2 l3 cp = some o) : Good N s0 A Inv lo o := by
  obtain ⟨r, s', rfl, hs, hf⟩ := nilUnify_res hsim.ok h1 h2 h3 hu h
  have hiff : ∀ ρ, BA s l1 l2 l3 k k ρ ↔ (eval s.mem ρ l1 = nil ∧ eval s.mem ρ l2 = eval s.mem ρ l3) := by
    intro ρ
    constructor
    · rintro ⟨i, hi, ha⟩
      have : i = 0 := by omega
      subst this
      exact app_zero.mp ha
    · intro h; exact ⟨0, rfl, app_zero.mpr h⟩
  refine ⟨k, hlo, fun j _ hj => ba_skip hsim hj, ?_, ?_, ?_, hc⟩
  · intro hr; exact hsim.step (hs hr) (fun ρ _ => hiff ρ)
  · intro hr; exact hsim.none (fun ρ hρ hb => hf hr ρ hρ ((hiff ρ).mp hb))
  · intro hcp j hj
    refine hsim.none ?_
    rintro ρ hρ ⟨i, hi, ha⟩
    obtain ⟨i', rfl⟩ : ∃ i', i = i' + 1 := ⟨i - 1, by omega⟩
    exact hn hcp i' ρ hρ ha

/-- One element of L1 and L3. -/
theorem append_cons {l1 l2 l3 l1' l3' x : Cell} {k : Nat} (h1 : ValidWord N s.lssa s.mem l1)
    (h2 : ValidWord N s.lssa s.mem l2) (h3 : ValidWord N s.lssa s.mem l3) {P : (Adr → T) → Prop}
    (hst : Step N s P s')
    (hP : ∀ ρ x a b, Model N s.mem ρ → eval s.mem ρ l1 = .lst x a → eval s.mem ρ l3 = .lst x b → P ρ)
    (e1 : ∀ ρ, Model N s'.mem ρ → eval s.mem ρ l1 = .lst (eval s'.mem ρ x) (eval s'.mem ρ l1'))
    (e3 : ∀ ρ, Model N s'.mem ρ → eval s.mem ρ l3 = .lst (eval s'.mem ρ x) (eval s'.mem ρ l3')) :
    Sim N s s' (fun j ρ => k + 1 ≤ j ∧ BA s l1 l2 l3 k j ρ) (BA s' l1' l2 l3' (k + 1)) := by
  refine hst.sim ?_ ?_ ?_
  · rintro j ρ hρ hρ' _ ⟨i, rfl, ha⟩
    refine ⟨by omega, i + 1, by omega, app_succ.mpr ⟨_, _, _, e1 ρ hρ', e3 ρ hρ', ?_⟩⟩
    rw [hst.grow.eval h2] at ha
    exact ha
  · rintro j ρ hρ ⟨hj, i, rfl, ha⟩
    obtain ⟨i, rfl⟩ : ∃ i', i = i' + 1 := ⟨i - 1, by omega⟩
    obtain ⟨x, a, b, q1, q2, _⟩ := app_succ.mp ha
    exact hP ρ x a b hρ q1 q2
  · rintro j ρ ρ' hρ' hag ⟨hj, i, rfl, ha⟩
    rw [← hag.eval h1, ← hag.eval h2, ← hag.eval h3] at ha
    obtain ⟨i, rfl⟩ : ∃ i', i = i' + 1 := ⟨i - 1, by omega⟩
    obtain ⟨y, a, b, q1, q2, q3⟩ := app_succ.mp ha
    rw [e1 ρ' hρ'] at q1
    rw [e3 ρ' hρ'] at q2
    simp only [T.lst.injEq] at q1 q2
    refine ⟨i, by omega, ?_⟩
    rw [hst.grow.eval h2, q1.2, q2.2]
    exact q3

/-- The base case is excluded. -/
theorem ba_pos {l1 l2 l3 : Cell} {k : Nat} (hok : Ok N s)
    (hne : ∀ ρ, Model N s.mem ρ → ¬ App 0 (eval s.mem ρ l1) (eval s.mem ρ l2) (eval s.mem ρ l3)) :
    Sim N s s (BA s l1 l2 l3 k) (fun j ρ => k + 1 ≤ j ∧ BA s l1 l2 l3 k j ρ) := by
  refine Sim.refl hok ?_
  intro j ρ hρ
  constructor
  · rintro ⟨i, rfl, ha⟩
    cases i with
    | zero => exact absurd ha (hne ρ hρ)
    | succ i => exact ⟨by omega, i + 1, rfl, ha⟩
  · exact fun h => h.2

theorem appendPrefix_good {A : Nat → (Adr → T) → Prop} {l1 l2 l3 : Cell} {n k lo : Nat} {o : Out}
    {Inv : Nat → CP → Prop}
    (hsim : Sim N s0 s A (BA s l1 l2 l3 k)) (h1 : ValidWord N s.lssa s.mem l1)
    (h2 : ValidWord N s.lssa s.mem l2) (h3 : ValidWord N s.lssa s.mem l3) (hu : UV s.mem l1) (hlo : lo ≤ k)
    (hn : ∀ i ρ, Model N s.mem ρ → App i (eval s.mem ρ l1) (eval s.mem ρ l2) (eval s.mem ρ l3) → i = n)
    (h : appendPrefix E l2 n s l1 l3 = some o) : Good N s0 A Inv lo o := by
  induction n generalizing s l1 l3 k with
  | zero =>
    refine append_finish hsim h1 h2 h3 hu hlo ?_ (by simp) h
    intro _ i ρ hρ ha
    exact absurd (hn _ ρ hρ ha) (by omega)
  | succ n ih =>
    obtain ⟨v, d1, d2, d3, d4⟩ := deref_ok hsim.ok h3
    rw [appendPrefix, d1] at h
    cases v with
    | lst adr =>
      simp only at h
      split at h
      next s1 S hg =>
        split at h
        next r s2 S1 hv =>
          split at h
          next s3 S2 l1' hvar =>
            obtain ⟨huv, hr⟩ := openValV_uv hsim.ok h1 hu hg hv hvar
            subst hr
            obtain ⟨c1, c2, c3, c4, c5, c6, _, _⟩ := lst_cells hsim.ok d2
            have hop := openCarV hsim.ok h1 (by omega) c3 hg hv hvar
            have hl := hop.step.lssa
            have d2' : ValidWord N s3.lssa s3.mem (.lst adr) := by rw [hl]; exact hop.step.grow.valid d2
            obtain ⟨_, _, _, _, c5', c6', _, _⟩ := lst_cells hop.step.ok d2'
            have hnext : Sim N s s3 (BA s l1 l2 l3 k) (BA s3 l1' l2 (s3.mem (adr + 1)) (k + 1)) := by
              refine (ba_pos hsim.ok ?_).trans (append_cons (x := .ref adr) h1 h2 h3 hop.step ?_ ?_ ?_)
              · intro ρ hρ ha
                exact absurd (hn _ ρ hρ ha) (by omega)
              · intro ρ x a b hρ q1 q2
                rw [d4 ρ hρ] at q2
                simp only [Unify.eval, T.lst.injEq] at q2
                exact ⟨a, by rw [q1]; simp only [Unify.eval]; rw [q2.1]⟩
              · intro ρ hρ; rw [hop.eq ρ hρ]; rfl
              · intro ρ hρ
                rw [d4 ρ (hop.step.down ρ hρ).1, c6' ρ hρ]; rfl
            refine ih (hsim.trans hnext) (by rw [hl]; exact hop.vt) (by rw [hl]; exact hop.step.grow.valid h2) c5' huv (by omega) ?_ h
            intro i ρ hρ ha
            have := (hnext.down ρ hρ).2 (k + 1 + i) ⟨i, rfl, ha⟩
            obtain ⟨i', hi', ha'⟩ := this
            have := hn _ ρ (hnext.down ρ hρ).1 ha'
            omega
          next => simp at h
        next => simp at h
      next => simp at h
    | _ => simp at h

/-- A term which is neither a variable nor a list is not a list. -/
theorem not_list (hok : Ok N s) {v w : Cell} (hv : ValidWord N s.lssa s.mem v)
    (he : ∀ ρ, Model N s.mem ρ → eval s.mem ρ w = eval s.mem ρ v) (hn : varOrList v = false)
    (ρ : Adr → T) (hρ : Model N s.mem ρ) (x y : T) : eval s.mem ρ w ≠ .lst x y := by
  intro hxy
  rw [he ρ hρ] at hxy
  cases v with
  | ref a => simp [varOrList] at hn
  | lst a => simp [varOrList] at hn
  | stc a => obtain ⟨f, n, h1, _⟩ := hv; rw [eval_stc h1] at hxy; simp at hxy
  | atm i => simp [Unify.eval] at hxy
  | int i => simp [Unify.eval] at hxy
  | flt i =>
    obtain ⟨b, hb⟩ := hv
    simp only [Unify.eval, hb] at hxy
    split at hxy <;> simp at hxy
  | fdv i => exact hv.elim
  | fn i j => exact hv.elim
  | raw i => exact hv.elim

theorem not_nil {v w : Cell} (hv : ValidWord N s.lssa s.mem v)
    (he : ∀ ρ, Model N s.mem ρ → eval s.mem ρ w = eval s.mem ρ v) (hn : ∀ a, v ≠ .ref a) (hne : v ≠ NIL_WORD)
    (ρ : Adr → T) (hρ : Model N s.mem ρ) : eval s.mem ρ w ≠ nil := by
  intro hxy
  rw [he ρ hρ] at hxy
  cases v with
  | ref a => exact hn a rfl
  | lst a => simp [Unify.eval] at hxy
  | stc a => obtain ⟨f, n, h1, _⟩ := hv; rw [eval_stc h1] at hxy; simp at hxy
  | atm i => simp only [Unify.eval, T.atm.injEq] at hxy; subst hxy; exact hne rfl
  | int i => simp [Unify.eval] at hxy
  | flt i =>
    obtain ⟨b, hb⟩ := hv
    simp only [Unify.eval, hb] at hxy
    split at hxy <;> simp at hxy
  | fdv i => exact hv.elim
  | fn i j => exact hv.elim
  | raw i => exact hv.elim

theorem appendNondet_good {A A' : Nat → (Adr → T) → Prop} {l1 l2 l3 v : Cell} {k lo : Nat} {o : Out}
    (hA : ∀ j ρ, lo ≤ j → (A' j ρ ↔ A j ρ))
    (hsim : Sim N s0 s A' (BA s l1 l2 l3 k)) (h1 : ValidWord N s.lssa s.mem l1)
    (h2 : ValidWord N s.lssa s.mem l2) (h3 : ValidWord N s.lssa s.mem l3) (hu : UV s.mem l1) (hlo : lo ≤ k)
    (hd : deref s.mem l3 = some v)
    (h : nilUnify E s l1 l2 l3 (if varOrList v then some ⟨s, l1, l2, l3⟩ else none) = some o) :
    Good N s0 A' (InvA N s0 A) lo o := by
  obtain ⟨v', d1, d2, d3, d4⟩ := deref_ok hsim.ok h3
  rw [hd] at d1
  simp only [Option.some.injEq] at d1
  subst d1
  refine append_finish hsim h1 h2 h3 hu hlo ?_ ?_ h
  · intro hcp i ρ hρ ha
    obtain ⟨x, a, b, _, q2, _⟩ := app_succ.mp ha
    refine not_list hsim.ok d2 d4 ?_ ρ hρ x b q2
    cases hv : varOrList v with
    | false => rfl
    | true => rw [hv] at hcp; simp at hcp
  · intro c hc
    cases hv : varOrList v with
    | false => rw [hv] at hc; simp at hc
    | true =>
      rw [hv] at hc
      simp only [if_true, Option.some.injEq] at hc
      subst hc
      exact ⟨A', k, rfl, fun j ρ hj => hA j ρ (by omega), hsim, h1, h2, h3, hu⟩

theorem appendVar_good {A : Nat → (Adr → T) → Prop} {l1 l2 l3 : Cell} {k : Nat} {o : Out}
    (hsim : Sim N s0 s A (BA s l1 l2 l3 k)) (h1 : ValidWord N s.lssa s.mem l1)
    (h2 : ValidWord N s.lssa s.mem l2) (h3 : ValidWord N s.lssa s.mem l3) (hu : UV s.mem l1)
    (h : appendVar E s l1 l2 l3 = some o) : Good N s0 A (InvA N s0 A) 0 o := by
  unfold appendVar at h
  split at h
  · simp at h
  · next len2 hl2 =>
    split at h
    · simp at h
    · next len3 hl3 =>
      split at h
      · next hge =>
        rw [if_pos hge.1] at hl3
        obtain ⟨a, ha, hL2⟩ := listLength_spec hsim.ok h2 hl2 (by omega) hge.1
        obtain ⟨b, hb, hL3⟩ := listLength_spec hsim.ok h3 hl3 (by omega) hge.2
        have key : ∀ i ρ, Model N s.mem ρ → App i (eval s.mem ρ l1) (eval s.mem ρ l2) (eval s.mem ρ l3) → i + a = b := by
          intro i ρ hρ hap
          exact (hap.length (hL2 ρ hρ)).unique (hL3 ρ hρ)
        split at h
        · next hlt =>
          simp only [Option.some.injEq] at h
          subst h
          have hno : ∀ j, NoAnswer N s0 (A j) := by
            intro j
            refine hsim.none ?_
            rintro ρ hρ ⟨i, _, hap⟩
            have := key i ρ hρ hap
            omega
          exact ⟨0, by omega, fun j _ _ => hno j, by simp, fun _ => hno 0, fun _ j _ => hno j, by simp⟩
        · next hge2 =>
          refine appendPrefix_good hsim h1 h2 h3 hu (by omega) ?_ h
          intro i ρ hρ hap
          have := key i ρ hρ hap
          omega
      · split at h
        · simp at h
        · next v hd => exact appendNondet_good (fun _ _ _ => Iff.rfl) hsim h1 h2 h3 hu (by omega) hd h

theorem append3_good {A : Nat → (Adr → T) → Prop} {l1 l2 l3 : Cell} {f k : Nat} {o : Out}
    (hsim : Sim N s0 s A (BA s l1 l2 l3 k)) (h1 : ValidWord N s.lssa s.mem l1)
    (h2 : ValidWord N s.lssa s.mem l2) (h3 : ValidWord N s.lssa s.mem l3)
    (h : append3 E l2 f s l1 l3 = some o) : Good N s0 A (InvA N s0 A) 0 o := by
  induction f generalizing s l1 l3 k with
  | zero => simp [append3] at h
  | succ f ih =>
    obtain ⟨v, d1, d2, d3, d4⟩ := deref_ok hsim.ok h1
    have fail : (∀ j, NoAnswer N s0 (A j)) → ∀ s2, some (Out.ret false s2 none) = some o → Good N s0 A (InvA N s0 A) 0 o := by
      intro hno s2 h
      simp only [Option.some.injEq] at h
      subst h
      exact ⟨0, by omega, fun j _ _ => hno j, by simp, fun _ => hno 0, fun _ j _ => hno j, by simp⟩
    have base : ∀ a, v = .lst a → ∀ ρ, Model N s.mem ρ → eval s.mem ρ l1 = .lst (ρ a) (ρ (a + 1)) := by
      rintro a rfl ρ hρ
      exact d4 ρ hρ
    rw [append3, d1] at h
    cases v with
    | lst adr =>
      simp only at h
      have hpos : ∀ ρ, Model N s.mem ρ → ¬ App 0 (eval s.mem ρ l1) (eval s.mem ρ l2) (eval s.mem ρ l3) := by
        intro ρ hρ ha
        have := (app_zero.mp ha).1
        rw [base adr rfl ρ hρ] at this
        simp at this
      obtain ⟨c1, c2, c3, c4, c5, c6, _, _⟩ := lst_cells hsim.ok d2
      split at h
      · simp at h
      · next hg =>
        refine fail ?_ _ h
        intro j
        refine (hsim.trans (ba_pos hsim.ok hpos)).none ?_
        rintro ρ hρ ⟨hj, i, rfl, ha⟩
        obtain ⟨i, rfl⟩ : ∃ i', i = i' + 1 := ⟨i - 1, by omega⟩
        obtain ⟨x, a, b, _, q2, _⟩ := app_succ.mp ha
        exact getList_none hsim.ok h3 hg ρ hρ ⟨_, _, q2⟩
      · next s1 S hg =>
        split at h
        · simp at h
        · next s2 S1 hv =>
          refine fail ?_ _ h
          intro j
          refine (hsim.trans (ba_pos hsim.ok hpos)).none ?_
          rintro ρ hρ ⟨hj, i, rfl, ha⟩
          obtain ⟨i, rfl⟩ : ∃ i', i = i' + 1 := ⟨i - 1, by omega⟩
          obtain ⟨x, a, b, q1, q2, _⟩ := app_succ.mp ha
          refine openCarV_none hsim.ok h3 (by omega) c3 hg hv ρ hρ ⟨b, ?_⟩
          rw [base adr rfl ρ hρ] at q1
          simp only [T.lst.injEq] at q1
          rw [q2, ← q1.1]; rfl
        · next s2 S1 hv =>
          split at h
          · simp at h
          · next s3 S2 l3' hvar =>
            have hop := openCarV hsim.ok h3 (by omega) c3 hg hv hvar
            have hl := hop.step.lssa
            have d2' : ValidWord N s3.lssa s3.mem (.lst adr) := by rw [hl]; exact hop.step.grow.valid d2
            obtain ⟨_, _, _, _, c5', c6', _, _⟩ := lst_cells hop.step.ok d2'
            have hnext : Sim N s s3 (BA s l1 l2 l3 k) (BA s3 (s3.mem (adr + 1)) l2 l3' (k + 1)) := by
              refine (ba_pos hsim.ok hpos).trans (append_cons (x := .ref adr) h1 h2 h3 hop.step ?_ ?_ ?_)
              · intro ρ x a b hρ q1 q2
                rw [base adr rfl ρ hρ] at q1
                simp only [T.lst.injEq] at q1
                exact ⟨b, by rw [q2, ← q1.1]; rfl⟩
              · intro ρ hρ
                rw [base adr rfl ρ (hop.step.down ρ hρ).1, c6' ρ hρ]; rfl
              · intro ρ hρ; rw [hop.eq ρ hρ]; rfl
            exact ih (hsim.trans hnext) c5' (by rw [hl]; exact hop.step.grow.valid h2) (by rw [hl]; exact hop.vt) h
    | ref a =>
      simp only [reduceCtorEq, if_false] at h
      exact appendVar_good hsim h1 h2 h3 ⟨a, d1⟩ h
    | atm i =>
      simp only at h
      split at h
      · next hv =>
        have hnil : ∀ ρ, Model N s.mem ρ → eval s.mem ρ l1 = nil := by
          intro ρ hρ; rw [d4 ρ hρ, hv]; rfl
        unfold retUnify at h
        split at h
        · simp at h
        · next r s' hun =>
          simp only [Option.some.injEq] at h
          subst h
          have hiff : ∀ ρ, Model N s.mem ρ → (BA s l1 l2 l3 k k ρ ↔ eval s.mem ρ l2 = eval s.mem ρ l3) := by
            intro ρ hρ
            constructor
            · rintro ⟨i, hi, ha⟩
              have : i = 0 := by omega
              subst this
              exact (app_zero.mp ha).2
            · intro h; exact ⟨0, rfl, app_zero.mpr ⟨hnil ρ hρ, h⟩⟩
          refine ⟨k, by omega, fun j _ hj => ba_skip hsim hj, ?_, ?_, ?_, by simp⟩
          · intro hr; subst hr; exact hsim.step (unify_step hsim.ok h2 h3 hun) hiff
          · intro hr; subst hr; exact hsim.none (fun ρ hρ hb => unify_none hsim.ok h2 h3 hun ρ hρ ((hiff ρ hρ).mp hb))
          · intro _ j hj
            refine hsim.none ?_
            rintro ρ hρ ⟨i, hi, ha⟩
            obtain ⟨i, rfl⟩ : ∃ i', i = i' + 1 := ⟨i - 1, by omega⟩
            obtain ⟨x, a, b, q1, _, _⟩ := app_succ.mp ha
            rw [hnil ρ hρ] at q1
            simp at q1
      · next hv =>
        refine fail ?_ _ h
        intro j
        refine hsim.none ?_
        rintro ρ hρ ⟨i, rfl, ha⟩
        cases i with
        | zero => exact not_nil d2 d4 (by simp) hv ρ hρ (app_zero.mp ha).1
        | succ i =>
          obtain ⟨x, a, b, q1, _, _⟩ := app_succ.mp ha
          exact not_list hsim.ok d2 d4 rfl ρ hρ _ _ q1
    | int i | stc i | flt i =>
      simp only [reduceCtorEq, if_false] at h
      refine fail ?_ _ h
      intro j
      refine hsim.none ?_
      rintro ρ hρ ⟨i, rfl, ha⟩
      cases i with
      | zero => exact not_nil d2 d4 (by simp) (by simp) ρ hρ (app_zero.mp ha).1
      | succ i =>
        obtain ⟨x, a, b, q1, _, _⟩ := app_succ.mp ha
        exact not_list hsim.ok d2 d4 rfl ρ hρ _ _ q1
    | fdv i => exact d2.elim
    | fn i j => exact d2.elim
    | raw i => exact d2.elim

/-- What a variable designates after a change of other cells. -/
theorem deref_change {lssa : Adr} {m m' : Heap.Mem} (hwf : WF N lssa m) {r : Adr} {w : Cell} (hw : ValidWord N lssa m w)
    (hch : ∀ b, b ≠ r → isTerm (m b) = true → m' b = m b ∨ m b = .ref b)
    (h : deref m w = some (.ref r)) : deref m' w = deref m' (.ref r) := by
  cases w with
  | ref a =>
    obtain ⟨haN, hta⟩ := hw
    have hacc := (hwf a haN hta).2.2
    induction hacc with
    | intro a _ ih =>
      by_cases har : a = r
      · subst har; rfl
      · rw [deref_ref] at h
        by_cases hs : m a = .ref a
        · rw [if_pos hs] at h
          simp only [Option.some.injEq, Cell.ref.injEq] at h
          exact absurd h har
        · rw [if_neg hs] at h
          have hv := (hwf a haN hta).1
          have hm : m' a = m a := by
            rcases hch a har hta with h1 | h1
            · exact h1
            · exact absurd h1 hs
          cases hma : m a with
          | ref b =>
            rw [hma] at h hv
            have hne : b ≠ a := by rintro rfl; exact hs hma
            have := ih b ⟨hma, hne⟩ h hv.1 hv.2
            rw [← this]
            conv => lhs; rw [deref_ref]
            rw [if_neg (by rw [hm]; exact hs), hm, hma]
          | _ =>
            rw [hma, deref_nonref (by simp)] at h
            simp at h
  | _ => rw [deref_nonref (by simp)] at h; simp at h

theorem Sim.restrict {A B : Nat → (Adr → T) → Prop} (h : Sim N s s' A B) (k : Nat) :
    Sim N s s' (fun j ρ => k ≤ j ∧ A j ρ) (fun j ρ => k ≤ j ∧ B j ρ) where
  ok := h.ok
  lssa := h.lssa
  grow := h.grow
  down ρ hρ := ⟨(h.down ρ hρ).1, fun i hi => ⟨hi.1, (h.down ρ hρ).2 i hi.2⟩⟩
  up ρ i hρ ha := by
    obtain ⟨ρ', h1, h2, h3⟩ := h.up ρ i hρ ha.2
    exact ⟨ρ', h1, h2, ha.1, h3⟩

theorem Good.of_eq {A A' : Nat → (Adr → T) → Prop} {Inv : Nat → CP → Prop} {lo : Nat} {o : Out}
    (hA : ∀ j ρ, lo ≤ j → (A' j ρ ↔ A j ρ)) (h : Good N s A' Inv lo o) : Good N s A Inv lo o := by
  have hno : ∀ j, lo ≤ j → NoAnswer N s (A' j) → NoAnswer N s (A j) := by
    intro j hj h ρ hρ ha
    exact h ρ hρ ((hA j ρ hj).mpr ha)
  cases o with
  | err e => intro j hj; exact hno j hj (h j hj)
  | ret r s' cp =>
    obtain ⟨k, h1, h2, h3, h4, h5, h6⟩ := h
    refine ⟨k, h1, fun j h7 h8 => hno j h7 (h2 j h7 h8), ?_, fun hr => hno k h1 (h4 hr), fun hc j hj => hno j (by omega) (h5 hc j hj), h6⟩
    intro hr
    obtain ⟨a1, a2, a3⟩ := h3 hr
    exact ⟨a1, fun ρ hρ => ⟨(a2 ρ hρ).1, (hA k ρ h1).mp (a2 ρ hρ).2⟩, fun ρ hρ ha => a3 ρ hρ ((hA k ρ h1).mpr ha)⟩

theorem appendAlt_good {A : Nat → (Adr → T) → Prop} {lo : Nat} {c : CP} {o : Out} (hi : InvA N s0 A lo c)
    (h : appendAlt E c = some o) : Good N s0 A (InvA N s0 A) lo o := by
  obtain ⟨A', k, rfl, hA, hsim, v0, v1, v2, huv⟩ := hi
  unfold appendAlt at h
  split at h
  next s1 S hg =>
    split at h
    · simp at h
    next s2 S1 x hx =>
    split at h
    · simp at h
    next s3 S2 a2 ht =>
    split at h
    next s4 S3 hg2 =>
      split at h
      · simp at h
      next r s5 S4 hv =>
      split at h
      · simp at h
      next s6 S5 a0 hvar =>
      split at h
      · simp at h
      next v hd =>
      have hop := openVV hsim.ok v2 hg hx ht
      have hl := hop.step.lssa
      have v0' : ValidWord N s3.lssa s3.mem c.a0 := by rw [hl]; exact hop.step.grow.valid v0
      -- L1 is still a variable, or it is the variable L3
      have hcases : (UV s3.mem c.a0) ∨ (deref s3.mem c.a0 = some (.lst c.st.h) ∧ x = .ref c.st.h ∧
          s3.mem c.st.h = .ref c.st.h ∧ s3.mem (c.st.h + 1) = .ref (c.st.h + 1)) := by
        obtain ⟨r0, hr0⟩ := huv
        obtain ⟨w, q1, q2, q3, q4⟩ := deref_ok hsim.ok v0
        rw [hr0] at q1
        simp only [Option.some.injEq] at q1
        subst q1
        have hr0u := q3 r0 rfl
        by_cases hu2 : UV c.st.mem c.a2
        · obtain ⟨u1, u2, u3, b, hb, hwr⟩ := openVV_uv hsim.ok v2 hu2 hg hx ht
          obtain ⟨w', p1, p2, p3, p4⟩ := deref_ok hsim.ok v2
          rw [hb] at p1
          simp only [Option.some.injEq] at p1
          subst p1
          have hbu := p3 b rfl
          have hlt := hwr.lt
          have f1 := hsim.ok.free c.st.h (Nat.le_refl _) (by omega)
          have f2 := hsim.ok.free (c.st.h + 1) (by omega) (by omega)
          have hoth : ∀ y, y ≠ b → y ≠ c.st.h → y ≠ c.st.h + 1 → s3.mem y = c.st.mem y := by
            intro y y1 y2 y3
            rw [hwr.mem, listMem, set_other _ _ _ _ y1, set_other _ _ _ _ y3, set_other _ _ _ _ y2]
          have hch : ∀ y, y ≠ r0 → isTerm (c.st.mem y) = true → s3.mem y = c.st.mem y ∨ c.st.mem y = .ref y := by
            intro y _ hty
            by_cases y1 : y = b
            · subst y1; exact Or.inr hbu
            · refine Or.inl (hoth y y1 ?_ ?_)
              · rintro rfl; rw [f1] at hty; simp [isTerm] at hty
              · rintro rfl; rw [f2] at hty; simp [isTerm] at hty
          have hde := deref_change hsim.ok.wf v0 hch hr0
          by_cases hrb : r0 = b
          · subst hrb
            right
            refine ⟨?_, u2, ?_, hwr.tail hsim.ok hbu⟩
            · rw [hde, deref_ref, hwr.bound]
              simp only [reduceCtorEq, if_false]
              exact deref_nonref (by simp)
            · rw [hwr.mem, listMem, set_other _ _ _ _ (fun h => lst_ne hbu f1 h.symm), set_other _ _ _ _ (by omega), set_same]
              exact u2
          · left
            refine ⟨r0, ?_⟩
            rw [hde, deref_ref, hoth r0 hrb (lst_ne hr0u f1) (lst_ne hr0u f2), if_pos hr0u]
        · left
          -- read mode: the memory is the same
          have : s3 = c.st := by
            unfold getList at hg
            split at hg
            · simp at hg
            · next b hb => exact absurd ⟨b, hb⟩ hu2
            · simp only [Option.some.injEq, Prod.mk.injEq] at hg
              obtain ⟨e1, e2⟩ := hg
              subst e2; subst e1
              simp only [unifyVariable, Option.some.injEq, Prod.mk.injEq] at hx
              obtain ⟨e3, e4, e5⟩ := hx
              subst e4; subst e3
              simp only [unifyVariable, Option.some.injEq, Prod.mk.injEq] at ht
              exact ht.1.symm
            · simp at hg
          rw [this]
          exact ⟨r0, hr0⟩
      have hr : r = true ∧ UV s6.mem a0 := by
        rcases hcases with hu | ⟨hd0, hx0, hm1, hm2⟩
        · obtain ⟨q1, q2⟩ := openValV_uv hop.step.ok v0' hu hg2 hv hvar
          exact ⟨q2, q1⟩
        · unfold getList at hg2
          rw [hd0] at hg2
          simp only [Option.some.injEq, Prod.mk.injEq] at hg2
          obtain ⟨e1, e2⟩ := hg2
          subst e2; subst e1
          rw [hx0] at hv
          unfold unifyValue at hv
          simp only [hm1] at hv
          split at hv
          · simp at hv
          next r' s' hun =>
            simp only [Option.some.injEq, Prod.mk.injEq] at hv
            obtain ⟨e3, e4, e5⟩ := hv
            subst e5; subst e4; subst e3
            cases hf : E.fuel with
            | zero => rw [hf, unify] at hun; simp at hun
            | succ n =>
              rw [hf, unify] at hun
              have hdh : deref s3.mem (.ref c.st.h) = some (.ref c.st.h) := by rw [deref_ref, if_pos hm1]
              simp only [hdh, Nat.lt_irrefl, gt_iff_lt, if_false, Option.some.injEq, Prod.mk.injEq] at hun
              obtain ⟨e6, e7⟩ := hun
              subst e7; subst e6
              simp only [unifyVariable, Option.some.injEq, Prod.mk.injEq] at hvar
              obtain ⟨e8, e9, e10⟩ := hvar
              subst e8
              rw [hm2] at e10
              subst e10
              exact ⟨rfl, uv_self hm2⟩
      obtain ⟨hr, huv6⟩ := hr
      subst hr
      have hop2 := openValV hop.step.ok v0' (by rw [hl]; exact hop.vx) (by rw [hl]; exact hop.gx) hg2 hv hvar
      have hl2 := hop2.step.lssa
      have hst : Step N c.st (fun ρ => ∃ x a b, eval c.st.mem ρ c.a0 = .lst x a ∧ eval c.st.mem ρ c.a2 = .lst x b) s6 := by
        refine hop.step.trans hop2.step ?_ ?_ ?_
        · rintro ρ hρ hρ3 _ ⟨y, hy⟩
          rw [hop.step.grow.eval v0] at hy
          exact ⟨_, _, _, hy, hop.eq ρ hρ3⟩
        · rintro ρ hρ ⟨x, a, b, _, q⟩; exact ⟨x, b, q⟩
        · rintro ρ ρ' hρ' hag ⟨x', a, b, q1, q2⟩
          have := hop.eq ρ' hρ'
          rw [hag.eval v2, q2] at this
          simp only [T.lst.injEq] at this
          refine ⟨a, ?_⟩
          rw [hop.step.grow.eval v0, hag.eval v0, q1, this.1]
      have ex : ∀ ρ, eval s6.mem ρ x = eval s3.mem ρ x := fun ρ => hop2.step.grow.eval hop.vx ρ
      have hnext : Sim N c.st s6 (fun j ρ => k + 1 ≤ j ∧ BA c.st c.a0 c.a1 c.a2 k j ρ) (BA s6 a0 c.a1 a2 (k + 1)) := by
        refine append_cons (x := x) v0 v1 v2 hst ?_ ?_ ?_
        · intro ρ x a b _ q1 q2; exact ⟨x, a, b, q1, q2⟩
        · intro ρ hρ
          have := hop2.eq ρ hρ
          rw [hop.step.grow.eval v0] at this
          rw [this, ex ρ]
        · intro ρ hρ
          rw [hop.eq ρ (hop2.step.down ρ hρ).1, ex ρ]
          congr 1
          exact (hop2.step.grow.eval hop.vt ρ).symm
      have hl6 : s6.lssa = c.st.lssa := by rw [hl2, hl]
      refine Good.of_eq (A' := fun j ρ => k + 1 ≤ j ∧ A' j ρ) ?_ ?_
      · intro j ρ hj; simp only [hj, true_and]; exact hA j ρ hj
      · refine appendNondet_good ?_ ((hsim.restrict (k + 1)).trans hnext) (by rw [hl2]; exact hop2.vt)
          (by rw [hl6]; exact hst.grow.valid v1) (by rw [hl6]; exact hop2.step.grow.valid hop.vt) huv6 (Nat.le_refl _) hd h
        intro j ρ hj; simp only [hj, true_and]; exact hA j ρ hj
    next => simp at h
  next => simp at h

end Gp.ListBip
