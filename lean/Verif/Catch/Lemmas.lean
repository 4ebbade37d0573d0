import Verif.Catch.Spec
/-
Simulation of the specification by the machine.
-/
namespace Gp.Catch

open Spec

variable {S τ : Type} [DecidableEq τ]

theorem Reaches.trans {P : Nat → Goal S τ} {a b c : St S τ} (h : Reaches P a b) (h' : Reaches P b c) :
    Reaches P a c := by
  induction h with
  | refl => exact h'
  | head hs _ ih => exact .head hs (ih h')

theorem Reaches.one {P : Nat → Goal S τ} {a b : St S τ} (h : step P a = some b) : Reaches P a b :=
  .head h (.refl _)

/-- Addresses decrease along the chain of choice points. -/
def Srt (cs : List (Cp S τ)) : Prop := cs.Pairwise (fun a b => b.adr < a.adr)

/-- Running, failing and unwinding states with no pending ball. -/
abbrev mkR (s : S) (k : List (Frame S τ)) (cs : List (Cp S τ)) (h : Nat) (qs : List Nat)
    (o : List (Ball τ)) : St S τ := ⟨.run, s, k, cs, h, .noBall, qs, o⟩

abbrev mkF (s : S) (k : List (Frame S τ)) (cs : List (Cp S τ)) (h : Nat) (qs : List Nat)
    (o : List (Ball τ)) : St S τ := ⟨.fail, s, k, cs, h, .noBall, qs, o⟩

abbrev mkT (b : Ball τ) (s : S) (k : List (Frame S τ)) (cs : List (Cp S τ)) (h : Nat) (qs : List Nat)
    (o : List (Ball τ)) : St S τ := ⟨.unwind b, s, k, cs, h, b, qs, o⟩

/-- From the state `st`, over the chain `cs`, the machine gives the answers to the continuation `k` and
then ends, with the handler `h` and the queries `qs` in place each time.  The chain below the choice
points of the goal may lose elements between two answers (soft cut of an enclosing goal). -/
def Outcome (P : Nat → Goal S τ) (k : List (Frame S τ)) (h : Nat) (qs : List Nat) (o : List (Ball τ)) :
    List (Cp S τ) → List S → End τ → St S τ → Prop
  | cs, [], .fail, st => ∃ x y, Reaches P st (mkF x y cs h qs o)
  | cs, [], .throws b, st => Plain b ∧ ∃ x y seg, Srt (seg ++ cs) ∧ Reaches P st (mkT b x y (seg ++ cs) h qs o)
  | _, [], .more, _ => True
  | cs, a :: as, e, st => ∃ seg, Srt (seg ++ cs) ∧ (∀ c ∈ seg, envTop k < c.adr) ∧
      Reaches P st (mkR a k (seg ++ cs) h qs o) ∧
      (seg = [] → as = [] ∧ (e = .fail ∨ e = .more)) ∧
      ∀ cs', cs'.Sublist cs → ∀ x y, Outcome P k h qs o cs' as e (mkF x y (seg ++ cs') h qs o)

variable {P : Nat → Goal S τ} {k : List (Frame S τ)} {h : Nat} {qs : List Nat} {o : List (Ball τ)}

theorem outcome_head {cs : List (Cp S τ)} {as : List S} {e : End τ} {st st' : St S τ}
    (hr : Reaches P st st') (ho : Outcome P k h qs o cs as e st') : Outcome P k h qs o cs as e st := by
  cases as with
  | nil =>
    cases e with
    | fail => obtain ⟨x, y, h1⟩ := ho; exact ⟨x, y, hr.trans h1⟩
    | throws b => obtain ⟨hp, x, y, seg, h1, h2⟩ := ho; exact ⟨hp, x, y, seg, h1, hr.trans h2⟩
    | more => trivial
  | cons a as =>
    obtain ⟨seg, h1, h2, h3, h4, h5⟩ := ho
    exact ⟨seg, h1, h2, hr.trans h3, h4, h5⟩

/-- After the answers of a first part comes a second part, on the remaining choice points `seg`. -/
theorem outcome_comp {seg : List (Cp S τ)} {as as' : List S} {e : End τ}
    (hseg : ∀ c ∈ seg, envTop k < c.adr)
    (hz : seg = [] → as' = [] ∧ (e = .fail ∨ e = .more)) {cs : List (Cp S τ)}
    (hc : ∀ cs', cs'.Sublist cs → ∀ x y, Outcome P k h qs o cs' as' e (mkF x y (seg ++ cs') h qs o))
    {st : St S τ} (ho : Outcome P k h qs o (seg ++ cs) as .fail st) :
    Outcome P k h qs o cs (as ++ as') e st := by
  induction as generalizing st cs with
  | nil =>
    obtain ⟨x, y, hr⟩ := ho
    exact outcome_head hr (hc cs (List.Sublist.refl _) x y)
  | cons a as ih =>
    obtain ⟨seg2, h1, h2, h3, h4, h5⟩ := ho
    refine ⟨seg2 ++ seg, by simpa using h1, ?_, by simpa using h3, ?_, ?_⟩
    · intro c hm
      rcases List.mem_append.1 hm with hm | hm
      · exact h2 c hm
      · exact hseg c hm
    · intro hnil
      have hn := List.append_eq_nil_iff.1 hnil
      obtain ⟨ha, _⟩ := h4 hn.1
      obtain ⟨ha', he⟩ := hz hn.2
      exact ⟨by simp [ha, ha'], he⟩
    · intro cs' hs x y
      have := h5 (seg ++ cs') (List.Sublist.append (List.Sublist.refl _) hs) x y
      have := ih (cs := cs') (fun cs'' hs'' => hc cs'' (hs''.trans hs)) this
      simpa using this

/-- A part which does not end with a failure hides the choice points below. -/
theorem outcome_weaken {seg : List (Cp S τ)} {as : List S} {e : End τ} (he : e ≠ .fail)
    (hseg : ∀ c ∈ seg, envTop k < c.adr) {cs : List (Cp S τ)}
    {st : St S τ} (ho : Outcome P k h qs o (seg ++ cs) as e st) : Outcome P k h qs o cs as e st := by
  induction as generalizing st cs with
  | nil =>
    cases e with
    | fail => exact absurd rfl he
    | throws b =>
      obtain ⟨hp, x, y, seg2, h1, h2⟩ := ho
      exact ⟨hp, x, y, seg2 ++ seg, by simpa using h1, by simpa using h2⟩
    | more => trivial
  | cons a as ih =>
    obtain ⟨seg2, h1, h2, h3, h4, h5⟩ := ho
    refine ⟨seg2 ++ seg, by simpa using h1, ?_, by simpa using h3, ?_, ?_⟩
    · intro c hm
      rcases List.mem_append.1 hm with hm | hm
      · exact h2 c hm
      · exact hseg c hm
    · intro hnil
      exact h4 (List.append_eq_nil_iff.1 hnil).1
    · intro cs' hs x y
      have := h5 (seg ++ cs') (List.Sublist.append (List.Sublist.refl _) hs) x y
      have := ih (cs := cs') this
      simpa using this

/-! ### Cuts -/

theorem cut_seg {b : Nat} {seg cs : List (Cp S τ)} (hs : ∀ c ∈ seg, b < c.adr) :
    cut b (seg ++ cs) = cut b cs := by
  induction seg with
  | nil => rfl
  | cons c seg ih =>
    simp only [List.cons_append, cut]
    rw [if_pos (hs c (List.mem_cons_self ..))]
    exact ih (fun c hc => hs c (List.mem_cons_of_mem _ hc))

theorem cut_le {b : Nat} {cs : List (Cp S τ)} (h : curB cs ≤ b) : cut b cs = cs := by
  cases cs with
  | nil => rfl
  | cons c cs =>
    simp only [curB] at h
    simp only [cut]
    rw [if_neg (by omega)]

theorem le_curB {cs : List (Cp S τ)} (h : Srt cs) : ∀ c ∈ cs, c.adr ≤ curB cs := by
  cases cs with
  | nil => intro c hc; cases hc
  | cons d cs =>
    intro c hc
    rcases List.mem_cons.1 hc with rfl | hc
    · exact Nat.le_refl _
    · exact Nat.le_of_lt ((List.pairwise_cons.1 h).1 c hc)

theorem curB_mem {cs : List (Cp S τ)} : cs = [] ∨ ∃ c ∈ cs, c.adr = curB cs := by
  cases cs with
  | nil => exact .inl rfl
  | cons c cs => exact .inr ⟨c, List.mem_cons_self .., rfl⟩

theorem curB_lt_of {cs : List (Cp S τ)} {b : Nat} (hb : 0 < b) (h : ∀ c ∈ cs, c.adr < b) : curB cs < b := by
  cases cs with
  | nil => exact hb
  | cons c cs => exact h c (List.mem_cons_self ..)

theorem srt_cons {a : Nat} {alt : Alt S τ} {cs : List (Cp S τ)} (h : Srt cs) (ha : curB cs < a) :
    Srt (⟨a, alt⟩ :: cs) :=
  List.pairwise_cons.2 ⟨fun c hc => Nat.lt_of_le_of_lt (le_curB h c hc) ha, h⟩

theorem srt_sub {seg cs cs' : List (Cp S τ)} (h : Srt (seg ++ cs)) (hs : cs'.Sublist cs) : Srt (seg ++ cs') :=
  List.Pairwise.sublist (List.Sublist.append (List.Sublist.refl _) hs) h

theorem srt_right {seg cs : List (Cp S τ)} (h : Srt (seg ++ cs)) : Srt cs :=
  List.Pairwise.sublist (List.sublist_append_right ..) h

theorem srt_seg {seg cs : List (Cp S τ)} (h : Srt (seg ++ cs)) : ∀ c ∈ seg, ∀ d ∈ cs, d.adr < c.adr :=
  fun c hc d hd => (List.pairwise_append.1 h).2.2 c hc d hd

theorem softLoop_eq {b : Nat} {cur : Cp S τ} {cs : List (Cp S τ)} (h : Srt (cur :: cs)) (hb : cur.adr ≠ b) :
    softLoop b cur cs = cur :: cs.filter (fun c => c.adr ≠ b) := by
  induction cs generalizing cur with
  | nil => rfl
  | cons p cs ih =>
    have hp := List.pairwise_cons.1 h
    have hp2 := List.pairwise_cons.1 hp.2
    simp only [softLoop]
    split
    · next he =>
      rw [List.filter_cons_of_neg (by simp [he]), List.filter_eq_self.2]
      intro c hc
      have := hp2.1 c hc
      simp; omega
    · next hne =>
      split
      · next hlt =>
        rw [List.filter_eq_self.2]
        intro c hc
        have := hp.1 c hc
        simp; omega
      · rw [ih hp.2 hne, List.filter_cons_of_pos (by simp [hne])]

theorem softCut_eq {b : Nat} {cs : List (Cp S τ)} (h : Srt cs) :
    softCut b cs = cs.filter (fun c => c.adr ≠ b) := by
  cases cs with
  | nil => rfl
  | cons c cs =>
    have hp := List.pairwise_cons.1 h
    simp only [softCut]
    split
    · next he =>
      rw [List.filter_cons_of_neg (by simp [he]), List.filter_eq_self.2]
      intro d hd
      have := hp.1 d hd
      simp; omega
    · next hne => rw [softLoop_eq h hne, List.filter_cons_of_pos (by simp [hne])]

theorem filter_ne {b : Nat} {cs : List (Cp S τ)} (h : ∀ c ∈ cs, c.adr ≠ b) :
    cs.filter (fun c => c.adr ≠ b) = cs := by
  rw [List.filter_eq_self.2]
  intro c hc
  simpa using h c hc

theorem fresh_cs {cs : List (Cp S τ)} {k : List (Frame S τ)} : curB cs < fresh cs k := by
  simp only [fresh]; omega

theorem fresh_k {cs : List (Cp S τ)} {k : List (Frame S τ)} : envTop k < fresh cs k := by
  simp only [fresh]; omega

/-! ### The steps -/

theorem step_run {f : Frame S τ} {k : List (Frame S τ)} {st : St S τ} (hm : st.mode = .run)
    (hk : st.k = f :: k) : step P st = some (exec P f k st) := by
  simp only [step, hm, hk]

theorem step_fail {c : Cp S τ} {cs : List (Cp S τ)} {st : St S τ} (hm : st.mode = .fail)
    (hk : st.cs = c :: cs) : step P st = some (backtrack c cs st) := by
  simp only [step, hm, hk]

/-- What is proved of a goal: in every context. -/
def Good (P : Nat → Goal S τ) (g : Goal S τ) (s : S) (as : List S) (e : End τ) : Prop :=
  ∀ k cs h qs o, Srt cs → h ≤ envTop k → (∀ q ∈ qs, q ≤ envTop k) →
    Outcome P k h qs o cs as e (mkR s (.goal g :: k) cs h qs o)

/-- The continuation of the goal which gives the answers: the second goal, possibly after a soft cut. -/
def Pass (b : Nat) (g : Goal S τ) (k k' : List (Frame S τ)) : Prop :=
  k' = .goal g :: k ∨ k' = .softCut b :: .goal g :: k

/-- What is proved of a goal called on each answer of a sequence: if the machine has reached the call of
the goal on the first answer and gives the other answers on backtracking, it gives the answers of the
goal. -/
def GoodAll (P : Nat → Goal S τ) (g : Goal S τ) (bs : List S) (e₁ : End τ) (as : List S) (e : End τ) : Prop :=
  (bs = [] → as = [] ∧ e = e₁) ∧
  ∀ b₀ bs', bs = b₀ :: bs' → ∀ k k' cs h qs o b, Pass b g k k' → (∀ c ∈ cs, c.adr ≠ b) →
    h ≤ envTop k → (∀ q ∈ qs, q ≤ envTop k) → ∀ (seg : List (Cp S τ)) (st : St S τ), Srt (seg ++ cs) →
    (∀ c ∈ seg, envTop k < c.adr) → Reaches P st (mkR b₀ (.goal g :: k) (seg ++ cs) h qs o) →
    (seg = [] → bs' = [] ∧ (e₁ = .fail ∨ e₁ = .more)) →
    (∀ cs', cs'.Sublist cs → ∀ x y, Outcome P k' h qs o cs' bs' e₁ (mkF x y (seg ++ cs') h qs o)) →
    Outcome P k h qs o cs as e st

end Gp.Catch
