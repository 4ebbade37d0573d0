import Verif.Catch.Lemmas
/-
One lemma for each rule of the specification, then the simulation theorem.
-/
namespace Gp.Catch

open Spec

variable {S τ : Type} [DecidableEq τ] {P : Nat → Goal S τ}

theorem good_stop {g : Goal S τ} {s : S} : Good P g s [] .more := fun _ _ _ _ _ _ _ _ => trivial

theorem good_actSome {f : S → Option S} {s s' : S} (hf : f s = some s') : Good P (.act f) s [s'] .fail := by
  intro k cs h qs o hs hh hq
  refine ⟨[], hs, by simp, Reaches.one ?_, by simp, ?_⟩
  · rw [step_run rfl rfl]; simp [exec, hf]
  · intro cs' _ x y
    exact ⟨x, y, .refl _⟩

theorem good_actNone {f : S → Option S} {s : S} (hf : f s = none) : Good P (.act f) s [] .fail := by
  intro k cs h qs o hs hh hq
  refine ⟨s, .goal (.act f) :: k, Reaches.one ?_⟩
  rw [step_run rfl rfl]; simp [exec, hf]

theorem good_throw {f : S → Ball τ} {s : S} (hp : Plain (f s)) : Good P (.throw f) s [] (.throws (f s)) := by
  intro k cs h qs o hs hh hq
  refine ⟨hp, s, k, [], hs, Reaches.one ?_⟩
  rw [step_run rfl rfl]; simp [exec]

theorem good_call {p : Nat} {s : S} {as e} (ih : Good P (P p) s as e) : Good P (.call p) s as e := by
  intro k cs h qs o hs hh hq
  refine outcome_head (Reaches.one ?_) (ih k cs h qs o hs hh hq)
  rw [step_run rfl rfl]; simp [exec]

theorem step_alt {a : Nat} {g : Goal S τ} {s : S} {k : List (Frame S τ)} {cs : List (Cp S τ)}
    {x y h qs o} : Reaches P (mkF x y (⟨a, .goal g s k⟩ :: cs) h qs o) (mkR s (.goal g :: k) cs h qs o) := by
  apply Reaches.one
  rw [step_fail rfl rfl]; simp [backtrack]

theorem good_disjBoth {g₁ g₂ : Goal S τ} {s : S} {as as' e} (ih₁ : Good P g₁ s as .fail)
    (ih₂ : Good P g₂ s as' e) : Good P (.disj g₁ g₂) s (as ++ as') e := by
  intro k cs h qs o hs hh hq
  have ho := ih₁ k (⟨fresh cs k, .goal g₂ s k⟩ :: cs) h qs o (srt_cons hs fresh_cs) hh hq
  refine outcome_head (Reaches.one ?_) (outcome_comp (seg := [⟨fresh cs k, .goal g₂ s k⟩]) ?_ ?_ ?_ ho)
  · rw [step_run rfl rfl]; simp [exec]
  · intro c hc
    rw [List.mem_singleton.1 hc]; exact fresh_k
  · intro hn; cases hn
  · intro cs' hsub x y
    exact outcome_head step_alt (ih₂ k cs' h qs o (List.Pairwise.sublist hsub hs) hh hq)

theorem good_disjLeft {g₁ g₂ : Goal S τ} {s : S} {as e} (ih₁ : Good P g₁ s as e) (he : e ≠ .fail) :
    Good P (.disj g₁ g₂) s as e := by
  intro k cs h qs o hs hh hq
  have ho := ih₁ k (⟨fresh cs k, .goal g₂ s k⟩ :: cs) h qs o (srt_cons hs fresh_cs) hh hq
  refine outcome_head (Reaches.one ?_) (outcome_weaken (seg := [⟨fresh cs k, .goal g₂ s k⟩]) he ?_ ho)
  · rw [step_run rfl rfl]; simp [exec]
  · intro c hc
    rw [List.mem_singleton.1 hc]; exact fresh_k

theorem outcome_det {k : List (Frame S τ)} {h : Nat} {qs : List Nat} {o : List (Ball τ)} {cs : List (Cp S τ)}
    {a : S} {st : St S τ} (hs : Srt cs) (hr : Reaches P st (mkR a k cs h qs o)) :
    Outcome P k h qs o cs [a] .fail st :=
  ⟨[], hs, by simp, hr, by simp, fun _ _ x y => ⟨x, y, .refl _⟩⟩

theorem good_onceSome {g : Goal S τ} {s a : S} {as e} (ih : Good P g s (a :: as) e) :
    Good P (.once g) s [a] .fail := by
  intro k cs h qs o hs hh hq
  obtain ⟨seg, h1, h2, h3, -, -⟩ := ih (.cutTo (curB cs) :: k) cs h qs o hs
    (by simp only [envTop]; omega) (by intro q hq'; have := hq q hq'; simp only [envTop]; omega)
  refine outcome_det hs (Reaches.trans (Reaches.one ?_) (h3.trans (Reaches.one ?_)))
  · rw [step_run rfl rfl]; simp [exec]
  · rw [step_run rfl rfl]
    simp only [exec]
    rw [cut_seg, cut_le (Nat.le_refl _)]
    intro c hc
    have := h2 c hc
    simp only [envTop, Frame.adr] at this
    omega

theorem outcome_nil_k {k k' : List (Frame S τ)} {h : Nat} {qs : List Nat} {o : List (Ball τ)}
    {cs : List (Cp S τ)} {e : End τ} {st : St S τ} (ho : Outcome P k' h qs o cs [] e st) :
    Outcome P k h qs o cs [] e st := by
  cases e <;> exact ho

theorem good_onceNone {g : Goal S τ} {s : S} {e} (ih : Good P g s [] e) : Good P (.once g) s [] e := by
  intro k cs h qs o hs hh hq
  have ho := ih (.cutTo (curB cs) :: k) cs h qs o hs
    (by simp only [envTop]; omega) (by intro q hq'; have := hq q hq'; simp only [envTop]; omega)
  refine outcome_head (Reaches.one ?_) (outcome_nil_k ho)
  rw [step_run rfl rfl]; simp [exec]

section ite
variable {c t f : Goal S τ} {s : S}

theorem ite_enter {as e} (ih : Good P c s as e) {k : List (Frame S τ)} {cs h qs o} (hs : Srt cs)
    (hh : h ≤ envTop k) (hq : ∀ q ∈ qs, q ≤ envTop k) :
    Outcome P (.cutTo (curB cs) :: .goal t :: k) h qs o (⟨fresh cs k, .goal f s k⟩ :: cs) as e
      (mkR s (.goal (.ite c t f) :: k) cs h qs o) := by
  have ho := ih (.cutTo (curB cs) :: .goal t :: k) (⟨fresh cs k, .goal f s k⟩ :: cs) h qs o
    (srt_cons hs fresh_cs) (by simp only [envTop, Frame.adr]; omega)
    (by intro q hq'; have := hq q hq'; simp only [envTop, Frame.adr]; omega)
  refine outcome_head (Reaches.one ?_) ho
  rw [step_run rfl rfl]; simp [exec]

theorem good_iteThen {a : S} {as e as' e'} (ih : Good P c s (a :: as) e) (ih2 : Good P t a as' e') :
    Good P (.ite c t f) s as' e' := by
  intro k cs h qs o hs hh hq
  obtain ⟨seg, h1, h2, h3, -, -⟩ := ite_enter (t := t) (f := f) ih hs hh hq
  refine outcome_head (h3.trans (Reaches.one ?_)) (ih2 k cs h qs o hs hh hq)
  rw [step_run rfl rfl]
  simp only [exec]
  rw [cut_seg]
  · have := fresh_cs (cs := cs) (k := k)
    simp only [cut]
    rw [if_pos this, cut_le (Nat.le_refl _)]
  · intro c hc
    have := h2 c hc
    simp only [envTop, Frame.adr] at this
    omega

theorem good_iteElse {as e} (ih : Good P c s [] .fail) (ih2 : Good P f s as e) :
    Good P (.ite c t f) s as e := by
  intro k cs h qs o hs hh hq
  obtain ⟨x, y, h1⟩ := ite_enter (t := t) (f := f) ih hs hh hq
  exact outcome_head (h1.trans step_alt) (ih2 k cs h qs o hs hh hq)

theorem good_iteEnd {e} (ih : Good P c s [] e) (he : e ≠ .fail) : Good P (.ite c t f) s [] e := by
  intro k cs h qs o hs hh hq
  refine outcome_nil_k (outcome_weaken (seg := [⟨fresh cs k, .goal f s k⟩])
    (k := .cutTo (curB cs) :: .goal t :: k) he ?_ (ite_enter (t := t) (f := f) ih hs hh hq))
  intro c hc
  rw [List.mem_singleton.1 hc]
  have := fresh_cs (cs := cs) (k := k)
  have := fresh_k (cs := cs) (k := k)
  simp only [envTop, Frame.adr]
  omega

theorem soft_enter {as e} (ih : Good P c s as e) {k : List (Frame S τ)} {cs h qs o} (hs : Srt cs)
    (hh : h ≤ envTop k) (hq : ∀ q ∈ qs, q ≤ envTop k) :
    Outcome P (.softCut (fresh cs k) :: .goal t :: k) h qs o (⟨fresh cs k, .goal f s k⟩ :: cs) as e
      (mkR s (.goal (.soft c t f) :: k) cs h qs o) := by
  have ho := ih (.softCut (fresh cs k) :: .goal t :: k) (⟨fresh cs k, .goal f s k⟩ :: cs) h qs o
    (srt_cons hs fresh_cs) (by simp only [envTop, Frame.adr]; omega)
    (by intro q hq'; have := hq q hq'; simp only [envTop, Frame.adr]; omega)
  refine outcome_head (Reaches.one ?_) ho
  rw [step_run rfl rfl]; simp [exec]

theorem good_softElse {as e} (ih : Good P c s [] .fail) (ih2 : Good P f s as e) :
    Good P (.soft c t f) s as e := by
  intro k cs h qs o hs hh hq
  obtain ⟨x, y, h1⟩ := soft_enter (t := t) (f := f) ih hs hh hq
  exact outcome_head (h1.trans step_alt) (ih2 k cs h qs o hs hh hq)

/-- The exception (or the interruption) of a condition with no answer. -/
theorem outcome_nil_weaken {k k' : List (Frame S τ)} {h qs o} {cs seg : List (Cp S τ)} {e : End τ}
    {st : St S τ} (he : e ≠ .fail)
    (ho : Outcome P k' h qs o (seg ++ cs) [] e st) : Outcome P k h qs o cs [] e st := by
  cases e with
  | fail => exact absurd rfl he
  | throws b =>
    obtain ⟨hp, x, y, seg2, h1, h2⟩ := ho
    exact ⟨hp, x, y, seg2 ++ seg, by simpa using h1, by simpa using h2⟩
  | more => trivial

theorem good_softEnd {e} (ih : Good P c s [] e) (he : e ≠ .fail) : Good P (.soft c t f) s [] e := by
  intro k cs h qs o hs hh hq
  exact outcome_nil_weaken (seg := [⟨fresh cs k, .goal f s k⟩]) he (soft_enter (t := t) (f := f) ih hs hh hq)


end ite

section all
variable {g : Goal S τ}

theorem env_pass {b : Nat} {k k' : List (Frame S τ)} (hp : Pass b g k k') : envTop k ≤ envTop k' := by
  rcases hp with rfl | rfl <;> simp only [envTop, Frame.adr] <;> omega

theorem goodAll_use {bs e₁ as e} (ih : GoodAll P g bs e₁ as e) {k k' : List (Frame S τ)} {cs h qs o b}
    (hp : Pass b g k k') (hb : ∀ c ∈ cs, c.adr ≠ b)
    (hh : h ≤ envTop k) (hq : ∀ q ∈ qs, q ≤ envTop k) {st : St S τ}
    (ho : Outcome P k' h qs o cs bs e₁ st) : Outcome P k h qs o cs as e st := by
  cases bs with
  | nil =>
    obtain ⟨rfl, rfl⟩ := ih.1 rfl
    exact outcome_nil_k ho
  | cons b₀ bs' =>
    obtain ⟨seg, h1, h2, h3, h4, h5⟩ := ho
    refine ih.2 b₀ bs' rfl k k' cs h qs o b hp hb hh hq seg st h1 ?_ ?_ h4 h5
    · intro c hc
      exact Nat.lt_of_le_of_lt (env_pass hp) (h2 c hc)
    · rcases hp with rfl | rfl
      · exact h3
      · refine h3.trans (Reaches.one ?_)
        rw [step_run rfl rfl]
        simp only [exec]
        rw [softCut_eq h1, filter_ne]
        intro c hc
        rcases List.mem_append.1 hc with hc | hc
        · have := h2 c hc
          simp only [envTop, Frame.adr] at this
          omega
        · exact hb c hc

theorem goodAll_nil {e₁} : GoodAll P g [] e₁ [] e₁ :=
  ⟨fun _ => ⟨rfl, rfl⟩, fun _ _ hn => by cases hn⟩

theorem goodAll_next {b₀ : S} {bs e₁ as as' e} (ih1 : Good P g b₀ as .fail) (ih2 : GoodAll P g bs e₁ as' e) :
    GoodAll P g (b₀ :: bs) e₁ (as ++ as') e := by
  refine ⟨fun hn => (by cases hn), ?_⟩
  intro b₁ bs' hbs k k' cs h qs o b hp hb hh hq seg st h1 h2 h3 h4 h5
  cases hbs
  refine outcome_head h3 (outcome_comp h2 ?_ ?_ (ih1 k (seg ++ cs) h qs o h1 hh hq))
  · intro hn
    obtain ⟨hbs, he⟩ := h4 hn
    obtain ⟨ha, he'⟩ := ih2.1 hbs
    exact ⟨ha, by rw [he']; exact he⟩
  · intro cs' hsub x y
    exact goodAll_use ih2 hp (fun c hc => hb c (hsub.subset hc)) hh hq (h5 cs' hsub x y)

theorem goodAll_ends {b₀ : S} {bs e₁ as e} (ih1 : Good P g b₀ as e) (he : e ≠ .fail) :
    GoodAll P g (b₀ :: bs) e₁ as e := by
  refine ⟨fun hn => (by cases hn), ?_⟩
  intro b₁ bs' hbs k k' cs h qs o b hp hb hh hq seg st h1 h2 h3 h4 h5
  cases hbs
  exact outcome_head h3 (outcome_weaken he h2 (ih1 k (seg ++ cs) h qs o h1 hh hq))

theorem adr_lt_fresh {cs : List (Cp S τ)} {k : List (Frame S τ)} (hs : Srt cs) :
    ∀ c ∈ cs, c.adr < fresh cs k :=
  fun c hc => Nat.lt_of_le_of_lt (le_curB hs c hc) fresh_cs

theorem good_conj {g₁ : Goal S τ} {s : S} {bs e₁ as e} (ih : Good P g₁ s bs e₁)
    (ih2 : GoodAll P g bs e₁ as e) : Good P (.conj g₁ g) s as e := by
  intro k cs h qs o hs hh hq
  have ho := ih (.goal g :: k) cs h qs o hs (by simpa [envTop, Frame.adr] using hh)
    (by simpa [envTop, Frame.adr] using hq)
  refine outcome_head (Reaches.one ?_) (goodAll_use ih2 (b := fresh cs k) (.inl rfl) ?_ hh hq ho)
  · rw [step_run rfl rfl]; simp [exec]
  · intro c hc
    exact Nat.ne_of_lt (adr_lt_fresh hs c hc)

theorem good_softThen {c f : Goal S τ} {s : S} {b₀ bs e₁ as e} (ih : Good P c s (b₀ :: bs) e₁)
    (ih2 : GoodAll P g (b₀ :: bs) e₁ as e) : Good P (.soft c g f) s as e := by
  intro k cs h qs o hs hh hq
  obtain ⟨seg, h1, h2, h3, h4, h5⟩ := soft_enter (t := g) (f := f) ih hs hh hq
  have hne : ∀ c ∈ cs, c.adr ≠ fresh cs k := fun c hc => Nat.ne_of_lt (adr_lt_fresh hs c hc)
  have hsub : cs.Sublist (⟨fresh cs k, .goal f s k⟩ :: cs) := List.sublist_cons_self ..
  refine ih2.2 b₀ bs rfl k (.softCut (fresh cs k) :: .goal g :: k) cs h qs o (fresh cs k) (.inr rfl) hne
    hh hq seg _ (srt_sub h1 hsub) ?_ (h3.trans (Reaches.one ?_)) h4 ?_
  · intro c hc
    exact Nat.lt_of_le_of_lt (env_pass (b := fresh cs k) (.inr rfl)) (h2 c hc)
  · rw [step_run rfl rfl]
    simp only [exec]
    rw [softCut_eq h1, List.filter_append, List.filter_cons_of_neg (by simp), filter_ne hne, filter_ne]
    intro c hc
    have := h2 c hc
    simp only [envTop, Frame.adr] at this
    omega
  · intro cs' hs' x y
    exact h5 cs' (hs'.trans hsub) x y

end all

section «catch»
variable {g r : Goal S τ} {m : Ball τ → S → Option S} {s : S}

theorem catch_enter {as e} (ih : Good P g s as e) {k : List (Frame S τ)} {cs h qs o} (hs : Srt cs)
    (hq : ∀ q ∈ qs, q ≤ envTop k) :
    Outcome P (.exitCatch (fresh cs k) h :: k) (fresh cs k) qs o (⟨fresh cs k, .catch m r h s k⟩ :: cs) as e
      (mkR s (.goal (.catch g m r) :: k) cs h qs o) := by
  have ho := ih (.exitCatch (fresh cs k) h :: k) (⟨fresh cs k, .catch m r h s k⟩ :: cs) (fresh cs k) qs o
    (srt_cons hs fresh_cs) (by simp only [envTop, Frame.adr]; omega)
    (by intro q hq'; have := hq q hq'; simp only [envTop, Frame.adr]; omega)
  refine outcome_head (Reaches.one ?_) ho
  rw [step_run rfl rfl]; simp [exec]

/-- Failing on the choice point of a catch with no ball. -/
theorem catch_fail {a h' : Nat} {k : List (Frame S τ)} {cs : List (Cp S τ)} {x y h qs o} :
    Reaches P (mkF x y (⟨a, .catch m r h s k⟩ :: cs) h' qs o) (mkF x y cs h qs o) := by
  apply Reaches.one
  rw [step_fail rfl rfl]; simp [backtrack]

/-- The answers of the goal are the answers of the catch; `f` is what happens at the end. -/
theorem catch_answers {as as' e e'} {k : List (Frame S τ)} {h : Nat} {qs o} {B : Nat} (hB : envTop k < B)
    (he : (e = .fail ∨ e = .more) → as' = [] ∧ e' = e) {cs : List (Cp S τ)}
    (hend : ∀ cs', cs'.Sublist cs → ∀ st,
      Outcome P (.exitCatch B h :: k) B qs o (⟨B, .catch m r h s k⟩ :: cs') [] e st →
      Outcome P k h qs o cs' as' e' st) {st : St S τ} (hcs : Srt (⟨B, .catch m r h s k⟩ :: cs))
    (ho : Outcome P (.exitCatch B h :: k) B qs o (⟨B, .catch m r h s k⟩ :: cs) as e st) :
    Outcome P k h qs o cs (as ++ as') e' st := by
  induction as generalizing st cs with
  | nil => exact hend cs (List.Sublist.refl _) _ ho
  | cons a as ih =>
    obtain ⟨seg, h1, h2, h3, h4, h5⟩ := ho
    cases seg with
    | nil =>
      obtain ⟨rfl, hee⟩ := h4 rfl
      obtain ⟨rfl, rfl⟩ := he hee
      refine ⟨[], srt_right (seg := [_]) hcs, by simp, h3.trans (Reaches.one ?_), fun _ => ⟨rfl, hee⟩, ?_⟩
      · rw [step_run rfl rfl]
        simp [exec, curB, cut]
      · intro cs' hsub x y
        rcases hee with rfl | rfl
        · exact ⟨x, y, .refl _⟩
        · trivial
    | cons d seg =>
      have hd : B < d.adr := by
        have := h2 d (List.mem_cons_self ..)
        simp only [envTop, Frame.adr] at this
        omega
      refine ⟨⟨fresh (d :: seg ++ ⟨B, .catch m r h s k⟩ :: cs) k, .trail B⟩ :: d :: seg ++
          [⟨B, .catch m r h s k⟩], ?_, ?_, h3.trans (Reaches.one ?_), by simp, ?_⟩
      · have := srt_cons (alt := .trail B) h1 (fresh_cs (k := k))
        simpa using this
      · intro c hc
        simp only [List.cons_append, List.mem_cons, List.mem_append, List.not_mem_nil, or_false] at hc
        have hk : envTop k ≤ envTop (Frame.exitCatch B h :: k) := by simp only [envTop]; omega
        rcases hc with rfl | rfl | hc | rfl
        · exact fresh_k
        · exact Nat.lt_of_le_of_lt hk (h2 _ (List.mem_cons_self ..))
        · exact Nat.lt_of_le_of_lt hk (h2 _ (List.mem_cons_of_mem _ hc))
        · exact hB
      · rw [step_run rfl rfl]
        simp [exec, curB, hd]
      · intro cs' hsub x y
        have hrest := h5 (⟨B, .catch m r h s k⟩ :: cs') (hsub.cons_cons _) x y
        have := ih (cs := cs') (fun cs'' hs'' => hend cs'' (hs''.trans hsub))
          (List.Pairwise.sublist (hsub.cons_cons _) hcs) hrest
        refine outcome_head (Reaches.one ?_) this
        rw [List.cons_append, List.cons_append, step_fail rfl rfl]
        simp [backtrack]

theorem good_catchNone {as e} (ih : Good P g s as e) (he : ∀ b, e ≠ .throws b) :
    Good P (.catch g m r) s as e := by
  intro k cs h qs o hs hh hq
  have := catch_answers (as' := []) (e' := e) (h := h) (o := o) fresh_k (fun _ => ⟨rfl, rfl⟩) ?_ (srt_cons hs fresh_cs)
    (catch_enter (m := m) (r := r) ih hs hq)
  · simpa using this
  · intro cs' hsub st ho
    cases e with
    | fail =>
      obtain ⟨x, y, hr⟩ := ho
      exact ⟨x, y, hr.trans catch_fail⟩
    | throws b => exact absurd rfl (he b)
    | more => trivial

/-- At the end of the goal, the exception is given to `'$catch_a_throw'`. -/
theorem catch_end {b : Ball τ} {k : List (Frame S τ)} {cs cs' : List (Cp S τ)} {h qs o} {st : St S τ}
    (hk : ∀ q ∈ qs, q < fresh cs k)
    (ho : Outcome P (.exitCatch (fresh cs k) h :: k) (fresh cs k) qs o
      (⟨fresh cs k, .catch m r h s k⟩ :: cs') [] (.throws b) st) :
    Plain b ∧ ∃ x y, Reaches P st
      (catchAThrow b m r h s k ⟨.fail, x, y, cs', h, b, qs, o⟩) := by
  obtain ⟨hp, x, y, seg, hsrt, hr⟩ := ho
  refine ⟨hp, x, y, hr.trans ?_⟩
  have hcut : cut (fresh cs k) (seg ++ ⟨fresh cs k, .catch m r h s k⟩ :: cs') =
      ⟨fresh cs k, .catch m r h s k⟩ :: cs' := by
    rw [cut_seg]
    · exact cut_le (Nat.le_refl _)
    intro c hc
    exact srt_seg hsrt c hc _ (List.mem_cons_self ..)
  have hpos : fresh cs k ≠ 0 := by simp [fresh]
  have h1 : step P (mkT b x y (seg ++ ⟨fresh cs k, .catch m r h s k⟩ :: cs') (fresh cs k) qs o) =
      some ⟨.fail, x, y, ⟨fresh cs k, .catch m r h s k⟩ :: cs', fresh cs k, b, qs, o⟩ := by
    simp only [step, unwind]
    cases qs with
    | nil => simp [hpos, hcut]
    | cons q qs =>
      have : ¬ fresh cs k ≤ q := by
        have := hk q (List.mem_cons_self ..)
        omega
      simp [hpos, hcut, this]
  refine .head h1 (Reaches.one ?_)
  rw [step_fail rfl rfl]
  have hb : b ≠ .noBall := by rintro rfl; exact hp
  simp [backtrack, hb]

theorem good_catchSome {as b s' as' e} (ih : Good P g s as (.throws b)) (hm : m b s = some s')
    (ih2 : Good P r s' as' e) : Good P (.catch g m r) s (as ++ as') e := by
  intro k cs h qs o hs hh hq
  refine catch_answers fresh_k (fun hc => by rcases hc with hc | hc <;> cases hc) ?_ (srt_cons hs fresh_cs)
    (catch_enter (m := m) (r := r) ih hs hq)
  intro cs' hsub st ho
  obtain ⟨hp, x, y, hr⟩ := catch_end
    (fun q hq' => Nat.lt_of_le_of_lt (hq q hq') fresh_k) ho
  refine outcome_head hr ?_
  have : catchAThrow b m r h s k ⟨.fail, x, y, cs', h, b, qs, o⟩ = mkR s' (.goal r :: k) cs' h qs o := by
    cases b with
    | noBall => exact absurd hp id
    | sync b => exact absurd hp id
    | term t => simp [catchAThrow, hm]
  rw [this]
  exact ih2 k cs' h qs o (List.Pairwise.sublist hsub hs) hh hq

theorem good_catchPass {as b} (ih : Good P g s as (.throws b)) (hm : m b s = none) :
    Good P (.catch g m r) s as (.throws b) := by
  intro k cs h qs o hs hh hq
  have := catch_answers (as' := []) (e' := .throws b) (h := h) (o := o) fresh_k
    (fun hc => by rcases hc with hc | hc <;> cases hc) ?_ (srt_cons hs fresh_cs)
    (catch_enter (m := m) (r := r) ih hs hq)
  · simpa using this
  intro cs' hsub st ho
  obtain ⟨hp, x, y, hr⟩ := catch_end
    (fun q hq' => Nat.lt_of_le_of_lt (hq q hq') fresh_k) ho
  have : catchAThrow b m r h s k ⟨.fail, x, y, cs', h, b, qs, o⟩ = mkT b s k cs' h qs o := by
    cases b with
    | noBall => exact absurd hp id
    | sync b => exact absurd hp id
    | term t => simp [catchAThrow, hm]
  rw [this] at hr
  exact ⟨hp, s, k, [], List.Pairwise.sublist hsub hs, hr⟩

end «catch»

section query
variable {g x : Goal S τ} {s : S}

theorem query_enter {as e} (ih : Good P g s as e) {k : List (Frame S τ)} {cs h qs o} (hs : Srt cs)
    (hh : h ≤ envTop k) (hq : ∀ q ∈ qs, q ≤ envTop k) :
    Outcome P (.endQuery (fresh cs k) :: k) h (fresh cs k :: qs) o (⟨fresh cs k, .query x s k⟩ :: cs) as e
      (mkR s (.goal (.query g x) :: k) cs h qs o) := by
  have ho := ih (.endQuery (fresh cs k) :: k) (⟨fresh cs k, .query x s k⟩ :: cs) h (fresh cs k :: qs) o
    (srt_cons hs fresh_cs) (by simp only [envTop, Frame.adr]; omega) (by
      intro q hq'
      rcases List.mem_cons.1 hq' with rfl | hq'
      · simp only [envTop, Frame.adr]; omega
      · have := hq q hq'; simp only [envTop, Frame.adr]; omega)
  refine outcome_head (Reaches.one ?_) ho
  rw [step_run rfl rfl]; simp [exec]

theorem good_querySome {a : S} {as e} (ih : Good P g s (a :: as) e) : Good P (.query g x) s [a] .fail := by
  intro k cs h qs o hs hh hq
  obtain ⟨seg, h1, h2, h3, -, -⟩ := query_enter (x := x) ih hs hh hq
  refine outcome_det hs (h3.trans (Reaches.one ?_))
  rw [step_run rfl rfl]
  simp only [exec]
  rw [cut_seg]
  · simp [cut]
  · intro c hc
    have := h2 c hc
    simp only [envTop, Frame.adr] at this
    omega

theorem good_queryNone {e} (ih : Good P g s [] e) (he : ∀ b, e ≠ .throws b) : Good P (.query g x) s [] e := by
  intro k cs h qs o hs hh hq
  have ho := query_enter (x := x) (o := o) ih hs hh hq
  cases e with
  | fail =>
    obtain ⟨z, y, hr⟩ := ho
    refine ⟨z, y, hr.trans (Reaches.one ?_)⟩
    rw [step_fail rfl rfl]; simp [backtrack]
  | throws b => exact absurd rfl (he b)
  | more => trivial

end query

mutual
/-- The machine simulates the specification, in every context. -/
theorem good {g : Goal S τ} {s : S} {as : List S} {e : End τ} : Ev false P g s as e → Good P g s as e
  | .stop => good_stop
  | .actSome h => good_actSome h
  | .actNone h => good_actNone h
  | .throw h => good_throw (h.resolve_left (by simp))
  | .conj h1 h2 => good_conj (good h1) (goodAll h2)
  | .disjBoth h1 h2 => good_disjBoth (good h1) (good h2)
  | .disjLeft h1 he => good_disjLeft (good h1) he
  | .onceSome h1 => good_onceSome (good h1)
  | .onceNone h1 => good_onceNone (good h1)
  | .iteThen h1 h2 => good_iteThen (good h1) (good h2)
  | .iteElse h1 h2 => good_iteElse (good h1) (good h2)
  | .iteEnd h1 he => good_iteEnd (good h1) he
  | .softThen h1 h2 => good_softThen (good h1) (goodAll h2)
  | .softElse h1 h2 => good_softElse (good h1) (good h2)
  | .softEnd h1 he => good_softEnd (good h1) he
  | .call h1 => good_call (good h1)
  | .catchNone h1 he => good_catchNone (good h1) he
  | .catchSome h1 hm h2 => good_catchSome (good h1) hm (good h2)
  | .catchPass h1 hm => good_catchPass (good h1) hm
  | .querySome h1 => good_querySome (good h1)
  | .queryNone h1 he => good_queryNone (good h1) he
  | .queryThrow hl _ _ => by cases hl

theorem goodAll {g : Goal S τ} {bs : List S} {e₁ : End τ} {as : List S} {e : End τ} :
    EvAll false P g bs e₁ as e → GoodAll P g bs e₁ as e
  | .nil => goodAll_nil
  | .next h1 h2 => goodAll_next (good h1) (goodAll h2)
  | .ends h1 he => goodAll_ends (good h1) he
end

end Gp.Catch
