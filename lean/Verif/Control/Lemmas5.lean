import Verif.Control.Lemmas4
/-
The code of every goal gives its answers.
-/
namespace Gp.Control

variable {α σ : Type} {I : α → σ → List σ × AEnd}

theorem main_atom (a : α) (cv n : Nat) (pl : Prop) : MainP I (.atom a) false cv n n (fun s => ((I a s).1, (I a s).2.toEnd)) pl := by
  intro rest env lvl adr code k W L b s o h1 h2 h3 h4 h5 h6 h7 h8
  rw [alts]
  exact atom_run h7 (fun b' hb' => ⟨(h5 b' hb').2, h6.le h7 hb'⟩) (Sat.mono (fun s b o h => h env fun _ _ => rfl) _ _ _ _ h8)

theorem main_fail (cv n : Nat) (pl : Prop) : MainP I (.fail : Norm α) false cv n n (fun _ => ([], .fail)) pl := by
  intro rest env lvl adr code k W L b s o h1 h2 h3 h4 h5 h6 h7 h8
  rw [alts]
  exact runC_fail h8

theorem main_cut (cv n : Nat) (pl : Prop) : MainP I (.cutTo cv : Norm α) true cv n n (fun s => ([s], .cut)) pl := by
  intro rest env lvl adr code k W L b s o h1 h2 h3 h4 h5 h6 h7 h8
  rw [alts]
  obtain ⟨h4a, h4b⟩ := h4 rfl
  cases L with
  | none => exact absurd rfl h4a
  | some L =>
    refine runC_cutTo h4b (h5 b h7).1 ?_
    exact h8 [] (cutO (some L)) (.inr ⟨by simp, rfl⟩) (fun b' hb' => sorted_cutL (h5 b' hb').2) (fun d hd => by cases hd) (fun b' _ o' ho' => ho') env
      fun _ _ => rfl

theorem main_widen {t : Norm α} {hc : Bool} {cv n n1 n2 n' : Nat} {S S' : σ → List σ × End} {pl pl' : Prop} (hn : n ≤ n1) (hn' : n2 ≤ n') (hS : S' = S)
    (hp : pl' → pl) (h : MainP I t hc cv n1 n2 S pl) : MainP I t hc cv n n' S' pl' := by
  subst hS
  intro rest env lvl adr code k W L b s o h1 h2 h3 h4 h5 h6 h7 h8
  refine h rest env lvl adr code k W L b s o (by omega) h2 (fun v hv hv' => h3 v (by omega) (by omega)) h4 h5 (h6.mono hp (Nat.le_refl _)) h7 ?_
  exact Sat.mono (fun s' b' o' hh env' he => hh env' fun v hv => he v (by omega)) _ _ _ _ h8

theorem lin_widen {t : Norm α} {hc : Bool} {cv n n1 n2 n' : Nat} {S S' : σ → List σ × End} {pl pl' plA plA' : Prop} (hn : n ≤ n1) (hn' : n2 ≤ n')
    (hS : S' = S) (hp : pl' → pl) (hpA : plA' → plA) (h : LinP I t hc cv n1 n2 S pl plA) : LinP I t hc cv n n' S' pl' plA' := by
  subst hS
  intro vs env lvl k W L A b s o h1 h2 h3 h4 h5 h6 h7 h8 h9 h11
  refine h vs env lvl k W L A b s o (by omega) h2 (fun v hv hv' => h3 v (by omega) (by omega)) h4 h5 ?_ h7 h8 h9 h11
  exact h6.imp id fun h => ⟨h.1, h.2.imp (fun h => ⟨hp h.1, h.2⟩) hpA⟩

/-! ## normalize_cuts -/

theorem norm_le (g : Goal α) : ∀ cv n, n ≤ (norm g cv n).2.2 := by
  induction g with
  | atom a => intro cv n; exact Nat.le_refl _
  | fail => intro cv n; exact Nat.le_refl _
  | cut => intro cv n; exact Nat.le_refl _
  | conj p q ihp ihq => intro cv n; exact Nat.le_trans (ihp cv n) (ihq cv _)
  | disj p q ihp ihq => intro cv n; exact Nat.le_trans (ihp cv n) (ihq cv _)
  | ifThen p q ihp ihq => intro cv n; have := ihp n (n + 1); have := ihq cv (norm p n (n + 1)).2.2; simp only [norm]; omega
  | softThen p q ihp ihq => intro cv n; have := ihp n (n + 1); have := ihq cv (norm p n (n + 1)).2.2; simp only [norm]; omega
  | ite p q r ihp ihq ihr =>
    intro cv n
    have h1 := ihr cv n
    simp only [norm]
    generalize norm r cv n = r1 at h1 ⊢
    split
    · have := ihp r1.2.2 (r1.2.2 + 1); have := ihq cv (norm p r1.2.2 (r1.2.2 + 1)).2.2; simp only; omega
    · have := ihp (r1.2.2 + 1) (r1.2.2 + 2); have := ihq cv (norm p (r1.2.2 + 1) (r1.2.2 + 2)).2.2; simp only; omega
  | softIte p q r ihp ihq ihr =>
    intro cv n
    have h1 := ihr cv n
    simp only [norm]
    generalize norm r cv n = r1 at h1 ⊢
    split
    · have := ihp r1.2.2 (r1.2.2 + 1); have := ihq cv (norm p r1.2.2 (r1.2.2 + 1)).2.2; simp only; omega
    · have := ihp (r1.2.2 + 1) (r1.2.2 + 2); have := ihq cv (norm p (r1.2.2 + 1) (r1.2.2 + 2)).2.2; simp only; omega

theorem norm_isFail (g : Goal α) : ∀ cv n, ((norm g cv n).1.isFail = true ↔ Fails g) ∧ ((norm g cv n).1.isFail = true → (norm g cv n).2.1 = false) := by
  induction g with
  | atom a => intro cv n; simp [norm, Norm.isFail, Fails]
  | fail => intro cv n; simp [norm, Norm.isFail, Fails]
  | cut => intro cv n; simp [norm, Norm.isFail, Fails]
  | conj p q ihp ihq => intro cv n; simp [norm, Norm.isFail, Fails]
  | disj p q ihp ihq =>
    intro cv n
    have h1 := ihp cv n
    have h2 := ihq cv (norm p cv n).2.2
    simp only [norm, Fails]
    rw [← h1.1, ← h2.1]
    generalize norm q cv (norm p cv n).2.2 = q1 at h2 ⊢
    generalize norm p cv n = p1 at h1 ⊢
    split
    · next hp => exact ⟨⟨fun h => ⟨hp, h⟩, (·.2)⟩, fun h => by rw [h1.2 hp, h2.2 h]; rfl⟩
    · next hp =>
      split
      · next hq => exact ⟨⟨fun h => absurd h hp, fun h => absurd h.1 hp⟩, fun h => absurd h hp⟩
      · exact ⟨⟨fun h => (by cases h), fun h => absurd h.1 hp⟩, fun h => (by cases h)⟩
  | ifThen p q ihp ihq => intro cv n; simp [norm, Norm.isFail, Fails]
  | softThen p q ihp ihq => intro cv n; simp [norm, Norm.isFail, Fails]
  | ite p q r ihp ihq ihr => intro cv n; simp only [norm]; split <;> simp [Norm.isFail, Fails]
  | softIte p q r ihp ihq ihr => intro cv n; simp only [norm]; split <;> simp [Norm.isFail, Fails]

theorem norm_vars (g : Goal α) : ∀ cv n, (norm g cv n).2.1 = true → cv ∈ (norm g cv n).1.vars := by
  induction g with
  | atom a => intro cv n h; cases h
  | fail => intro cv n h; cases h
  | cut => intro cv n _; simp [norm, Norm.vars]
  | conj p q ihp ihq =>
    intro cv n h
    simp only [norm, Bool.or_eq_true, Norm.vars, List.mem_append] at h ⊢
    exact h.imp (ihp cv n) (ihq cv _)
  | disj p q ihp ihq =>
    intro cv n h
    simp only [norm, Bool.or_eq_true] at h ⊢
    have h1 := (norm_isFail p cv n).2
    have h2 := (norm_isFail q cv (norm p cv n).2.2).2
    split
    · next hp => exact ihq _ _ (h.resolve_left (by rw [h1 hp]; simp))
    · split
      · next hq => exact ihp _ _ (h.resolve_right (by rw [h2 hq]; simp))
      · simp only [Norm.vars, List.mem_append]
        exact h.imp (ihp cv n) (ihq cv _)
  | ifThen p q ihp ihq =>
    intro cv n h
    simp only [norm, Norm.vars, List.mem_append] at h ⊢
    exact .inr (.inr (.inr (ihq _ _ h)))
  | softThen p q ihp ihq =>
    intro cv n h
    simp only [norm, Norm.vars, List.mem_append] at h ⊢
    exact .inr (ihq _ _ h)
  | ite p q r ihp ihq ihr =>
    intro cv n h
    have h1 := (norm_isFail r cv n).2
    simp only [norm] at h ⊢
    split
    · next hr =>
      rw [if_pos hr] at h
      simp only [h1 hr, Bool.false_or] at h
      simp only [Norm.vars, List.mem_append]
      exact .inr (.inr (.inr (ihq _ _ h)))
    · next hr =>
      rw [if_neg hr] at h
      simp only [Bool.or_eq_true] at h
      simp only [Norm.vars, List.mem_append]
      exact h.elim (fun h => .inr (ihr _ _ h)) fun h => .inl (.inr (.inr (.inr (ihq _ _ h))))
  | softIte p q r ihp ihq ihr =>
    intro cv n h
    have h1 := (norm_isFail r cv n).2
    simp only [norm] at h ⊢
    split
    · next hr =>
      rw [if_pos hr] at h
      simp only [h1 hr, Bool.false_or] at h
      simp only [Norm.vars, List.mem_append]
      exact .inr (ihq _ _ h)
    · next hr =>
      rw [if_neg hr] at h
      simp only [Bool.or_eq_true] at h
      simp only [Norm.vars, List.mem_append]
      exact h.elim (fun h => .inr (ihr _ _ h)) fun h => .inl (.inr (.inr (.inr (ihq _ _ h))))

theorem norm_noCut (g : Goal α) : ∀ cv n, NoCut g ↔ (norm g cv n).2.1 = false := by
  induction g with
  | atom a => intro cv n; simp [norm, NoCut]
  | fail => intro cv n; simp [norm, NoCut]
  | cut => intro cv n; simp [norm, NoCut]
  | conj p q ihp ihq => intro cv n; simp only [norm, NoCut, Bool.or_eq_false_iff, ← ihp, ← ihq]
  | disj p q ihp ihq => intro cv n; simp only [norm, NoCut, Bool.or_eq_false_iff, ← ihp, ← ihq]
  | ifThen p q ihp ihq => intro cv n; simp only [norm, NoCut, ← ihq]
  | softThen p q ihp ihq => intro cv n; simp only [norm, NoCut, ← ihq]
  | ite p q r ihp ihq ihr => intro cv n; simp only [norm]; split <;> simp only [NoCut, Bool.or_eq_false_iff, ← ihr, ← ihq] <;> exact And.comm
  | softIte p q r ihp ihq ihr => intro cv n; simp only [norm]; split <;> simp only [NoCut, Bool.or_eq_false_iff, ← ihr, ← ihq] <;> exact And.comm

theorem opaque_ne (e : End) : e.opaque ≠ .cut := by cases e <;> simp [End.opaque]

theorem andThen_noCut {f : σ → List σ × End} {e : End} (hf : ∀ s, (f s).2 ≠ .cut) (he : e ≠ .cut) : ∀ l : List σ, (andThen f e l).2 ≠ .cut
  | [] => he
  | s :: l => by
    have := andThen_noCut hf he l
    have hs := hf s
    rw [andThen]
    generalize f s = r at hs
    obtain ⟨l1, e1⟩ := r
    cases e1 with
    | fail => exact this
    | cut => exact hs
    | err => exact hs

theorem sem_noCut (I : α → σ → List σ × AEnd) (g : Goal α) : NoCut g → ∀ s, (sem I g s).2 ≠ .cut := by
  induction g with
  | atom a => intro _ s; simp only [sem]; cases (I a s).2 <;> simp [AEnd.toEnd]
  | fail => intro _ s; simp [sem]
  | cut => intro h; exact absurd h (by simp [NoCut])
  | conj p q ihp ihq => intro h s; exact andThen_noCut (ihq h.2) (ihp h.1 s) _
  | disj p q ihp ihq =>
    intro h s
    have h1 := ihp h.1 s
    have h2 := ihq h.2 s
    simp only [sem]
    generalize sem I p s = r at h1 ⊢
    obtain ⟨l, e⟩ := r
    cases e with
    | fail => exact h2
    | cut => exact h1
    | err => exact h1
  | ite p q r ihp ihq ihr =>
    intro h s
    simp only [sem]
    split
    · exact ihq h.1 _
    · simp
    · exact ihr h.2 s
  | softIte p q r ihp ihq ihr =>
    intro h s
    simp only [sem]
    split
    · exact andThen_noCut (ihq h.1) (opaque_ne _) _
    · simp
    · exact ihr h.2 s
  | ifThen p q ihp ihq =>
    intro h s
    simp only [sem]
    split
    · exact ihq h _
    · exact opaque_ne _
  | softThen p q ihp ihq => intro h s; exact andThen_noCut (ihq h) (opaque_ne _) _

theorem fails_sem (I : α → σ → List σ × AEnd) : ∀ (g : Goal α), Fails g → ∀ s, sem I g s = ([], .fail)
  | .fail, _, _ => rfl
  | .disj p q, h, s => by simp only [sem, fails_sem I p h.1 s, fails_sem I q h.2 s]; rfl

theorem fails_plain : ∀ (g : Goal α), Fails g → PlainAlt g ∧ Plain g
  | .fail, _ => ⟨trivial, trivial⟩
  | .disj p q, h => ⟨⟨fun _ => (fails_plain p h.1).1, (fails_plain q h.2).1⟩, ⟨fun _ => (fails_plain p h.1).2, (fails_plain q h.2).1⟩⟩

theorem plain_of_alt (g : Goal α) : PlainAlt g → Plain g := by
  induction g with
  | atom a => exact id
  | fail => exact id
  | cut => exact id
  | conj p q _ _ => exact id
  | disj p q ihp ihq => exact fun h => ⟨fun hf => ihp (h.1 hf), h.2⟩
  | ite p q r _ _ _ => exact fun h => ⟨h.2, (fails_plain r h.1).2⟩
  | softIte p q r _ _ ihr => exact fun h => ⟨h.1, ihr h.2⟩
  | ifThen p q _ _ => exact id
  | softThen p q _ _ => exact id

/-! ## All the goals -/

theorem main_all (I : α → σ → List σ × AEnd) (g : Goal α) : Ok g → ∀ cv n,
    MainP I (norm g cv n).1 (norm g cv n).2.1 cv n (norm g cv n).2.2 (sem I g) (Plain g) ∧
    LinP I (norm g cv n).1 (norm g cv n).2.1 cv n (norm g cv n).2.2 (sem I g) (Plain g) (PlainAlt g) := by
  have hno : ∀ (q : Goal α) (cv n : Nat), (norm q cv n).2.1 = false → ∀ s, (sem I q s).2 ≠ .cut := fun q cv n h => sem_noCut I q ((norm_noCut q cv n).mpr h)
  induction g with
  | atom a =>
    intro _ cv n
    have := main_atom (I := I) a cv n (Plain (.atom a))
    exact ⟨this, lin_of_main rfl (plain_of_alt _) this⟩
  | fail =>
    intro _ cv n
    have := main_fail (I := I) (α := α) cv n (Plain (.fail : Goal α))
    exact ⟨this, lin_of_main rfl (plain_of_alt _) this⟩
  | cut =>
    intro _ cv n
    have := main_cut (I := I) (α := α) cv n (Plain (.cut : Goal α))
    exact ⟨this, lin_of_main rfl (plain_of_alt _) this⟩
  | conj p q ihp ihq =>
    intro ho cv n
    have := main_conj (norm_le p cv n) (norm_le q cv _) (hno q cv _) (ihp ho.1 cv n).1 (ihq ho.2 cv (norm p cv n).2.2).1
    exact ⟨this, lin_of_main rfl (plain_of_alt (.conj p q)) this⟩
  | disj p q ihp ihq =>
    intro ho cv n
    obtain ⟨mp, lp⟩ := ihp ho.1 cv n
    obtain ⟨mq, lq⟩ := ihq ho.2 cv (norm p cv n).2.2
    have fp := norm_isFail p cv n
    have fq := norm_isFail q cv (norm p cv n).2.2
    have lep := norm_le p cv n
    have leq := norm_le q cv (norm p cv n).2.2
    have hv := norm_vars (.disj p q) cv n
    simp only [norm] at hv ⊢
    by_cases hp : (norm p cv n).1.isFail = true
    · have hS : sem I (.disj p q) = sem I q := by funext s; simp only [sem, fails_sem I p (fp.1.mp hp) s]; rfl
      simp only [if_pos hp, fp.2 hp, Bool.false_or]
      exact ⟨main_widen lep (Nat.le_refl _) hS (fun h => plain_of_alt q h.2) mq, lin_widen lep (Nat.le_refl _) hS (fun h => plain_of_alt q h.2) (·.2) lq⟩
    · by_cases hq : (norm q cv (norm p cv n).2.2).1.isFail = true
      · have hS : sem I (.disj p q) = sem I p := by
          funext s
          simp only [sem, fails_sem I q (fq.1.mp hq) s]
          generalize sem I p s = r
          obtain ⟨l, e⟩ := r
          cases e <;> simp [orElse]
        simp only [if_neg hp, if_pos hq, fq.2 hq, Bool.or_false]
        exact ⟨main_widen (Nat.le_refl _) leq hS (fun h => h.1 (fq.1.mp hq)) mp,
          lin_widen (Nat.le_refl _) leq hS (fun h => h.1 (fq.1.mp hq)) (fun h => h.1 (fq.1.mp hq)) lp⟩
      · simp only [if_neg hp, if_neg hq] at hv ⊢
        have := lin_disj (pl := Plain (.disj p q)) (plA := PlainAlt (.disj p q)) lep leq (hno p cv n) (·.2) (·.2) mp lq
        exact ⟨main_of_lin hv this, this⟩
  | ifThen p q ihp ihq =>
    intro ho cv n
    have := main_ifThen (Nat.le_refl _) (norm_le p n (n + 1)) (norm_le q cv _) (ihp ho.1 n (n + 1)).1 (ihq ho.2 cv (norm p n (n + 1)).2.2).1
    exact ⟨this, lin_of_main rfl (plain_of_alt (.ifThen p q)) this⟩
  | softThen p q ihp ihq =>
    intro ho cv n
    have h1 := main_opaque (cv := cv) (Nat.le_refl _) (norm_le p n (n + 1)) (ihp ho.1 n (n + 1)).1
    have h2 := main_conj (Nat.le_trans (Nat.le_succ n) (norm_le p n (n + 1))) (norm_le q cv _) (hno q cv _) h1 (ihq ho.2 cv (norm p n (n + 1)).2.2).1
    rw [Bool.false_or] at h2
    have h3 := main_widen (pl' := Plain (.softThen p q)) (S' := sem I (.softThen p q)) (Nat.le_refl _) (Nat.le_refl _) rfl
      (fun h => ⟨⟨(norm_noCut p _ _).mp h.1, h.2.1⟩, h.2.2⟩) h2
    exact ⟨h3, lin_of_main rfl (plain_of_alt (.softThen p q)) h3⟩
  | ite p q r ihp ihq ihr =>
    intro ho cv n
    obtain ⟨mr, lr⟩ := ihr ho.2.2 cv n
    have fr := norm_isFail r cv n
    have ler := norm_le r cv n
    have hv := norm_vars (.ite p q r) cv n
    simp only [norm] at hv ⊢
    by_cases hr : (norm r cv n).1.isFail = true
    · simp only [if_pos hr, fr.2 hr, Bool.false_or]
      generalize (norm r cv n).2.2 = m at ler
      have h1 := main_ifThen ler (norm_le p m (m + 1)) (norm_le q cv _) (ihp ho.1 m (m + 1)).1 (ihq ho.2.1 cv (norm p m (m + 1)).2.2).1
      have h2 := main_widen (pl' := Plain (.ite p q r)) (S' := sem I (.ite p q r)) (Nat.le_refl _) (Nat.le_refl _) (by
        funext s
        simp only [sem, fails_sem I r (fr.1.mp hr)]
        generalize sem I p s = x
        obtain ⟨l, e⟩ := x
        cases l <;> cases e <;> rfl) (fun h => h.1) h1
      exact ⟨h2, lin_of_main rfl (plain_of_alt (.ite p q r)) h2⟩
    · simp only [if_neg hr] at hv ⊢
      have hrf : ¬ Fails r := fun h => hr (fr.1.mpr h)
      generalize hm : (norm r cv n).2.2 = m at *
      have h1 := main_opaque (cv := m) (Nat.le_refl _) (norm_le p (m + 1) (m + 2)) (ihp ho.1 (m + 1) (m + 2)).1
      have h2 := lin_ite (pl := Plain (.ite p q r)) (plA := PlainAlt (.ite p q r)) ler
        (Nat.le_trans (Nat.le_succ _) (norm_le p (m + 1) (m + 2))) (norm_le q cv _) (·.1) (·.2) (fun h => hrf h.1) h1
        (ihq ho.2.1 cv (norm p (m + 1) (m + 2)).2.2).1 lr (fun s => opaque_ne _)
      have h3 := lin_widen (pl' := Plain (.ite p q r)) (plA' := PlainAlt (.ite p q r)) (S' := sem I (.ite p q r)) (Nat.le_refl _) (Nat.le_refl _) (by
        funext s
        simp only [sem]
        generalize sem I p s = x
        obtain ⟨l, e⟩ := x
        cases l <;> cases e <;> rfl) id id h2
      exact ⟨main_of_lin hv h3, h3⟩
  | softIte p q r ihp ihq ihr =>
    intro ho cv n
    obtain ⟨mr, lr⟩ := ihr ho.2.2 cv n
    have fr := norm_isFail r cv n
    have ler := norm_le r cv n
    have hv := norm_vars (.softIte p q r) cv n
    simp only [norm] at hv ⊢
    by_cases hr : (norm r cv n).1.isFail = true
    · simp only [if_pos hr, fr.2 hr, Bool.false_or]
      generalize (norm r cv n).2.2 = m at ler
      have h1 := main_opaque (cv := cv) ler (norm_le p m (m + 1)) (ihp ho.1.1 m (m + 1)).1
      have h2 := main_conj (Nat.le_trans ler (Nat.le_trans (Nat.le_succ m) (norm_le p m (m + 1)))) (norm_le q cv _) (hno q cv _) h1
        (ihq ho.2.1 cv (norm p m (m + 1)).2.2).1
      rw [Bool.false_or] at h2
      have h3 := main_widen (pl' := Plain (.softIte p q r)) (S' := sem I (.softIte p q r)) (Nat.le_refl _) (Nat.le_refl _) (by
        funext s
        simp only [sem, fails_sem I r (fr.1.mp hr)]
        generalize sem I p s = x
        obtain ⟨l, e⟩ := x
        cases l <;> cases e <;> rfl)
        (fun h => ⟨⟨(norm_noCut p _ _).mp ho.1.2.1, ho.1.2.2⟩, h.1⟩) h2
      exact ⟨h3, lin_of_main rfl (plain_of_alt (.softIte p q r)) h3⟩
    · simp only [if_neg hr] at hv ⊢
      generalize hm : (norm r cv n).2.2 = m at *
      have h1 := main_opaque (cv := m) (Nat.le_refl _) (norm_le p (m + 1) (m + 2)) (ihp ho.1.1 (m + 1) (m + 2)).1
      have h2 := lin_softIte (pl := Plain (.softIte p q r)) (plA := PlainAlt (.softIte p q r)) ler
        (Nat.le_trans (Nat.le_succ _) (norm_le p (m + 1) (m + 2))) (norm_le q cv _) ⟨(norm_noCut p _ _).mp ho.1.2.1, ho.1.2.2⟩
        (fun h => h.elim (·.1) (·.1)) (·.2) (·.2) (hno q cv _) h1
        (ihq ho.2.1 cv (norm p (m + 1) (m + 2)).2.2).1 lr (fun s => opaque_ne _)
      have h3 := lin_widen (pl' := Plain (.softIte p q r)) (plA' := PlainAlt (.softIte p q r)) (S' := sem I (.softIte p q r)) (Nat.le_refl _) (Nat.le_refl _) (by
        funext s
        simp only [sem]
        generalize sem I p s = x
        obtain ⟨l, e⟩ := x
        cases l <;> cases e <;> rfl) id id h2
      exact ⟨main_of_lin hv h3, h3⟩

/-! ## A predicate -/

/-- The answers of a clause, then those of the next clauses. -/
def out (l : List σ) : End → List σ × Bool → List σ × Bool
  | .fail, o => (l ++ o.1, o.2)
  | .cut, _ => (l, false)
  | .err, _ => (l, true)

theorem runF_nil : RunF I ([] : List (Cp α σ)) ([], false) := by
  intro m hm
  have h0 : m.b = 0 := hm
  exact Run.stop (by rw [step, backtrack, if_pos h0])

theorem cutL_zero {b : List (Cp α σ)} (hs : Sorted b) : cutL 0 b = [] := by
  cases b with
  | nil => rfl
  | cons c b =>
    have h := curB_cutL (L := 0) hs (.inl rfl)
    generalize hc : cutL 0 (c :: b) = x at h
    cases x with
    | nil => rfl
    | cons d x =>
      have h1 : Sorted (d :: x) := by rw [← hc]; exact sorted_cutL hs
      have := (h1.le d List.mem_cons_self).2
      simp only [curB] at h
      omega

theorem sat_answers {b : List (Cp α σ)} {K : Nat} {o2 : List σ × Bool} (hs : Sorted b) (h : RunF I b o2) (e : End) : ∀ l : List σ,
    Sat I (fun c => c = b) K (some 0) (fun s b o => RunC I s [] b o) l e b (out l e o2) := by
  intro l
  induction l with
  | nil =>
    cases e with
    | fail => exact h
    | cut => show RunF I (cutL 0 b) _; rw [cutL_zero hs]; exact runF_nil
    | err => rfl
  | cons s l ih =>
    intro ds g hg h1 h2 h3 m hm
    have hr := h3 b rfl _ ih m hm
    cases e <;> exact Run.answer (by rw [step]) hr

theorem clause_run {g : Goal α} (hg : Ok g) {s : σ} {adr : Nat} {env : Nat → Option Nat} (henv : ∀ v, env v = none) {b : List (Cp α σ)} {o2 : List σ × Bool}
    (hs : Sorted b) (h : RunF I b o2) :
    RunC I s [⟨[clause g], env, 0, adr⟩] b (out (sem I g s).1 (sem I g s).2 o2) := by
  have hm := (main_all I g hg 0 1).1
  have key : ∀ env' : Nat → Option Nat, (∀ v, 1 ≤ v → env' v = none) → ((norm g 0 1).2.1 = true → env' 0 = some 0) → ∀ rest : List Nat,
      ((norm g 0 1).2.1 = true → 0 ∈ rest) →
      RunC I s [⟨[alts (norm g 0 1).1 rest], env', 0, adr⟩] b (out (sem I g s).1 (sem I g s).2 o2) := by
    intro env' he h0 rest hr
    refine hm rest env' 0 adr [] [] (fun c => c = b) (some 0) b s _ (by omega) hr (fun v hv _ => he v hv) (fun h => ⟨by simp, h0 h⟩)
      (fun c hc => by rw [hc]; exact ⟨.inl rfl, hs⟩) (.inr ⟨curB b, fun c hc => by rw [hc]⟩) rfl ?_
    exact Sat.mono (fun s b o h env' _ => runC_pop h) _ _ _ _ (sat_answers hs h _ _)
  unfold clause
  have hk := norm_vars g 0 1
  generalize hx : norm g 0 1 = x at key hk ⊢
  obtain ⟨t, hc, n'⟩ := x
  cases hc with
  | false => simp only [withLevel]; exact key env (fun v _ => henv v) (fun h => by cases h) [] (fun h => by cases h)
  | true =>
    simp only [withLevel, if_true, alts]
    refine runC_conj (runC_getLevel (henv 0) ?_)
    exact key _ (fun v hv => by rw [setVar_ne (by omega)]; exact henv v) (fun _ => setVar_self _ _ _) _ (fun _ => by simp [Norm.vars])

theorem semPred_cons (g : Goal α) (gs : List (Goal α)) (s : σ) : semPred I (g :: gs) s = out (sem I g s).1 (sem I g s).2 (semPred I gs s) := by
  rw [semPred]
  generalize sem I g s = x
  obtain ⟨l, e⟩ := x
  cases e <;> rfl

theorem pred_run {s : σ} {A : Nat} (hA : 0 < A) {env : Nat → Option Nat} (henv : ∀ v, env v = none) : ∀ gs : List (Goal α), (∀ g ∈ gs, Ok g) →
    RunSel I A (gs.map clause) env 0 s [] [] (semPred I gs s) := by
  intro gs
  induction gs with
  | nil => intro _; exact runF_nil
  | cons g gs ih =>
    intro hg
    have ih := ih fun g hm => hg g (List.mem_cons_of_mem _ hm)
    rw [semPred_cons]
    cases gs with
    | nil => exact clause_run (hg g List.mem_cons_self) henv trivial runF_nil
    | cons g2 gs => exact clause_run (hg g List.mem_cons_self) henv ⟨hA, trivial⟩ (runF_sel ih)

theorem query_run {gs : List (Goal α)} (hg : ∀ g ∈ gs, Ok g) (s : σ) : Run I (query gs s) (semPred I gs s).1 (semPred I gs s).2 := by
  have h : RunC I s [⟨[.aux [] (gs.map clause)], fun _ => none, 0, 0⟩] [] (semPred I gs s) :=
    runC_aux (pred_run (Nat.succ_pos _) (fun v => by simp [restrict]) gs hg)
  exact h ⟨fun _ => none, 0⟩ rfl

theorem run_unique {c : Cfg α σ} {l : List σ} {e : Bool} (h : Run I c l e) : ∀ {l' : List σ} {e' : Bool}, Run I c l' e' → l = l' ∧ e = e' := by
  induction h with
  | go h1 _ ih => intro l' e' h'; exact ih (run_inv h1 h')
  | answer h1 _ ih =>
    intro l' e' h'
    cases h' with
    | go h2 _ => rw [h1] at h2; cases h2
    | answer h2 h3 => rw [h1] at h2; cases h2; obtain ⟨rfl, rfl⟩ := ih h3; exact ⟨rfl, rfl⟩
    | stop h2 => rw [h1] at h2; cases h2
    | err h2 => rw [h1] at h2; cases h2
  | stop h1 =>
    intro l' e' h'
    cases h' with
    | go h2 _ => rw [h1] at h2; cases h2
    | answer h2 h3 => rw [h1] at h2; cases h2
    | stop h2 => exact ⟨rfl, rfl⟩
    | err h2 => rw [h1] at h2; cases h2
  | err h1 =>
    intro l' e' h'
    cases h' with
    | go h2 _ => rw [h1] at h2; cases h2
    | answer h2 h3 => rw [h1] at h2; cases h2
    | stop h2 => rw [h1] at h2; cases h2
    | err h2 => exact ⟨rfl, rfl⟩

end Gp.Control
