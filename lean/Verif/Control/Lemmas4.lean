import Verif.Control.Lemmas3
/-
The auxiliary predicates of `;`, `(P -> Q ; R)` and `(P *-> Q ; R)`.
-/
namespace Gp.Control

variable {α σ : Type} {I : α → σ → List σ × AEnd}

theorem linearize_ne (t : Norm α) (vs : List Nat) : ∃ c cs, linearize t vs = c :: cs := by
  cases t <;> exact ⟨_, _, by rw [linearize]; (try (intro p q h; cases h))⟩

theorem runSel_cons {A : Nat} {c : Code α} {t : Norm α} {vs : List Nat} {env : Nat → Option Nat} {lvl : Nat} {s : σ} {k : List (Frame α)}
    {cs : List (Cp α σ)} {o : List σ × Bool}
    (h : RunC I s (⟨[c], env, lvl, max A (envTop k)⟩ :: k) (⟨A, .clauses (linearize t vs) env lvl s k⟩ :: cs) o) :
    RunSel I A (c :: linearize t vs) env lvl s k cs o := by
  obtain ⟨d, ds, hd⟩ := linearize_ne t vs
  rw [hd] at h ⊢
  exact h

theorem lin_disj {p q : Norm α} {hP hQ : Bool} {cv n n1 n' : Nat} {SP SQ : σ → List σ × End} {plP plQ plAQ pl plA : Prop} (hn : n ≤ n1) (hn' : n1 ≤ n')
    (hcut : hP = false → ∀ s, (SP s).2 ≠ .cut) (hp : pl → plAQ) (hpA : plA → plAQ)
    (mP : MainP I p hP cv n n1 SP plP) (mQ : LinP I q hQ cv n1 n' SQ plQ plAQ) :
    LinP I (.disj p q) (hP || hQ) cv n n' (fun s => orElse (SP s) (SQ s)) pl plA := by
  intro vs env lvl k W L A b s o h1 h2 h3 h4 h5 h6 h7 h8 h9 h11
  rw [linearize]
  refine runSel_cons ?_
  generalize hA : (⟨A, .clauses (linearize q vs) env lvl s k⟩ : Cp α σ) = a
  have ha : a.adr = A := by rw [← hA]
  have hWA : ∀ b', W b' → curB b' < A := by
    intro b' hb'
    rcases h6 with h6 | ⟨h6, _⟩
    · rw [h6 b' hb', ← h6 b h7]; exact h9
    · exact Nat.lt_of_le_of_lt (h6 b' hb') h8
  have hs : ∀ b', W b' → Sorted ([a] ++ id b') := fun b' hb' => ⟨by rw [ha]; exact hWA b' hb', (h5 b' hb').2⟩
  have hB : ∀ e, Bot L e (id : List (Cp α σ) → List (Cp α σ)) := fun _ => .inl rfl
  refine mP vs env lvl _ [] k (Over [a] id W) L (a :: b) s o h1 (fun h => h2 (by simp [h])) (fun v hv hv' => h3 v hv (by omega)) (fun h => h4 (by simp [h]))
    (h5.over (hB .fail) hs) (.inr ⟨a.adr, fun c ⟨_, _, hc⟩ => by rw [hc]; rfl⟩) ⟨b, h7, rfl⟩ ?_
  have hK : ∀ d ∈ [a], envTop k < d.adr := fun d hd => by rw [List.mem_singleton] at hd; rw [hd, ha]; exact h8
  have hd : ∀ b', W b' → ∀ o', Sat I W (envTop k) L (fun s' b' o' => RunC I s' k b' o') (SQ s).1 (SQ s).2 b' o' → RunF I ([a] ++ id b') o' := by
    intro b' hb' o' ho'
    subst hA
    refine runF_sel (mQ vs env lvl k W L A b' s o' (by omega) (fun h => h2 (by simp [h])) (fun v hv hv' => h3 v (by omega) hv') (fun h => h4 (by simp [h]))
      h5 ?_ hb' h8 (hWA b' hb') ho')
    rcases h6 with h6 | ⟨h6, h6'⟩
    · exact .inl h6
    · exact .inr ⟨h6, .inr (h6'.elim (fun h => hp h.1) hpA)⟩
  refine Sat.mono (κ := fun s' b' o' => RunC I s' k b' o') (fun s b o h env' _ => runC_pop h) _ _ _ _ ?_
  show Sat I (Over [a] id W) (envTop k) L _ (SP s).1 (SP s).2 ([a] ++ id b) o
  simp only at h11
  generalize hr : SP s = r at h11 ⊢
  obtain ⟨l, e⟩ := r
  cases e with
  | fail => exact Sat.over hK (hB _) hd l b o h7 h11
  | err => exact Sat.overEnd hK (by simp) (hB _) (fun h => by cases h) (fun b hb => (h5 b hb).1) hs l b o h7 h11
  | cut =>
    refine Sat.overEnd hK (by simp) (hB _) (fun _ => ?_) (fun b hb => (h5 b hb).1) hs l b o h7 h11
    cases hq : hP with
    | false => exact absurd (by rw [hr]) (hcut hq s)
    | true => exact (h4 (by simp [hq])).1

theorem lin_ite {p q r : Norm α} {hQ hR : Bool} {cv n m n1 n' : Nat} {SP SQ SR : σ → List σ × End} {plP plQ plR plAR pl plA : Prop} (hn : n ≤ m)
    (hm : m + 1 ≤ n1) (hn' : n1 ≤ n') (hpQ : pl → plQ) (hpR : pl → plR) (hpA : ¬ plA)
    (mP : MainP I p false m (m + 1) n1 SP plP) (mQ : MainP I q hQ cv n1 n' SQ plQ) (mR : LinP I r hR cv n m SR plR plAR) (hcut : ∀ s, (SP s).2 ≠ .cut) :
    LinP I (.disj (.conj (.getLevel m) (.conj p (.conj (.cutTo m) q))) r) (hR || hQ) cv n n'
      (fun s => match SP s with
        | (s1 :: _, _) => SQ s1
        | ([], .err) => ([], .err)
        | ([], _) => SR s) pl plA := by
  intro vs env lvl k W L A b s o h1 h2 h3 h4 h5 h6 h7 h8 h9 h11
  have hlvl : curB b = lvl := by
    rcases h6 with h6 | ⟨_, h6 | h6⟩
    · exact h6 b h7
    · exact h6.2
    · exact absurd h6 hpA
  rw [linearize]
  refine runSel_cons ?_
  have hF : Sat I W (envTop k) L (fun s' b' o' => RunC I s' k b' o') (SR s).1 (SR s).2 b o →
      RunF I (⟨A, .clauses (linearize r vs) env lvl s k⟩ :: b) o := by
    intro ho
    refine runF_sel (mR vs env lvl k W L A b s o h1 (fun h => h2 (by simp [h])) (fun v hv hv' => h3 v hv (by omega)) (fun h => h4 (by simp [h]))
      h5 ?_ h7 h8 h9 ho)
    rcases h6 with h6 | ⟨h6, h6'⟩
    · exact .inl h6
    · exact .inr ⟨h6, .inl (h6'.elim (fun h => ⟨hpR h.1, h.2⟩) (absurd · hpA))⟩
  generalize hA : (⟨A, .clauses (linearize r vs) env lvl s k⟩ : Cp α σ) = a at hF
  have ha : a.adr = A := by rw [← hA]
  simp only [alts]
  refine runC_conj (runC_getLevel (h3 m hn (by omega)) (runC_conj ?_))
  refine mP _ (setVar env m lvl) lvl _ _ k (fun c => c = a :: b) none (a :: b) s o (by omega) (fun h => by cases h) ?_ (fun h => by cases h)
    (fun c hc => by rw [hc]; exact ⟨trivial, by rw [ha]; exact h9, (h5 b h7).2⟩) (.inr ⟨A, fun c hc => by rw [hc]; exact ha⟩) rfl ?_
  · intro v hv hv'
    rw [setVar_ne (by omega)]; exact h3 v (by omega) (by omega)
  simp only at h11
  have hcs := hcut s
  generalize SP s = x at h11 hcs ⊢
  obtain ⟨l, e⟩ := x
  match l, e, h11, hcs with
  | [], .fail, h11, _ => exact hF h11
  | [], .cut, _, hcs => exact absurd rfl hcs
  | [], .err, h11, _ => exact h11
  | s1 :: l, e, h11, _ =>
    intro ds g hg hs hK _ env' henv'
    have hg : g = id := hg.elim id (·.2)
    subst hg
    have hs := hs _ rfl
    have hev : env' m = some lvl := by rw [henv' m (.inl (by omega)), setVar_self]
    have hl : HasLvl lvl b := by rw [← hlvl]; exact hasLvl_curB b
    have happ : ds ++ a :: b = (ds ++ [a]) ++ b := by simp
    simp only [id_eq] at hs ⊢
    refine runC_conj (runC_cutTo hev (by rw [happ]; exact hasLvl_append _ hl) ?_)
    rw [happ, cutL_append (by rw [← happ]; exact hs) hl, ← hlvl, cutL_curB, hlvl]
    refine mQ _ env' lvl _ [] k W L b s1 o (by omega) (fun h => by simp [h2 (by simp [h])]) ?_ ?_ h5 ?_ h7 ?_
    · intro v hv hv'
      rw [henv' v (.inr hv), setVar_ne (by omega)]; exact h3 v (by omega) hv'
    · intro h
      rw [henv' cv (.inl (by omega)), setVar_ne (by omega)]; exact h4 (by simp [h])
    · rcases h6 with h6 | ⟨h6, h6'⟩
      · exact .inr ⟨_, h6⟩
      · exact .inl ⟨h6'.elim (fun h => hpQ h.1) (absurd · hpA), h6⟩
    · exact Sat.mono (fun s b o h env' _ => runC_pop h) _ _ _ _ h11

theorem lin_softIte {p q r : Norm α} {hQ hR : Bool} {cv n m n1 n' : Nat} {SP SQ SR : σ → List σ × End} {plP plQ plR plAR pl plA : Prop} (hn : n ≤ m)
    (hm : m + 1 ≤ n1) (hn' : n1 ≤ n') (hpP : plP) (hpQ : pl ∨ plA → plQ) (hpR : pl → plR) (hpA : plA → plAR)
    (hcutQ : hQ = false → ∀ s, (SQ s).2 ≠ .cut)
    (mP : MainP I p false m (m + 1) n1 SP plP) (mQ : MainP I q hQ cv n1 n' SQ plQ) (mR : LinP I r hR cv n m SR plR plAR) (hcut : ∀ s, (SP s).2 ≠ .cut) :
    LinP I (.disj (.conj (.getChoice m) (.conj p (.conj (.softCut m) q))) r) (hR || hQ) cv n n'
      (fun s => match SP s with
        | (s1 :: l, e) => andThen SQ e (s1 :: l)
        | ([], .err) => ([], .err)
        | ([], _) => SR s) pl plA := by
  intro vs env lvl k W L A b s o h1 h2 h3 h4 h5 h6 h7 h8 h9 h11
  have hWA : ∀ b', W b' → curB b' < A := by
    intro b' hb'
    rcases h6 with h6 | ⟨h6, _⟩
    · rw [h6 b' hb', ← h6 b h7]; exact h9
    · exact Nat.lt_of_le_of_lt (h6 b' hb') h8
  rw [linearize]
  refine runSel_cons ?_
  have hF : Sat I W (envTop k) L (fun s' b' o' => RunC I s' k b' o') (SR s).1 (SR s).2 b o →
      RunF I (⟨A, .clauses (linearize r vs) env lvl s k⟩ :: b) o := by
    intro ho
    refine runF_sel (mR vs env lvl k W L A b s o h1 (fun h => h2 (by simp [h])) (fun v hv hv' => h3 v hv (by omega)) (fun h => h4 (by simp [h]))
      h5 ?_ h7 h8 h9 ho)
    rcases h6 with h6 | ⟨h6, h6'⟩
    · exact .inl h6
    · exact .inr ⟨h6, h6'.elim (fun h => .inl ⟨hpR h.1, h.2⟩) (fun h => .inr (hpA h))⟩
  generalize hA : (⟨A, .clauses (linearize r vs) env lvl s k⟩ : Cp α σ) = a at hF
  have ha : a.adr = A := by rw [← hA]
  simp only [alts]
  refine runC_conj (runC_getChoice (h3 m hn (by omega)) (runC_conj ?_))
  have hcb : curB (a :: b) = A := ha
  rw [hcb]
  refine mP _ (setVar env m A) lvl _ _ k (fun c => c = a :: b ∨ W c) none (a :: b) s o (by omega) (fun h => by cases h) ?_ (fun h => by cases h)
    ?_ (.inl ⟨hpP, ?_⟩) (.inl rfl) ?_
  · intro v hv hv'
    rw [setVar_ne (by omega)]; exact h3 v (by omega) (by omega)
  · intro c hc
    rcases hc with rfl | hc
    · exact ⟨trivial, by rw [ha]; exact h9, (h5 b h7).2⟩
    · exact ⟨trivial, (h5 c hc).2⟩
  · intro c hc
    simp only [envTop]
    rcases hc with rfl | hc
    · show a.adr ≤ _; rw [ha]; omega
    · have := hWA c hc; omega
  -- the goal q after the soft cut
  have hafter : ∀ (ds : List (Cp α σ)) (b' : List (Cp α σ)) (l : List σ) (e : End) (s1 : σ) (o' : List σ × Bool) (env' : Nat → Option Nat) (R : List Nat),
      (hQ = true → cv ∈ R) → W b' → (∀ b', W b' → Sorted (ds ++ b')) → (∀ d ∈ ds, envTop k < d.adr) → (∀ v, v < m + 1 ∨ n1 ≤ v → env' v = setVar env m A v) →
      (∀ b', W b' → ∀ o', Sat I W (envTop k) L (fun s' b' o' => RunC I s' k b' o') (andThen SQ e l).1 (andThen SQ e l).2 b' o' →
        RunF I (ds ++ b') o') →
      Sat I W (envTop k) L (fun s' b' o' => RunC I s' k b' o') (andThen SQ e (s1 :: l)).1 (andThen SQ e (s1 :: l)).2 b' o' →
      RunC I s1 (⟨[alts q R], env', lvl, max A (envTop k)⟩ :: k) (ds ++ b') o' := by
    intro ds b' l e s1 o' env' R hR' hb' hs' hK henv' hreal ho'
    have hB : Bot L e (id : List (Cp α σ) → List (Cp α σ)) := .inl rfl
    refine mQ _ env' lvl _ [] k (Over ds id W) L (ds ++ b') s1 o' (by omega) hR' ?_ ?_ (h5.over hB hs') ?_ ⟨b', hb', rfl⟩ ?_
    · intro v hv hv'
      rw [henv' v (.inr hv), setVar_ne (by omega)]; exact h3 v (by omega) hv'
    · intro h
      rw [henv' cv (.inl (by omega)), setVar_ne (by omega)]; exact h4 (by simp [h])
    · refine Fit.over (pl := plQ) (K := envTop k) ?_ h5 hB id (Nat.le_refl _) ds
      rcases h6 with h6 | ⟨h6, h6'⟩
      · exact .inr ⟨_, h6⟩
      · exact .inl ⟨hpQ (h6'.imp (·.1) id), h6⟩
    · refine Sat.mono (fun s b o h env' _ => runC_pop h) _ _ _ _ (Sat.bind (g := id) hK hB h5 hs' ?_ hreal hb' ho')
      intro hc
      cases hq : hQ with
      | false => exact absurd hc (hcutQ hq s1)
      | true => exact (h4 (by simp [hq])).1
  generalize hKK : envTop (⟨[Code.conj (Code.softCut m) _], setVar env m A, lvl, max A (envTop k)⟩ :: k) = K'
  have hK' : A ≤ K' ∧ envTop k ≤ K' := by rw [← hKK]; simp only [envTop]; omega
  generalize hRR : vs ++ Norm.vars _ ++ Norm.vars _ ++ Norm.vars _ = R
  have hR : hQ = true → cv ∈ R := fun h => by rw [← hRR]; simp [h2 (by simp [h])]
  have hsoft : ∀ (e : End), e ≠ .cut → ∀ (l : List σ) (b' : List (Cp α σ)) (o' : List σ × Bool), W b' →
      Sat I W (envTop k) L (fun s' b' o' => RunC I s' k b' o') (andThen SQ e l).1 (andThen SQ e l).2 b' o' →
      Sat I (fun c => c = a :: b ∨ W c) K' none
        (fun s' b' o' => ∀ env', (∀ v, v < m + 1 ∨ n1 ≤ v → env' v = setVar env m A v) →
          RunC I s' (⟨[Code.conj (Code.softCut m) (alts q R)], env', lvl, max A (envTop k)⟩ :: k) b' o') l e b' o' := by
    intro e he l
    induction l with
    | nil =>
      intro b' o' hb' h
      cases e with
      | fail => exact h
      | err => exact h
      | cut => exact absurd rfl he
    | cons s1 l ih =>
      intro b' o' hb' h ds g hg hs hK hreal env' henv'
      have hg : g = id := hg.elim id (·.2)
      subst hg
      simp only [id_eq] at hs hreal ⊢
      have hev : env' m = some A := by rw [henv' m (.inl (by omega)), setVar_self]
      refine runC_conj (runC_softCut hev (by omega) ?_)
      have hfil : (ds ++ b').filter (fun c => c.adr != A) = ds ++ b' := by
        rw [List.filter_append, filter_lower (h5 b' hb').2 (hWA b' hb')]
        congr 1
        rw [List.filter_eq_self]
        intro d hd
        have := hK d hd
        simp only [bne_iff_ne]; omega
      rw [hfil]
      exact hafter ds b' l e s1 o' env' R hR hb' (fun b' hb' => hs b' (.inr hb')) (fun d hd => Nat.lt_of_le_of_lt hK'.2 (hK d hd)) henv'
        (fun b2 hb2 o2 ho2 => hreal b2 (.inr hb2) o2 (ih b2 o2 hb2 ho2)) h
  simp only at h11
  have hcs := hcut s
  generalize SP s = x at h11 hcs ⊢
  obtain ⟨l, e⟩ := x
  match l, e, h11, hcs with
  | [], .fail, h11, _ => exact hF h11
  | [], .cut, _, hcs => exact absurd rfl hcs
  | [], .err, h11, _ => exact h11
  | s1 :: l, e, h11, hcs =>
    intro ds g hg hs hK hreal env' henv'
    have hg : g = id := hg.elim id (·.2)
    subst hg
    simp only [id_eq] at hs hreal ⊢
    have hev : env' m = some A := by rw [henv' m (.inl (by omega)), setVar_self]
    refine runC_conj (runC_softCut hev (by omega) ?_)
    have hdA : ∀ d ∈ ds, A < d.adr := fun d hd => Nat.lt_of_le_of_lt hK'.1 (hK d hd)
    have hfil : (ds ++ a :: b).filter (fun c => c.adr != A) = ds ++ b := by
      rw [List.filter_append, List.filter_cons_of_neg (by simp [ha]), filter_lower (h5 b h7).2 h9]
      congr 1
      rw [List.filter_eq_self]
      intro d hd
      have := hdA d hd
      simp only [bne_iff_ne]; omega
    rw [hfil]
    exact hafter ds b l e s1 o env' R hR h7 (fun b' hb' => hs b' (.inr hb')) (fun d hd => Nat.lt_of_le_of_lt hK'.2 (hK d hd)) henv'
      (fun b2 hb2 o2 ho2 => hreal b2 (.inr hb2) o2 (hsoft e hcs l b2 o2 hb2 ho2)) h11

end Gp.Control
