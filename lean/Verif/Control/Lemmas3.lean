import Verif.Control.Lemmas2
/-
The code of a goal gives its answers: the statements, and the cases of the control constructs.
-/
namespace Gp.Control

variable {α σ : Type} {I : α → σ → List σ × AEnd}

def Rigid (W : List (Cp α σ) → Prop) : Prop := ∃ c, ∀ b, W b → curB b = c

/-- The chains are fit for the goal: they end with the same choice point, or the goal accepts others below the environments. -/
def Fit (pl : Prop) (K : Nat) (W : List (Cp α σ) → Prop) : Prop := (pl ∧ ∀ b, W b → curB b ≤ K) ∨ Rigid W

theorem Fit.mono {pl pl' : Prop} {K K' : Nat} {W : List (Cp α σ) → Prop} (h : Fit pl K W) (hp : pl → pl') (hK : K ≤ K') : Fit pl' K' W := by
  rcases h with ⟨h1, h2⟩ | h
  · exact .inl ⟨hp h1, fun b hb => Nat.le_trans (h2 b hb) hK⟩
  · exact .inr h

theorem Fit.le {pl : Prop} {K : Nat} {W : List (Cp α σ) → Prop} (h : Fit pl K W) {b b' : List (Cp α σ)} (hb : W b) (hb' : W b') :
    curB b' ≤ max (curB b) K := by
  rcases h with ⟨_, h2⟩ | ⟨c, h⟩
  · have := h2 b' hb'; omega
  · have := h b hb; have := h b' hb'; omega

/-- The level is in the chains, which are sorted. -/
def Good (L : Option Nat) (W : List (Cp α σ) → Prop) : Prop := ∀ b, W b → HasLvlO L b ∧ Sorted b

theorem Fit.over {pl pl' : Prop} {K K' : Nat} {L : Option Nat} {e : End} {g : List (Cp α σ) → List (Cp α σ)} {W : List (Cp α σ) → Prop}
    (h : Fit pl K W) (hW : Good L W) (hg : Bot L e g) (hp : pl → pl') (hK : K ≤ K') (ds : List (Cp α σ)) : Fit pl' K' (Over ds g W) := by
  cases ds with
  | cons d ds => exact .inr ⟨d.adr, fun b ⟨_, _, he⟩ => by rw [he]; rfl⟩
  | nil =>
    have hid : g = id → Fit pl' K' (Over [] g W) := by
      rintro rfl
      rcases h with ⟨h1, h2⟩ | ⟨c, h⟩
      · exact .inl ⟨hp h1, fun b ⟨b', hb', he⟩ => by rw [he]; exact Nat.le_trans (h2 b' hb') hK⟩
      · exact .inr ⟨c, fun b ⟨b', hb', he⟩ => by rw [he]; exact h b' hb'⟩
    rcases hg with hg | ⟨_, hg⟩
    · exact hid hg
    · cases L with
      | none => exact hid hg
      | some L =>
        subst hg
        exact .inr ⟨L, fun b ⟨b', hb', he⟩ => by rw [he]; exact curB_cutL (hW b' hb').2 (hW b' hb').1⟩

theorem Good.over {L : Option Nat} {e : End} {g : List (Cp α σ) → List (Cp α σ)} {W : List (Cp α σ) → Prop} (hW : Good L W) (hg : Bot L e g)
    {ds : List (Cp α σ)} (hs : ∀ b, W b → Sorted (ds ++ g b)) : Good L (Over ds g W) := by
  rintro c ⟨b, hb, rfl⟩
  exact ⟨hasLvlO_over ds hg (hW b hb).1, hs b hb⟩

/-- The code of `t` run before `code`. -/
def MainP (I : α → σ → List σ × AEnd) (t : Norm α) (hc : Bool) (cv n n' : Nat) (S : σ → List σ × End) (pl : Prop) : Prop :=
  ∀ (rest : List Nat) (env : Nat → Option Nat) (lvl adr : Nat) (code : List (Code α)) (k : List (Frame α)) (W : List (Cp α σ) → Prop)
    (L : Option Nat) (b : List (Cp α σ)) (s : σ) (o : List σ × Bool),
    cv < n → (hc = true → cv ∈ rest) → (∀ v, n ≤ v → v < n' → env v = none) → (hc = true → L ≠ none ∧ env cv = L) →
    Good L W → Fit pl (envTop (⟨code, env, lvl, adr⟩ :: k)) W → W b →
    Sat I W (envTop (⟨code, env, lvl, adr⟩ :: k)) L
      (fun s' b' o' => ∀ env', (∀ v, v < n ∨ n' ≤ v → env' v = env v) → RunC I s' (⟨code, env', lvl, adr⟩ :: k) b' o') (S s).1 (S s).2 b o →
    RunC I s (⟨alts t rest :: code, env, lvl, adr⟩ :: k) b o

/-- The clauses of an auxiliary predicate for `t`. -/
def LinP (I : α → σ → List σ × AEnd) (t : Norm α) (hc : Bool) (cv n n' : Nat) (S : σ → List σ × End) (pl plA : Prop) : Prop :=
  ∀ (vs : List Nat) (env : Nat → Option Nat) (lvl : Nat) (k : List (Frame α)) (W : List (Cp α σ) → Prop)
    (L : Option Nat) (A : Nat) (b : List (Cp α σ)) (s : σ) (o : List σ × Bool),
    cv < n → (hc = true → cv ∈ vs) → (∀ v, n ≤ v → v < n' → env v = none) → (hc = true → L ≠ none ∧ env cv = L) →
    Good L W →
    ((∀ b, W b → curB b = lvl) ∨ (∀ b, W b → curB b ≤ envTop k) ∧ (pl ∧ curB b = lvl ∨ plA)) → W b →
    envTop k < A → curB b < A →
    Sat I W (envTop k) L (fun s' b' o' => RunC I s' k b' o') (S s).1 (S s).2 b o →
    RunSel I A (linearize t vs) env lvl s k b o

def Norm.isDisj : Norm α → Bool
  | .disj _ _ => true
  | _ => false

theorem lin_of_main {t : Norm α} {hc : Bool} {cv n n' : Nat} {S : σ → List σ × End} {pl plA : Prop} (ht : t.isDisj = false) (hp : plA → pl)
    (h : MainP I t hc cv n n' S pl) : LinP I t hc cv n n' S pl plA := by
  intro vs env lvl k W L A b s o h1 h2 h3 h4 h5 h6 h7 h8 h9 h11
  have hl : linearize t vs = [alts t vs] := by
    cases t <;> first | (rw [linearize]; intro p q h; cases h) | cases ht
  rw [hl]
  refine h vs env lvl (max (curB b) (envTop k)) [] k W L b s o h1 h2 h3 h4 h5 ?_ h7 ?_
  · rcases h6 with h6 | ⟨h6, h6'⟩
    · exact .inr ⟨_, h6⟩
    · exact .inl ⟨h6'.elim (·.1) hp, h6⟩
  · exact Sat.mono (fun s b o h env' _ => runC_pop h) _ _ _ _ h11

theorem main_of_lin {p q : Norm α} {hc : Bool} {cv n n' : Nat} {S : σ → List σ × End} {pl plA : Prop}
    (hv : hc = true → cv ∈ (Norm.disj p q).vars) (h : LinP I (.disj p q) hc cv n n' S pl plA) : MainP I (.disj p q) hc cv n n' S pl := by
  intro rest env lvl adr code k W L b s o h1 h2 h3 h4 h5 h6 h7 h8 m hm
  rw [alts]
  refine runC_aux ?_ m hm
  generalize hvs : (p.vars ++ q.vars).filter (fun v => rest.contains v) = vs
  have hlin : alts p vs :: linearize q vs = linearize (.disj p q) vs := by rw [linearize]
  rw [hlin]
  have hin : hc = true → cv ∈ vs := fun hh => by
    rw [← hvs, List.mem_filter]
    exact ⟨hv hh, by simpa using h2 hh⟩
  refine h vs (restrict env vs) (curB b) _ W L _ b s o h1 hin ?_ ?_ h5 ?_ h7 ?_ ?_ ?_
  · intro v hv1 hv2
    simp only [restrict]
    split
    · exact h3 v hv1 hv2
    · rfl
  · intro hh
    simp only [restrict]
    rw [if_pos (by simpa using hin hh)]
    exact h4 hh
  · rcases h6 with ⟨h6, h6'⟩ | ⟨c, h6⟩
    · exact .inr ⟨by rw [envTop_push]; exact h6', .inl ⟨h6, rfl⟩⟩
    · exact .inl fun b' hb' => by rw [h6 b' hb', h6 b h7]
  · rw [envTop_push]; omega
  · omega
  · rw [envTop_push]
    exact Sat.mono (fun s b o h => runC_push (h env fun _ _ => rfl)) _ _ _ _ h8

theorem envTop_cons {c : Code α} {code : List (Code α)} {env env' : Nat → Option Nat} {lvl adr : Nat} {k : List (Frame α)} :
    envTop (⟨code, env, lvl, adr⟩ :: k) ≤ envTop (⟨c :: code, env', lvl, adr⟩ :: k) := by
  simp only [envTop]
  split <;> omega

theorem andThen_end {f : σ → List σ × End} {e : End} (he : e ≠ .fail) : ∀ l : List σ, (andThen f e l).2 ≠ .fail
  | [] => he
  | s :: l => by
    have := andThen_end (f := f) he l
    rw [andThen]
    generalize f s = r
    obtain ⟨l1, e1⟩ := r
    cases e1 with
    | fail => exact this
    | cut => simp
    | err => simp

/-- The answers of a goal `q` on the first answer of another goal. -/
theorem Sat.bind {W : List (Cp α σ) → Prop} {K : Nat} {L : Option Nat} {κ : σ → List (Cp α σ) → List σ × Bool → Prop} {ds : List (Cp α σ)}
    {g : List (Cp α σ) → List (Cp α σ)} {f : σ → List σ × End}
    {e : End} {s : σ} {l : List σ} (hK : ∀ d ∈ ds, K < d.adr) (hg : Bot L e g) (hW : Good L W) (hs : ∀ b, W b → Sorted (ds ++ g b))
    (hcut : (f s).2 = .cut → L ≠ none)
    (hd : ∀ b, W b → ∀ o, Sat I W K L κ (andThen f e l).1 (andThen f e l).2 b o → RunF I (ds ++ g b) o)
    {b : List (Cp α σ)} {o : List σ × Bool} (hb : W b)
    (h : Sat I W K L κ (andThen f e (s :: l)).1 (andThen f e (s :: l)).2 b o) :
    Sat I (Over ds g W) K L κ (f s).1 (f s).2 (ds ++ g b) o := by
  generalize hf : f s = r at hcut ⊢
  obtain ⟨l1, e1⟩ := r
  simp only [andThen, hf] at h
  cases e1 with
  | fail => exact Sat.over hK (hg.mono fun he => andThen_end he l) hd l1 b o hb h
  | cut => exact Sat.overEnd hK (by simp) (hg.mono fun _ => by simp) hcut (fun b hb => (hW b hb).1) hs l1 b o hb h
  | err => exact Sat.overEnd hK (by simp) (hg.mono fun _ => by simp) hcut (fun b hb => (hW b hb).1) hs l1 b o hb h

theorem main_conj {p q : Norm α} {hP hQ : Bool} {cv n n1 n' : Nat} {SP SQ : σ → List σ × End} {plP plQ : Prop} (hn : n ≤ n1) (hn' : n1 ≤ n')
    (hcut : hQ = false → ∀ s, (SQ s).2 ≠ .cut) (mP : MainP I p hP cv n n1 SP plP) (mQ : MainP I q hQ cv n1 n' SQ plQ) :
    MainP I (.conj p q) (hP || hQ) cv n n' (fun s => andThen SQ (SP s).2 (SP s).1) (plP ∧ plQ) := by
  intro rest env lvl adr code k W L b s o h1 h2 h3 h4 h5 h6 h7 h8
  rw [alts]
  refine runC_conj (mP _ env lvl adr _ k W L b s o h1 (fun h => List.mem_append_left _ (h2 (by simp [h]))) (fun v hv hv' => h3 v hv (by omega))
    (fun h => h4 (by simp [h])) h5 (h6.mono (·.1) envTop_cons) h7 ?_)
  simp only at h8
  generalize (SP s).2 = e at h8 ⊢
  revert h8
  have : ∀ (l : List σ) (b : List (Cp α σ)) (o : List σ × Bool), W b → Sat I W (envTop (⟨code, env, lvl, adr⟩ :: k)) L
      (fun s' b' o' => ∀ env', (∀ v, v < n ∨ n' ≤ v → env' v = env v) → RunC I s' (⟨code, env', lvl, adr⟩ :: k) b' o') (andThen SQ e l).1 (andThen SQ e l).2 b o →
      Sat I W (envTop (⟨alts q (rest ++ p.vars) :: code, env, lvl, adr⟩ :: k)) L
      (fun s' b' o' => ∀ env', (∀ v, v < n ∨ n1 ≤ v → env' v = env v) → RunC I s' (⟨alts q (rest ++ p.vars) :: code, env', lvl, adr⟩ :: k) b' o') l e b o := by
    intro l
    induction l with
    | nil =>
      intro b o _ h
      cases e <;> exact h
    | cons s1 l ih =>
      intro b o hb h ds g hg hs hK hreal env' henv'
      refine mQ _ env' lvl adr code k (Over ds g W) L (ds ++ g b) s1 o (by omega) (fun h => List.mem_append_left _ (h2 (by simp [h]))) ?_ ?_ (h5.over hg hs)
        (h6.over h5 hg (·.2) (Nat.le_refl _) ds) ⟨b, hb, rfl⟩ ?_
      · intro v hv hv'
        rw [henv' v (.inr hv)]; exact h3 v (by omega) hv'
      · intro h
        rw [henv' cv (.inl h1)]; exact h4 (by simp [h])
      · refine Sat.mono ?_ _ _ _ _ (Sat.bind (fun d hd => Nat.lt_of_le_of_lt envTop_cons (hK d hd)) hg h5 hs ?_
          (fun b' hb' o' ho' => hreal b' hb' o' (ih b' o' hb' ho')) hb h)
        · intro s' b' o' hh env2 henv2
          refine hh env2 fun v hv => ?_
          rw [henv2 v (by omega), henv' v (by omega)]
        · intro hc
          cases hq : hQ with
          | false => exact absurd hc (hcut hq s1)
          | true => exact (h4 (by simp [hq])).1
  exact this _ b o h7

theorem setVar_self (env : Nat → Option Nat) (v l : Nat) : setVar env v l v = some l := by simp [setVar]

theorem setVar_ne {env : Nat → Option Nat} {v l u : Nat} (h : u ≠ v) : setVar env v l u = env u := by simp [setVar, h]

/-- `->` without an else. -/
theorem main_ifThen {p q : Norm α} {hP hQ : Bool} {cv n m n1 n' : Nat} {SP SQ : σ → List σ × End} {plP plQ : Prop} (hn : n ≤ m) (hm : m + 1 ≤ n1)
    (hn' : n1 ≤ n') (mP : MainP I p hP m (m + 1) n1 SP plP) (mQ : MainP I q hQ cv n1 n' SQ plQ) :
    MainP I (.conj (.getChoice m) (.conj p (.conj (.cutTo m) q))) hQ cv n n'
      (fun s => match SP s with
        | (s1 :: _, _) => SQ s1
        | ([], e) => ([], e.opaque)) plQ := by
  intro rest env lvl adr code k W L b s o h1 h2 h3 h4 h5 h6 h7 h8
  simp only [alts]
  refine runC_conj (runC_getChoice (h3 m hn (by omega)) (runC_conj ?_))
  refine mP _ (setVar env m (curB b)) lvl adr _ k (fun c => c = b) (some (curB b)) b s o (by omega) (fun _ => by simp [Norm.vars]) ?_ (fun _ => ⟨by simp, setVar_self _ _ _⟩)
    (fun c hc => by rw [hc]; exact ⟨hasLvl_curB b, (h5 b h7).2⟩) (.inr ⟨curB b, fun c hc => by rw [hc]⟩) rfl ?_
  · intro v hv hv'
    rw [setVar_ne (by omega)]; exact h3 v (by omega) (by omega)
  simp only at h8
  generalize SP s = r at h8 ⊢
  obtain ⟨l, e⟩ := r
  match l, e, h8 with
  | [], .fail, h8 => exact h8
  | [], .cut, h8 =>
    show RunF I (cutL (curB b) b) o
    rw [cutL_curB]; exact h8
  | [], .err, h8 => exact h8
  | s1 :: l, e, h8 =>
    intro ds g hg hs hK _ env' henv'
    have hev : env' m = some (curB b) := by rw [henv' m (.inl (by omega)), setVar_self]
    have hgb : g b = b := by
      rcases hg with rfl | ⟨_, rfl⟩
      · rfl
      · exact cutL_curB
    have hs := hs b rfl
    rw [hgb] at hs ⊢
    refine runC_conj (runC_cutTo hev (hasLvl_append _ (hasLvl_curB b)) ?_)
    rw [cutL_append hs (hasLvl_curB b), cutL_curB]
    refine mQ _ env' lvl adr code k W L b s1 o (by omega) (fun h => by simp [h2 h]) ?_ ?_ h5 h6 h7 ?_
    · intro v hv hv'
      rw [henv' v (.inr hv), setVar_ne (by omega)]; exact h3 v (by omega) hv'
    · intro h
      rw [henv' cv (.inl (by omega)), setVar_ne (by omega)]; exact h4 h
    · refine Sat.mono ?_ _ _ _ _ h8
      intro s' b' o' hh env2 henv2
      refine hh env2 fun v hv => ?_
      rw [henv2 v (by omega), henv' v (by omega), setVar_ne (by omega)]

theorem Sat.opq {W : List (Cp α σ) → Prop} {K : Nat} {L L' : Option Nat} {κ : σ → List (Cp α σ) → List σ × Bool → Prop} {e : End}
    (hW : ∀ b, W b → cutO L' b = b) :
    ∀ (l : List σ) (b : List (Cp α σ)) (o : List σ × Bool), W b → Sat I W K L κ l e.opaque b o → Sat I W K L' κ l e b o := by
  intro l
  induction l with
  | nil =>
    intro b o hb h
    cases e with
    | fail => exact h
    | err => exact h
    | cut =>
      show RunF I (cutO L' b) o
      rw [hW b hb]; exact h
  | cons s l ih =>
    intro b o hb h ds g hg h1 h2 h3
    have hgb : ∀ b', W b' → g b' = b' := by
      intro b' hb'
      rcases hg with rfl | ⟨_, rfl⟩
      · rfl
      · exact hW b' hb'
    rw [hgb b hb]
    refine h ds id (.inl rfl) (fun b' hb' => ?_) h2 fun b' hb' o' ho => ?_
    · have := h1 b' hb'; rwa [hgb b' hb'] at this
    · have := h3 b' hb' o' (ih b' o' hb' ho); rwa [hgb b' hb'] at this

/-- A condition, with its own cuts. -/
theorem main_opaque {p : Norm α} {hP : Bool} {cv n m n1 : Nat} {SP : σ → List σ × End} {plP : Prop} (hn : n ≤ m) (hm : m + 1 ≤ n1)
    (mP : MainP I p hP m (m + 1) n1 SP plP) :
    MainP I (withLevel (.getChoice m) (p, hP, n1)) false cv n n1 (fun s => ((SP s).1, (SP s).2.opaque)) (hP = false ∧ plP) := by
  intro rest env lvl adr code k W L b s o h1 h2 h3 h4 h5 h6 h7 h8
  simp only at h8
  cases hP with
  | false =>
    simp only [withLevel]
    refine mP _ env lvl adr code k W none b s o (by omega) (fun h => by cases h) (fun v hv hv' => h3 v (by omega) hv') (fun h => by cases h)
      (fun b hb => ⟨trivial, (h5 b hb).2⟩) (h6.mono (·.2) (Nat.le_refl _)) h7 ?_
    refine Sat.mono ?_ _ _ _ _ (Sat.opq (fun _ _ => rfl) _ b o h7 h8)
    intro s' b' o' hh env2 henv2
    exact hh env2 fun v hv => henv2 v (by omega)
  | true =>
    have hr : Rigid W := h6.elim (fun h => by cases h.1.1) id
    obtain ⟨c, hc⟩ := hr
    simp only [withLevel, if_true, alts]
    refine runC_conj (runC_getChoice (h3 m hn (by omega)) ?_)
    refine mP _ (setVar env m (curB b)) lvl adr code k W (some (curB b)) b s o (by omega) (fun _ => by simp [Norm.vars]) ?_ (fun _ => ⟨by simp, setVar_self _ _ _⟩)
      (fun b' hb' => ⟨?_, (h5 b' hb').2⟩) (.inr ⟨c, hc⟩) h7 ?_
    · intro v hv hv'
      rw [setVar_ne (by omega)]; exact h3 v (by omega) (by omega)
    · show HasLvl (curB b) b'; rw [hc b h7, ← hc b' hb']; exact hasLvl_curB b'
    · refine Sat.mono ?_ _ _ _ _ (Sat.opq (L' := some (curB b)) (fun b' hb' => by rw [hc b h7, ← hc b' hb']; exact cutL_curB) _ b o h7 h8)
      intro s' b' o' hh env2 henv2
      refine hh env2 fun v hv => ?_
      rw [henv2 v (by omega), setVar_ne (by omega)]

end Gp.Control
