import Verif.Control.Lemmas
/-
The answers of a goal on a chain: `Sat` says that the outcome `o` is the one obtained by running the continuation on every
answer, then failing in the chain. The choice points `ds` of the goal are known by what a failure in them gives, whatever
the chain below among those of `W` (which is what a soft cut needs: it removes a choice point below). When the goal ends with
a cut, the chain below may have been cut already: this is the function `g`.
-/
namespace Gp.Control

variable {α σ : Type} {I : α → σ → List σ × AEnd}

/-- The level of the cuts of the goal, if there are any. -/
def cutO (L : Option Nat) (cs : List (Cp α σ)) : List (Cp α σ) :=
  match L with
  | none => cs
  | some L => cutL L cs

def HasLvlO (L : Option Nat) (cs : List (Cp α σ)) : Prop :=
  match L with
  | none => True
  | some L => HasLvl L cs

theorem hasLvlO_append {L : Option Nat} {cs : List (Cp α σ)} (ds : List (Cp α σ)) (h : HasLvlO L cs) : HasLvlO L (ds ++ cs) := by
  cases L with
  | none => trivial
  | some L => exact hasLvl_append ds h

theorem cutO_append {L : Option Nat} {ds cs : List (Cp α σ)} (hs : Sorted (ds ++ cs)) (h : HasLvlO L cs) (hL : L ≠ none) :
    cutO L (ds ++ cs) = cutO L cs := by
  cases L with
  | none => exact absurd rfl hL
  | some L => exact cutL_append hs h

theorem hasLvl_cutL {L : Nat} {cs : List (Cp α σ)} (h : HasLvl L cs) : HasLvl L (cutL L cs) := by
  rcases h with h | ⟨c, hc, rfl⟩
  · exact .inl h
  · refine .inr ⟨c, ?_, rfl⟩
    unfold cutL
    induction cs with
    | nil => cases hc
    | cons d cs ih =>
      rw [List.dropWhile_cons]
      split
      · next hd =>
        rcases List.mem_cons.mp hc with rfl | hc
        · simp at hd
        · exact ih hc
      · exact hc

theorem cutL_cutL (L : Nat) (cs : List (Cp α σ)) : cutL L (cutL L cs) = cutL L cs := by
  unfold cutL
  induction cs with
  | nil => rfl
  | cons d cs ih =>
    rw [List.dropWhile_cons]
    split
    · exact ih
    · next hd => rw [List.dropWhile_cons, if_neg hd]

theorem sorted_cutL {L : Nat} {cs : List (Cp α σ)} (h : Sorted cs) : Sorted (cutL L cs) := by
  unfold cutL
  induction cs with
  | nil => exact h
  | cons d cs ih =>
    rw [List.dropWhile_cons]
    split
    · exact ih h.2
    · exact h

theorem curB_cutL {L : Nat} {cs : List (Cp α σ)} (hs : Sorted cs) (h : HasLvl L cs) : curB (cutL L cs) = L := by
  have h1 := hasLvl_le (sorted_cutL (L := L) hs) (hasLvl_cutL h)
  have h2 : curB (cutL L cs) ≤ L := by
    unfold cutL
    clear h1 h hs
    induction cs with
    | nil => exact Nat.zero_le _
    | cons d cs ih =>
      rw [List.dropWhile_cons]
      split
      · exact ih
      · next hd => simp at hd; exact hd
  omega

def Bot (L : Option Nat) (e : End) (g : List (Cp α σ) → List (Cp α σ)) : Prop := g = id ∨ (e ≠ .fail ∧ g = cutO L)

theorem Bot.mono {L : Option Nat} {e e' : End} {g : List (Cp α σ) → List (Cp α σ)} (h : Bot L e g) (he : e ≠ .fail → e' ≠ .fail) : Bot L e' g :=
  h.imp id fun h => ⟨he h.1, h.2⟩

def Sat (I : α → σ → List σ × AEnd) (W : List (Cp α σ) → Prop) (K : Nat) (L : Option Nat) (κ : σ → List (Cp α σ) → List σ × Bool → Prop) :
    List σ → End → List (Cp α σ) → List σ × Bool → Prop
  | [], .fail, b, o => RunF I b o
  | [], .cut, b, o => RunF I (cutO L b) o
  | [], .err, _, o => o = ([], true)
  | s :: l, e, b, o => ∀ (ds : List (Cp α σ)) (g : List (Cp α σ) → List (Cp α σ)), Bot L e g → (∀ b', W b' → Sorted (ds ++ g b')) → (∀ d ∈ ds, K < d.adr) →
      (∀ b', W b' → ∀ o', Sat I W K L κ l e b' o' → RunF I (ds ++ g b') o') → κ s (ds ++ g b) o

theorem Sat.mono {W : List (Cp α σ) → Prop} {K : Nat} {L : Option Nat} {κ κ' : σ → List (Cp α σ) → List σ × Bool → Prop} (hκ : ∀ s b o, κ s b o → κ' s b o) :
    ∀ (l : List σ) (e : End) (b : List (Cp α σ)) (o : List σ × Bool), Sat I W K L κ l e b o → Sat I W K L κ' l e b o
  | [], .fail, _, _, h => h
  | [], .cut, _, _, h => h
  | [], .err, _, _, h => h
  | _ :: l, e, _, _, h => fun ds g hg h1 h2 h3 => hκ _ _ _ (h ds g hg h1 h2 fun b' hb o' ho => h3 b' hb o' (Sat.mono hκ l e b' o' ho))

/-- The chains above `ds`. -/
def Over (ds : List (Cp α σ)) (g : List (Cp α σ) → List (Cp α σ)) (W : List (Cp α σ) → Prop) (c : List (Cp α σ)) : Prop := ∃ b, W b ∧ c = ds ++ g b

theorem Sat.over {W : List (Cp α σ) → Prop} {K : Nat} {L : Option Nat} {κ : σ → List (Cp α σ) → List σ × Bool → Prop} {ds : List (Cp α σ)}
    {g : List (Cp α σ) → List (Cp α σ)} (hK : ∀ d ∈ ds, K < d.adr) {l2 : List σ} {e2 : End} (hg : Bot L e2 g)
    (hd : ∀ b, W b → ∀ o, Sat I W K L κ l2 e2 b o → RunF I (ds ++ g b) o) :
    ∀ (l : List σ) (b : List (Cp α σ)) (o : List σ × Bool), W b → Sat I W K L κ (l ++ l2) e2 b o →
      Sat I (Over ds g W) K L κ l .fail (ds ++ g b) o := by
  intro l
  induction l with
  | nil => intro b o hb h; exact hd b hb o h
  | cons s l ih =>
    intro b o hb h xs g' hg' h1 h2 h3
    rcases hg' with rfl | ⟨h0, _⟩
    · have := h (xs ++ ds) g hg (fun b' hb' => by rw [List.append_assoc]; exact h1 _ ⟨b', hb', rfl⟩)
        (fun d hd => (List.mem_append.mp hd).elim (h2 d) (hK d)) fun b' hb' o' ho' => by
          rw [List.append_assoc]
          exact h3 (ds ++ g b') ⟨b', hb', rfl⟩ o' (ih b' o' hb' ho')
      rw [List.append_assoc] at this
      exact this
    · exact absurd rfl h0

theorem cutO_over {L : Option Nat} {ds : List (Cp α σ)} {g : List (Cp α σ) → List (Cp α σ)} {b : List (Cp α σ)} {e : End} (hg : Bot L e g) (hL : L ≠ none)
    (hs : Sorted (ds ++ g b)) (h : HasLvlO L b) : cutO L (ds ++ g b) = cutO L b := by
  cases L with
  | none => exact absurd rfl hL
  | some L =>
    rcases hg with rfl | ⟨_, rfl⟩
    · exact cutL_append hs h
    · have hs : Sorted (ds ++ cutL L b) := hs
      show cutL L (ds ++ cutL L b) = cutL L b
      rw [cutL_append hs (hasLvl_cutL h), cutL_cutL]

theorem hasLvlO_over {L : Option Nat} (ds : List (Cp α σ)) {g : List (Cp α σ) → List (Cp α σ)} {b : List (Cp α σ)} {e : End} (hg : Bot L e g)
    (h : HasLvlO L b) : HasLvlO L (ds ++ g b) := by
  cases L with
  | none => trivial
  | some L =>
    refine hasLvl_append ds ?_
    rcases hg with rfl | ⟨_, rfl⟩
    · exact h
    · exact hasLvl_cutL h

theorem Sat.overEnd {W : List (Cp α σ) → Prop} {K : Nat} {L : Option Nat} {κ : σ → List (Cp α σ) → List σ × Bool → Prop} {ds : List (Cp α σ)}
    {g : List (Cp α σ) → List (Cp α σ)} (hK : ∀ d ∈ ds, K < d.adr) {e : End} (he : e ≠ .fail) (hg : Bot L e g) (hLc : e = .cut → L ≠ none)
    (hL : ∀ b, W b → HasLvlO L b) (hs : ∀ b, W b → Sorted (ds ++ g b)) :
    ∀ (l : List σ) (b : List (Cp α σ)) (o : List σ × Bool), W b → Sat I W K L κ l e b o →
      Sat I (Over ds g W) K L κ l e (ds ++ g b) o := by
  intro l
  induction l with
  | nil =>
    intro b o hb h
    cases e with
    | fail => exact absurd rfl he
    | err => exact h
    | cut =>
      show RunF I (cutO L (ds ++ g b)) o
      rw [cutO_over hg (hLc rfl) (hs b hb) (hL b hb)]; exact h
  | cons s l ih =>
    intro b o hb h xs g' hg' h1 h2 h3
    have hid : g' = id → κ s (xs ++ g' (ds ++ g b)) o := by
      intro hi
      subst hi
      have := h (xs ++ ds) g hg (fun b' hb' => by rw [List.append_assoc]; exact h1 _ ⟨b', hb', rfl⟩)
        (fun d hd => (List.mem_append.mp hd).elim (h2 d) (hK d)) fun b' hb' o' ho' => by
          rw [List.append_assoc]
          exact h3 (ds ++ g b') ⟨b', hb', rfl⟩ o' (ih b' o' hb' ho')
      rw [List.append_assoc] at this
      exact this
    rcases hg' with hi | ⟨_, hi⟩
    · exact hid hi
    · by_cases hn : L = none
      · subst hn; exact hid hi
      · subst hi
        rw [cutO_over hg hn (hs b hb) (hL b hb)]
        refine h xs (cutO L) (.inr ⟨he, rfl⟩) (fun b' hb' => ?_) h2 fun b' hb' o' ho' => ?_
        · rw [← cutO_over hg hn (hs b' hb') (hL b' hb')]; exact h1 _ ⟨b', hb', rfl⟩
        · rw [← cutO_over hg hn (hs b' hb') (hL b' hb')]; exact h3 _ ⟨b', hb', rfl⟩ o' (ih b' o' hb' ho')

/-- The answers of an atom, from its choice point. -/
theorem answers_run {W : List (Cp α σ) → Prop} {K : Nat} {L : Option Nat} {k : List (Frame α)} {x : Nat} (hx : K < x) (hW : ∀ b, W b → Sorted b ∧ curB b < x)
    (e : AEnd) :
    ∀ (l : List σ) (b : List (Cp α σ)) (o : List σ × Bool), W b →
      Sat I W K L (fun s b o => RunC I s k b o) l e.toEnd b o → RunF I (⟨x, .answers l e k⟩ :: b) o := by
  intro l
  induction l with
  | nil =>
    intro b o hb h m hm
    have h0 : m.b ≠ 0 := by have := hm.1; have := hm.2.2.1; simp only at *; omega
    cases e with
    | err =>
      have h : o = ([], true) := h
      subst h
      refine Run.err ?_
      rw [step, backtrack, if_neg h0, hm.2.1]
    | done =>
      refine run_go ?_ (h ⟨m.cp, curB b⟩ hm.2.2.2)
      rw [step, backtrack, if_neg h0, hm.2.1]
    | fail =>
      refine run_go ?_ (h ⟨m.cp, curB b⟩ hm.2.2.2)
      rw [step, backtrack, if_neg h0, hm.2.1]
  | cons s l ih =>
    intro b o hb h m hm
    have h0 : m.b ≠ 0 := by have := hm.1; have := hm.2.2.1; simp only at *; omega
    by_cases hc : l = [] ∧ e = .done
    · obtain ⟨rfl, rfl⟩ := hc
      have := h [] id (.inl rfl) (fun b' hb' => (hW b' hb').1) (fun d hd => by cases hd) (fun b' _ o' ho' => ho')
      refine run_go ?_ (this ⟨m.cp, curB b⟩ hm.2.2.2)
      rw [step, backtrack, if_neg h0, hm.2.1]
    · have := h [⟨x, .answers l e k⟩] id (.inl rfl) (fun b' hb' => ⟨(hW b' hb').2, (hW b' hb').1⟩)
        (fun d hd => by rw [List.mem_singleton] at hd; subst hd; exact hx)
        (fun b' hb' o' ho' => ih b' o' hb' ho')
      refine run_go ?_ (this (m.update (.answers l e k) (curB b)) (chain_update hm _))
      rw [step, backtrack, if_neg h0, hm.2.1]
      cases l <;> cases e <;> first | rfl | exact absurd ⟨rfl, rfl⟩ hc

theorem atom_run {W : List (Cp α σ) → Prop} {L : Option Nat} {s : σ} {a : α} {code : List (Code α)} {env : Nat → Option Nat} {lvl adr : Nat}
    {k : List (Frame α)} {b : List (Cp α σ)} {o : List σ × Bool} (hb : W b)
    (hW : ∀ b', W b' → Sorted b' ∧ curB b' ≤ max (curB b) (envTop (⟨code, env, lvl, adr⟩ :: k)))
    (h : Sat I W (envTop (⟨code, env, lvl, adr⟩ :: k)) L (fun s b o => RunC I s (⟨code, env, lvl, adr⟩ :: k) b o) (I a s).1 (I a s).2.toEnd b o) :
    RunC I s (⟨.atom a :: code, env, lvl, adr⟩ :: k) b o := by
  intro m hm
  have h := Sat.mono (κ' := fun s b o => RunC I s (push ⟨code, env, lvl, adr⟩ k) b o) (fun s b o => runC_push) _ _ _ _ h
  rw [← envTop_push] at h hW
  generalize hk : push ⟨code, env, lvl, adr⟩ k = k' at h hW
  have hstep : step I (.run s (⟨.atom a :: code, env, lvl, adr⟩ :: k) m) = callAtom (I a s).1 (I a s).2 k' m := by rw [step, hk]
  generalize (I a s).1 = l at h hstep
  generalize (I a s).2 = e at h hstep
  match l, e, h, hstep with
  | [], .err, h, hstep =>
    have h : o = ([], true) := h
    subst h
    exact Run.err hstep
  | [], .done, h, hstep => exact run_go hstep (h m hm)
  | [], .fail, h, hstep => exact run_go hstep (h m hm)
  | s1 :: l, e, h, hstep =>
    by_cases hc : l = [] ∧ e = .done
    · obtain ⟨rfl, rfl⟩ := hc
      exact run_go hstep (h [] id (.inl rfl) (fun b' hb' => (hW b' hb').1) (fun d hd => by cases hd) (fun b' _ o' ho' => ho') m hm)
    · have h1 : callAtom (s1 :: l) e k' m = .go (.run s1 k' (m.create k' (.answers l e k'))) := by
        rw [callAtom]
        intro h1 h2
        exact hc ⟨h2, h1⟩
      rw [h1] at hstep
      have hx : envTop k' < max (curB b) (envTop k') + 1 := by omega
      have hW' : ∀ b', W b' → Sorted b' ∧ curB b' < max (curB b) (envTop k') + 1 := fun b' hb' => ⟨(hW b' hb').1, by have := (hW b' hb').2; omega⟩
      have := h [⟨max (curB b) (envTop k') + 1, .answers l e k'⟩] id (.inl rfl) (fun b' hb' => ⟨(hW' b' hb').2, (hW' b' hb').1⟩)
        (fun d hd => by rw [List.mem_singleton] at hd; subst hd; exact hx) (fun b' hb' o' ho' => answers_run hx hW' e l b' o' hb' ho')
      exact run_go hstep (this (m.create k' (.answers l e k')) (chain_create hm _ _))

end Gp.Control
