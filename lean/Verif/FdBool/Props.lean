/-
C57: boolean constraints over finite domains.
-/
import Verif.FdBool.Card
import Verif.FdBool.PrimLemmas

namespace Gp.FdBool

variable {α ω : Type}

/-- An example: `X #\/ (A #< B)`, the words of the expressions being themselves. -/
def exOr : Ex Nat := .bin .or (.var 0) (.cmp .lt false 0 1)
def exLr : Nat → Nat → Option (LR Nat) := fun a b => some ⟨0, some a, some b⟩

theorem exLr_holds (wv : Nat → Int) (a b : Nat) : ∃ w, exLr a b = some w ∧ w.holds wv (wv a - wv b) :=
  ⟨⟨0, some a, some b⟩, rfl, by simp only [LR.holds]; omega⟩

/-- Values which satisfy the constraints posted for a boolean constraint make it true, and its boolean variables are 0
or 1.  Partial: the loading of the arithmetic expressions is given by `lr` (C48), and the constraints are
taken as relations (what the propagation does is in the theorems on the rules below). -/
theorem C57_sound_partial (lr : α → α → Option (LR ω)) (e : Ex α) (hw : e.wf) (st st' : St α ω)
    (h : post lr e st = some (.ok () st')) (val : α → Int) (wv : ω → Int) (h0 : ∀ x, 0 ≤ wv x) (τ : W → Int)
    (hs : satAll τ val wv st'.posted) :
    satAll τ val wv st.posted ∧ (∀ k ∈ e.vars, isBool (τ (.user k))) ∧ Tr (fun k => τ (.user k)) val e := by
  obtain ⟨ps, P⟩ := post_ok_posted (val := val) h0 hw h
  rw [P.posted, satAll_append] at hs
  exact ⟨hs.1, P.sound τ hs.2⟩

example : ∃ st', post exLr exOr ⟨[], 0⟩ = some (.ok () st') ∧ st'.posted.length = 7 := ⟨_, rfl, rfl⟩

/-- No solution is lost: if the values make a boolean constraint true then it is posted, and the values can be completed
by values for the new variables.  Partial: as for `C57_sound_partial`. -/
theorem C57_complete_partial (lr : α → α → Option (LR ω)) (e : Ex α) (hw : e.wf) (st : St α ω)
    (val : α → Int) (wv : ω → Int) (h0 : ∀ x, 0 ≤ wv x)
    (hlr : ∀ a b, ∃ w, lr a b = some w ∧ w.holds wv (val a - val b)) (τ : W → Int)
    (hst : satAll τ val wv st.posted) (hbelow : ∀ p ∈ st.posted, p.below st.next)
    (hb : ∀ k ∈ e.vars, isBool (τ (.user k))) (ht : Tr (fun k => τ (.user k)) val e) :
    ∃ st' τ', post lr e st = some (.ok () st') ∧ (∀ k, τ' (.user k) = τ (.user k)) ∧ satAll τ' val wv st'.posted ∧
      ∀ p ∈ st'.posted, p.below st'.next := by
  rcases post_cases (val := val) (wv := wv) h0 lr e hw st with ⟨-, h | h⟩ | ⟨st', ps, h, P⟩
  · obtain ⟨a, b, h⟩ := h
    obtain ⟨w, h1, -⟩ := hlr a b
    rw [h] at h1; cases h1
  · exact absurd ht (h _ hb)
  · obtain ⟨τ', ha, hs⟩ := P.complete (fun a b w h => by
      obtain ⟨w', h1, h2⟩ := hlr a b
      rw [h] at h1; injection h1 with h1; subst h1; exact h2) τ hb ht
    refine ⟨st', τ', h, fun k => ha (.user k) trivial, ?_, ?_⟩
    · rw [P.posted, satAll_append]
      exact ⟨fun p hp => (Prim.sat_congr ha (hbelow p hp)).1 (hst p hp), hs⟩
    · intro p hp
      rw [P.posted] at hp
      exact (List.mem_append.1 hp).elim (fun hp => Prim.below_mono P.le (hbelow p hp)) (P.below p)

example : Tr (fun _ => 0) (fun n : Nat => (n : Int)) exOr := .inr (by show (0 : Int) < 1; decide)

/-- A boolean constraint is never an error and never uses a word which has not been set; it fails at once only if the
expressions cannot be loaded or no values make it true. -/
theorem C57_defined (lr : α → α → Option (LR ω)) (e : Ex α) (hw : e.wf) (st : St α ω) :
    (∃ st', post lr e st = some (.ok () st')) ∨
    (post lr e st = some .fail ∧ ((∃ a b, lr a b = none) ∨
      ∀ (val : α → Int) (σ : Nat → Int), (∀ k ∈ e.vars, isBool (σ k)) → ¬Tr σ val e)) := by
  rcases post_cases (val := fun _ => 0) (wv := fun _ => 0) (fun _ => Int.le_refl _) lr e hw st with
    ⟨h, -⟩ | ⟨st', ps, h, -⟩
  · refine .inr ⟨h, ?_⟩
    by_cases hl : ∃ a b, lr a b = none
    · exact .inl hl
    · refine .inr fun val => ?_
      rcases post_cases (val := val) (wv := fun _ => 0) (fun _ => Int.le_refl _) lr e hw st with
        ⟨-, h1 | h1⟩ | ⟨st', ps, h1, -⟩
      · exact absurd h1 hl
      · exact h1
      · rw [h] at h1; cases h1
  · exact .inl ⟨st', h⟩

/-- `(1 #<=> 0) #/\ X` fails at once. -/
example : post exLr (.bin .and (.bin .equiv (.int 1) (.int 0)) (.var 0) : Ex Nat) (⟨[], 0⟩ : St Nat Nat) = some .fail :=
  rfl

/-- What is accepted: no term which is no constraint, and the integers are 0 or 1 modulo 2^32. -/
def accepted : Ex α → Prop
  | .var _ | .cmp _ _ _ _ => True
  | .int k => k % 2 ^ 32 = 0 ∨ k % 2 ^ 32 = 1
  | .bad => False
  | .not e => accepted e
  | .bin _ l r => accepted l ∧ accepted r

/-- A term with a part which is no boolean constraint gives a type error, whatever the rest, and nothing is posted. -/
theorem C57_error_partial (lr : α → α → Option (LR ω)) (e : Ex α) (h : ¬accepted e) (st : St α ω) : post lr e st = none := by
  have main : ∀ (e : Ex α) (pos : Bool), ¬accepted e → simplify e pos = none := by
    intro e
    induction e with
    | var => intro _ h; exact absurd trivial h
    | cmp => intro _ h; exact absurd trivial h
    | int k =>
      intro pos h
      simp only [simplify]
      rw [if_neg fun hh => h (.inl hh), if_neg fun hh => h (.inr hh)]
    | bad => intro _ _; rfl
    | not e ih => intro pos h; exact ih (!pos) h
    | bin op l r ihl ihr =>
      intro pos h
      by_cases hl : accepted l
      · have := ihr true (fun hr => h ⟨hl, hr⟩)
        simp only [simplify, this]
        cases simplify l true <;> rfl
      · have := ihl true hl
        simp only [simplify, this]
  simp only [post, main e true h, Option.map_none]

example : ¬accepted (.bin .and (.var 0) (.int 2) : Ex Nat) := by simp [accepted]

/-- The integers are truncated before the test: `X #<=> 4294967297` is accepted, and makes X equal to 1. -/
theorem C57_integer_truncated : post exLr (.bin .equiv (.var 0) (.int (2 ^ 32 + 1)) : Ex Nat) (⟨[], 0⟩ : St Nat Nat) =
    some (.ok () ⟨[.int (.user 0) 1, .bool (.user 0)], 0⟩) := rfl

/-- fd_cardinality: the counter is the number of the true constraints of the list. -/
theorem C57_cardinality_sound_partial (lr : α → α → Option (LR ω)) (l : List (Ex α)) (hw : ∀ e ∈ l, e.wf) (cnt n : Nat)
    (s s' : CSt α ω) (st : St α ω) (h : card lr l cnt n s = some (.ok s' st)) (val : α → Int) (wv : ω → Int)
    (h0 : ∀ x, 0 ≤ wv x) (τ : W → Int) (hs : s'.sat τ val wv) :
    s.sat τ val wv ∧ (∀ e ∈ l, ∀ k ∈ e.vars, isBool (τ (.user k))) ∧
      ∃ k, Count (fun k => τ (.user k)) val l k ∧ τ (.user cnt) = k :=
  card_sound_aux h0 l hw cnt n s s' st h τ hs

example : ∃ s' st, card exLr [exOr, .var 2] 3 4 (⟨⟨[], 0⟩, [], []⟩ : CSt Nat Nat) = some (.ok s' st) := ⟨_, _, rfl⟩

/-- fd_cardinality loses no solution. -/
theorem C57_cardinality_complete_partial (lr : α → α → Option (LR ω)) (l : List (Ex α)) (hw : ∀ e ∈ l, e.wf) (cnt n : Nat)
    (hcn : cnt < n) (hn : ∀ e ∈ l, ∀ k ∈ e.vars, k < n) (val : α → Int) (wv : ω → Int) (h0 : ∀ x, 0 ≤ wv x)
    (hlr : ∀ a b, ∃ w, lr a b = some w ∧ w.holds wv (val a - val b)) (σ : Nat → Int)
    (hb : ∀ e ∈ l, ∀ k ∈ e.vars, isBool (σ k)) (hc : ∃ k : Nat, Count σ val l k ∧ σ cnt = k) :
    ∃ s' st τ, card lr l cnt n ⟨⟨[], 0⟩, [], []⟩ = some (.ok s' st) ∧ (∀ k < n, τ (.user k) = σ k) ∧ s'.sat τ val wv := by
  obtain ⟨σ', h1, h2⟩ := filled_exists l cnt n σ hcn hn hc
  let τ : W → Int := fun w => match w with | .user k => σ' k | .new _ => 0
  obtain ⟨s', st, ps, ts, zs, e1, e2, e3, e4, -, -, τ', a, g1, g2, g3, -, -⟩ :=
    card_complete_aux (ω := ω) h0 hlr l hw cnt n ⟨⟨[], 0⟩, [], []⟩ τ
      (fun e he k hk => by show isBool (σ' k); rw [h1 k (hn e he k hk)]; exact hb e he k hk) h2
  refine ⟨s', st, τ', e1, fun k hk => (a (.user k) trivial).trans (h1 k hk), ?_, ?_, ?_⟩
  · rw [e2]; exact g1
  · rw [e3]; exact g2
  · rw [e4]; exact g3

/-- With X0 = 0, X2 = 1 and X3 = 2 both constraints are true. -/
example : ∃ k : Nat, Count (fun k => if k = 2 then 1 else if k = 3 then 2 else 0) (fun n : Nat => (n : Int)) [exOr, .var 2] k ∧
    (fun k => if k = 2 then 1 else if k = 3 then 2 else 0 : Nat → Int) 3 = k :=
  ⟨2, .yes (.inr (by show (0 : Int) < 1; decide)) (.yes (by show (_ : Int) = 1; rfl) .nil), rfl⟩

/-! ### The rules of the primitive constraints -/

/-- The rules of a boolean primitive constraint never remove a value of a solution. -/
theorem C57_rules_sound (k : BK) (E : Env) (ρ : Vr → Int) (h : Has E ρ) (hb : ∀ v, 0 ≤ (E v).lo ∧ (E v).hi ≤ 1)
    (hr : k.rel ρ) : keeps k.rules E ρ := rules_sound k h hb hr

/-- When the variables are instantiated the rules accept exactly the solutions. -/
theorem C57_rules_exact (k : BK) (ρ : Vr → Int) (hb : ∀ v, isBool (ρ v)) :
    keeps k.rules (ground ρ) ρ ↔ k.rel ρ := by
  refine ⟨rules_exact k hb, fun hr => rules_sound k (ground_has ρ) (fun v => ?_) hr⟩
  have := hb v
  unfold isBool at this
  show 0 ≤ ρ v ∧ ρ v ≤ 1
  omega

/-- The domain 0..1. -/
def exBool : Dm := ⟨0, 1, fun v => v = 0 ∨ v = 1⟩

theorem exBool_ok : exBool.ok :=
  ⟨.inl rfl, .inr rfl, fun v h => by show 0 ≤ v; rcases h with h | h <;> omega,
    fun v h => by show v ≤ 1; rcases h with h | h <;> omega⟩

example : Has (fun _ => exBool) (fun _ => 1) ∧ (BK.tri .and).rel (fun _ => 1) :=
  ⟨⟨fun _ => exBool_ok, fun _ => .inr rfl⟩, .inl ⟨rfl, rfl, rfl⟩⟩

/-- The rules of a case which has been started never remove a value of a solution, now (`E`) or later (`E'`). -/
theorem C57_switch_sound (k : TK) (E E' : Env) (ρ : Vr → Int) (h : Has E ρ) (h' : Has E' ρ)
    (hx : ∀ v, 0 ≤ ρ v ∧ ρ v ≤ maxInt) (hr : truth (ρ .b) (k.rel ρ)) (c : Case) (hc : c ∈ k.cases) (hE : c.cond E) :
    keeps c.rules E' ρ := switch_sound k h h' hx hr c hc hE

/-- The rules of the case which has been started suffice: when the variables are instantiated they accept the solutions
only, although the other cases are gone. -/
theorem C57_switch_exact (k : TK) (E : Env) (ρ : Vr → Int) (h : Has E ρ) (hb : isBool (ρ .b)) (c : Case)
    (hc : c ∈ k.cases) (hE : c.cond E) (hk : keeps c.rules (ground ρ) ρ) : truth (ρ .b) (k.rel ρ) :=
  switch_exact k h hb c hc hE hk

/-- When the truth value, or the variables of the comparison, are instantiated, a case is started. -/
theorem C57_switch_starts (k : TK) (E : Env)
    (hg : (E .b = .single 0 ∨ E .b = .single 1) ∨ ∃ x y, E .x = .single x ∧ E .y = .single y) :
    ∃ c ∈ k.cases, c.cond E := by
  rcases hg with (hb | hb) | ⟨x, y, hx, hy⟩
  · have : ∃ c ∈ k.cases, c.cond = fun E : Env => (E .b).hi = 0 := by
      cases k <;> (try cases ‹Bool›) <;> exact ⟨_, List.mem_cons_self, rfl⟩
    obtain ⟨c, hc, e⟩ := this
    exact ⟨c, hc, by rw [e]; show (E .b).hi = 0; rw [hb]; rfl⟩
  · have : ∃ c ∈ k.cases, c.cond = fun E : Env => (E .b).lo = 1 := by
      cases k <;> (try cases ‹Bool›) <;> exact ⟨_, List.mem_cons_of_mem _ List.mem_cons_self, rfl⟩
    obtain ⟨c, hc, e⟩ := this
    exact ⟨c, hc, by rw [e]; show (E .b).lo = 1; rw [hb]; rfl⟩
  · have two : ∀ {a b c d : Case}, (c.cond E ∨ d.cond E) → ∃ z ∈ [a, b, c, d], z.cond E := by
      intro a b c d h
      rcases h with h | h
      · exact ⟨c, by simp, h⟩
      · exact ⟨d, by simp, h⟩
    cases k <;> (try cases ‹Bool›) <;> refine two ?_ <;> simp only [hx, hy, Dm.single] <;> (try omega)
    · rename_i c
      by_cases hh : y = x + c
      · exact .inr (by omega)
      · exact .inl fun v hv hv' => hh (by omega)
    · rename_i c
      by_cases hh : y = x + c
      · exact .inl (by omega)
      · exact .inr fun v hv hv' => hh (by omega)

/-- fd_reified_in(X, L, U, B) for non-negative values of X: what is done is right for all values of X and B.  Partial:
integers up to the maximum. -/
theorem C57_reified_in_partial (x : Int ⊕ Dm) (l u : Int) (b : Option Int) (hl : l ≤ maxInt) (hu : u ≤ maxInt)
    (v w : Int) (hv : 0 ≤ v) (hvx : match x with | .inl k => v = k | .inr d => d.ok ∧ d.mem v)
    (hwb : match b with | some k => w = k | none => True) (hw : isBool w) :
    match reifiedIn x l u b with
    | .unifyB k => w = k ↔ truth w (l ≤ v ∧ v ≤ u)
    | .notDomain l' u' => ¬itv l' u' v ↔ truth w (l ≤ v ∧ v ≤ u)
    | .domain l' u' => itv l' u' v ↔ truth w (l ≤ v ∧ v ≤ u)
    | .fail => False
    | .switch l' u' => b = none ∧ (truth w (l' ≤ v ∧ v ≤ u') ↔ truth w (l ≤ v ∧ v ≤ u)) := by
  have hm : maxInt = 268435455 := rfl
  rw [hm] at hl hu
  have e1 : (if toValue l < 0 then 0 else toValue l) ≤ v ↔ l ≤ v := by
    unfold toValue; rw [hm]; split <;> split <;> (try split) <;> (try split at *) <;> omega
  have e2 : v ≤ toValue u ↔ v ≤ u := by
    unfold toValue; rw [hm]; split <;> (try split) <;> omega
  have e3 : toValue l ≤ v ↔ l ≤ v := by
    unfold toValue; rw [hm]; split <;> (try split) <;> omega
  unfold reifiedIn isBool at *
  generalize (if toValue l < 0 then 0 else toValue l) = mn at *
  generalize toValue u = mx at *
  generalize toValue l = ml at *
  unfold truth
  cases x with
  | inl k =>
    simp only at hvx ⊢
    subst hvx
    split <;> omega
  | inr d =>
    simp only at hvx
    have h1 := hvx.1.low v hvx.2
    have h2 := hvx.1.high v hvx.2
    cases b with
    | some b =>
      simp only at hwb ⊢
      subst hwb
      by_cases hb0 : w = 0
      · rw [if_pos hb0]; simp only [itv]; omega
      · rw [if_neg hb0, if_pos (by omega)]
        simp only [itv]; omega
    | none =>
      simp only
      by_cases c1 : d.lo ≥ mn ∧ d.hi ≤ mx
      · rw [if_pos c1]; simp only; omega
      · rw [if_neg c1]
        by_cases c2 : mn > mx ∨ d.hi < mn ∨ d.lo > mx
        · rw [if_pos c2]; simp only; omega
        · rw [if_neg c2]; simp only [e2, e3, true_and]

example : reifiedIn (.inr exBool) (-3) 0 none = .switch (-3) 0 := rfl

/-- A negative X is never in the interval, nor one which is greater than the maximum of the domains. -/
theorem C57_reified_in_negative : reifiedIn (.inl (-1)) (-2) 3 none = .unifyB 0 ∧
    reifiedIn (.inl (2 ^ 40)) 0 (2 ^ 50) none = .unifyB 0 := ⟨rfl, rfl⟩

end Gp.FdBool
