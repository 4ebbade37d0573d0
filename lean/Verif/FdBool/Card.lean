/-
The outcome of a boolean constraint, and the model of fd_cardinality with its lemmas.
-/
import Verif.FdBool.Load

namespace Gp.FdBool

variable {α ω : Type}

/-- What the posting of a constraint does. -/
structure Posted (val : α → Int) (wv : ω → Int) (lr : α → α → Option (LR ω)) (e : Ex α)
    (st st' : St α ω) (ps : List (Prim α ω)) : Prop where
  posted : st'.posted = st.posted ++ ps
  le : st.next ≤ st'.next
  below : ∀ p ∈ ps, p.below st'.next
  sound : ∀ τ : W → Int, satAll τ val wv ps → (∀ k ∈ e.vars, isBool (τ (.user k))) ∧ Tr (fun k => τ (.user k)) val e
  complete : (∀ a b w, lr a b = some w → w.holds wv (val a - val b)) → ∀ τ : W → Int,
    (∀ k ∈ e.vars, isBool (τ (.user k))) → Tr (fun k => τ (.user k)) val e →
    ∃ τ', AgreeB st.next τ τ' ∧ satAll τ' val wv ps

theorem post_cases {val : α → Int} {wv : ω → Int} (h0 : ∀ x, 0 ≤ wv x) (lr : α → α → Option (LR ω)) (e : Ex α)
    (hw : e.wf) (st : St α ω) :
    (post lr e st = some .fail ∧ ((∃ a b, lr a b = none) ∨
      ∀ σ : Nat → Int, (∀ k ∈ e.vars, isBool (σ k)) → ¬Tr σ val e)) ∨
    ∃ st' ps, post lr e st = some (.ok () st') ∧ Posted val wv lr e st st' ps := by
  obtain ⟨n, m, vs, ws, h1, -, -, hv, -⟩ := simplify_side (fun _ => 0) val e hw
  have hside : ∀ σ : Nat → Int, (n.tr σ val ↔ Tr σ val e) ∧ n.clean ∧ ∀ x ∈ n.vars, x ∈ e.vars := by
    intro σ
    obtain ⟨n', m', vs', ws', h1', -, hs, -, -⟩ := simplify_side σ val e hw
    rw [h1] at h1'
    injection h1' with h1'
    injection h1' with e1 _
    subst e1
    exact ⟨hs.tr, hs.clean, hs.vars⟩
  have hc := (hside fun _ => 0).2.1
  have hvs := (hside fun _ => 0).2.2
  have hpost : post lr e st = some ((setTo lr n true st).bind fun _ st =>
      .ok () (st.post (vs.reverse.map fun x => .bool (.user x)))) := by
    simp only [post, h1, Option.map_some]
  have hout : ∀ σ : Nat → Int, (∀ k ∈ e.vars, isBool (σ k)) → SetOut σ val wv lr n true st (setTo lr n true st) :=
    fun σ hb => setTo_out h0 lr n hc (fun k hk => hb k (hvs k hk)) true st
  rcases hout (fun _ => 0) (fun _ _ => .inl rfl) with ⟨hf, -⟩ | ⟨st', ps, hok, hd, -⟩
  · refine .inl ⟨by rw [hpost, hf]; rfl, ?_⟩
    by_cases hl : ∃ a b, lr a b = none
    · exact .inl hl
    · refine .inr fun σ hb ht => ?_
      rcases hout σ hb with ⟨-, h | h⟩ | ⟨st'', ps'', h, -, -⟩
      · exact hl h
      · exact h (by simp [(hside σ).1, ht])
      · rw [hf] at h; cases h
  · have hall : ∀ σ : Nat → Int, (∀ k ∈ e.vars, isBool (σ k)) → SetDone σ val wv n true st st' ps ∧
        ∀ a b w, (Prim.load a b w : Prim α ω) ∈ ps → lr a b = some w := by
      intro σ hb
      rcases hout σ hb with ⟨h, -⟩ | ⟨st'', ps'', h, h2, h3⟩
      · rw [hok] at h; cases h
      · rw [hok] at h
        injection h with _ e1
        subst e1
        have : ps'' = ps := List.append_cancel_left (h2.posted.symm.trans hd.posted)
        subst this
        exact ⟨h2, h3⟩
    refine .inr ⟨st'.post (vs.reverse.map fun x => .bool (.user x)), ps ++ vs.reverse.map fun x => .bool (.user x),
      by rw [hpost, hok]; rfl, ⟨?_, hd.le, ?_, ?_, ?_⟩⟩
    · show st'.posted ++ _ = _
      rw [hd.posted, List.append_assoc]
    · intro p hp
      rcases List.mem_append.1 hp with hp | hp
      · exact hd.below p hp
      · obtain ⟨x, -, rfl⟩ := List.mem_map.1 hp
        trivial
    · intro τ hs
      rw [satAll_append] at hs
      have hb : ∀ k ∈ e.vars, isBool (τ (.user k)) := fun k hk =>
        hs.2 (.bool (.user k)) (List.mem_map.2 ⟨k, List.mem_reverse.2 ((hv k).2 hk), rfl⟩)
      refine ⟨hb, ?_⟩
      have := (hall (fun k => τ (.user k)) hb).1.sound τ (fun _ => rfl) hs.1
      exact (hside _).1.1 (this.2 rfl)
    · intro hlr τ hb ht
      have hx := hall (fun k => τ (.user k)) hb
      obtain ⟨τ', ha, hs⟩ := hx.1.complete (fun a b w hm => hlr a b w (hx.2 a b w hm))
        (by simp [(hside _).1, ht]) τ (fun _ => rfl)
      refine ⟨τ', ha, satAll_append.2 ⟨hs, ?_⟩⟩
      intro p hp
      obtain ⟨x, hx', rfl⟩ := List.mem_map.1 hp
      show isBool (τ' (.user x))
      rw [ha (.user x) trivial]
      exact hb x ((hv x).1 (List.mem_reverse.1 hx'))

/-! ### fd_cardinality -/

/-- The constraints `Count1 #= Count + B`, as triples, and `Count = 0`. -/
structure CSt (α ω : Type) where
  st : St α ω
  sums : List (W × W × W)
  zeros : List W

/-- '$fd_cardinality1'/2 (fd_bool.pl:116-121): `cnt` is the variable with the number, the new variables of the
clause are `n` (Count) and `n + 1` (B); '$truth_of'(C, B) is `C #<=> B` (fd_bool.pl:44-45). -/
def card (lr : α → α → Option (LR ω)) : List (Ex α) → Nat → Nat → CSt α ω → Option (Out α ω (CSt α ω))
  | [], cnt, _, s => some (.ok { s with zeros := s.zeros ++ [.user cnt] } s.st)
  | c :: l, cnt, n, s =>
    match card lr l n (n + 2) s with
    | some (.ok s1 _) =>
      match post lr (.bin .equiv c (.var (n + 1))) s1.st with
      | some (.ok _ st2) => some (.ok ⟨st2, s1.sums ++ [(.user cnt, .user n, .user (n + 1))], s1.zeros⟩ st2)
      | some .fail => some .fail
      | some .ub => some .ub
      | none => none
    | r => r

/-- All the constraints hold. -/
def CSt.sat (s : CSt α ω) (τ : W → Int) (val : α → Int) (wv : ω → Int) : Prop :=
  satAll τ val wv s.st.posted ∧ (∀ t ∈ s.sums, τ t.1 = τ t.2.1 + τ t.2.2) ∧ ∀ w ∈ s.zeros, τ w = 0

/-- The number of the constraints of a list which are true. -/
inductive Count (σ : Nat → Int) (val : α → Int) : List (Ex α) → Nat → Prop where
  | nil : Count σ val [] 0
  | yes {c l k} : Tr σ val c → Count σ val l k → Count σ val (c :: l) (k + 1)
  | no {c l k} : ¬Tr σ val c → Count σ val l k → Count σ val (c :: l) k

theorem post_ok_posted {val : α → Int} {wv : ω → Int} (h0 : ∀ x, 0 ≤ wv x) {lr : α → α → Option (LR ω)} {e : Ex α}
    (hw : e.wf) {st st' : St α ω} {u : Unit} (h : post lr e st = some (.ok u st')) :
    ∃ ps, Posted val wv lr e st st' ps := by
  rcases post_cases (val := val) h0 lr e hw st with ⟨h1, -⟩ | ⟨st2, ps, h1, hp⟩
  · rw [h] at h1; cases h1
  · rw [h] at h1
    injection h1 with h1
    injection h1 with _ e1
    subst e1
    exact ⟨ps, hp⟩

theorem card_sound_aux {val : α → Int} {wv : ω → Int} (h0 : ∀ x, 0 ≤ wv x) {lr : α → α → Option (LR ω)}
    (l : List (Ex α)) : (∀ e ∈ l, e.wf) → ∀ (cnt n : Nat) (s s' : CSt α ω) (st : St α ω),
    card lr l cnt n s = some (.ok s' st) → ∀ τ : W → Int, s'.sat τ val wv →
      s.sat τ val wv ∧ (∀ e ∈ l, ∀ k ∈ e.vars, isBool (τ (.user k))) ∧
      ∃ k, Count (fun k => τ (.user k)) val l k ∧ τ (.user cnt) = k := by
  induction l with
  | nil =>
    intro _ cnt n s s' st h τ hs
    simp only [card] at h
    injection h with h
    injection h with e1 _
    subst e1
    refine ⟨⟨hs.1, hs.2.1, fun w hw => hs.2.2 w (List.mem_append.2 (.inl hw))⟩, by simp, 0, .nil, ?_⟩
    exact hs.2.2 (.user cnt) (by simp)
  | cons c l ih =>
    intro hw cnt n s s' st h τ hs
    unfold card at h
    cases hc : card lr l n (n + 2) s with
    | none => simp only [hc] at h; cases h
    | some o =>
      cases o with
      | fail => simp only [hc] at h; cases h
      | ub => simp only [hc] at h; cases h
      | ok s1 st1 =>
        simp only [hc] at h
        cases hp : post lr (.bin .equiv c (.var (n + 1))) s1.st with
        | none => simp only [hp] at h; cases h
        | some o =>
          cases o with
          | fail => simp only [hp] at h; cases h
          | ub => simp only [hp] at h; cases h
          | ok u st2 =>
            simp only [hp] at h
            injection h with h
            injection h with e1 _
            subst e1
            obtain ⟨ps, P⟩ := post_ok_posted (val := val) h0 (e := .bin .equiv c (.var (n + 1)))
              ⟨hw c (by simp), trivial⟩ hp
            obtain ⟨g1, g2, g3⟩ := hs
            simp only [P.posted] at g1
            rw [satAll_append] at g1
            obtain ⟨hb, ht⟩ := P.sound τ g1.2
            obtain ⟨r1, r2, k, hk, hv⟩ := ih (fun e he => hw e (by simp [he])) n (n + 2) s s1 st1 hc τ
              ⟨g1.1, fun t ht => g2 t (List.mem_append.2 (.inl ht)), g3⟩
            have hsum := g2 (.user cnt, .user n, .user (n + 1)) (by simp)
            simp only at hsum
            have hbb := hb (n + 1) (by simp [Ex.vars])
            have ht' : Tr (fun k => τ (.user k)) val c ↔ τ (.user (n + 1)) = 1 := ht
            refine ⟨r1, ?_, ?_⟩
            · intro e he k hk
              rcases List.mem_cons.1 he with rfl | he
              · exact hb k (by simp [Ex.vars, hk])
              · exact r2 e he k hk
            · rcases hbb with hbb | hbb
              · refine ⟨k, .no (fun hh => ?_) hk, by rw [hsum, hbb, hv]; simp⟩
                have := ht'.1 hh; omega
              · exact ⟨k + 1, .yes (ht'.2 hbb) hk, by rw [hsum, hbb, hv]; simp⟩

/-- The values of the new variables. -/
def Filled (val : α → Int) : List (Ex α) → Nat → Nat → (Nat → Int) → Prop
  | [], cnt, _, σ => σ cnt = 0
  | c :: l, cnt, n, σ => truth (σ (n + 1)) (Tr σ val c) ∧ σ cnt = σ n + σ (n + 1) ∧ Filled val l n (n + 2) σ

theorem Tr_congr {σ σ' : Nat → Int} {val : α → Int} (e : Ex α) : (∀ k ∈ e.vars, σ' k = σ k) →
    (Tr σ' val e ↔ Tr σ val e) := by
  induction e with
  | var n => intro h; simp only [Tr, h n (by simp [Ex.vars])]
  | int => intro _; exact Iff.rfl
  | bad => intro _; exact Iff.rfl
  | not e ih => intro h; simp only [Tr, ih h]
  | cmp => intro _; exact Iff.rfl
  | bin op l r ihl ihr =>
    intro h
    simp only [Tr, ihl fun k hk => h k (List.mem_append.2 (.inl hk)), ihr fun k hk => h k (List.mem_append.2 (.inr hk))]

theorem Count_congr {σ σ' : Nat → Int} {val : α → Int} {l : List (Ex α)} {k : Nat}
    (h : ∀ e ∈ l, ∀ k ∈ e.vars, σ' k = σ k) (hc : Count σ val l k) : Count σ' val l k := by
  induction hc with
  | nil => exact .nil
  | yes ht _ ih =>
    exact .yes ((Tr_congr _ (h _ (by simp))).2 ht) (ih fun e he => h e (by simp [he]))
  | no ht _ ih =>
    exact .no (fun hh => ht ((Tr_congr _ (h _ (by simp))).1 hh)) (ih fun e he => h e (by simp [he]))

theorem filled_exists {val : α → Int} (l : List (Ex α)) : ∀ (cnt n : Nat) (σ : Nat → Int), cnt < n →
    (∀ e ∈ l, ∀ k ∈ e.vars, k < n) → (∃ k : Nat, Count σ val l k ∧ σ cnt = k) →
    ∃ σ' : Nat → Int, (∀ k < n, σ' k = σ k) ∧ Filled val l cnt n σ' := by
  induction l with
  | nil =>
    intro cnt n σ _ _ ⟨k, hc, hv⟩
    cases hc
    exact ⟨σ, fun _ _ => rfl, hv⟩
  | cons c l ih =>
    intro cnt n σ hcn hlt ⟨k, hc, hv⟩
    have main : ∀ (kl : Nat) (b : Int), Count σ val l kl → truth b (Tr σ val c) → σ cnt = kl + b →
        ∃ σ' : Nat → Int, (∀ k < n, σ' k = σ k) ∧ Filled val (c :: l) cnt n σ' := by
      intro kl b hcl hb hsum
      let σ1 : Nat → Int := fun k => if k = n then kl else if k = n + 1 then b else σ k
      have h1 : ∀ k < n, σ1 k = σ k := by
        intro k hk
        show (if k = n then _ else if k = n + 1 then _ else _) = _
        rw [if_neg (by omega), if_neg (by omega)]
      have h2 : σ1 n = kl := if_pos rfl
      have h3 : σ1 (n + 1) = b := by
        show (if n + 1 = n then _ else if n + 1 = n + 1 then _ else _) = _
        rw [if_neg (by omega), if_pos rfl]
      obtain ⟨σ', g1, g2⟩ := ih n (n + 2) σ1 (by omega)
        (fun e he k hk => by have := hlt e (by simp [he]) k hk; omega)
        ⟨kl, Count_congr (fun e he k hk => h1 k (hlt e (by simp [he]) k hk)) hcl, h2⟩
      refine ⟨σ', fun k hk => (g1 k (by omega)).trans (h1 k hk), ?_, ?_, g2⟩
      · rw [g1 (n + 1) (by omega), h3, Tr_congr c fun k hk =>
          (g1 k (by have := hlt c (by simp) k hk; omega)).trans (h1 k (hlt c (by simp) k hk))]
        exact hb
      · rw [g1 cnt (by omega), h1 cnt hcn, g1 n (by omega), h2, g1 (n + 1) (by omega), h3, hsum]
    cases hc with
    | yes ht hcl => exact main _ 1 hcl (.inl ⟨rfl, ht⟩) (by rw [hv]; simp)
    | no ht hcl => exact main _ 0 hcl (.inr ⟨rfl, ht⟩) (by rw [hv]; simp)

theorem card_complete_aux {val : α → Int} {wv : ω → Int} (h0 : ∀ x, 0 ≤ wv x) {lr : α → α → Option (LR ω)}
    (hlr : ∀ a b, ∃ w, lr a b = some w ∧ w.holds wv (val a - val b)) (l : List (Ex α)) :
    (∀ e ∈ l, e.wf) → ∀ (cnt n : Nat) (s : CSt α ω) (τ : W → Int),
    (∀ e ∈ l, ∀ k ∈ e.vars, isBool (τ (.user k))) → Filled val l cnt n (fun k => τ (.user k)) →
    ∃ s' st ps ts zs, card lr l cnt n s = some (.ok s' st) ∧ s'.st.posted = s.st.posted ++ ps ∧
      s'.sums = s.sums ++ ts ∧ s'.zeros = s.zeros ++ zs ∧ s.st.next ≤ s'.st.next ∧
      (∀ p ∈ ps, p.below s'.st.next) ∧
      ∃ τ', AgreeB s.st.next τ τ' ∧ satAll τ' val wv ps ∧
        (∀ t ∈ ts, τ' t.1 = τ' t.2.1 + τ' t.2.2) ∧ (∀ w ∈ zs, τ' w = 0) ∧
        (∀ t ∈ ts, t.1.below 0 ∧ t.2.1.below 0 ∧ t.2.2.below 0) ∧ (∀ w ∈ zs, w.below 0) := by
  induction l with
  | nil =>
    intro _ cnt n s τ _ hf
    refine ⟨_, _, [], [], [.user cnt], rfl, by simp, by simp, rfl, Nat.le_refl _, by simp, τ, fun _ _ => rfl,
      by simp [satAll], by simp, ?_, by simp, ?_⟩
    · intro w hw; rw [List.mem_singleton.1 hw]; exact hf
    · intro w hw; rw [List.mem_singleton.1 hw]; trivial
  | cons c l ih =>
    intro hw cnt n s τ hb hf
    obtain ⟨f1, f2, f3⟩ := hf
    obtain ⟨s1, st1, ps, ts, zs, e1, e2, e3, e4, e5, e6, τ1, a1, g1, g2, g3, g4, g5⟩ :=
      ih (fun e he => hw e (by simp [he])) n (n + 2) s τ (fun e he => hb e (by simp [he])) f3
    have u1 : ∀ k, τ1 (.user k) = τ (.user k) := fun k => a1 (.user k) trivial
    have hwf : (Ex.bin .equiv c (.var (n + 1))).wf := ⟨hw c (by simp), trivial⟩
    have hbo : ∀ k ∈ (Ex.bin .equiv c (.var (n + 1))).vars, isBool (τ1 (.user k)) := by
      intro k hk
      rw [u1]
      rcases List.mem_append.1 hk with hk | hk
      · exact hb c (by simp) k hk
      · rw [List.mem_singleton.1 hk]; exact truth_bool f1
    have htr : Tr (fun k => τ1 (.user k)) val (.bin .equiv c (.var (n + 1))) := by
      simp only [Tr, BOp.rel, u1]
      exact (truth_one f1).symm
    rcases post_cases (val := val) (wv := wv) h0 lr _ hwf s1.st with ⟨-, h | h⟩ | ⟨st2, qs, hp, P⟩
    · obtain ⟨a, b, h⟩ := h
      obtain ⟨w, h1, -⟩ := hlr a b
      rw [h] at h1; cases h1
    · exact absurd htr (h _ hbo)
    · obtain ⟨τ2, a2, s2⟩ := P.complete (fun a b w h => by
        obtain ⟨w', h1, h2⟩ := hlr a b
        rw [h] at h1; injection h1 with h1; subst h1; exact h2) τ1 hbo htr
      have u2 : ∀ k, τ2 (.user k) = τ1 (.user k) := fun k => a2 (.user k) trivial
      have z2 : ∀ w : W, w.below 0 → τ2 w = τ1 w := by
        intro w hw
        cases w with
        | user k => exact u2 k
        | new k => exact absurd hw (Nat.not_lt_zero _)
      refine ⟨⟨st2, s1.sums ++ [(.user cnt, .user n, .user (n + 1))], s1.zeros⟩, st2, ps ++ qs,
        ts ++ [(.user cnt, .user n, .user (n + 1))], zs, ?_, ?_, ?_, e4, Nat.le_trans e5 P.le, ?_, τ2,
        AgreeB.trans e5 a1 a2, ?_, ?_, ?_, ?_, g5⟩
      · unfold card
        simp only [e1, hp]
      · simp only [P.posted, e2, List.append_assoc]
      · simp only [e3, List.append_assoc]
      · intro p hp
        exact (List.mem_append.1 hp).elim (fun hp => Prim.below_mono P.le (e6 p hp)) (P.below p)
      · exact satAll_append.2 ⟨fun p hp => (Prim.sat_congr a2 (e6 p hp)).1 (g1 p hp), s2⟩
      · intro t ht
        rcases List.mem_append.1 ht with ht | ht
        · obtain ⟨b1, b2, b3⟩ := g4 t ht
          rw [z2 _ b1, z2 _ b2, z2 _ b3]; exact g2 t ht
        · rw [List.mem_singleton.1 ht]
          simp only [u2, u1]
          exact f2
      · intro w hw
        rw [z2 w (g5 w hw)]; exact g3 w hw
      · intro t ht
        rcases List.mem_append.1 ht with ht | ht
        · exact g4 t ht
        · rw [List.mem_singleton.1 ht]; exact ⟨trivial, trivial, trivial⟩

end Gp.FdBool
