import Verif.Unify.Sound

namespace Gp.Unify
open Gp.Heap
open Gp.Term (isNaN fkey deq)

theorem eval_congr {m : Mem} {ρ ρ' : Adr → T} {w : Cell} (h : ∀ b, Kid m w b → ρ b = ρ' b) :
    eval m ρ w = eval m ρ' w := by
  cases w with
  | ref a => exact h a rfl
  | lst a => simp only [eval]; rw [h a (Or.inl rfl), h (a + 1) (Or.inr rfl)]
  | stc a =>
    cases hf : m a with
    | fn f n =>
      rw [eval_stc hf, eval_stc hf]
      congr 1
      apply List.map_congr_left
      intro i hi
      have := List.mem_range.mp hi
      exact h _ ⟨f, n, hf, by omega, by omega⟩
    | _ => simp only [eval, hf]
  | _ => rfl

/-- A valuation with given values of the unbound variables. -/
theorem model_exists {N lssa : Adr} {m : Mem} (hwf : WF N lssa m) (hac : Acyclic N m) (σ : Adr → T) :
    ∃ ρ, Model N m ρ ∧ ∀ a, m a = .ref a → ρ a = σ a := by
  classical
  let R : Adr → Adr → Prop := fun b a => Child m b a ∧ Acc (Child m) a
  have hR : WellFounded R := by
    constructor
    intro a
    by_cases h : Acc (Child m) a
    · induction h with
      | intro a _ ih => exact Acc.intro a (fun b hb => ih b hb.1)
    · exact Acc.intro a (fun b hb => absurd hb.2 h)
  let F : (a : Adr) → ((b : Adr) → R b a → T) → T := fun a rec =>
    if m a = .ref a then σ a else eval m (fun b => if h : R b a then rec b h else .var 0) (m a)
  refine ⟨hR.fix F, ?_, ?_⟩
  · intro a ha hta
    by_cases hs : m a = .ref a
    · rw [hs]; rfl
    · rw [hR.fix_eq]
      simp only [F]
      rw [if_neg hs]
      apply eval_congr
      intro b hb
      have : R b a := ⟨⟨hs, hb⟩, hac a ha hta⟩
      rw [dif_pos this]
  · intro a hs
    rw [hR.fix_eq]
    simp only [F]
    rw [if_pos hs]

/-! Reading of terms -/

theorem reads_eval {N lssa : Adr} {m : Mem} (hwf : WF N lssa m) {ρ σ : Adr → T} (hρ : Model N m ρ)
    (hσ : ∀ a, m a = .ref a → ρ a = σ a) {w : Cell} {t : T} (hr : Reads m w t) (hw : ValidWord N lssa m w) :
    eval m ρ w = t.subst σ := by
  induction hr with
  | var h => simp only [eval, T.subst]; exact hσ _ h
  | bound h _ ih =>
    rw [← ih (hwf _ hw.1 hw.2).1]
    exact hρ _ hw.1 hw.2
  | atm => simp [eval, T.subst]
  | int => simp [eval, T.subst]
  | flt h hn => simp [eval, T.subst, h, hn]
  | nan h hn => simp [eval, T.subst, h, hn]
  | lst h1 h2 ih1 ih2 =>
    rename_i a t1 t2
    obtain ⟨a1, a2, a3, a4⟩ := hw
    simp only [T.subst]
    rw [← ih1 (hwf _ (by omega) a3).1, ← ih2 (hwf _ a1 a4).1, ← hρ _ (by omega) a3, ← hρ _ a1 a4]
    rfl
  | stc h h1 ih =>
    rename_i a f n g
    obtain ⟨f', n', b1, b2, b3, b4, b5⟩ := hw
    rw [h] at b1
    simp only [Cell.fn.injEq] at b1
    obtain ⟨rfl, rfl⟩ := b1
    rw [eval_stc h]
    simp only [T.subst, List.map_map]
    congr 1
    apply List.map_congr_left
    intro i hi
    have hi := List.mem_range.mp hi
    simp only [Function.comp]
    rw [← ih i hi (hwf _ (by omega) (b5 i hi)).1, ← hρ _ (by omega) (b5 i hi)]

theorem subst_var (t : T) : t.subst T.var = t := by
  induction t using T.rec (motive_2 := fun l => l.map (fun t => t.subst T.var) = l) with
  | var n => simp [T.subst]
  | atm n => simp [T.subst]
  | int n => simp [T.subst]
  | flt n => simp [T.subst]
  | nan n => simp [T.subst]
  | lst h t ih1 ih2 => simp [T.subst, ih1, ih2]
  | app f l ih => simp only [T.subst]; rw [ih]
  | nil => rfl
  | cons h t ih1 ih2 => rw [List.map_cons, ih1, ih2]

theorem acc_of_reads {m : Mem} {w : Cell} {t : T} (hr : Reads m w t) : ∀ b, Kid m w b → Acc (Child m) b := by
  induction hr with
  | var h =>
    rintro b rfl
    exact Acc.intro _ (fun c hc => absurd h hc.1)
  | bound h _ ih =>
    rintro b rfl
    exact Acc.intro _ (fun c hc => ih c hc.2)
  | lst h1 h2 ih1 ih2 =>
    rintro b (rfl | rfl)
    · exact Acc.intro _ (fun c hc => ih1 c hc.2)
    · exact Acc.intro _ (fun c hc => ih2 c hc.2)
  | stc h h1 ih =>
    rename_i a f n g
    rintro b ⟨f', n', b1, b2, b3⟩
    rw [h] at b1
    simp only [Cell.fn.injEq] at b1
    obtain ⟨rfl, rfl⟩ := b1
    have he : b = a + 1 + (b - (a + 1)) := by omega
    rw [he]
    exact Acc.intro _ (fun c hc => ih _ (by omega) c hc.2)
  | _ => intro b hb; exact hb.elim

theorem reads_of_kids {N lssa : Adr} {m : Mem} (w : Cell) (hw : ValidWord N lssa m w)
    (hk : ∀ b, Kid m w b → m b = .ref b ∨ ∃ t, Reads m (m b) t) : ∃ t, Reads m w t := by
  have hk' : ∀ b, Kid m w b → ∃ t, Reads m (m b) t := by
    intro b hb
    rcases hk b hb with h | h
    · exact ⟨_, by rw [h]; exact Reads.var h⟩
    · exact h
  cases w with
  | ref a =>
    by_cases hs : m a = .ref a
    · exact ⟨_, .var hs⟩
    · obtain ⟨t, ht⟩ := hk' a rfl; exact ⟨t, .bound hs ht⟩
  | lst a =>
    obtain ⟨t1, h1⟩ := hk' a (Or.inl rfl)
    obtain ⟨t2, h2⟩ := hk' (a + 1) (Or.inr rfl)
    exact ⟨_, .lst h1 h2⟩
  | stc a =>
    obtain ⟨f, n, h1, _⟩ := hw
    have : ∀ i, ∃ t, i < n → Reads m (m (a + 1 + i)) t := by
      intro i
      by_cases hi : i < n
      · obtain ⟨t, ht⟩ := hk' (a + 1 + i) ⟨f, n, h1, by omega, by omega⟩
        exact ⟨t, fun _ => ht⟩
      · exact ⟨.var 0, fun h => absurd h hi⟩
    obtain ⟨g, hg⟩ := Classical.axiomOfChoice this
    exact ⟨_, .stc (g := g) h1 hg⟩
  | atm i => exact ⟨_, .atm⟩
  | int i => exact ⟨_, .int⟩
  | flt a =>
    obtain ⟨x, hx⟩ := hw
    cases hn : isNaN x with
    | true => exact ⟨_, .nan hx hn⟩
    | false => exact ⟨_, .flt hx hn⟩
  | _ => exact hw.elim

theorem reads_of_acc {N lssa : Adr} {m : Mem} (hwf : WF N lssa m) (a : Adr) (ha : Acc (Child m) a) (haN : a < N)
    (hta : isTerm (m a) = true) : ∃ t, Reads m (m a) t := by
  induction ha with
  | intro a _ ih =>
    obtain ⟨hv, _⟩ := hwf a haN hta
    by_cases hs : m a = .ref a
    · exact ⟨_, by rw [hs]; exact .var hs⟩
    · refine reads_of_kids _ hv ?_
      intro b hb
      have := kid_valid hv hb
      exact Or.inr (ih b ⟨hs, hb⟩ this.1 this.2.1)

theorem finite_iff {N lssa : Adr} {m : Mem} (hwf : WF N lssa m) : Finite N m ↔ Acyclic N m := by
  constructor
  · intro h a ha hta
    obtain ⟨t, ht⟩ := h a ha hta
    exact Acc.intro a (fun b hb => acc_of_reads ht b hb.2)
  · intro h a ha hta
    exact reads_of_acc hwf a (h a ha hta) ha hta

theorem Finite.reads {N lssa : Adr} {m : Mem} (hf : Finite N m) {w : Cell} (hw : ValidWord N lssa m w) :
    ∃ t, Reads m w t :=
  reads_of_kids w hw (fun b hb => Or.inr (hf b (kid_valid hw hb).1 (kid_valid hw hb).2.1))

theorem reads_unique {m : Mem} {w : Cell} {t t' : T} (h : Reads m w t) (h' : Reads m w t') : t = t' := by
  induction h generalizing t' with
  | var h => cases h' with
    | var h1 => rfl
    | bound h1 h2 => exact absurd h h1
  | bound h _ ih => cases h' with
    | var h1 => exact absurd h1 h
    | bound h1 h2 => exact ih h2
  | atm => cases h'; rfl
  | int => cases h'; rfl
  | flt h hn => cases h' with
    | flt h1 hn1 => rw [h] at h1; simp only [Cell.raw.injEq] at h1; rw [h1]
    | nan h1 hn1 => rw [h] at h1; simp only [Cell.raw.injEq] at h1; subst h1; rw [hn] at hn1; simp at hn1
  | nan h hn => cases h' with
    | nan h1 hn1 => rfl
    | flt h1 hn1 => rw [h] at h1; simp only [Cell.raw.injEq] at h1; subst h1; rw [hn] at hn1; simp at hn1
  | lst h1 h2 ih1 ih2 => cases h' with
    | lst k1 k2 => rw [ih1 k1, ih2 k2]
  | stc h h1 ih => cases h' with
    | stc k k1 =>
      rw [h] at k
      simp only [Cell.fn.injEq] at k
      obtain ⟨rfl, rfl⟩ := k
      congr 1
      apply List.map_congr_left
      intro i hi
      have hi := List.mem_range.mp hi
      exact ih i hi (k1 i hi)

/-! Termination -/

theorem occursArgs_total {m : Mem} (rec : Cell → Option Bool) (k : Nat) (a : Adr) (hk : 0 < k)
    (h : ∀ i, i < k → ∃ b, rec (m (a + i)) = some b) : ∃ b, occursArgs rec m k a = some b := by
  fun_induction occursArgs rec m k a with
  | case1 => omega
  | case2 a => exact h 0 (by omega)
  | case3 k a hr ih =>
    refine ih (by omega) (fun i hi => ?_)
    have := h (i + 1) (by omega)
    rwa [show a + 1 + i = a + (i + 1) by omega]
  | case4 k a hr => exact h 0 (by omega)

theorem occurs_total {N lssa : Adr} {m : Mem} (hwf : WF N lssa m) {ρ : Adr → T} (hρ : Model N m ρ) (x : Adr) (n : Nat)
    (w : Cell) (hw : ValidWord N lssa m w) (hn : sizeOf (eval m ρ w) < n) : ∃ b, occurs m x n w = some b := by
  induction n generalizing w with
  | zero => omega
  | succ n ih =>
    obtain ⟨w', h1, h2, h3, h4⟩ := deref_spec hwf w hw
    rw [h4 ρ hρ] at hn
    rw [occurs, h1]
    cases w' with
    | ref a => exact ⟨_, rfl⟩
    | lst a =>
      simp only
      obtain ⟨a1, a2, a3, a4⟩ := h2
      simp only [Unify.eval, T.lst.sizeOf_spec] at hn
      obtain ⟨b, hb⟩ := ih (m a) (hwf _ (by omega) a3).1 (by rw [← hρ _ (by omega) a3]; omega)
      obtain ⟨c, hc⟩ := ih (m (a + 1)) (hwf _ a1 a4).1 (by rw [← hρ _ a1 a4]; omega)
      rw [hb]
      cases b with
      | true => exact ⟨_, rfl⟩
      | false => exact ⟨c, hc⟩
    | stc a =>
      simp only
      obtain ⟨f, k, hf, hk0, hkN, hkl, hkt⟩ := h2
      rw [hf]
      simp only
      refine occursArgs_total _ _ _ hk0 (fun i hi => ?_)
      have := size_arg hf ρ i hi
      exact ih _ (hwf _ (by omega) (hkt i hi)).1 (by rw [← hρ _ (by omega) (hkt i hi)]; omega)
    | _ => exact ⟨_, rfl⟩

theorem bindTo_total {N : Adr} {oc : Bool} {s : St} (hwf : WF N s.lssa s.mem) {ρ : Adr → T} (hρ : Model N s.mem ρ)
    (x : Adr) (n : Nat) (w : Cell) (hw : ValidWord N s.lssa s.mem w) (hn : sizeOf (eval s.mem ρ w) < n) :
    ∃ r s', bindTo oc n s x w = some (r, s') := by
  unfold bindTo
  by_cases hc : oc = true ∧ s.isLocal x = false
  · rw [if_pos hc]
    obtain ⟨b, hb⟩ := occurs_total hwf hρ x n w hw hn
    rw [hb]
    cases b <;> exact ⟨_, _, rfl⟩
  · rw [if_neg hc]; exact ⟨_, _, rfl⟩

/-- A terminating call under an equation satisfied by a valuation succeeds. -/
theorem Res.true_of {N : Adr} {oc : Bool} {s s' : St} {P : (Adr → T) → Prop} {r : Bool} (h : Res N oc s P r s')
    {ρ : Adr → T} (hρ : Model N s.mem ρ) (hp : P ρ) : r = true ∧ Model N s'.mem ρ := by
  cases r with
  | true => exact ⟨rfl, (h.sol rfl ρ).mpr ⟨hρ, hp⟩⟩
  | false => exact absurd hp (h.fail rfl ρ hρ)

theorem unifyArgs_solved {N lssa : Adr} {oc : Bool} {rec : St → Cell → Cell → Option (Bool × St)}
    (hrec : RecOk N lssa oc rec) (ρ : Adr → T) (k : Nat) (s : St) (a b : Adr) (hk : 0 < k) (hl : s.lssa = lssa)
    (hwf : WF N lssa s.mem) (hρ : Model N s.mem ρ)
    (ha : ∀ i, i < k → a + i < N ∧ isTerm (s.mem (a + i)) = true)
    (hb : ∀ i, i < k → b + i < N ∧ isTerm (s.mem (b + i)) = true)
    (heq : ∀ i, i < k → ρ (a + i) = ρ (b + i))
    (hcall : ∀ i, i < k → ∀ s1 : St, s1.lssa = lssa → WF N lssa s1.mem → Model N s1.mem ρ → Same s.mem s1.mem →
      ∃ r s', rec s1 (s1.mem (a + i)) (s1.mem (b + i)) = some (r, s')) :
    ∃ r s', unifyArgs rec k s a b = some (r, s') := by
  fun_induction unifyArgs rec k s a b with
  | case1 => omega
  | case2 s a b => exact hcall 0 (by omega) s hl hwf hρ (Same.refl _)
  | case3 k s a b s1 hr ih =>
    have ha0 := ha 0 (by omega)
    have hb0 := hb 0 (by omega)
    have h1 := cell_res hrec hl hwf ha0.1 hb0.1 ha0.2 hb0.2 hr
    have hl1 : s1.lssa = lssa := h1.regs.2.2.2.trans hl
    have hρ1 := (h1.true_of hρ (heq 0 (by omega))).2
    refine ih (by omega) hl1 (by have := h1.wf; rwa [hl] at this) hρ1 ?_ ?_ ?_ ?_
    · intro i hi
      have := ha (i + 1) (by omega)
      rw [show a + 1 + i = a + (i + 1) by omega, h1.same.isTerm]
      exact this
    · intro i hi
      have := hb (i + 1) (by omega)
      rw [show b + 1 + i = b + (i + 1) by omega, h1.same.isTerm]
      exact this
    · intro i hi
      have := heq (i + 1) (by omega)
      rwa [show a + 1 + i = a + (i + 1) by omega, show b + 1 + i = b + (i + 1) by omega]
    · intro i hi s2 k1 k2 k3 k4
      have := hcall (i + 1) (by omega) s2 k1 k2 k3 (h1.same.trans k4)
      rwa [show a + 1 + i = a + (i + 1) by omega, show b + 1 + i = b + (i + 1) by omega]
  | case4 k s a b hne => exact hcall 0 (by omega) s hl hwf hρ (Same.refl _)

theorem unifyNonVar_total {N lssa : Adr} {fd : FdHooks} {rec : St → Cell → Cell → Option (Bool × St)} (s : St)
    (u v : Cell) (hu : ValidWord N lssa s.mem u) (hv : ValidWord N lssa s.mem v) (hun : ∀ a, u ≠ .ref a)
    (hvn : ∀ a, v ≠ .ref a)
    (hlst : ∀ a b, u = .lst a → v = .lst b → (∃ r s', rec s (s.mem a) (s.mem b) = some (r, s')) ∧
      ∀ s1, rec s (s.mem a) (s.mem b) = some (true, s1) →
        ∃ r s', rec s1 (s1.mem (a + 1)) (s1.mem (b + 1)) = some (r, s'))
    (hstc : ∀ a b f k, u = .stc a → v = .stc b → s.mem a = .fn f k → s.mem b = .fn f k →
      ∃ r s', unifyArgs rec k s (a + 1) (b + 1) = some (r, s')) :
    ∃ r s', unifyNonVar fd rec s u v = some (r, s') := by
  unfold unifyNonVar
  by_cases he : u = v
  · rw [if_pos he]; exact ⟨_, _, rfl⟩
  · rw [if_neg he]
    cases u with
    | ref a => exact absurd rfl (hun a)
    | fdv a => exact hu.elim
    | fn f n => exact hu.elim
    | raw x => exact hu.elim
    | lst a =>
      cases v with
      | ref a => exact absurd rfl (hvn a)
      | fdv a => exact hv.elim
      | fn f n => exact hv.elim
      | raw x => exact hv.elim
      | lst b =>
        obtain ⟨⟨r, s1, h1⟩, h2⟩ := hlst a b rfl rfl
        simp only
        rw [h1]
        cases r with
        | true => exact h2 s1 h1
        | false => exact ⟨_, _, rfl⟩
      | _ => exact ⟨_, _, rfl⟩
    | stc a =>
      cases v with
      | ref a => exact absurd rfl (hvn a)
      | fdv a => exact hv.elim
      | fn f n => exact hv.elim
      | raw x => exact hv.elim
      | stc b =>
        simp only
        obtain ⟨f, n, u1, _⟩ := hu
        by_cases hf : s.mem a ≠ s.mem b
        · rw [if_pos hf]; exact ⟨_, _, rfl⟩
        · rw [if_neg hf]
          simp only [ne_eq, Decidable.not_not] at hf
          rw [u1]
          exact hstc a b f n rfl rfl u1 (hf ▸ u1)
      | _ => exact ⟨_, _, rfl⟩
    | flt a =>
      cases v with
      | ref a => exact absurd rfl (hvn a)
      | fdv a => exact hv.elim
      | fn f n => exact hv.elim
      | raw x => exact hv.elim
      | flt b =>
        obtain ⟨x, hx⟩ := hu
        obtain ⟨y, hy⟩ := hv
        simp only [hx, hy]
        exact ⟨_, _, rfl⟩
      | _ => exact ⟨_, _, rfl⟩
    | atm i =>
      cases v with
      | ref a => exact absurd rfl (hvn a)
      | fdv a => exact hv.elim
      | fn f n => exact hv.elim
      | raw x => exact hv.elim
      | _ => exact ⟨_, _, rfl⟩
    | int i =>
      cases v with
      | ref a => exact absurd rfl (hvn a)
      | fdv a => exact hv.elim
      | fn f n => exact hv.elim
      | raw x => exact hv.elim
      | _ => exact ⟨_, _, rfl⟩

/-- With a finite solution, the unification terminates (and succeeds, by `Res.true_of`). -/
theorem unify_solved {N lssa : Adr} {oc : Bool} {fd : FdHooks} {ρ : Adr → T} (n : Nat) (s : St) (u v : Cell)
    (hl : s.lssa = lssa) (hwf : WF N lssa s.mem) (hu : ValidWord N lssa s.mem u) (hv : ValidWord N lssa s.mem v)
    (hρ : Model N s.mem ρ) (heq : eval s.mem ρ u = eval s.mem ρ v) (hn : sizeOf (eval s.mem ρ u) + 1 < n) :
    ∃ r s', unify oc fd n s u v = some (r, s') := by
  induction n generalizing s u v with
  | zero => omega
  | succ n ih =>
    obtain ⟨u', a1, a2, a3, a4⟩ := deref_spec hwf u hu
    obtain ⟨v', b1, b2, b3, b4⟩ := deref_spec hwf v hv
    rw [a4 ρ hρ, b4 ρ hρ] at heq
    rw [a4 ρ hρ] at hn
    have hwf' : WF N s.lssa s.mem := by rw [hl]; exact hwf
    rw [unify, a1, b1]
    have cell : ∀ (s1 : St) (a b : Adr), s1.lssa = lssa → WF N lssa s1.mem → Model N s1.mem ρ → a < N → b < N →
        isTerm (s1.mem a) = true → isTerm (s1.mem b) = true → ρ a = ρ b → sizeOf (ρ a) + 1 < n →
        ∃ r s', unify oc fd n s1 (s1.mem a) (s1.mem b) = some (r, s') := by
      intro s1 a b hl1 hwf1 hρ1 ha hb hta htb he hs
      refine ih s1 _ _ hl1 hwf1 (hwf1 a ha hta).1 (hwf1 b hb htb).1 hρ1 ?_ ?_
      · rw [← hρ1 a ha hta, ← hρ1 b hb htb]; exact he
      · rw [← hρ1 a ha hta]; exact hs
    cases hu' : u' with
    | ref a =>
      subst hu'
      cases hv' : v' with
      | ref b =>
        simp only
        by_cases h1 : a > b
        · rw [if_pos h1]; exact ⟨_, _, rfl⟩
        · rw [if_neg h1]
          by_cases h2 : b > a
          · rw [if_pos h2]; exact ⟨_, _, rfl⟩
          · rw [if_neg h2]; exact ⟨_, _, rfl⟩
      | _ =>
        rw [← hv']
        have := bindTo_total (oc := oc) hwf' hρ a n v' (by rw [hl]; exact b2) (by rw [← heq]; omega)
        subst hv'
        exact this
    | _ =>
      cases hv' : v' with
      | ref b =>
        have := bindTo_total (oc := oc) hwf' hρ b n u' (by rw [hl]; exact a2) (by omega)
        subst hu'
        exact this
      | _ =>
        have := unifyNonVar_total (fd := fd) (rec := unify oc fd n) s u' v' a2 b2
          (fun a h => by rw [hu'] at h; simp at h) (fun a h => by rw [hv'] at h; simp at h) ?_ ?_
        · subst hu' hv'; exact this
        · rintro a b h1 h2
          rw [h1] at a2 heq hn
          rw [h2] at b2 heq
          obtain ⟨c1, c2, c3, c4⟩ := a2
          obtain ⟨d1, d2, d3, d4⟩ := b2
          simp only [Unify.eval, T.lst.injEq] at heq
          simp only [Unify.eval, T.lst.sizeOf_spec] at hn
          refine ⟨cell s a b hl hwf hρ (by omega) (by omega) c3 d3 heq.1 (by omega), ?_⟩
          intro s1 hs1
          have hres := cell_res (unify_res n) hl hwf (show a < N by omega) (show b < N by omega) c3 d3 hs1
          exact cell s1 (a + 1) (b + 1) (hres.regs.2.2.2.trans hl) (by have := hres.wf; rwa [hl] at this)
            (hres.true_of hρ heq.1).2 c1 d1 (by rw [hres.same.isTerm]; exact c4) (by rw [hres.same.isTerm]; exact d4)
            heq.2 (by omega)
        · rintro a b f k h1 h2 hf1 hf2
          rw [h1] at a2 heq hn
          rw [h2] at b2 heq
          obtain ⟨f', k', c1, c2, c3, c4, c5⟩ := a2
          obtain ⟨f'', k'', d1, d2, d3, d4, d5⟩ := b2
          rw [hf1] at c1
          rw [hf2] at d1
          simp only [Cell.fn.injEq] at c1 d1
          obtain ⟨rfl, rfl⟩ := c1
          obtain ⟨rfl, rfl⟩ := d1
          have heq' : ∀ i, i < k → ρ (a + 1 + i) = ρ (b + 1 + i) := by
            rw [eval_stc hf1, eval_stc hf2] at heq
            simpa using heq
          refine unifyArgs_solved (unify_res n) ρ k s (a + 1) (b + 1) c2 hl hwf hρ
            (fun i hi => ⟨by omega, c5 i hi⟩) (fun i hi => ⟨by omega, d5 i hi⟩) heq' ?_
          intro i hi s1 k1 k2 k3 k4
          have := size_arg hf1 ρ i hi
          exact cell s1 _ _ k1 k2 k3 (by omega) (by omega) (by rw [k4.isTerm]; exact c5 i hi)
            (by rw [k4.isTerm]; exact d5 i hi) (heq' i hi) (by omega)

/-! More fuel -/

theorem occursArgs_mono {m : Mem} {rec rec' : Cell → Option Bool} (hrr : ∀ w b, rec w = some b → rec' w = some b)
    (k : Nat) (a : Adr) (b : Bool) (h : occursArgs rec m k a = some b) : occursArgs rec' m k a = some b := by
  fun_induction occursArgs rec m k a with
  | case1 => simp at h
  | case2 a => exact hrr _ _ h
  | case3 k a hr ih => rw [occursArgs, hrr _ _ hr]; exact ih h
  | case4 k a hr =>
    cases b with
    | false => exact absurd h hr
    | true => rw [occursArgs, hrr _ _ h]

theorem occurs_mono {m : Mem} {x : Adr} (n : Nat) (w : Cell) (b : Bool) (h : occurs m x n w = some b) :
    occurs m x (n + 1) w = some b := by
  induction n generalizing w b with
  | zero => simp [occurs] at h
  | succ n ih =>
    rw [occurs] at h ⊢
    cases hd : deref m w with
    | none => rw [hd] at h; simp at h
    | some w' =>
      rw [hd] at h
      cases w' with
      | lst a =>
        simp only at h ⊢
        cases h1 : occurs m x n (m a) with
        | none => rw [h1] at h; simp at h
        | some c =>
          rw [h1] at h
          rw [ih _ _ h1]
          cases c with
          | true => exact h
          | false => exact ih _ _ h
      | stc a =>
        simp only at h ⊢
        cases hf : m a with
        | fn f k => rw [hf] at h; exact occursArgs_mono (fun w b h => ih w b h) k _ b h
        | _ => rw [hf] at h; simp at h
      | _ => exact h

/-- `rec'` terminates at least when `rec` does, with the same result. -/
def RecLe (rec rec' : St → Cell → Cell → Option (Bool × St)) : Prop :=
  ∀ s u v r, rec s u v = some r → rec' s u v = some r

theorem unifyArgs_mono {rec rec' : St → Cell → Cell → Option (Bool × St)} (hrr : RecLe rec rec')
    (k : Nat) (s : St) (a b : Adr) (r : Bool × St) (h : unifyArgs rec k s a b = some r) :
    unifyArgs rec' k s a b = some r := by
  fun_induction unifyArgs rec k s a b with
  | case1 => simp at h
  | case2 s a b => exact hrr _ _ _ _ h
  | case3 k s a b s1 hr ih => rw [unifyArgs, hrr _ _ _ _ hr]; exact ih h
  | case4 k s a b hne =>
    rw [unifyArgs, hrr _ _ _ _ h]
    obtain ⟨r1, r2⟩ := r
    cases r1 with
    | true => exact absurd h (hne r2)
    | false => rfl

theorem unifyNonVar_mono {fd : FdHooks} {rec rec' : St → Cell → Cell → Option (Bool × St)} (hrr : RecLe rec rec')
    (s : St) (u v : Cell) (r : Bool × St) (h : unifyNonVar fd rec s u v = some r) :
    unifyNonVar fd rec' s u v = some r := by
  unfold unifyNonVar at h ⊢
  by_cases he : u = v
  · rw [if_pos he] at h ⊢; exact h
  · rw [if_neg he] at h ⊢
    cases v with
    | lst b =>
      cases u with
      | lst a =>
        simp only at h ⊢
        cases h1 : rec s (s.mem a) (s.mem b) with
        | none => rw [h1] at h; simp at h
        | some r1 =>
          rw [h1] at h
          rw [hrr _ _ _ _ h1]
          obtain ⟨r1, s1⟩ := r1
          cases r1 with
          | true => exact hrr _ _ _ _ h
          | false => exact h
      | _ => exact h
    | stc b =>
      cases u with
      | stc a =>
        simp only at h ⊢
        by_cases hf : s.mem a ≠ s.mem b
        · rw [if_pos hf] at h ⊢; exact h
        · rw [if_neg hf] at h ⊢
          cases hfn : s.mem a with
          | fn f k => rw [hfn] at h; exact unifyArgs_mono hrr k s _ _ r h
          | _ => rw [hfn] at h; simp at h
      | _ => exact h
    | _ => cases u <;> exact h

theorem bindTo_mono {oc : Bool} {n : Nat} {s : St} {x : Adr} {w : Cell} {r : Bool × St}
    (h : bindTo oc n s x w = some r) : bindTo oc (n + 1) s x w = some r := by
  unfold bindTo at h ⊢
  by_cases hc : oc = true ∧ s.isLocal x = false
  · rw [if_pos hc] at h ⊢
    cases ho : occurs s.mem x n w with
    | none => rw [ho] at h; simp at h
    | some b => rw [ho] at h; rw [occurs_mono n w b ho]; exact h
  · rw [if_neg hc] at h ⊢; exact h

theorem unify_mono1 {oc : Bool} {fd : FdHooks} (n : Nat) : RecLe (unify oc fd n) (unify oc fd (n + 1)) := by
  induction n with
  | zero => intro s u v r h; simp [unify] at h
  | succ n ih =>
    intro s u v r h
    rw [unify] at h ⊢
    cases hu : deref s.mem u with
    | none => rw [hu] at h; simp at h
    | some u' =>
      cases hv : deref s.mem v with
      | none => rw [hu, hv] at h; cases u' <;> simp at h
      | some v' =>
        rw [hu, hv] at h
        cases u' with
        | ref a =>
          cases v' with
          | ref b => exact h
          | _ => exact bindTo_mono h
        | _ =>
          cases v' with
          | ref b => exact bindTo_mono h
          | _ => exact unifyNonVar_mono ih _ _ _ _ h

theorem unify_mono {oc : Bool} {fd : FdHooks} {n k : Nat} (hk : n ≤ k) : RecLe (unify oc fd n) (unify oc fd k) := by
  induction k with
  | zero => have : n = 0 := by omega
            subst this; intro s u v r h; exact h
  | succ k ih =>
    by_cases h : n = k + 1
    · subst h; intro s u v r h; exact h
    · intro s u v r h1; exact unify_mono1 k s u v r (ih (by omega) s u v r h1)

/-- The result does not depend on the fuel. -/
theorem unify_det {oc : Bool} {fd : FdHooks} {n k : Nat} {s : St} {u v : Cell} {r r' : Bool × St}
    (h : unify oc fd n s u v = some r) (h' : unify oc fd k s u v = some r') : r = r' := by
  have h1 := unify_mono (Nat.le_max_left n k) s u v r h
  have h2 := unify_mono (Nat.le_max_right n k) s u v r' h'
  rw [h1] at h2
  exact Option.some.inj h2

/-! Termination with the occurs check -/

/-- Number of unbound cells. -/
def unb (N : Adr) (m : Mem) : Nat := ((List.range N).filter fun a => decide (m a = .ref a)).length

theorem unb_lt {N : Adr} {m m' : Mem} (h : ∀ a, m' a ≠ m a → m a = .ref a ∧ a < N) : m' = m ∨ unb N m' < unb N m := by
  by_cases he : m' = m
  · exact Or.inl he
  · right
    have : ∃ a, m' a ≠ m a := by
      apply Classical.byContradiction
      intro hc
      simp only [not_exists, ne_eq, Decidable.not_not] at hc
      exact he (funext hc)
    obtain ⟨a, ha⟩ := this
    obtain ⟨h1, h2⟩ := h a ha
    have hsub : ∀ b, m' b = .ref b → m b = .ref b := by
      intro b hb
      by_cases hc : m' b = m b
      · rw [← hc, hb]
      · exact (h b hc).1
    unfold unb
    rw [← List.countP_eq_length_filter, ← List.countP_eq_length_filter]
    have hle : ∀ l : List Nat, l.countP (fun a => decide (m' a = .ref a)) ≤ l.countP (fun a => decide (m a = .ref a)) := by
      intro l
      apply List.countP_mono_left
      intro b _ hb
      simp only [decide_eq_true_eq] at hb ⊢
      exact hsub b hb
    obtain ⟨l1, l2, hl⟩ := List.append_of_mem (List.mem_range.mpr h2)
    rw [hl]
    simp only [List.countP_append, List.countP_cons]
    have e1 := hle l1
    have e2 := hle l2
    have e3 : decide (m a = .ref a) = true := by simpa using h1
    have e4 : decide (m' a = .ref a) = false := by simpa using fun h => ha (h.trans h1.symm)
    rw [e3, e4]
    simp
    omega

/-- States which may follow `s` during a unification. -/
structure Later (N : Adr) (s s1 : St) : Prop where
  lssa : s1.lssa = s.lssa
  wf : WF N s.lssa s1.mem
  acyc : Acyclic N s1.mem
  same : Same s.mem s1.mem
  prog : s1.mem = s.mem ∨ unb N s1.mem < unb N s.mem

theorem Later.trans {N : Adr} {s s1 s2 : St} (h : Later N s s1) (h' : Later N s1 s2) : Later N s s2 where
  lssa := h'.lssa.trans h.lssa
  wf := by have := h'.wf; rwa [h.lssa] at this
  acyc := h'.acyc
  same := h.same.trans h'.same
  prog := by
    rcases h.prog with a | a <;> rcases h'.prog with b | b
    · exact Or.inl (b.trans a)
    · right; rw [← a]; exact b
    · right; rw [b]; exact a
    · right; omega

theorem Res.later {N : Adr} {s s' : St} {P : (Adr → T) → Prop} {r : Bool} (h : Res N true s P r s')
    (hac : Acyclic N s.mem) : Later N s s' where
  lssa := h.regs.2.2.2
  wf := h.wf
  acyc := h.acyc rfl hac
  same := h.same
  prog := unb_lt h.keeps

theorem Later.self {N : Adr} {s : St} (hwf : WF N s.lssa s.mem) (hac : Acyclic N s.mem) : Later N s s :=
  ⟨rfl, hwf, hac, Same.refl _, Or.inl rfl⟩

theorem unifyArgs_total {N lssa : Adr} {fd : FdHooks} (k : Nat) (s : St) (a b : Adr) (hk : 0 < k) (hl : s.lssa = lssa)
    (hwf : WF N lssa s.mem) (hac : Acyclic N s.mem)
    (ha : ∀ i, i < k → a + i < N ∧ isTerm (s.mem (a + i)) = true)
    (hb : ∀ i, i < k → b + i < N ∧ isTerm (s.mem (b + i)) = true)
    (hcall : ∀ i, i < k → ∀ s1 : St, Later N s s1 →
      ∃ n r s', unify true fd n s1 (s1.mem (a + i)) (s1.mem (b + i)) = some (r, s')) :
    ∃ n r s', unifyArgs (unify true fd n) k s a b = some (r, s') := by
  induction k generalizing s a b with
  | zero => omega
  | succ k ih =>
    have hself : Later N s s := Later.self (by rw [hl]; exact hwf) hac
    obtain ⟨n1, r1, s1, h1⟩ := hcall 0 (by omega) s hself
    cases k with
    | zero => exact ⟨n1, r1, s1, h1⟩
    | succ k =>
      cases r1 with
      | false => exact ⟨n1, false, s1, by rw [unifyArgs]; rw [Nat.add_zero, Nat.add_zero] at h1; rw [h1]⟩
      | true =>
        have ha0 := ha 0 (by omega)
        have hb0 := hb 0 (by omega)
        have hres := cell_res (unify_res (oc := true) n1) hl hwf ha0.1 hb0.1 ha0.2 hb0.2 h1
        have hlat := hres.later hac
        obtain ⟨n2, r2, s2, h2⟩ := ih s1 (a + 1) (b + 1) (by omega) (hlat.lssa.trans hl)
          (by have := hlat.wf; rwa [hl] at this) hlat.acyc
          (by
            intro i hi
            have := ha (i + 1) (by omega)
            rw [show a + 1 + i = a + (i + 1) by omega, hlat.same.isTerm]
            exact this)
          (by
            intro i hi
            have := hb (i + 1) (by omega)
            rw [show b + 1 + i = b + (i + 1) by omega, hlat.same.isTerm]
            exact this)
          (by
            intro i hi s3 hs3
            have := hcall (i + 1) (by omega) s3 (hlat.trans hs3)
            rwa [show a + 1 + i = a + (i + 1) by omega, show b + 1 + i = b + (i + 1) by omega])
        refine ⟨max n1 n2, r2, s2, ?_⟩
        rw [unifyArgs]
        rw [Nat.add_zero, Nat.add_zero] at h1
        rw [unify_mono (Nat.le_max_left n1 n2) _ _ _ _ h1]
        exact unifyArgs_mono (unify_mono (Nat.le_max_right n1 n2)) _ _ _ _ _ h2

theorem unify_total {N lssa : Adr} {fd : FdHooks} (cnt sz : Nat) (s : St) (u v : Cell)
    (hl : s.lssa = lssa) (hwf : WF N lssa s.mem) (hac : Acyclic N s.mem)
    (hu : ValidWord N lssa s.mem u) (hv : ValidWord N lssa s.mem v) (hcnt : unb N s.mem ≤ cnt)
    (hsz : ∃ ρ, Model N s.mem ρ ∧ sizeOf (eval s.mem ρ u) ≤ sz) :
    ∃ n r s', unify true fd n s u v = some (r, s') := by
  induction cnt using Nat.strongRecOn generalizing sz s u v with
  | _ cnt ihc =>
  induction sz using Nat.strongRecOn generalizing s u v with
  | _ sz ihs =>
    obtain ⟨ρ, hρ, hsz⟩ := hsz
    have hwf' : WF N s.lssa s.mem := by rw [hl]; exact hwf
    obtain ⟨u', a1, a2, a3, a4⟩ := deref_spec hwf u hu
    obtain ⟨v', b1, b2, b3, b4⟩ := deref_spec hwf v hv
    rw [a4 ρ hρ] at hsz
    -- a call on two cells in a later state
    have cell : ∀ (s1 : St) (a b : Adr), Later N s s1 → a < N → b < N → isTerm (s1.mem a) = true →
        isTerm (s1.mem b) = true → sizeOf (ρ a) < sz →
        ∃ n r s', unify true fd n s1 (s1.mem a) (s1.mem b) = some (r, s') := by
      intro s1 a b hlat ha hb hta htb hs
      have hwf1 : WF N lssa s1.mem := by have := hlat.wf; rwa [hl] at this
      have hva := (hwf1 a ha hta).1
      have hvb := (hwf1 b hb htb).1
      rcases hlat.prog with he | hlt
      · refine ihs (sizeOf (ρ a)) hs s1 _ _ (hlat.lssa.trans hl) hwf1 hlat.acyc hva hvb (by rw [he]; exact hcnt)
          ⟨ρ, by rw [he]; exact hρ, ?_⟩
        have := hρ a ha (by rw [← he]; exact hta)
        rw [he, ← this]
        exact Nat.le_refl _
      · obtain ⟨ρ1, h1, _⟩ := model_exists hwf1 hlat.acyc T.var
        exact ihc (unb N s1.mem) (by omega) _ s1 _ _ (hlat.lssa.trans hl) hwf1 hlat.acyc hva hvb (Nat.le_refl _)
          ⟨ρ1, h1, Nat.le_refl _⟩
    have hself : Later N s s := Later.self hwf' hac
    suffices H : ∃ n r s', unify true fd (n + 1) s u v = some (r, s') by
      obtain ⟨n, r, s', h⟩ := H; exact ⟨n + 1, r, s', h⟩
    simp only [unify, a1, b1]
    cases hu' : u' with
    | ref a =>
      cases hv' : v' with
      | ref b =>
        simp only
        refine ⟨0, ?_⟩
        by_cases h1 : a > b
        · rw [if_pos h1]; exact ⟨_, _, rfl⟩
        · rw [if_neg h1]
          by_cases h2 : b > a
          · rw [if_pos h2]; exact ⟨_, _, rfl⟩
          · rw [if_neg h2]; exact ⟨_, _, rfl⟩
      | _ =>
        refine ⟨sizeOf (eval s.mem ρ v') + 1, ?_⟩
        have := bindTo_total (oc := true) hwf' hρ a _ v' (by rw [hl]; exact b2) (Nat.lt_succ_self _)
        subst hv'
        exact this
    | _ =>
      cases hv' : v' with
      | ref b =>
        refine ⟨sizeOf (eval s.mem ρ u') + 1, ?_⟩
        have := bindTo_total (oc := true) hwf' hρ b _ u' (by rw [hl]; exact a2) (Nat.lt_succ_self _)
        subst hu'
        exact this
      | _ =>
        have : ∃ n r s', unifyNonVar fd (unify true fd n) s u' v' = some (r, s') := by
          by_cases hll : ∃ a b, u' = .lst a ∧ v' = .lst b
          · obtain ⟨a, b, h1, h2⟩ := hll
            rw [h1] at a2 hsz
            rw [h2] at b2
            obtain ⟨c1, c2, c3, c4⟩ := a2
            obtain ⟨d1, d2, d3, d4⟩ := b2
            simp only [Unify.eval, T.lst.sizeOf_spec] at hsz
            obtain ⟨n1, r1, s1, k1⟩ := cell s a b hself (by omega) (by omega) c3 d3 (by omega)
            have hres := cell_res (unify_res (oc := true) n1) hl hwf (show a < N by omega) (show b < N by omega) c3 d3 k1
            have hlat := hres.later hac
            obtain ⟨n2, r2, s2, k2⟩ := cell s1 (a + 1) (b + 1) hlat c1 d1 (by rw [hlat.same.isTerm]; exact c4)
              (by rw [hlat.same.isTerm]; exact d4) (by omega)
            refine ⟨max n1 n2, unifyNonVar_total s u' v' (by rw [h1]; exact ⟨c1, c2, c3, c4⟩)
              (by rw [h2]; exact ⟨d1, d2, d3, d4⟩)
              (fun a h => by rw [hu'] at h; simp at h) (fun a h => by rw [hv'] at h; simp at h) ?_ ?_⟩
            · intro a' b' e1 e2
              rw [h1] at e1; rw [h2] at e2
              simp only [Cell.lst.injEq] at e1 e2
              subst e1 e2
              have m1 := unify_mono (Nat.le_max_left n1 n2) _ _ _ _ k1
              refine ⟨⟨r1, s1, m1⟩, ?_⟩
              intro s1' hs1'
              rw [m1] at hs1'
              simp only [Option.some.injEq, Prod.mk.injEq] at hs1'
              obtain ⟨_, rfl⟩ := hs1'
              exact ⟨r2, s2, unify_mono (Nat.le_max_right n1 n2) _ _ _ _ k2⟩
            · intro a' b' f k e1; rw [h1] at e1; simp at e1
          · by_cases hss : ∃ a b f k, u' = .stc a ∧ v' = .stc b ∧ s.mem a = .fn f k ∧ s.mem b = .fn f k
            · obtain ⟨a, b, f, k, h1, h2, hf1, hf2⟩ := hss
              rw [h1] at hsz
              have a2' := a2
              have b2' := b2
              rw [h1] at a2'
              rw [h2] at b2'
              obtain ⟨f', k', c1, c2, c3, c4, c5⟩ := a2'
              obtain ⟨f'', k'', d1, d2, d3, d4, d5⟩ := b2'
              rw [hf1] at c1
              rw [hf2] at d1
              simp only [Cell.fn.injEq] at c1 d1
              obtain ⟨rfl, rfl⟩ := c1
              obtain ⟨rfl, rfl⟩ := d1
              obtain ⟨n, r, s', hn⟩ := unifyArgs_total (fd := fd) k s (a + 1) (b + 1) c2 hl hwf hac
                (fun i hi => ⟨by omega, c5 i hi⟩) (fun i hi => ⟨by omega, d5 i hi⟩) (by
                  intro i hi s1 hlat
                  have := size_arg hf1 ρ i hi
                  exact cell s1 _ _ hlat (by omega) (by omega) (by rw [hlat.same.isTerm]; exact c5 i hi)
                    (by rw [hlat.same.isTerm]; exact d5 i hi) (by omega))
              refine ⟨n, unifyNonVar_total s u' v' a2 b2
                (fun a h => by rw [hu'] at h; simp at h) (fun a h => by rw [hv'] at h; simp at h) ?_ ?_⟩
              · intro a' b' e1 e2; rw [h1] at e1; simp at e1
              · intro a' b' f' k' e1 e2 e3 e4
                rw [h1] at e1; rw [h2] at e2
                simp only [Cell.stc.injEq] at e1 e2
                subst e1 e2
                rw [hf1] at e3
                simp only [Cell.fn.injEq] at e3
                obtain ⟨rfl, rfl⟩ := e3
                exact ⟨r, s', hn⟩
            · refine ⟨0, unifyNonVar_total s u' v' a2 b2
                (fun a h => by rw [hu'] at h; simp at h) (fun a h => by rw [hv'] at h; simp at h) ?_ ?_⟩
              · intro a b e1 e2; exact absurd ⟨a, b, e1, e2⟩ hll
              · intro a b f k e1 e2 e3 e4; exact absurd ⟨a, b, f, k, e1, e2, e3, e4⟩ hss
        subst hu' hv'
        exact this

end Gp.Unify
