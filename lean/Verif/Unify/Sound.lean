import Verif.Unify.Lemmas

namespace Gp.Unify
open Gp.Heap
open Gp.Term (isNaN fkey deq)

/-- The result of a unification with the equation `P`. -/
structure Res (N : Adr) (oc : Bool) (s : St) (P : (Adr → T) → Prop) (r : Bool) (s' : St) : Prop where
  same : Same s.mem s'.mem
  wf : WF N s.lssa s'.mem
  regs : s'.h = s.h ∧ s'.hb1 = s.hb1 ∧ s'.b = s.b ∧ s'.lssa = s.lssa
  sol : r = true → ∀ ρ, Model N s'.mem ρ ↔ (Model N s.mem ρ ∧ P ρ)
  fail : r = false → ∀ ρ, Model N s.mem ρ → ¬ P ρ
  keeps : ∀ a, s'.mem a ≠ s.mem a → s.mem a = .ref a ∧ a < N
  acyc : oc = true → Acyclic N s.mem → Acyclic N s'.mem
  trail : ∃ new : List Adr, s'.trail = new.map TrRec.uv ++ s.trail ∧
    (∀ x ∈ new, s.mem x = .ref x ∧ s'.mem x ≠ .ref x) ∧
    (∀ a, s'.mem a ≠ s.mem a → (a ∈ new ↔ s.needsTrailing a = true))

theorem Res.congr {N : Adr} {oc : Bool} {s s' : St} {P Q : (Adr → T) → Prop} {r : Bool} (h : Res N oc s P r s')
    (hpq : ∀ ρ, Model N s.mem ρ → (P ρ ↔ Q ρ)) : Res N oc s Q r s' :=
  { h with
    sol := fun hr ρ => by
      rw [h.sol hr]
      constructor
      · rintro ⟨h1, h2⟩; exact ⟨h1, (hpq ρ h1).mp h2⟩
      · rintro ⟨h1, h2⟩; exact ⟨h1, (hpq ρ h1).mpr h2⟩
    fail := fun hr ρ hm hq => h.fail hr ρ hm ((hpq ρ hm).mpr hq) }

theorem Res.id {N : Adr} {oc : Bool} {s : St} {P : (Adr → T) → Prop} {r : Bool} (hwf : WF N s.lssa s.mem)
    (h : ∀ ρ, Model N s.mem ρ → (P ρ ↔ r = true)) : Res N oc s P r s where
  same := Same.refl _
  wf := hwf
  regs := ⟨rfl, rfl, rfl, rfl⟩
  sol := fun hr ρ => ⟨fun hm => ⟨hm, (h ρ hm).mpr hr⟩, fun hm => hm.1⟩
  fail := fun hr ρ hm hp => by rw [(h ρ hm).mp hp] at hr; simp at hr
  keeps := fun a ha => absurd rfl ha
  acyc := fun _ h => h
  trail := ⟨[], rfl, by simp, fun a ha => absurd rfl ha⟩

theorem needsTrailing_eq {s s' : St} (h : s'.h = s.h ∧ s'.hb1 = s.hb1 ∧ s'.b = s.b ∧ s'.lssa = s.lssa) (a : Adr) :
    s'.needsTrailing a = s.needsTrailing a := by
  obtain ⟨h1, h2, h3, h4⟩ := h
  simp only [St.needsTrailing, St.isLocal, h2, h3, h4]

theorem Res.seq {N : Adr} {oc : Bool} {s s1 s2 : St} {P Q : (Adr → T) → Prop} {r : Bool} (h : Res N oc s P true s1)
    (h' : Res N oc s1 Q r s2) : Res N oc s (fun ρ => P ρ ∧ Q ρ) r s2 where
  same := h.same.trans h'.same
  wf := by have := h'.wf; rwa [h.regs.2.2.2] at this
  regs := by
    obtain ⟨a1, a2, a3, a4⟩ := h.regs
    obtain ⟨b1, b2, b3, b4⟩ := h'.regs
    exact ⟨b1.trans a1, b2.trans a2, b3.trans a3, b4.trans a4⟩
  sol := fun hr ρ => by rw [h'.sol hr, h.sol rfl, and_assoc]
  fail := fun hr ρ hm hp => h'.fail hr ρ ((h.sol rfl ρ).mpr ⟨hm, hp.1⟩) hp.2
  keeps := by
    intro a ha
    by_cases h1 : s1.mem a = s.mem a
    · rw [← h1] at ha ⊢
      exact h'.keeps a ha
    · exact h.keeps a h1
  acyc := fun ho ha => h'.acyc ho (h.acyc ho ha)
  trail := by
    obtain ⟨n1, a1, a2, a3⟩ := h.trail
    obtain ⟨n2, b1, b2, b3⟩ := h'.trail
    refine ⟨n2 ++ n1, by rw [b1, a1, List.map_append, List.append_assoc], ?_, ?_⟩
    · intro x hx
      rcases List.mem_append.mp hx with hx | hx
      · obtain ⟨c1, c2⟩ := b2 x hx
        refine ⟨?_, c2⟩
        by_cases h1 : s1.mem x = s.mem x
        · rw [← h1]; exact c1
        · exact (h.keeps x h1).1
      · obtain ⟨c1, c2⟩ := a2 x hx
        refine ⟨c1, ?_⟩
        by_cases h1 : s2.mem x = s1.mem x
        · rw [h1]; exact c2
        · exact absurd (h'.keeps x h1).1 c2
    · intro a ha
      by_cases h1 : s1.mem a = s.mem a
      · rw [← h1] at ha
        rw [← needsTrailing_eq h.regs a, ← b3 a ha]
        simp only [List.mem_append]
        constructor
        · rintro (h2 | h2)
          · exact h2
          · obtain ⟨c1, c2⟩ := a2 a h2
            rw [h1, c1] at c2
            exact absurd rfl c2
        · exact Or.inl
      · rw [← a3 a h1]
        simp only [List.mem_append]
        constructor
        · rintro (h2 | h2)
          · obtain ⟨c1, c2⟩ := b2 a h2
            exact absurd (c1.trans (h.keeps a h1).1.symm) h1
          · exact h2
        · exact Or.inr

theorem Res.failFirst {N : Adr} {oc : Bool} {s s1 : St} {P Q : (Adr → T) → Prop} (h : Res N oc s P false s1) :
    Res N oc s (fun ρ => P ρ ∧ Q ρ) false s1 :=
  { h with
    sol := fun hr => by simp at hr
    fail := fun hr ρ hm hp => h.fail hr ρ hm hp.1 }

theorem bind_res {N : Adr} {oc : Bool} {s : St} {x : Adr} {w : Cell} (hwf : WF N s.lssa s.mem) (hx : x < N)
    (hu : s.mem x = .ref x) (hw : ValidWord N s.lssa s.mem w) (hle : ∀ b, w = .ref b → b < x ∧ s.mem b = .ref b)
    (hac : oc = true → ¬ ReachW s.mem x w) :
    Res N oc s (fun ρ => ρ x = eval s.mem ρ w) true (s.bindUV x w) where
  same := Same.set (by rw [hu]; rfl) (valid_isTerm hw)
  wf := bind_wf hwf hu hw (fun b hb => ⟨(hle b hb).2, fun h => Nat.lt_trans (hle b hb).1 h⟩)
  regs := ⟨rfl, rfl, rfl, rfl⟩
  sol := fun _ ρ => bind_models hwf hx hu hw ρ
  fail := fun h => by simp at h
  keeps := by
    intro a ha
    by_cases h : a = x
    · subst h; exact ⟨hu, hx⟩
    · exact absurd (set_other _ _ _ _ h) ha
  acyc := fun ho ha => bind_acyclic ha hx hu hw (hac ho)
  trail := by
    have hne : (s.mem.set x w) x ≠ .ref x := by
      rw [set_same]; intro h; have := (hle x h).1; omega
    by_cases hn : s.needsTrailing x = true
    · refine ⟨[x], by simp [St.bindUV, hn], by simpa using ⟨hu, hne⟩, ?_⟩
      intro a ha
      by_cases h : a = x
      · subst h; simp [hn]
      · exact absurd (set_other _ _ _ _ h) ha
    · refine ⟨[], by simp [St.bindUV, hn], by simp, ?_⟩
      intro a ha
      by_cases h : a = x
      · subst h; simp [hn]
      · exact absurd (set_other _ _ _ _ h) ha

theorem copyWord_valid {N lssa : Adr} {m : Mem} {w : Cell} (hw : ValidWord N lssa m w) : copyWord w = w := by
  cases w <;> first | rfl | exact hw.elim

theorem bindTo_res {N : Adr} {oc : Bool} {n : Nat} {s : St} {x : Adr} {w : Cell} (hwf : WF N s.lssa s.mem) (hx : x < N)
    (hu : s.mem x = .ref x) (hw : ValidWord N s.lssa s.mem w) (hnr : ∀ a, w ≠ .ref a) (r : Bool) (s' : St)
    (h : bindTo oc n s x w = some (r, s')) : Res N oc s (fun ρ => ρ x = eval s.mem ρ w) r s' := by
  unfold bindTo at h
  rw [copyWord_valid hw] at h
  by_cases hc : oc = true ∧ s.isLocal x = false
  · rw [if_pos hc] at h
    cases ho : occurs s.mem x n w with
    | none => rw [ho] at h; simp at h
    | some b =>
      rw [ho] at h
      cases b with
      | true =>
        simp at h
        obtain ⟨rfl, rfl⟩ := h
        refine Res.id hwf ?_
        intro ρ hρ
        have := (occurs_true hwf x n w hw ho ρ hρ).2 hnr
        simp only [Bool.false_eq_true, iff_false]
        intro he
        rw [he] at this
        omega
      | false =>
        simp at h
        obtain ⟨rfl, rfl⟩ := h
        exact bind_res hwf hx hu hw (fun b hb => absurd hb (hnr b)) (fun _ => occurs_false hwf x hu n w hw ho)
  · rw [if_neg hc] at h
    simp at h
    obtain ⟨rfl, rfl⟩ := h
    refine bind_res hwf hx hu hw (fun b hb => absurd hb (hnr b)) (fun ho => ?_)
    refine local_not_reach hwf ?_ hw hnr
    by_cases hl : s.lssa ≤ x
    · exact hl
    · exact absurd ⟨ho, by simp [St.isLocal, hl]⟩ hc

/-- What the recursive calls satisfy. -/
def RecOk (N lssa : Adr) (oc : Bool) (rec : St → Cell → Cell → Option (Bool × St)) : Prop :=
  ∀ s u v r s', s.lssa = lssa → WF N lssa s.mem → ValidWord N lssa s.mem u → ValidWord N lssa s.mem v →
    rec s u v = some (r, s') → Res N oc s (fun ρ => eval s.mem ρ u = eval s.mem ρ v) r s'

theorem cell_res {N : Adr} {oc : Bool} {rec : St → Cell → Cell → Option (Bool × St)} {lssa : Adr}
    (hrec : RecOk N lssa oc rec) {s s' : St} {a b : Adr} {r : Bool} (hl : s.lssa = lssa)
    (hwf : WF N lssa s.mem) (ha : a < N) (hb : b < N) (hta : isTerm (s.mem a) = true) (htb : isTerm (s.mem b) = true)
    (h : rec s (s.mem a) (s.mem b) = some (r, s')) : Res N oc s (fun ρ => ρ a = ρ b) r s' := by
  refine (hrec s _ _ r s' hl hwf (hwf a ha hta).1 (hwf b hb htb).1 h).congr ?_
  intro ρ hρ
  rw [← hρ a ha hta, ← hρ b hb htb]

theorem unifyArgs_res {N lssa : Adr} {oc : Bool} {rec : St → Cell → Cell → Option (Bool × St)}
    (hrec : RecOk N lssa oc rec) (k : Nat) (s : St) (a b : Adr) (hl : s.lssa = lssa)
    (hwf : WF N lssa s.mem)
    (ha : ∀ i, i < k → a + i < N ∧ isTerm (s.mem (a + i)) = true)
    (hb : ∀ i, i < k → b + i < N ∧ isTerm (s.mem (b + i)) = true) (r : Bool) (s' : St)
    (h : unifyArgs rec k s a b = some (r, s')) :
    Res N oc s (fun ρ => ∀ i, i < k → ρ (a + i) = ρ (b + i)) r s' := by
  fun_induction unifyArgs rec k s a b with
  | case1 => simp at h
  | case2 s a b =>
    have ha0 := ha 0 (by omega)
    have hb0 := hb 0 (by omega)
    refine (cell_res hrec hl hwf ha0.1 hb0.1 ha0.2 hb0.2 h).congr ?_
    intro ρ _
    constructor
    · intro h i hi
      have : i = 0 := by omega
      subst this; exact h
    · intro h; exact h 0 (by omega)
  | case3 k s a b s1 hr ih =>
    have ha0 := ha 0 (by omega)
    have hb0 := hb 0 (by omega)
    have h1 := cell_res hrec hl hwf ha0.1 hb0.1 ha0.2 hb0.2 hr
    have hl1 : s1.lssa = lssa := h1.regs.2.2.2.trans hl
    have h2 := ih hl1 (by have := h1.wf; rwa [hl] at this)
      (by
        intro i hi
        have := ha (i + 1) (by omega)
        rw [show a + 1 + i = a + (i + 1) by omega, h1.same.isTerm]
        exact this)
      (by
        intro i hi
        have := hb (i + 1) (by omega)
        rw [show b + 1 + i = b + (i + 1) by omega, h1.same.isTerm]
        exact this) h
    refine (h1.seq h2).congr ?_
    intro ρ _
    constructor
    · rintro ⟨h3, h4⟩ i hi
      cases i with
      | zero => exact h3
      | succ i =>
        have := h4 i (by omega)
        rwa [show a + 1 + i = a + (i + 1) by omega, show b + 1 + i = b + (i + 1) by omega] at this
    · intro h3
      refine ⟨h3 0 (by omega), fun i hi => ?_⟩
      have := h3 (i + 1) (by omega)
      rwa [show a + 1 + i = a + (i + 1) by omega, show b + 1 + i = b + (i + 1) by omega]
  | case4 k s a b hne =>
    have ha0 := ha 0 (by omega)
    have hb0 := hb 0 (by omega)
    cases r with
    | true => exact absurd h (hne s')
    | false =>
      have h1 := cell_res hrec hl hwf ha0.1 hb0.1 ha0.2 hb0.2 h
      refine (h1.failFirst (Q := fun ρ => ∀ i, i < k + 2 → ρ (a + i) = ρ (b + i))).congr ?_
      intro ρ _
      exact ⟨fun h => h.2, fun h => ⟨h 0 (by omega), h⟩⟩

theorem unifyNonVar_res {N lssa : Adr} {oc : Bool} {fd : FdHooks} {rec : St → Cell → Cell → Option (Bool × St)}
    (hrec : RecOk N lssa oc rec) (s : St) (u v : Cell) (hl : s.lssa = lssa) (hwf : WF N lssa s.mem)
    (hu : ValidWord N lssa s.mem u) (hv : ValidWord N lssa s.mem v) (hun : ∀ a, u ≠ .ref a) (hvn : ∀ a, v ≠ .ref a)
    (r : Bool) (s' : St) (h : unifyNonVar fd rec s u v = some (r, s')) :
    Res N oc s (fun ρ => eval s.mem ρ u = eval s.mem ρ v) r s' := by
  have hwf' : WF N s.lssa s.mem := by rw [hl]; exact hwf
  unfold unifyNonVar at h
  by_cases he : u = v
  · rw [if_pos he] at h
    simp at h
    obtain ⟨rfl, rfl⟩ := h
    exact Res.id hwf' (fun ρ _ => by simp [he])
  · rw [if_neg he] at h
    have no : ∀ (hne : ∀ ρ, eval s.mem ρ u ≠ eval s.mem ρ v), (some (false, s) = some (r, s')) →
        Res N oc s (fun ρ => eval s.mem ρ u = eval s.mem ρ v) r s' := by
      intro hne h
      simp at h
      obtain ⟨rfl, rfl⟩ := h
      exact Res.id hwf' (fun ρ _ => by simp [hne ρ])
    have evf : ∀ a, ValidWord N lssa s.mem (.flt a) → ∀ ρ,
        (∃ k, eval s.mem ρ (.flt a) = .flt k) ∨ eval s.mem ρ (.flt a) = .nan a := by
      rintro a ⟨x, hx⟩ ρ
      simp only [Unify.eval, hx]
      by_cases hn : isNaN x = true
      · rw [if_pos hn]; exact Or.inr rfl
      · rw [if_neg hn]; exact Or.inl ⟨_, rfl⟩
    have evs : ∀ a, ValidWord N lssa s.mem (.stc a) → ∀ ρ, ∃ f l, eval s.mem ρ (.stc a) = .app f l := by
      rintro a ⟨f, n, hx, _⟩ ρ
      exact ⟨f, _, eval_stc hx ρ⟩
    cases u with
    | ref a => exact absurd rfl (hun a)
    | fdv a => exact hu.elim
    | fn f n => exact hu.elim
    | raw x => exact hu.elim
    | lst a =>
      cases v with
      | ref a => exact absurd rfl (hvn a)
      | fdv a => exact hv.elim
      | fn f n => exact hv.elim
      | raw x => exact hv.elim
      | lst b =>
        simp only at h
        obtain ⟨u1, u2, u3, u4⟩ := hu
        obtain ⟨v1, v2, v3, v4⟩ := hv
        have key : ∀ ρ, (ρ a = ρ b ∧ ρ (a + 1) = ρ (b + 1)) ↔ eval s.mem ρ (.lst a) = eval s.mem ρ (.lst b) := by
          intro ρ; simp [Unify.eval]
        split at h
        · rename_i s1 hr
          have h1 := cell_res hrec hl hwf (by omega) (by omega) u3 v3 hr
          have h2 := cell_res hrec (h1.regs.2.2.2.trans hl) (by have := h1.wf; rwa [hl] at this) u1 v1
            (by rw [h1.same.isTerm]; exact u4) (by rw [h1.same.isTerm]; exact v4) h
          exact (h1.seq h2).congr (fun ρ _ => key ρ)
        · rename_i hne
          cases r with
          | true => exact absurd h (hne s')
          | false =>
            have h1 := cell_res hrec hl hwf (by omega) (by omega) u3 v3 h
            exact (h1.failFirst).congr (fun ρ _ => key ρ)
      | stc b => exact no (fun ρ => by obtain ⟨f, l, hf⟩ := evs b hv ρ; rw [hf]; simp [Unify.eval]) h
      | flt b => exact no (fun ρ => by rcases evf b hv ρ with ⟨k, hf⟩ | hf <;> rw [hf] <;> simp [Unify.eval]) h
      | atm i => exact no (fun ρ => by simp [Unify.eval]) h
      | int z => exact no (fun ρ => by simp [Unify.eval]) h
    | stc a =>
      cases v with
      | ref a => exact absurd rfl (hvn a)
      | fdv a => exact hv.elim
      | fn f n => exact hv.elim
      | raw x => exact hv.elim
      | lst b => exact no (fun ρ => by obtain ⟨f, l, hf⟩ := evs a hu ρ; rw [hf]; simp [Unify.eval]) h
      | stc b =>
        simp only at h
        obtain ⟨f, n, u1, u2, u3, u4, u5⟩ := hu
        obtain ⟨g, k, v1, v2, v3, v4, v5⟩ := hv
        by_cases hf : s.mem a ≠ s.mem b
        · rw [if_pos hf] at h
          refine no (fun ρ heq => hf ?_) h
          rw [eval_stc u1, eval_stc v1] at heq
          simp only [T.app.injEq] at heq
          have := congrArg List.length heq.2
          simp only [List.length_map, List.length_range] at this
          rw [u1, v1, heq.1, this]
        · rw [if_neg hf] at h
          simp only [ne_eq, Decidable.not_not] at hf
          rw [u1] at h
          rw [u1, v1] at hf
          simp only [Cell.fn.injEq] at hf
          obtain ⟨rfl, rfl⟩ := hf
          simp only at h
          have h1 := unifyArgs_res hrec n s (a + 1) (b + 1) hl hwf
            (fun i hi => ⟨by omega, u5 i hi⟩) (fun i hi => ⟨by omega, v5 i hi⟩) r s' h
          refine h1.congr ?_
          intro ρ _
          rw [eval_stc u1, eval_stc v1]
          simp
      | flt b =>
        exact no (fun ρ => by
          obtain ⟨f, l, hf⟩ := evs a hu ρ
          rcases evf b hv ρ with ⟨k, hk⟩ | hk <;> rw [hf, hk] <;> simp) h
      | atm i => exact no (fun ρ => by obtain ⟨f, l, hf⟩ := evs a hu ρ; rw [hf]; simp [Unify.eval]) h
      | int i => exact no (fun ρ => by obtain ⟨f, l, hf⟩ := evs a hu ρ; rw [hf]; simp [Unify.eval]) h
    | flt a =>
      cases v with
      | ref a => exact absurd rfl (hvn a)
      | fdv a => exact hv.elim
      | fn f n => exact hv.elim
      | raw x => exact hv.elim
      | flt b =>
        obtain ⟨x, hx⟩ := hu
        obtain ⟨y, hy⟩ := hv
        simp only [hx, hy] at h
        simp at h
        obtain ⟨rfl, rfl⟩ := h
        have hab : a ≠ b := fun h => he (by rw [h])
        refine Res.id hwf' (fun ρ _ => ?_)
        simp only [Unify.eval, hx, hy, deq]
        cases hnx : isNaN x <;> cases hny : isNaN y <;> simp [hab]
      | lst b => exact no (fun ρ => by rcases evf a hu ρ with ⟨k, hf⟩ | hf <;> rw [hf] <;> simp [Unify.eval]) h
      | stc b =>
        exact no (fun ρ => by
          obtain ⟨f, l, hf⟩ := evs b hv ρ
          rcases evf a hu ρ with ⟨k, hk⟩ | hk <;> rw [hf, hk] <;> simp) h
      | atm b => exact no (fun ρ => by rcases evf a hu ρ with ⟨k, hf⟩ | hf <;> rw [hf] <;> simp [Unify.eval]) h
      | int b => exact no (fun ρ => by rcases evf a hu ρ with ⟨k, hf⟩ | hf <;> rw [hf] <;> simp [Unify.eval]) h
    | atm i =>
      cases v with
      | ref a => exact absurd rfl (hvn a)
      | fdv a => exact hv.elim
      | fn f n => exact hv.elim
      | raw x => exact hv.elim
      | lst b => exact no (fun ρ => by simp [Unify.eval]) h
      | stc b => exact no (fun ρ => by obtain ⟨f, l, hf⟩ := evs b hv ρ; rw [hf]; simp [Unify.eval]) h
      | flt b => exact no (fun ρ => by rcases evf b hv ρ with ⟨k, hf⟩ | hf <;> rw [hf] <;> simp [Unify.eval]) h
      | atm j => exact no (fun ρ => by simpa [Unify.eval] using he) h
      | int z => exact no (fun ρ => by simp [Unify.eval]) h
    | int i =>
      cases v with
      | ref a => exact absurd rfl (hvn a)
      | fdv a => exact hv.elim
      | fn f n => exact hv.elim
      | raw x => exact hv.elim
      | lst b => exact no (fun ρ => by simp [Unify.eval]) h
      | stc b => exact no (fun ρ => by obtain ⟨f, l, hf⟩ := evs b hv ρ; rw [hf]; simp [Unify.eval]) h
      | flt b => exact no (fun ρ => by rcases evf b hv ρ with ⟨k, hf⟩ | hf <;> rw [hf] <;> simp [Unify.eval]) h
      | atm j => exact no (fun ρ => by simp [Unify.eval]) h
      | int z => exact no (fun ρ => by simpa [Unify.eval] using he) h

theorem unify_res {N lssa : Adr} {oc : Bool} {fd : FdHooks} (n : Nat) : RecOk N lssa oc (unify oc fd n) := by
  induction n with
  | zero => intro s u v r s' _ _ _ _ h; simp [unify] at h
  | succ n ih =>
    intro s u v r s' hl hwf hu hv h
    obtain ⟨u', a1, a2, a3, a4⟩ := deref_spec hwf u hu
    obtain ⟨v', b1, b2, b3, b4⟩ := deref_spec hwf v hv
    have hwf' : WF N s.lssa s.mem := by rw [hl]; exact hwf
    have fin : Res N oc s (fun ρ => eval s.mem ρ u' = eval s.mem ρ v') r s' →
        Res N oc s (fun ρ => eval s.mem ρ u = eval s.mem ρ v) r s' := by
      intro h
      refine h.congr ?_
      intro ρ hρ
      rw [a4 ρ hρ, b4 ρ hρ]
    apply fin
    rw [unify, a1, b1] at h
    by_cases hur : ∃ a, u' = .ref a
    · obtain ⟨a, rfl⟩ := hur
      have hua := a3 a rfl
      have reach_unb : ∀ x y : Adr, s.mem y = .ref y → x ≠ y → ¬ ReachW s.mem x (.ref y) := by
        intro x y hy hne hr
        rcases reach_cases (reachW_ref.mp hr) with h | ⟨h, _⟩
        · exact hne h.symm
        · exact h hy
      by_cases hvr : ∃ b, v' = .ref b
      · obtain ⟨b, rfl⟩ := hvr
        have hvb := b3 b rfl
        simp only at h
        by_cases h1 : a > b
        · rw [if_pos h1] at h
          simp at h; obtain ⟨rfl, rfl⟩ := h
          exact bind_res hwf' a2.1 hua (by rw [hl]; exact b2) (fun c hc => by simp at hc; subst hc; exact ⟨by omega, hvb⟩)
            (fun _ => reach_unb a b hvb (by omega))
        · rw [if_neg h1] at h
          by_cases h2 : b > a
          · rw [if_pos h2] at h
            simp at h; obtain ⟨rfl, rfl⟩ := h
            exact (bind_res hwf' b2.1 hvb (by rw [hl]; exact a2) (fun c hc => by simp at hc; subst hc; exact ⟨by omega, hua⟩)
              (fun _ => reach_unb b a hua (by omega))).congr (fun ρ _ => eq_comm)
          · rw [if_neg h2] at h
            simp at h; obtain ⟨rfl, rfl⟩ := h
            have : a = b := by omega
            subst this
            exact Res.id hwf' (fun ρ _ => by simp)
      · have h' : bindTo oc n s a v' = some (r, s') := by
          cases v' with
          | ref b => exact absurd ⟨b, rfl⟩ hvr
          | _ => exact h
        exact bindTo_res hwf' a2.1 hua (by rw [hl]; exact b2) (fun c hc => hvr ⟨c, hc⟩) r s' h'
    · by_cases hvr : ∃ b, v' = .ref b
      · obtain ⟨b, rfl⟩ := hvr
        have hvb := b3 b rfl
        have h' : bindTo oc n s b u' = some (r, s') := by
          cases u' with
          | ref b => exact absurd ⟨b, rfl⟩ hur
          | _ => exact h
        exact (bindTo_res hwf' b2.1 hvb (by rw [hl]; exact a2) (fun c hc => hur ⟨c, hc⟩) r s' h').congr
          (fun ρ _ => eq_comm)
      · have h' : unifyNonVar fd (unify oc fd n) s u' v' = some (r, s') := by
          cases u' with
          | ref b => exact absurd ⟨b, rfl⟩ hur
          | _ =>
            cases v' with
            | ref b => exact absurd ⟨b, rfl⟩ hvr
            | _ => exact h
        exact unifyNonVar_res ih s u' v' hl hwf a2 b2 (fun c hc => hur ⟨c, hc⟩) (fun c hc => hvr ⟨c, hc⟩) r s' h'

end Gp.Unify
