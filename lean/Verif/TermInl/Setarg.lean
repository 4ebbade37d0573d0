import Verif.TermInl.Functor
namespace Gp.TermInl
open Gp.Heap Gp.Unify Gp.ListBip

variable {N : Adr} {s s' : St}

/-- The argument of rank `i` (from 0) of the compound term designated by the word `w` is at the address `c`. -/
def ArgCell (m : Heap.Mem) (w : Cell) (i : Nat) (c : Adr) : Prop :=
  (∃ a, deref m w = some (.lst a) ∧ i < 2 ∧ c = a + i) ∨
  (∃ a f k, deref m w = some (.stc a) ∧ m a = .fn f k ∧ i < k ∧ c = a + 1 + i)

/-- What setarg(N, Term, Value, Undo) does: the argument of rank N, and no other word of the memory, becomes the value;
with Undo = true the record in the trail restores the argument (when the choice point requires it). -/
def SetargOut (N : Adr) (s : St) (nw tw vw : Cell) (undo : Bool) : Out → Prop
  | .ret true s' => ∃ (i : Nat) (c : Adr) (w : Cell),
      deref s.mem nw = some (.int (i + 1 : Nat)) ∧ ArgCell s.mem tw i c ∧ deref s.mem vw = some w ∧
      Ok N s' ∧ s'.mem c = w ∧ (∀ b, b ≠ c → s'.mem b = s.mem b) ∧
      (undo = true → s.needsTrailing c = true → untrail (s'.trail.length - s.trail.length) s'.trail s'.mem = s.mem) ∧
      (undo = false → s'.trail = s.trail ∧ ((∃ f, w = .atm f) ∨ ∃ z, w = .int z))
  | .ret false s' => s' = s ∧ ∃ z : Int, deref s.mem nw = some (.int z) ∧ 0 ≤ z ∧ ∀ i c, ArgCell s.mem tw i c → z ≠ (i + 1 : Nat)
  | .err .instantiation => Unbound s.mem tw ∨ Unbound s.mem nw
  | .err .typeCompound => ¬ Unbound s.mem tw ∧ ∀ i c, ¬ ArgCell s.mem tw i c
  | .err .typeInteger => ¬ Unbound s.mem nw ∧ ∀ z, deref s.mem nw ≠ some (.int z)
  | .err .domainNotLessThanZero => ∃ z : Int, deref s.mem nw = some (.int z) ∧ z < 0
  | .err .typeAtomic => undo = false ∧ (∀ f, deref s.mem vw ≠ some (.atm f)) ∧ ∀ z, deref s.mem vw ≠ some (.int z)
  | .err _ => False

theorem valid_set {m : Heap.Mem} {lssa c : Adr} {w u : Cell} (hc : isTerm (m c) = true) (hw : isTerm w = true)
    (h : ValidWord N lssa m u) : ValidWord N lssa (m.set c w) u := by
  have ht : ∀ a, isTerm (m a) = true → isTerm (m.set c w a) = true := by
    intro a ha
    by_cases e : a = c
    · subst e; rw [set_same]; exact hw
    · rw [set_other _ _ _ _ e]; exact ha
  have hn : ∀ a, isTerm (m a) = false → m.set c w a = m a := by
    intro a ha
    by_cases e : a = c
    · subst e; rw [hc] at ha; simp at ha
    · rw [set_other _ _ _ _ e]
  cases u with
  | ref b => exact ⟨h.1, ht _ h.2⟩
  | lst b => exact ⟨h.1, h.2.1, ht _ h.2.2.1, ht _ h.2.2.2⟩
  | stc b =>
    obtain ⟨f, n, h1, h2, h3, h4, h5⟩ := h
    exact ⟨f, n, by rw [hn b (by rw [h1]; rfl)]; exact h1, h2, h3, h4, fun i hi => ht _ (h5 i hi)⟩
  | flt b => obtain ⟨x, h1⟩ := h; exact ⟨x, by rw [hn b (by rw [h1]; rfl)]; exact h1⟩
  | atm _ => trivial
  | int _ => trivial
  | _ => exact h.elim

theorem valid_isTerm {m : Heap.Mem} {lssa : Adr} {u : Cell} (h : ValidWord N lssa m u) : isTerm u = true := by
  cases u <;> first | rfl | exact h.elim

/-- The word stored: dereferenced, and not a reference to the local stack. -/
theorem ok_set (hok : Ok N s) {c : Adr} {w : Cell} (hc : c < s.lssa) (hct : isTerm (s.mem c) = true)
    (hw : ValidWord N s.lssa s.mem w) (hd : ∀ a, w = .ref a → s.mem a = .ref a ∧ a < s.lssa) {s' : St}
    (hm : s'.mem = s.mem.set c w) (hh : s'.h = s.h) (hl : s'.lssa = s.lssa) : Ok N s' := by
  have hwt := valid_isTerm hw
  have hcN : c < N := Nat.lt_of_lt_of_le hc hok.top
  refine ⟨?_, ?_, by rw [hl]; exact hok.top⟩
  · rw [hm, hl]
    have last : ∀ d, w = .ref d → Acc (RefTo (s.mem.set c w)) d := by
      intro d e
      refine Acc.intro d ?_
      intro b hb
      exfalso
      by_cases hdc : d = c
      · subst hdc
        rw [RefTo, set_same, e] at hb
        injection hb.1 with h1; exact hb.2 h1.symm
      · rw [RefTo, set_other _ _ _ _ hdc, (hd d e).1] at hb
        injection hb.1 with h1; exact hb.2 h1.symm
    have accC : Acc (RefTo (s.mem.set c w)) c := by
      refine Acc.intro c ?_
      intro b hb
      rw [RefTo, set_same] at hb
      exact last b hb.1
    have acc : ∀ a, Acc (RefTo s.mem) a → Acc (RefTo (s.mem.set c w)) a := by
      intro a ha
      induction ha with
      | intro a _ ih =>
        by_cases e : a = c
        · rw [e]; exact accC
        · refine Acc.intro a ?_
          intro b hb
          rw [RefTo, set_other _ _ _ _ e] at hb
          exact ih b hb
    intro a ha ht
    by_cases e : a = c
    · subst e
      rw [set_same]
      exact ⟨valid_set hct hwt hw, fun b hb _ => (hd b hb).2, accC⟩
    · rw [set_other _ _ _ _ e] at ht ⊢
      obtain ⟨h1, h2, h3⟩ := hok.wf a ha ht
      exact ⟨valid_set hct hwt h1, h2, acc a h3⟩
  · rw [hh, hl, hm]
    intro a h1 h2
    have := hok.free a h1 h2
    rw [set_other]
    · exact this
    · rintro rfl; rw [this] at hct; simp [isTerm] at hct

theorem rdCompound_cell (hok : Ok N s) {w : Cell} {r : Except Err (Adr × Nat × Nat)}
    (hw : ValidWord N s.lssa s.mem w) (h : rdCompound s.mem w = some r) :
    (∃ a f k, r = .ok (a, f, k) ∧ a + k ≤ N ∧ (∀ i c, ArgCell s.mem w i c ↔ i < k ∧ c = a + i) ∧
      ∀ i, i < k → a + i < s.lssa ∧ isTerm (s.mem (a + i)) = true) ∨
    (r = .error .instantiation ∧ Unbound s.mem w) ∨
    (r = .error .typeCompound ∧ ¬ Unbound s.mem w ∧ ∀ i c, ¬ ArgCell s.mem w i c) := by
  obtain ⟨v, d1, d2, d3, d4⟩ := deref_ok hok hw
  unfold rdCompound at h
  unfold ArgCell Unbound
  rw [d1] at h ⊢
  have other : (∀ a, v ≠ .ref a) → (∀ a, v ≠ .lst a) → (∀ a, v ≠ .stc a) → r = .error .typeCompound →
      (r = .error .typeCompound ∧ ¬ (∃ a, some v = some (.ref a)) ∧ ∀ i c,
        ¬ ((∃ a, some v = some (.lst a) ∧ i < 2 ∧ c = a + i) ∨
          (∃ a f k, some v = some (.stc a) ∧ s.mem a = .fn f k ∧ i < k ∧ c = a + 1 + i))) := by
    intro h1 h2 h3 e
    refine ⟨e, fun ⟨a, ha⟩ => h1 a (by simpa using ha), ?_⟩
    rintro i c (⟨a, ha, _⟩ | ⟨a, f, k, ha, _⟩)
    · exact h2 a (by simpa using ha)
    · exact h3 a (by simpa using ha)
  cases v with
  | ref a =>
    simp only [Option.some.injEq] at h
    exact .inr (.inl ⟨h.symm, a, rfl⟩)
  | lst a =>
    simp only [Option.some.injEq] at h
    refine .inl ⟨a, DOT, 2, h.symm, by have := d2.1; omega, ?_, ?_⟩
    · intro i c
      constructor
      · rintro (⟨b, hb, h1, h2⟩ | ⟨b, f, k, hb, _⟩)
        · simp only [Option.some.injEq, Cell.lst.injEq] at hb
          subst hb; exact ⟨h1, h2⟩
        · simp at hb
      · rintro ⟨h1, h2⟩; exact .inl ⟨a, rfl, h1, h2⟩
    · intro i hi
      obtain ⟨_, q2, q3, q4⟩ := d2
      match i with
      | 0 => exact ⟨by omega, q3⟩
      | 1 => exact ⟨by omega, q4⟩
      | i + 2 => omega
  | stc a =>
    obtain ⟨f, n, q1, q2, q3, q4, q5⟩ := d2
    simp only [q1, Option.some.injEq] at h
    refine .inl ⟨a + 1, f, n, h.symm, by omega, ?_, fun i hi => ⟨by omega, q5 i hi⟩⟩
    intro i c
    constructor
    · rintro (⟨b, hb, _⟩ | ⟨b, g, k, hb, h1, h2, h3⟩)
      · simp at hb
      · simp only [Option.some.injEq, Cell.stc.injEq] at hb
        subst hb
        rw [q1] at h1
        injection h1 with _ h1
        subst h1; exact ⟨h2, h3⟩
    · rintro ⟨h1, h2⟩; exact .inr ⟨a, f, n, rfl, q1, h1, h2⟩
  | _ =>
    simp only [Option.some.injEq] at h
    exact .inr (.inr (other (by simp) (by simp) (by simp) h.symm))

theorem rdPositive_cell {m : Heap.Mem} {w : Cell} {r : Except Err Int} (h : rdPositive m w = some r) :
    (∃ z, r = .ok z ∧ 0 ≤ z ∧ deref m w = some (.int z)) ∨ (r = .error .instantiation ∧ Unbound m w) ∨
    (r = .error .domainNotLessThanZero ∧ ∃ z : Int, deref m w = some (.int z) ∧ z < 0) ∨
    (r = .error .typeInteger ∧ ¬ Unbound m w ∧ ∀ z, deref m w ≠ some (.int z)) := by
  unfold rdPositive rdInteger at h
  unfold Unbound
  cases hd : deref m w with
  | none => rw [hd] at h; simp at h
  | some v =>
    rw [hd] at h
    cases v with
    | ref a => simp only [Option.some.injEq] at h; exact .inr (.inl ⟨h.symm, a, rfl⟩)
    | int z =>
      simp only at h
      by_cases hz : z < 0
      · rw [if_pos hz] at h; simp only [Option.some.injEq] at h
        exact .inr (.inr (.inl ⟨h.symm, z, rfl, hz⟩))
      · rw [if_neg hz] at h; simp only [Option.some.injEq] at h
        exact .inl ⟨z, h.symm, by omega, rfl⟩
    | _ =>
      simp only [Option.some.injEq] at h
      exact .inr (.inr (.inr ⟨h.symm, by simp, by simp⟩))

theorem setarg_res (hok : Ok N s) {nw tw vw : Cell} {undo : Bool} {o : Out}
    (ht : ValidWord N s.lssa s.mem tw) (hv : ValidWord N s.lssa s.mem vw)
    (hz : ∀ z, deref s.mem nw = some (.int z) → z < 2 ^ 64) (hN : N < 2 ^ 64)
    (hg : ∀ a, deref s.mem vw = some (.ref a) → a < s.lssa)
    (h : setarg s nw tw vw undo = some o) : SetargOut N s nw tw vw undo o := by
  unfold setarg at h
  cases h1 : rdCompound s.mem tw with
  | none => rw [h1] at h; simp at h
  | some r =>
    rw [h1] at h
    rcases rdCompound_cell hok ht h1 with ⟨a, f, k, rfl, hk, hcell, harg⟩ | ⟨rfl, hu⟩ | ⟨rfl, hu⟩
    · simp only at h
      cases h2 : rdPositive s.mem nw with
      | none => rw [h2] at h; simp at h
      | some r2 =>
        rw [h2] at h
        rcases rdPositive_cell h2 with ⟨z, rfl, hz0, hzd⟩ | ⟨rfl, hu⟩ | ⟨rfl, hu⟩ | ⟨rfl, hu⟩
        · simp only at h
          obtain ⟨w, d1, d2, d3, _⟩ := deref_ok hok hv
          rw [d1] at h
          simp only at h
          have hz1 := hz z hzd
          by_cases c1 : undo = false ∧ atomOrInt w = false
          · rw [if_pos c1] at h; simp only [Option.some.injEq] at h; subst h
            refine ⟨c1.1, ?_, ?_⟩
            · intro f hf; rw [d1] at hf; simp only [Option.some.injEq] at hf; subst hf; simp [atomOrInt] at c1
            · intro f hf; rw [d1] at hf; simp only [Option.some.injEq] at hf; subst hf; simp [atomOrInt] at c1
          · rw [if_neg c1] at h
            by_cases c2 : (z - 1) % 2 ^ 64 ≥ k
            · rw [if_pos c2] at h; simp only [Option.some.injEq] at h; subst h
              refine ⟨rfl, z, hzd, hz0, ?_⟩
              intro i c hc hi
              have := ((hcell i c).mp hc).1
              have e : z - 1 = i := by omega
              rw [e, Int.emod_eq_of_lt (by omega) (by omega)] at c2
              omega
            · rw [if_neg c2] at h
              have hz2 : 1 ≤ z := by
                refine Int.not_lt.mp fun hlt => c2 ?_
                have : z = 0 := by omega
                subst this
                have e : ((0 : Int) - 1) % 2 ^ 64 = 2 ^ 64 - 1 := by decide
                rw [e]
                have : (N : Int) < 2 ^ 64 := by exact_mod_cast hN
                omega
              have hzk : z - 1 < k := by
                have := Int.emod_eq_of_lt (a := z - 1) (b := 2 ^ 64) (by omega) (by omega)
                omega
              obtain ⟨i, hi⟩ : ∃ i : Nat, (z - 1).toNat = i := ⟨_, rfl⟩
              rw [hi] at h
              have hik : i < k := by omega
              have hzi : deref s.mem nw = some (.int (i + 1 : Nat)) := by rw [hzd]; congr 2; omega
              obtain ⟨g1, g2⟩ := harg i hik
              have hd : ∀ a, w = .ref a → s.mem a = .ref a ∧ a < s.lssa := fun b hb =>
                ⟨d3 b hb, hg b (by rw [d1, hb])⟩
              cases undo with
              | true =>
                simp only [if_true, Option.some.injEq] at h; subst h
                refine ⟨i, a + i, w, hzi, (hcell i _).mpr ⟨hik, rfl⟩, d1,
                  ok_set hok g1 g2 d2 hd rfl rfl rfl, set_same .., fun b hb => set_other _ _ _ _ hb, ?_, by simp⟩
                intro _ htr
                simp only [St.bindOV, htr, if_true, List.length_cons, Nat.add_sub_cancel_left, untrail]
                funext b
                by_cases hb : b = a + i
                · subst hb; rw [set_same]
                · rw [set_other _ _ _ _ hb, set_other _ _ _ _ hb]
              | false =>
                simp only [Bool.false_eq_true, if_false, Option.some.injEq] at h; subst h
                refine ⟨i, a + i, w, hzi, (hcell i _).mpr ⟨hik, rfl⟩, d1,
                  ok_set hok g1 g2 d2 hd rfl rfl rfl, set_same .., fun b hb => set_other _ _ _ _ hb, by simp, ?_⟩
                intro _
                refine ⟨rfl, ?_⟩
                have : atomOrInt w = true := by
                  cases hw : atomOrInt w with
                  | true => rfl
                  | false => exact absurd ⟨rfl, hw⟩ c1
                cases w with
                | atm f => exact .inl ⟨f, rfl⟩
                | int z => exact .inr ⟨z, rfl⟩
                | _ => simp [atomOrInt] at this
        all_goals simp only [Option.some.injEq] at h; subst h
        · exact .inr hu
        · exact hu
        · exact hu
    all_goals simp only [Option.some.injEq] at h; subst h
    · exact .inl hu
    · exact hu

end Gp.TermInl
