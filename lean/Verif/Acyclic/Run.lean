import Verif.Acyclic.Lemmas
namespace Gp.Acyclic
open Gp.Heap
open Gp.Unify (set_same set_other deref_ref deref_nonref RefTo)

/-- `HeapOk` where some cells are marked. -/
structure MOk (S : Adr → Prop) (N sw : Adr) (m : Mem) : Prop where
  lt : ∀ a, S a → a < N
  good : ∀ a, S a → m a = mark ∨ Good S sw m (m a)
  acc : ∀ a, S a → Acc (RefTo m) a
  notSw : ¬ S sw

variable {S : Adr → Prop} {N sw : Adr}

theorem HeapOk.mok {m : Mem} (h : HeapOk S N sw m) : MOk S N sw m :=
  ⟨h.lt, fun a ha => .inr (h.good a ha), h.acc, h.notSw⟩

/-- The memories agree except on the local variable. -/
def Eqv (sw : Adr) (m m' : Mem) : Prop := ∀ x, x ≠ sw → m' x = m x

theorem Eqv.symm {m m' : Mem} (h : Eqv sw m m') : Eqv sw m' m := fun x hx => (h x hx).symm
theorem Eqv.trans {m m' m'' : Mem} (h : Eqv sw m m') (h' : Eqv sw m' m'') : Eqv sw m m'' :=
  fun x hx => (h' x hx).trans (h x hx)

theorem Good.of_stc {m m' : Mem} {w : Cell} (h : Good S sw m w) (he : ∀ x, ¬ S x → x ≠ sw → m' x = m x) :
    Good S sw m' w := by
  cases w with
  | stc b =>
    obtain ⟨f, n, h1, h2, h3, h4, h5⟩ := h
    exact ⟨f, n, by rw [he b h3 h4]; exact h1, h2, h3, h4, h5⟩
  | _ => exact h

theorem MOk.congr {m m' : Mem} (h : MOk S N sw m) (he : Eqv sw m m') : MOk S N sw m' := by
  have hS : ∀ a, S a → m' a = m a := fun a ha => he a (by rintro rfl; exact h.notSw ha)
  refine ⟨h.lt, ?_, ?_, h.notSw⟩
  · intro a ha
    rw [hS a ha]
    rcases h.good a ha with h1 | h1
    · exact .inl h1
    · exact .inr (h1.of_stc (fun x _ hx => he x hx))
  · intro a ha
    have hacc := h.acc a ha
    induction hacc with
    | intro a _ ih =>
      refine .intro a (fun b hb => ?_)
      have hb' : RefTo m b a := by rw [RefTo, hS a ha] at hb; exact hb
      refine ih b hb' ?_
      rcases h.good a ha with h1 | h1
      · rw [hb'.1] at h1; simp at h1
      · rw [hb'.1] at h1; exact h1

theorem MOk.mark {m : Mem} {a : Adr} (h : MOk S N sw m) (ha : S a) : MOk S N sw (m.set a mark) := by
  refine ⟨h.lt, ?_, ?_, h.notSw⟩
  · intro x hx
    by_cases hxa : x = a
    · subst hxa; exact .inl (set_same _ _ _)
    · rw [set_other _ _ _ _ hxa]
      rcases h.good x hx with h1 | h1
      · exact .inl h1
      · refine .inr (h1.of_stc (fun y hy _ => set_other _ _ _ _ ?_))
        rintro rfl; exact hy ha
  · intro x hx
    refine Subrelation.accessible ?_ (h.acc x hx)
    intro b c hbc
    by_cases hca : c = a
    · subst hca; have := hbc.1; rw [set_same] at this; simp at this
    · have h1 := hbc.1
      rw [set_other _ _ _ _ hca] at h1
      exact ⟨h1, hbc.2⟩

/-- A word is well formed. -/
def Ok (S : Adr → Prop) (sw : Adr) (m : Mem) (w : Cell) : Prop := w = mark ∨ Good S sw m w

theorem deref_ok {m : Mem} (hm : MOk S N sw m) {w : Cell} (hw : Ok S sw m w) :
    ∃ v, deref m w = some v ∧ Ok S sw m v ∧ ((∀ a, v ≠ .ref a) ∨ ∃ a, v = .ref a ∧ m a = .ref a) := by
  cases w with
  | ref a =>
    have ha : S a := by
      rcases hw with h | h
      · simp at h
      · exact h
    have hacc := hm.acc a ha
    clear hw
    induction hacc with
    | intro a _ ih =>
      rw [deref_ref]
      by_cases haa : m a = .ref a
      · rw [if_pos haa]
        exact ⟨_, rfl, .inr ha, .inr ⟨a, rfl, haa⟩⟩
      · rw [if_neg haa]
        have hg := hm.good a ha
        cases hma : m a with
        | ref b =>
          have hb : S b := by
            rw [hma] at hg
            rcases hg with h | h
            · simp at h
            · exact h
          refine ih b ⟨hma, ?_⟩ hb
          rintro rfl; exact haa hma
        | _ =>
          rw [hma] at hg
          exact ⟨_, deref_nonref (by simp), hg, .inl (by simp)⟩
  | _ => exact ⟨_, deref_nonref (by simp), hw, .inl (by simp)⟩

theorem not_fin_mark {m : Mem} : ¬ Fin m mark := by
  intro h
  cases h with
  | lst h => exact h rfl

theorem fin_deref {m : Mem} {w v : Cell} (h : deref m w = some v) : Fin m w ↔ Fin m v := by
  refine ⟨fun h' => ?_, deref_fin h⟩
  refine deref.partial_correctness (motive := fun w v => Fin m w → Fin m v) m ?_ w v h h'
  intro d ih w v hd hv
  cases w with
  | ref a =>
    simp only at hd
    by_cases ha : m a = .ref a
    · rw [if_pos ha] at hd
      simp only [Option.some.injEq] at hd; subst hd; exact hv
    · rw [if_neg ha] at hd
      cases hv with
      | var h => exact absurd h ha
      | bound _ h => exact ih _ _ hd h
  | _ => simp only [Option.some.injEq] at hd; subst hd; exact hv

theorem fin_congr {m m' : Mem} (hm : MOk S N sw m) (he : Eqv sw m m') {w : Cell} (hw : Ok S sw m w)
    (h : Fin m w) : Fin m' w := by
  have hS : ∀ a, S a → m' a = m a := fun a ha => he a (by rintro rfl; exact hm.notSw ha)
  induction h with
  | @var a h =>
    have ha : S a := by
      rcases hw with h | h
      · simp at h
      · exact h
    exact .var (by rw [hS a ha]; exact h)
  | @bound a h _ ih =>
    have ha : S a := by
      rcases hw with h | h
      · simp at h
      · exact h
    refine .bound (by rw [hS a ha]; exact h) ?_
    rw [hS a ha]
    exact ih (hm.good a ha)
  | atm => exact .atm
  | int => exact .int
  | flt => exact .flt
  | fdv => exact .fdv
  | @lst a h _ _ ih1 ih2 =>
    have ha : S a ∧ S (a + 1) := by
      rcases hw with h' | h'
      · simp only [Cell.lst.injEq] at h'; exact absurd h' h
      · exact h'.2
    refine .lst h ?_ ?_
    · rw [hS a ha.1]; exact ih1 (hm.good a ha.1)
    · rw [hS _ ha.2]; exact ih2 (hm.good _ ha.2)
  | @stc a f n h _ ih =>
    rcases hw with h' | h'
    · simp at h'
    · obtain ⟨f', n', h1, h2, h3, h4, h5⟩ := h'
      rw [h] at h1
      simp only [Cell.fn.injEq] at h1
      obtain ⟨rfl, rfl⟩ := h1
      refine .stc (f := f) (n := n) (by rw [he a h4]; exact h) (fun i hi => ?_)
      rw [hS _ (h5 i hi)]
      exact ih i hi (hm.good _ (h5 i hi))

theorem fin_congr_iff {m m' : Mem} (hm : MOk S N sw m) (he : Eqv sw m m') {w : Cell} (hw : Ok S sw m w) :
    Fin m w ↔ Fin m' w := by
  refine ⟨fin_congr hm he hw, fin_congr (hm.congr he) he.symm ?_⟩
  rcases hw with h | h
  · exact .inl h
  · exact .inr (h.of_stc (fun x _ hx => he x hx))

open Classical in
/-- The number of cells which are not marked. -/
noncomputable def free (S : Adr → Prop) (N : Nat) (m : Mem) : Nat :=
  (List.range N).countP (fun a => decide (S a ∧ m a ≠ mark))

theorem countP_lt {α : Type} {p q : α → Bool} {l : List α} (hpq : ∀ a, p a = true → q a = true) {x : α} (hx : x ∈ l)
    (h1 : q x = true) (h2 : p x = false) : l.countP p < l.countP q := by
  induction l with
  | nil => simp at hx
  | cons y l ih =>
    rw [List.countP_cons, List.countP_cons]
    have hle : l.countP p ≤ l.countP q := List.countP_mono_left (fun a _ h => hpq a h)
    rcases List.mem_cons.1 hx with rfl | hx
    · rw [h1, h2]; simp; omega
    · have := ih hx
      have : (if p y = true then 1 else 0) ≤ (if q y = true then 1 else 0) := by
        by_cases hp : p y = true
        · rw [if_pos hp, if_pos (hpq y hp)]; exact Nat.le_refl _
        · rw [if_neg hp]; exact Nat.zero_le _
      omega

theorem free_lt {m m1 : Mem} {a : Adr} (hm : MOk S N sw m) (he : Eqv sw m m1) (ha : S a) (h : m a ≠ mark) :
    free S N (m1.set a mark) < free S N m := by
  unfold free
  refine countP_lt ?_ (x := a) (List.mem_range.2 (hm.lt a ha)) ?_ ?_
  · intro x hx
    simp only [decide_eq_true_eq] at hx ⊢
    refine ⟨hx.1, ?_⟩
    by_cases hxa : x = a
    · subst hxa; exact h
    · have := hx.2
      rw [set_other _ _ _ _ hxa, he x (by rintro rfl; exact hm.notSw hx.1)] at this
      exact this
  · simp only [decide_eq_true_eq]; exact ⟨ha, h⟩
  · simp only [decide_eq_false_iff_not, set_same]; simp

theorem free_congr {m m' : Mem} (hm : MOk S N sw m) (he : Eqv sw m m') : free S N m' = free S N m := by
  unfold free
  refine congrArg (fun p => List.countP p (List.range N)) (funext fun a => ?_)
  by_cases ha : S a
  · rw [he a (by rintro rfl; exact hm.notSw ha)]
  · simp [ha]

theorem run_nil (m : Mem) (ok : Bool) : run sw m [] ok = some (m, ok) := by rw [run]
theorem run_restore (m : Mem) (a : Adr) (w : Cell) (st : List Rec) (ok : Bool) :
    run sw m (.restore a w :: st) ok = run sw (m.set a w) st ok := by rw [run]
theorem run_skip (m : Mem) (a k : Nat) (st : List Rec) :
    run sw m (.check a k :: st) false = run sw m st false := by rw [run, if_pos rfl]

theorem run_rest_false (m : Mem) (a k : Nat) (st : List Rec) :
    run sw m (if k - 1 = 0 then st else .check (a + 1) (k - 1) :: st) false = run sw m st false := by
  by_cases h : k - 1 = 0
  · rw [if_pos h]
  · rw [if_neg h, run_skip]

/-- The arguments of a well formed compound term. -/
theorem comp_ok {m : Mem} {v : Cell} (hv : Ok S sw m v) (hnm : v ≠ mark) (hn : (∀ a, v ≠ .ref a) ∨ ∃ a, v = .ref a ∧ m a = .ref a) :
    (comp m v = some none ∧ Fin m v) ∨
    (∃ b n, comp m v = some (some (b, n)) ∧ 0 < n ∧ ∀ i, i < n → S (b + i)) := by
  have hg : Good S sw m v := by
    rcases hv with h | h
    · exact absurd h hnm
    · exact h
  cases v with
  | ref a =>
    refine .inl ⟨rfl, ?_⟩
    rcases hn with h | ⟨b, h, hb⟩
    · exact absurd rfl (h a)
    · simp only [Cell.ref.injEq] at h; subst h; exact .var hb
  | lst a =>
    refine .inr ⟨a, 2, rfl, by omega, fun i hi => ?_⟩
    have : i = 0 ∨ i = 1 := by omega
    rcases this with rfl | rfl
    · exact hg.2.1
    · exact hg.2.2
  | stc a =>
    obtain ⟨f, n, h1, h2, h3, h4, h5⟩ := hg
    exact .inr ⟨a + 1, n, by simp only [comp, h1], h2, h5⟩
  | atm _ => exact .inl ⟨rfl, .atm⟩
  | int _ => exact .inl ⟨rfl, .int⟩
  | flt _ => exact .inl ⟨rfl, .flt⟩
  | fdv _ => exact .inl ⟨rfl, .fdv⟩
  | fn _ _ => exact absurd hg (by simp [Good])
  | raw _ => exact absurd hg (by simp [Good])

theorem run_mark {m : Mem} {a k : Nat} {st : List Rec} (h : deref (m.set sw (m a)) (m a) = some mark) :
    run sw m (.check a k :: st) true =
      run sw (m.set sw (m a)) (if k - 1 = 0 then st else .check (a + 1) (k - 1) :: st) false := by
  rw [run, if_neg (by simp)]
  simp only [h, if_true]

theorem run_leaf {m : Mem} {a k : Nat} {v : Cell} {st : List Rec} (h : deref (m.set sw (m a)) (m a) = some v)
    (hv : v ≠ mark) (hc : comp (m.set sw (m a)) v = some none) :
    run sw m (.check a k :: st) true =
      run sw (m.set sw (m a)) (if k - 1 = 0 then st else .check (a + 1) (k - 1) :: st) true := by
  rw [run, if_neg (by simp)]
  simp only [h, if_neg hv, hc]

theorem run_comp {m : Mem} {a k b n : Nat} {v : Cell} {st : List Rec} (h : deref (m.set sw (m a)) (m a) = some v)
    (hv : v ≠ mark) (hc : comp (m.set sw (m a)) v = some (some (b, n))) :
    run sw m (.check a k :: st) true =
      run sw ((m.set sw (m a)).set a mark) (.check b n :: .restore a (m a) ::
        (if k - 1 = 0 then st else .check (a + 1) (k - 1) :: st)) true := by
  rw [run, if_neg (by simp)]
  simp only [h, if_neg hv, hc]

/-- What a record `check a k` does. -/
def CheckOk (S : Adr → Prop) (sw : Adr) (m : Mem) (a k : Nat) : Prop :=
  (∀ i, i < k → S (a + i)) →
  ∃ m' ok', (∀ st, run sw m (.check a k :: st) true = run sw m' st ok') ∧ Eqv sw m m' ∧
    (ok' = true ↔ ∀ i, i < k → Fin m (m (a + i)))

theorem check_rest {m m1 : Mem} {a k : Nat} (hm : MOk S N sw m) (he : Eqv sw m m1) (hk : 0 < k)
    (hS : ∀ i, i < k → S (a + i)) (h1 : Fin m (m a)) (ih : 0 < k - 1 → CheckOk S sw m1 (a + 1) (k - 1)) :
    ∃ m' ok', (∀ st, run sw m1 (if k - 1 = 0 then st else .check (a + 1) (k - 1) :: st) true = run sw m' st ok') ∧
      Eqv sw m m' ∧ (ok' = true ↔ ∀ i, i < k → Fin m (m (a + i))) := by
  by_cases h : k - 1 = 0
  · refine ⟨m1, true, fun st => by rw [if_pos h], he, ?_⟩
    simp only [true_iff]
    intro i hi
    have : i = 0 := by omega
    subst this; exact h1
  · obtain ⟨m', ok', hr, he', hok⟩ := ih (by omega) (fun i hi => by
      have := hS (i + 1) (by omega)
      rw [show a + (i + 1) = a + 1 + i by omega] at this; exact this)
    refine ⟨m', ok', fun st => by rw [if_neg h]; exact hr st, he.trans he', hok.trans ?_⟩
    have hc : ∀ i, i < k - 1 → (Fin m1 (m1 (a + 1 + i)) ↔ Fin m (m (a + 1 + i))) := by
      intro i hi
      have hs : S (a + 1 + i) := by
        have := hS (i + 1) (by omega)
        rw [show a + (i + 1) = a + 1 + i by omega] at this; exact this
      rw [he _ (by rintro hh; rw [hh] at hs; exact hm.notSw hs)]
      exact (fin_congr_iff hm he (hm.good _ hs)).symm
    constructor
    · intro h2 i hi
      cases i with
      | zero => exact h1
      | succ i =>
        have := (hc i (by omega)).1 (h2 i (by omega))
        rw [show a + (i + 1) = a + 1 + i by omega]; exact this
    · intro h2 i hi
      refine (hc i hi).2 ?_
      have := h2 (i + 1) (by omega)
      rw [show a + (i + 1) = a + 1 + i by omega] at this; exact this

theorem check_spec (c : Nat) : ∀ (k : Nat) (a : Adr) (m : Mem), MOk S N sw m → free S N m = c → 0 < k →
    CheckOk S sw m a k := by
  induction c using Nat.strongRecOn with
  | _ c ihc =>
  intro k
  induction k with
  | zero => intro a m _ _ h; omega
  | succ k ihk =>
  intro a m hm hc hk hS
  have haS : S a := hS 0 hk
  have hasw : a ≠ sw := by rintro rfl; exact hm.notSw haS
  -- after the copy in the local variable
  let m1 := m.set sw (m a)
  have he1 : Eqv sw m m1 := fun x hx => set_other _ _ _ _ hx
  have hm1 : MOk S N sw m1 := hm.congr he1
  have hm1a : m1 a = m a := he1 a hasw
  have hokw : Ok S sw m1 (m a) := by have := hm1.good a haS; rw [hm1a] at this; exact this
  obtain ⟨v, hd, hv, hn⟩ := deref_ok hm1 hokw
  have hfin : Fin m (m a) ↔ Fin m1 v := by
    rw [fin_congr_iff hm he1 (hm.good a haS)]
    exact fin_deref hd
  have ihk' : ∀ m', Eqv sw m m' → 0 < k + 1 - 1 → CheckOk S sw m' (a + 1) (k + 1 - 1) := by
    intro m' he' hk'
    exact ihk (a + 1) m' (hm.congr he') (by rw [free_congr hm he']; exact hc) hk'
  by_cases hvm : v = mark
  · refine ⟨m1, false, fun st => ?_, he1, ?_⟩
    · rw [run_mark (hvm ▸ hd), run_rest_false]
    · simp only [Bool.false_eq_true, false_iff]
      intro h
      have := hfin.1 (h 0 (by omega))
      rw [hvm] at this
      exact not_fin_mark this
  · rcases comp_ok hv hvm hn with ⟨hcomp, hf⟩ | ⟨b, n, hcomp, hn0, hSb⟩
    · obtain ⟨m', ok', h1, h2, h3⟩ := check_rest hm he1 hk hS (hfin.2 hf) (ihk' m1 he1)
      refine ⟨m', ok', fun st => ?_, h2, h3⟩
      rw [run_leaf hd hvm hcomp]
      exact h1 st
    · have hma : m a ≠ mark := by
        intro h
        rw [h, deref_nonref (by simp)] at hd
        simp only [Option.some.injEq] at hd
        exact hvm hd.symm
      have hm2 : MOk S N sw (m1.set a mark) := hm1.mark haS
      obtain ⟨m3, ok3, hr3, he3, hok3⟩ := ihc (free S N (m1.set a mark)) (by rw [← hc]; exact free_lt hm he1 haS hma)
        n b (m1.set a mark) hm2 rfl hn0 hSb
      have hd' : deref m1 (m1 a) = some v := by rw [hm1a]; exact hd
      have hok3' : ok3 = true ↔ Fin m (m a) := by
        rw [hok3, fin_congr_iff hm he1 (hm.good a haS), ← hm1a]
        exact (mark_iff hd' hvm hcomp).symm
      have he4 : Eqv sw m (m3.set a (m a)) := by
        intro x hx
        by_cases hxa : x = a
        · subst hxa; exact set_same _ _ _
        · rw [set_other _ _ _ _ hxa, he3 x hx, set_other _ _ _ _ hxa, he1 x hx]
      cases hb : ok3 with
      | false =>
        refine ⟨m3.set a (m a), false, fun st => ?_, he4, ?_⟩
        · rw [run_comp hd hvm hcomp, hr3, run_restore, hb, run_rest_false]
        · simp only [Bool.false_eq_true, false_iff]
          intro h
          have := hok3'.2 (h 0 (by omega))
          rw [hb] at this; simp at this
      | true =>
        obtain ⟨m', ok', h1, h2, h3⟩ := check_rest hm he4 hk hS (hok3'.1 hb) (ihk' _ he4)
        refine ⟨m', ok', fun st => ?_, h2, h3⟩
        rw [run_comp hd hvm hcomp, hr3, run_restore, hb]
        exact h1 st

/-- The whole function. -/
theorem acyclic_spec {m : Mem} (hm : MOk S N sw m) {w : Cell} (hw : Ok S sw m w) :
    ∃ m' ok, acyclic sw m w = some (m', ok) ∧ Eqv sw m m' ∧ (ok = true ↔ Fin m w) := by
  have he0 : Eqv sw m (m.set sw w) := fun x hx => set_other _ _ _ _ hx
  have hset : (m.set sw w).set sw (m.set sw w sw) = m.set sw w := by
    funext x
    by_cases hx : x = sw
    · subst hx; rw [set_same]
    · rw [set_other _ _ _ _ hx]
  have hm0 := hm.congr he0
  have hw0 : Ok S sw (m.set sw w) w := by
    rcases hw with h | h
    · exact .inl h
    · exact .inr (h.of_stc (fun x _ hx => he0 x hx))
  obtain ⟨v, hd, hv, hn⟩ := deref_ok hm0 hw0
  have hfin : Fin m w ↔ Fin (m.set sw w) v := by
    rw [fin_congr_iff hm he0 hw]; exact fin_deref hd
  unfold acyclic
  rw [run, if_neg (by simp)]
  simp only
  rw [hset, set_same, hd]
  simp only [Nat.sub_self, if_true]
  by_cases hvm : v = mark
  · rw [if_pos hvm, run_nil]
    refine ⟨_, _, rfl, he0, ?_⟩
    simp only [Bool.false_eq_true, false_iff]
    intro h
    have := hfin.1 h
    rw [hvm] at this
    exact not_fin_mark this
  · rw [if_neg hvm]
    rcases comp_ok hv hvm hn with ⟨hcomp, hf⟩ | ⟨b, n, hcomp, hn0, hSb⟩
    · rw [hcomp]
      simp only
      rw [run_nil]
      exact ⟨_, _, rfl, he0, by simp only [true_iff]; exact hfin.2 hf⟩
    · rw [hcomp]
      simp only
      have he2 : Eqv sw m ((m.set sw w).set sw mark) := fun x hx => by
        rw [set_other _ _ _ _ hx]; exact he0 x hx
      obtain ⟨m3, ok3, hr3, he3, hok3⟩ := check_spec _ n b _ (hm.congr he2) rfl hn0 hSb
      rw [hr3, run_restore, run_nil]
      refine ⟨_, _, rfl, fun x hx => ?_, ?_⟩
      · rw [set_other _ _ _ _ hx, he3 x hx, he2 x hx]
      · rw [hok3, hfin]
        have hcf := comp_fin hcomp hvm
        have hch : ∀ i, i < n → (Fin ((m.set sw w).set sw mark) ((m.set sw w).set sw mark (b + i)) ↔
            Fin (m.set sw w) (m.set sw w (b + i))) := by
          intro i hi
          have hs := hSb i hi
          have hne : b + i ≠ sw := by intro hh; rw [hh] at hs; exact hm.notSw hs
          rw [he2 _ hne, he0 _ hne, ← fin_congr_iff hm he2 (hm.good _ hs), fin_congr_iff hm he0 (hm.good _ hs)]
        constructor
        · intro h
          exact hcf.2 (fun i hi => (hch i hi).1 (h i hi))
        · intro h i hi
          obtain ⟨k, hk⟩ := h.bounded
          obtain ⟨j, _, hj⟩ := hcf.1 k hk
          refine (hch i hi).2 ?_
          exact (hj i hi).fin

end Gp.Acyclic
