import Verif.ListBip.Lemmas
namespace Gp.ListBip
open Gp.Heap Gp.Unify

variable {ι : Type} {N : Adr} {s s' s'' s0 : St}

theorem Step.trans {P Q R : (Adr → T) → Prop} (h : Step N s P s') (h' : Step N s' Q s'')
    (h1 : ∀ ρ, Model N s.mem ρ → Model N s'.mem ρ → P ρ → Q ρ → R ρ) (h2 : ∀ ρ, Model N s.mem ρ → R ρ → P ρ)
    (h3 : ∀ ρ ρ', Model N s'.mem ρ' → Agree s.mem ρ ρ' → R ρ → Q ρ') : Step N s R s'' where
  ok := h'.ok
  lssa := by rw [h'.lssa, h.lssa]
  grow := h.grow.trans h'.grow
  down ρ hρ :=
    have a1 := h'.down ρ hρ
    have a2 := h.down ρ a1.1
    ⟨a2.1, h1 ρ a2.1 a1.1 a2.2 a1.2⟩
  up ρ hρ hr := by
    obtain ⟨ρ1, m1, g1⟩ := h.up ρ hρ (h2 ρ hρ hr)
    obtain ⟨ρ2, m2, g2⟩ := h'.up ρ1 m1 (h3 ρ ρ1 m1 g1 hr)
    exact ⟨ρ2, m2, g1.trans g2 h.grow⟩

theorem Step.congr {P Q : (Adr → T) → Prop} (h : Step N s P s') (hpq : ∀ ρ, Model N s.mem ρ → (P ρ ↔ Q ρ)) : Step N s Q s' where
  ok := h.ok
  lssa := h.lssa
  grow := h.grow
  down ρ hρ := ⟨(h.down ρ hρ).1, (hpq ρ (h.down ρ hρ).1).mp (h.down ρ hρ).2⟩
  up ρ hρ hq := h.up ρ hρ ((hpq ρ hρ).mpr hq)

theorem Step.refl {P : (Adr → T) → Prop} (hok : Ok N s) (h : ∀ ρ, Model N s.mem ρ → P ρ) : Step N s P s :=
  ⟨hok, rfl, Grow.refl _, fun ρ hρ => ⟨hρ, h ρ hρ⟩, fun ρ hρ _ => ⟨ρ, hρ, Agree.refl _ _⟩⟩

theorem Model.agree {lssa : Adr} {m : Heap.Mem} (hwf : WF N lssa m) {ρ ρ' : Adr → T} (h : Model N m ρ)
    (ha : Agree m ρ ρ') : Model N m ρ' := by
  intro a haN hta
  rw [ha a hta, ha.eval (hwf a haN hta).1]
  exact h a haN hta

/-- The memory after a list `[w1 | _]` has been allocated at H and bound to the variable `a`. -/
def listMem (m : Heap.Mem) (h a : Adr) (w1 : Cell) : Heap.Mem :=
  ((m.set h w1).set (h + 1) (.ref (h + 1))).set a (.lst h)

theorem lst_ne {m : Heap.Mem} {a h : Adr} (ha : m a = .ref a) (hp : m h = .fn 0 0) : a ≠ h := by
  rintro rfl; rw [ha] at hp; simp at hp

/-- The state after the creation of a list bound to the variable `a`. -/
structure Wr (s : St) (a : Adr) (w1 : Cell) (s' : St) : Prop where
  mem : s'.mem = listMem s.mem s.h a w1
  h : s'.h = s.h + 2
  lssa : s'.lssa = s.lssa
  lt : s.h + 1 < s.lssa

theorem write_core (hok : Ok N s) {a : Adr} {w1 : Cell} (haN : a < N) (ha : s.mem a = .ref a)
    (hw : Wr s a w1 s') (ht : isTerm w1 = true)
    (hwf2 : WF N s.lssa ((s.mem.set s.h w1).set (s.h + 1) (.ref (s.h + 1)))) :
    Ok N s' ∧ Grow s.mem s'.mem ∧ ∀ ρ, Model N s'.mem ρ ↔
      Model N ((s.mem.set s.h w1).set (s.h + 1) (.ref (s.h + 1))) ρ ∧ ρ a = .lst (ρ s.h) (ρ (s.h + 1)) := by
  have hlt := hw.lt
  have htop := hok.top
  have p1 := hok.free s.h (Nat.le_refl _) (by omega)
  have p2 := hok.free (s.h + 1) (by omega) hlt
  have n1 := lst_ne ha p1
  have n2 := lst_ne ha p2
  let m2 := (s.mem.set s.h w1).set (s.h + 1) (.ref (s.h + 1))
  have hgr : Grow s.mem m2 := by
    refine (set_grow p1 ht).trans (set_grow ?_ rfl)
    rw [set_other _ _ _ _ (by omega)]; exact p2
  let s2 : St := { s with mem := m2, h := s.h + 2 }
  have hok2 : Ok N s2 := by
    refine ⟨hwf2, ?_, hok.top⟩
    intro b h1 h2
    simp only [s2, m2] at h1 h2 ⊢
    rw [set_other _ _ _ _ (by omega), set_other _ _ _ _ (by omega)]
    exact hok.free b (by omega) h2
  have ha2 : s2.mem a = .ref a := by
    simp only [s2, m2]
    rw [set_other _ _ _ _ n2, set_other _ _ _ _ n1]; exact ha
  have hv : ValidWord N s2.lssa s2.mem (.lst s.h) := by
    refine ⟨?_, hlt, ?_, ?_⟩
    · omega
    · simp only [s2, m2]; rw [set_other _ _ _ _ (by omega), set_same]; exact ht
    · simp only [s2, m2]; rw [set_same]; rfl
  have hs := bind_step hok2 haN ha2 hv (by simp)
  have hmem : (s2.bindUV a (.lst s.h)).mem = s'.mem := by rw [hw.mem]; rfl
  refine ⟨⟨?_, ?_, ?_⟩, ?_, ?_⟩
  · rw [hw.lssa, ← hmem]; exact hs.ok.wf
  · intro b h1 h2
    rw [← hmem]
    rw [hw.h] at h1
    rw [hw.lssa] at h2
    exact hs.ok.free b h1 h2
  · rw [hw.lssa]; exact hok.top
  · rw [← hmem]; exact hgr.trans hs.grow
  · intro ρ
    rw [← hmem]
    exact bind_models hok2.wf haN ha2 hv ρ

/-- Write mode, the head is a new variable. -/
theorem writeVar_step (hok : Ok N s) {a : Adr} (haN : a < N) (ha : s.mem a = .ref a)
    (hw : Wr s a (.ref s.h) s') :
    Step N s (fun ρ => ∃ x y, ρ a = .lst x y) s' ∧ ∀ ρ, Model N s'.mem ρ → ρ a = .lst (ρ s.h) (ρ (s.h + 1)) := by
  have hlt := hw.lt
  have htop := hok.top
  have p1 := hok.free s.h (Nat.le_refl _) (by omega)
  have p2 := hok.free (s.h + 1) (by omega) hlt
  have wf1 : WF N s.lssa (s.mem.set s.h (.ref s.h)) := by
    refine alloc_wf hok.wf p1 (by omega) hok.top ⟨by omega, by rw [set_same]; rfl⟩ ?_ ?_
    · intro b hb; cases hb; omega
    · intro b hb hne; cases hb; exact absurd rfl hne
  have p2' : (s.mem.set s.h (.ref s.h)) (s.h + 1) = .fn 0 0 := by rw [set_other _ _ _ _ (by omega)]; exact p2
  have wf2 : WF N s.lssa ((s.mem.set s.h (.ref s.h)).set (s.h + 1) (.ref (s.h + 1))) := by
    refine alloc_wf wf1 p2' (by omega) hok.top ⟨by omega, by rw [set_same]; rfl⟩ ?_ ?_
    · intro b hb; cases hb; omega
    · intro b hb hne; cases hb; exact absurd rfl hne
  obtain ⟨c1, c2, c3⟩ := write_core hok haN ha hw rfl wf2
  have n1 := lst_ne ha p1
  have n2 := lst_ne ha p2
  refine ⟨⟨c1, hw.lssa, c2, ?_, ?_⟩, fun ρ hρ => ((c3 ρ).mp hρ).2⟩
  · intro ρ hρ
    obtain ⟨h1, h2⟩ := (c3 ρ).mp hρ
    exact ⟨alloc_down hok.wf p1 rfl ρ (alloc_down wf1 p2' rfl ρ h1), _, _, h2⟩
  · rintro ρ hρ ⟨x, y, hxy⟩
    let ρ' : Adr → T := fun b => if b = s.h then x else if b = s.h + 1 then y else ρ b
    have hag : Agree s.mem ρ ρ' := by
      intro b hb
      have e1 : b ≠ s.h := by rintro rfl; rw [p1] at hb; simp [isTerm] at hb
      have e2 : b ≠ s.h + 1 := by rintro rfl; rw [p2] at hb; simp [isTerm] at hb
      simp [ρ', e1, e2]
    refine ⟨ρ', (c3 ρ').mpr ⟨?_, ?_⟩, hag⟩
    · exact alloc_up_var wf1 p2' ρ' (alloc_up_var hok.wf p1 ρ' (Model.agree hok.wf hρ hag))
    · have : ρ' a = ρ a := by simp [ρ', n1, n2]
      rw [this, hxy]
      simp [ρ']

/-- Write mode, the head is a given word. -/
theorem writeVal_step (hok : Ok N s) {a : Adr} {w1 : Cell} (haN : a < N) (ha : s.mem a = .ref a)
    (hv : ValidWord N s.lssa s.mem w1) (hg : Global s.lssa w1) (hw : Wr s a w1 s') :
    Step N s (fun ρ => ∃ y, ρ a = .lst (eval s.mem ρ w1) y) s' ∧
      ∀ ρ, Model N s'.mem ρ → ρ a = .lst (eval s.mem ρ w1) (ρ (s.h + 1)) := by
  have hlt := hw.lt
  have htop := hok.top
  have p1 := hok.free s.h (Nat.le_refl _) (by omega)
  have p2 := hok.free (s.h + 1) (by omega) hlt
  have ht := valid_isTerm hv
  have wf1 : WF N s.lssa (s.mem.set s.h w1) := by
    refine alloc_wf hok.wf p1 (by omega) hok.top ((set_grow p1 ht).valid hv) hg ?_
    intro b hb _; subst hb; exact hv.2
  have p2' : (s.mem.set s.h w1) (s.h + 1) = .fn 0 0 := by rw [set_other _ _ _ _ (by omega)]; exact p2
  have wf2 : WF N s.lssa ((s.mem.set s.h w1).set (s.h + 1) (.ref (s.h + 1))) := by
    refine alloc_wf wf1 p2' (by omega) hok.top ⟨by omega, by rw [set_same]; rfl⟩ ?_ ?_
    · intro b hb; cases hb; omega
    · intro b hb hne; cases hb; exact absurd rfl hne
  obtain ⟨c1, c2, c3⟩ := write_core hok haN ha hw ht wf2
  have n1 := lst_ne ha p1
  have n2 := lst_ne ha p2
  have hh : ∀ ρ, Model N ((s.mem.set s.h w1).set (s.h + 1) (.ref (s.h + 1))) ρ → ρ s.h = eval s.mem ρ w1 := by
    intro ρ hρ
    have h1 := alloc_down wf1 p2' rfl ρ hρ s.h (by omega) (by rw [set_same]; exact ht)
    rw [set_same, (set_grow p1 ht).eval hv] at h1
    exact h1
  have hdown : ∀ ρ, Model N s'.mem ρ → Model N s.mem ρ ∧ ρ a = .lst (eval s.mem ρ w1) (ρ (s.h + 1)) := by
    intro ρ hρ
    obtain ⟨h1, h2⟩ := (c3 ρ).mp hρ
    exact ⟨alloc_down hok.wf p1 ht ρ (alloc_down wf1 p2' rfl ρ h1), by rw [h2, hh ρ h1]⟩
  refine ⟨⟨c1, hw.lssa, c2, fun ρ hρ => ⟨(hdown ρ hρ).1, _, (hdown ρ hρ).2⟩, ?_⟩, fun ρ hρ => (hdown ρ hρ).2⟩
  rintro ρ hρ ⟨y, hxy⟩
  let ρ1 : Adr → T := fun b => if b = s.h + 1 then y else ρ b
  have hag1 : Agree s.mem ρ ρ1 := by
    intro b hb
    have e2 : b ≠ s.h + 1 := by rintro rfl; rw [p2] at hb; simp [isTerm] at hb
    simp [ρ1, e2]
  let ρ' : Adr → T := fun b => if b = s.h then eval s.mem ρ w1 else ρ1 b
  have hag : Agree s.mem ρ ρ' := by
    intro b hb
    have e1 : b ≠ s.h := by rintro rfl; rw [p1] at hb; simp [isTerm] at hb
    simp only [ρ', e1, if_false]
    exact hag1 b hb
  have hm1 : Model N (s.mem.set s.h w1) ρ' := by
    intro b hb htb
    by_cases e : b = s.h
    · subst e
      rw [set_same, (set_grow p1 ht).eval hv, hag.eval hv]; simp [ρ']
    · rw [set_other _ _ _ _ e] at htb ⊢
      have hvb := (hok.wf b hb htb).1
      rw [(set_grow p1 ht).eval hvb]
      exact Model.agree hok.wf hρ hag b hb htb
  refine ⟨ρ', (c3 ρ').mpr ⟨alloc_up_var wf1 p2' ρ' hm1, ?_⟩, hag⟩
  have : ρ' a = ρ a := by simp [ρ', ρ1, n1, n2]
  rw [this, hxy]
  simp [ρ', ρ1]

/-- Write mode, the head is the list itself (the word read is that of the variable just bound). -/
theorem writeSelf_step (hok : Ok N s) {a : Adr} (haN : a < N) (ha : s.mem a = .ref a)
    (hw : Wr s a (.lst s.h) s') :
    Step N s (fun ρ => ∃ y, ρ a = .lst (ρ a) y) s' ∧ ∀ ρ, ¬ Model N s'.mem ρ := by
  have hlt := hw.lt
  have htop := hok.top
  have p1 := hok.free s.h (Nat.le_refl _) (by omega)
  have p2 := hok.free (s.h + 1) (by omega) hlt
  have wf1 : WF N s.lssa (s.mem.set (s.h + 1) (.ref (s.h + 1))) := by
    refine alloc_wf hok.wf p2 (by omega) hok.top ⟨by omega, by rw [set_same]; rfl⟩ ?_ ?_
    · intro b hb; cases hb; omega
    · intro b hb hne; cases hb; exact absurd rfl hne
  have p1' : (s.mem.set (s.h + 1) (.ref (s.h + 1))) s.h = .fn 0 0 := by rw [set_other _ _ _ _ (by omega)]; exact p1
  have wf2' : WF N s.lssa ((s.mem.set (s.h + 1) (.ref (s.h + 1))).set s.h (.lst s.h)) := by
    refine alloc_wf wf1 p1' (by omega) hok.top ⟨by omega, by omega, by rw [set_same]; rfl, ?_⟩ ?_ ?_
    · rw [set_other _ _ _ _ (by omega), set_same]; rfl
    · intro b hb; cases hb
    · intro b hb hne; cases hb
  have hcomm : (s.mem.set (s.h + 1) (.ref (s.h + 1))).set s.h (.lst s.h) =
      (s.mem.set s.h (.lst s.h)).set (s.h + 1) (.ref (s.h + 1)) := by
    funext b
    simp only [Mem.set]
    split <;> split <;> first | rfl | omega
  rw [hcomm] at wf2'
  obtain ⟨c1, c2, c3⟩ := write_core hok haN ha hw rfl wf2'
  have hno : ∀ ρ, ¬ Model N s'.mem ρ := by
    intro ρ hρ
    have h1 := ((c3 ρ).mp hρ).1 s.h (by omega) (by rw [set_other _ _ _ _ (by omega), set_same]; rfl)
    rw [set_other _ _ _ _ (by omega), set_same] at h1
    simp only [Unify.eval] at h1
    have := congrArg sizeOf h1
    simp only [T.lst.sizeOf_spec] at this
    omega
  refine ⟨⟨c1, hw.lssa, c2, fun ρ hρ => absurd hρ (hno ρ), ?_⟩, hno⟩
  rintro ρ _ ⟨y, hy⟩
  have := congrArg sizeOf hy
  simp only [T.lst.sizeOf_spec] at this
  omega

/-! The sequences of instructions -/

theorem valid_global {lssa : Adr} {m : Heap.Mem} (hwf : WF N lssa m) {b : Adr} (hb : b < lssa) (hN : b < N)
    (ht : isTerm (m b) = true) : Global lssa (m b) := fun c hc => (hwf b hN ht).2.1 c hc hb

theorem copyWord_valid {lssa : Adr} {m : Heap.Mem} {w : Cell} (h : ValidWord N lssa m w) : copyWord w = w := by
  cases w <;> first | rfl | exact h.elim

/-- `Pl_Get_List`, `Pl_Unify_Variable`, `Pl_Unify_Variable`: what is known after. -/
structure Opened (N : Adr) (s : St) (w : Cell) (s' : St) (x t : Cell) : Prop where
  step : Step N s (fun ρ => ∃ x y, eval s.mem ρ w = .lst x y) s'
  vx : ValidWord N s.lssa s'.mem x
  vt : ValidWord N s.lssa s'.mem t
  gx : Global s.lssa x
  gt : Global s.lssa t
  eq : ∀ ρ, Model N s'.mem ρ → eval s.mem ρ w = .lst (eval s'.mem ρ x) (eval s'.mem ρ t)

theorem push_eq {w : Cell} (h : push s w = some s') :
    s.h < s.lssa ∧ s' = { s with mem := s.mem.set s.h w, h := s.h + 1 } := by
  unfold push at h
  split at h
  next hlt => simp only [Option.some.injEq] at h; exact ⟨hlt, h.symm⟩
  next => simp at h

/-- The unknown part of `Opened` in read mode. -/
theorem opened_read (hok : Ok N s) {w : Cell} {b : Adr} (hv : ValidWord N s.lssa s.mem (.lst b))
    (he : ∀ ρ, Model N s.mem ρ → eval s.mem ρ w = eval s.mem ρ (.lst b)) :
    Opened N s w s (s.mem b) (s.mem (b + 1)) := by
  obtain ⟨h1, h2, h3, h4⟩ := hv
  have v1 := hok.wf b (by omega) h3
  have v2 := hok.wf (b + 1) (by omega) h4
  refine ⟨Step.refl hok ?_, v1.1, v2.1, fun c hc => v1.2.1 c hc (by omega), fun c hc => v2.2.1 c hc (by omega), ?_⟩
  · intro ρ hρ; exact ⟨_, _, he ρ hρ⟩
  · intro ρ hρ
    rw [he ρ hρ, ← hρ b (by omega) h3, ← hρ (b + 1) (by omega) h4]; rfl

theorem wr_of {a : Adr} {w1 : Cell} {s1 s2 s3 : St} (hok : Ok N s) (ha : s.mem a = .ref a)
    (h1 : s1 = s.bindUV a (.lst s.h)) (h2 : push s1 w1 = some s2) (h3 : push s2 (.ref s2.h) = some s3) :
    Wr s a w1 s3 := by
  obtain ⟨l2, e2⟩ := push_eq h2
  obtain ⟨l3, e3⟩ := push_eq h3
  subst e3; subst e2; subst h1
  simp only [St.bindUV] at l2 l3
  have p1 := hok.free s.h (Nat.le_refl _) (by omega)
  have p2 := hok.free (s.h + 1) (by omega) l3
  have n1 := lst_ne ha p1
  have n2 := lst_ne ha p2
  refine ⟨?_, rfl, rfl, l3⟩
  simp only [St.bindUV, listMem]
  funext b
  simp only [Mem.set]
  by_cases e1 : b = a
  · subst e1; simp [n1, n2]
  · by_cases e2 : b = s.h + 1
    · simp [e2, n2.symm]
    · by_cases e3 : b = s.h <;> simp [e1, e2, e3, n1.symm]

theorem openVV (hok : Ok N s) {w x t : Cell} {s1 s2 s3 : St} {S S1 S2 : Sreg} (hw : ValidWord N s.lssa s.mem w)
    (h1 : getList s w = some (some (s1, S))) (h2 : unifyVariable s1 S = some (s2, S1, x))
    (h3 : unifyVariable s2 S1 = some (s3, S2, t)) : Opened N s w s3 x t := by
  obtain ⟨v, d1, d2, d3, d4⟩ := deref_ok hok hw
  unfold getList at h1
  rw [d1] at h1
  cases v with
  | ref a =>
    simp only [Option.some.injEq, Prod.mk.injEq] at h1
    obtain ⟨e1, e2⟩ := h1
    subst e2
    unfold unifyVariable at h2 h3
    simp only at h2
    split at h2
    · simp at h2
    · next p hp =>
      simp only [Option.some.injEq, Prod.mk.injEq] at h2
      obtain ⟨e3, e4, e5⟩ := h2
      subst e4
      simp only at h3
      split at h3
      · simp at h3
      · next q hq =>
        simp only [Option.some.injEq, Prod.mk.injEq] at h3
        obtain ⟨e6, e7, e8⟩ := h3
        subst e6; subst e3
        have hh : s1.h = s.h := by rw [← e1]; rfl
        have ha := d3 a rfl
        have hwr := wr_of hok ha e1.symm hp hq
        rw [hh] at hwr
        obtain ⟨c1, c2⟩ := writeVar_step hok d2.1 ha hwr
        have hlt := hwr.lt
        have htop := hok.top
        obtain ⟨l2, e2⟩ := push_eq hp
        have hh2 : p.h = s.h + 1 := by rw [e2]; simp only; rw [hh]
        rw [hh] at e5
        rw [hh2] at e8
        subst e5; subst e8
        have t1 : isTerm (q.mem s.h) = true := by
          rw [hwr.mem]; simp only [listMem, Mem.set]; split
          · rfl
          · split
            · rfl
            · simp; rfl
        have t2 : isTerm (q.mem (s.h + 1)) = true := by
          rw [hwr.mem]; simp only [listMem, Mem.set]; split
          · rfl
          · simp; rfl
        refine ⟨c1.congr ?_, ⟨by omega, t1⟩, ⟨by omega, t2⟩, ?_, ?_, ?_⟩
        · intro ρ hρ; rw [d4 ρ hρ]; exact Iff.rfl
        · intro b hb; cases hb; omega
        · intro b hb; cases hb; omega
        · intro ρ hρ; rw [d4 ρ (c1.down ρ hρ).1]; exact c2 ρ hρ
  | lst b =>
    simp only [Option.some.injEq, Prod.mk.injEq] at h1
    obtain ⟨e1, e2⟩ := h1
    subst e2; subst e1
    unfold unifyVariable at h2
    simp only [Option.some.injEq, Prod.mk.injEq] at h2
    obtain ⟨e3, e4, e5⟩ := h2
    subst e4; subst e3
    unfold unifyVariable at h3
    simp only [Option.some.injEq, Prod.mk.injEq] at h3
    obtain ⟨e6, e7, e8⟩ := h3
    subst e6
    have := opened_read hok d2 d4
    rw [copyWord_valid this.vx] at e5
    rw [copyWord_valid this.vt] at e8
    subst e5; subst e8
    exact this
  | _ => simp at h1

theorem getList_none (hok : Ok N s) {w : Cell} (hw : ValidWord N s.lssa s.mem w) (h : getList s w = some none) :
    NoAnswer N s (fun ρ => ∃ x y, eval s.mem ρ w = .lst x y) := by
  obtain ⟨v, d1, d2, d3, d4⟩ := deref_ok hok hw
  unfold getList at h
  rw [d1] at h
  rintro ρ hρ ⟨x, y, hxy⟩
  rw [d4 ρ hρ] at hxy
  cases v with
  | ref a => simp at h
  | lst a => simp at h
  | stc a => obtain ⟨f, n, h1, _⟩ := d2; rw [eval_stc h1] at hxy; simp at hxy
  | atm i => simp [Unify.eval] at hxy
  | int i => simp [Unify.eval] at hxy
  | flt i =>
    obtain ⟨b, hb⟩ := d2
    simp only [Unify.eval, hb] at hxy
    split at hxy <;> simp at hxy
  | fdv i => exact d2.elim
  | fn i j => exact d2.elim
  | raw i => exact d2.elim

end Gp.ListBip
