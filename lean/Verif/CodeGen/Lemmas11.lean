import Verif.CodeGen.Lemmas10
namespace Gp.CodeGen
open Gp.Heap Gp.Unify Gp.ListBip
open Gp.Term (isNaN fkey deq)

variable {N nY e c c' : Nat} {V V' V'' : St} {X X' X'' : Var → Cell} {g g' g'' : G}
  {A B C : (Var → T) → (Adr → T) → Prop} {E : Env} {O : Opts}

/-! ## New variables -/

/-- The word of an unknown register does not matter. -/
theorem junk_tr (hi : Inv N nY e V X g) {v : Var} {w : Cell} (hn : g.info v = none) :
    Tr N nY e c V X g V (setReg X v w) g A A := by
  have hregs : ∀ u, g.info u ≠ none → setReg X v w u = X u := by
    intro u hu
    have : u ≠ v := by intro h; subst h; exact hu hn
    simp [setReg, this]
  have hh : ∀ β ρ, Holds e V (setReg X v w) g β ρ ↔ Holds e V X g β ρ := by
    intro β ρ
    constructor
    · intro h u hu; rw [h u hu, val_regs (hregs u hu)]
    · intro h u hu; rw [h u hu, val_regs (hregs u hu)]
  refine ⟨{ hi with word := ?_, heap := ?_ }, rfl, Grow.refl _, hregs, fun _ _ h => h, fun _ _ _ h => h, ?_, ?_, ?_⟩
  · intro u h1 h2; rw [hregs u h2]; exact hi.word u h1 h2
  · intro u h1 h2; rw [hregs u (by rw [h2]; simp)]; exact hi.heap u h1 h2
  · intro ee _ _ h3 u hu b hb
    refine h3 u hu b ?_
    rw [← hb]
    have := hregs u (by rw [hu]; simp)
    cases u <;> first | rfl | exact this.symm
  · intro ρ hρ; exact ⟨hρ, fun β h hB => ⟨(hh β ρ).mp h, hB⟩⟩
  · intro ρ β hρ h hA; exact ⟨ρ, β, hρ, Agree.refl _ _, SameTo.refl _, (hh β ρ).mpr h, hA⟩

theorem setReg_twice (v : Var) (w w' : Cell) : setReg (setReg X v w) v w' = setReg X v w' := by
  funext u; simp only [setReg]; split <;> rfl

theorem setReg_comm (u v : Var) (w : Cell) : setReg (setReg X u w) v w = setReg (setReg X v w) u w := by
  funext x; simp only [setReg]; split <;> split <;> rfl

theorem pushVar_fill (h : push V (.ref V.h) = some V') : V' = fill V 1 ∧ V.h + 1 ≤ V.lssa := by
  obtain ⟨f1, f2, f3⟩ := push_fill (n := 0) h
  rw [fill_zero, setMem_self (fill_in _ (Nat.le_refl _) (by omega))] at f1
  refine ⟨f1, ?_⟩
  unfold push at h
  split at h
  · omega
  · cases h

/-- A new variable of the heap, with any value. -/
theorem newvar_tr (hi : Inv N nY e V X g) (h : push V (.ref V.h) = some V') (t : (Var → T) → T) :
    Tr N nY e c V X g V' X g (fun _ _ => True) (fun β ρ => ρ V.h = t β) ∧
    ValidWord N V'.lssa V'.mem (.ref V.h) ∧ Global V'.lssa (.ref V.h) := by
  obtain ⟨rfl, hlt⟩ := pushVar_fill h
  obtain ⟨h1, h2⟩ := fill_chg hi.ok hlt
  have hfree := hi.ok.free V.h (Nat.le_refl _) (by omega)
  have htop := hi.ok.top
  refine ⟨{ h1.tr (c := c) hi with down := ?_, up := ?_ }, ⟨by omega, ?_⟩, ?_⟩
  · intro ρ hρ
    obtain ⟨m1, d1⟩ := (h1.tr (c := c) hi).down ρ hρ
    exact ⟨m1, fun β hh _ => d1 β hh trivial⟩
  · intro ρ β hρ hh _
    let ρ1 : Adr → T := fun a => if a = V.h then t β else ρ a
    have ha : Agree V.mem ρ ρ1 := by
      intro a ha
      show (if a = V.h then t β else ρ a) = ρ a
      rw [if_neg]
      intro h; subst h; rw [hfree] at ha; simp [isTerm] at ha
    exact ⟨ρ1, β, h2 ρ1 (model_agree hi.ok.wf hρ ha), ha, SameTo.refl _,
      fun v hv => hh.up hi h1.grow (fun _ _ => rfl) ha hv, if_pos rfl⟩
  · rw [fill_in V (Nat.le_refl _) (by omega)]; rfl
  · intro b hb
    cases hb
    have e1 : (fill V 1).lssa = V.lssa := rfl
    omega

/-- A new permanent variable. -/
theorem selfY_tr (hi : Inv N nY e V X g) {k : Nat} (hk : k < nY) (hn : g.info (.y k) = none) :
    Tr N nY e c V X g (setMem V (yadr e k) (.ref (yadr e k))) X (g.setInfo (.y k) .unsafeEnv) (fun _ _ => True)
      (fun _ _ => True) ∧
    ValidWord N V.lssa (setMem V (yadr e k) (.ref (yadr e k))).mem (.ref (yadr e k)) := by
  have hp := hi.yfree k hk hn
  have hpl := (hi.env k hk).1
  have hpN := (hi.env k hk).2
  have hgr := set_grow (w := .ref (yadr e k)) hp rfl
  have hinfo : ∀ u j, g.info u = some j → (g.setInfo (.y k) .unsafeEnv).info u = some j := by
    intro u j hu
    rw [setInfo_other _ (by intro h; subst h; rw [hn] at hu; cases hu)]; exact hu
  have hne : ∀ j, j ≠ k → j < nY → yadr e j ≠ yadr e k := fun j h1 h2 h3 => h1 (hi.inj j k h2 hk h3)
  have hyj : ∀ {j}, j ≠ k → (g.setInfo (.y k) .unsafeEnv).info (.y j) = g.info (.y j) := by
    intro j hj; exact setInfo_other _ (by intro h; cases h; exact hj rfl)
  have hvalid : ValidWord N V.lssa (V.mem.set (yadr e k) (.ref (yadr e k))) (.ref (yadr e k)) :=
    ⟨hpN, by rw [set_same]; rfl⟩
  refine ⟨⟨⟨⟨?_, ?_, hi.ok.top⟩, ?_, ?_, ?_, ?_, ?_, ?_, hi.env, hi.inj, ?_, ?_⟩, rfl, hgr,
    fun _ _ => rfl, hinfo, ?_, ?_, ?_, ?_⟩, hvalid⟩
  · intro a ha hta
    simp only [setMem] at hta ⊢
    by_cases h : a = yadr e k
    · subst h
      rw [set_same]
      refine ⟨hvalid, fun b _ h => by omega, Acc.intro _ ?_⟩
      rintro b ⟨hb, hbne⟩
      rw [set_same] at hb; cases hb; exact absurd rfl hbne
    · rw [set_other _ _ _ _ h] at hta ⊢
      obtain ⟨h1, h2, h3⟩ := hi.ok.wf a ha hta
      exact ⟨hgr.valid h1, h2, alloc_acc hi.ok.wf hp a ha hta h3⟩
  · intro a h1 h2
    show V.mem.set _ _ a = _
    rw [set_other _ _ _ _ (by simp only [setMem] at h2; omega)]; exact hi.ok.free a h1 h2
  · intro u h1 h2
    rw [setInfo_other _ (by intro h; subst h; simp [Var.isY] at h1)] at h2
    exact hgr.valid (hi.word u h1 h2)
  · intro u h1 h2
    rw [setInfo_other _ (by intro h; subst h; simp [Var.isY] at h1)] at h2
    exact hi.heap u h1 h2
  · intro j h
    by_cases hj : j = k
    · subst hj; simp [setMem, Mem.set, isTerm]
    · rw [hyj hj] at h
      exact hgr.term _ (hi.yword j h)
  · intro j h
    by_cases hj : j = k
    · subst hj; rw [setInfo_same] at h; cases h
    · rw [hyj hj] at h
      have hd := hi.ydom j (by rw [h]; simp)
      show Global _ (V.mem.set _ _ _)
      rw [set_other _ _ _ _ (hne j hj hd)]
      exact hi.yheap j h
  · intro j h
    by_cases hj : j = k
    · subst hj; exact hk
    · rw [hyj hj] at h; exact hi.ydom j h
  · intro j h1 h
    by_cases hj : j = k
    · subst hj; rw [setInfo_same] at h; cases h
    · rw [hyj hj] at h
      show V.mem.set _ _ _ = _
      rw [set_other _ _ _ _ (hne j hj h1)]; exact hi.yfree j h1 h
  · intro n h; rw [setInfo_other _ (by intro h; cases h)]; exact hi.tmp n h
  · intro u h1 h3 h2
    rw [setInfo_other _ (by intro h; subst h; simp [Var.isY] at h1)] at h2
    exact hi.nouns u h1 h3 h2
  · intro ee _ h2 h3 a b ha hb
    simp only [setMem] at hb
    rw [set_other _ _ _ _ (by have := h2 k hk; omega)] at hb
    exact h3 a b ha hb
  · intro ee h1 h2 h3 u hu b hb
    cases u with
    | y j =>
      simp only [word, setMem] at hb
      by_cases hj : j = k
      · subst hj
        rw [setInfo_same] at hu; cases hu
      · rw [hyj hj] at hu
        rw [set_other _ _ _ _ (hne j hj (hi.ydom j (by rw [hu]; simp)))] at hb
        exact h3 _ hu b hb
    | _ =>
      rw [setInfo_other _ (by intro h; cases h)] at hu
      exact h3 _ hu b hb
  · intro ρ hρ
    exact ⟨alloc_down hi.ok.wf hp rfl ρ hρ, fun β hh _ => ⟨hh.down hi hgr (fun _ _ => rfl) hinfo, trivial⟩⟩
  · intro ρ β hρ hh _
    let ρ1 : Adr → T := fun a => if a = yadr e k then β (.y k) else ρ a
    have ha : Agree V.mem ρ ρ1 := by
      intro a ha
      show (if a = yadr e k then β (.y k) else ρ a) = ρ a
      rw [if_neg]
      intro h; subst h; rw [hp] at ha; simp [isTerm] at ha
    refine ⟨ρ1, β, alloc_up_var hi.ok.wf hp ρ1 (model_agree hi.ok.wf hρ ha), ha, SameTo.refl _, fun u hu => ?_, trivial⟩
    by_cases h : u = .y k
    · subst h
      show β (.y k) = if yadr e k = yadr e k then β (.y k) else _
      rw [if_pos rfl]
    · rw [setInfo_other _ h] at hu
      exact hh.up hi hgr (fun _ _ => rfl) ha hu

/-- A local variable becomes global. -/
theorem globalize_chg (hok : Ok N V) {a : Adr} {w : Cell} (ha : a < N) (hua : V.mem a = .ref a)
    (h : globalize V a = some (w, V')) :
    w = .ref V.h ∧ Chg N V (fun _ => True) V' ∧ ValidWord N V'.lssa V'.mem (.ref V.h) ∧ V.h < V.lssa ∧
    ∀ ρ, Model N V'.mem ρ → ρ a = ρ V.h := by
  unfold globalize at h
  cases hpu : push V (.ref V.h) with
  | none => rw [hpu] at h; cases h
  | some V1 =>
    rw [hpu] at h
    simp only [Option.some.injEq, Prod.mk.injEq] at h
    obtain ⟨rfl, rfl⟩ := h
    obtain ⟨rfl, hlt⟩ := pushVar_fill hpu
    obtain ⟨h1, h2⟩ := fill_chg hok hlt
    have hfree := hok.free V.h (Nat.le_refl _) (by omega)
    have htop := hok.top
    have hah : a ≠ V.h := by intro h; subst h; rw [hfree] at hua; cases hua
    have hu : (fill V 1).mem a = .ref a := by rw [fill_out V (by omega)]; exact hua
    have huh : (fill V 1).mem V.h = .ref V.h := fill_in V (Nat.le_refl _) (by omega)
    have e1 : (fill V 1).lssa = V.lssa := rfl
    have hv : ValidWord N (fill V 1).lssa (fill V 1).mem (.ref V.h) := ⟨by omega, by rw [huh]; rfl⟩
    have hwf' := bind_wf h1.ok.wf (x := a) (w := .ref V.h) hu hv (fun b hb => by cases hb; exact ⟨huh, fun _ => by omega⟩)
    have hs : Same (fill V 1).mem ((fill V 1).mem.set a (.ref V.h)) := Same.set (by rw [hu]; rfl) rfl
    have hbm := fun ρ => bind_models h1.ok.wf ha hu hv ρ
    have hah' : ((fill V 1).bindUV a (.ref V.h)).mem V.h = .ref V.h := by
      show (fill V 1).mem.set a _ V.h = _
      rw [set_other _ _ _ _ (Ne.symm hah)]; exact huh
    refine ⟨rfl, ⟨⟨⟨hwf', fun x k1 k2 => hs.fn (h1.ok.free x k1 k2), htop⟩, rfl, h1.grow.trans (Same.grow hs), ?_, ?_⟩, ?_, ?_, ?_⟩,
      ⟨by omega, by rw [hah']; rfl⟩, by omega, ?_⟩
    · intro ρ hρ; exact h1.down ρ ((hbm ρ).mp hρ).1
    · intro ρ hρ _
      let ρ1 : Adr → T := fun x => if x = V.h then ρ a else ρ x
      have hag : Agree V.mem ρ ρ1 := by
        intro x hx
        show (if x = V.h then ρ a else ρ x) = ρ x
        rw [if_neg]
        intro h; subst h; rw [hfree] at hx; simp [isTerm] at hx
      refine ⟨ρ1, (hbm ρ1).mpr ⟨h2 ρ1 (model_agree hok.wf hρ hag), ?_⟩, hag⟩
      show (if a = V.h then ρ a else ρ a) = if V.h = V.h then ρ a else _
      rw [if_neg hah, if_pos rfl]
    · intro x k1 k2
      have := h1.keep x k1 k2
      rw [← this]
      exact set_other _ _ _ _ (by intro h; subst h; exact k1 hua)
    · intro x k1 k2; exact hs.fn (h1.above x k1 k2)
    · intro x b k1 k2
      simp only [St.bindUV] at k1 k2
      by_cases h : x = a
      · subst h; rw [set_same] at k1; cases k1; right; omega
      · rw [set_other _ _ _ _ h] at k1 k2; exact h1.refs x b k1 k2
    · intro ρ hρ; exact ((hbm ρ).mp hρ).2

theorem putUnsafe_chg (hok : Ok N V) {ee : Adr} {w w' : Cell} (hw : ValidWord N V.lssa V.mem w)
    (h : putUnsafe V ee w = some (w', V')) :
    Chg N V (fun _ => True) V' ∧ ValidWord N V'.lssa V'.mem w' ∧ (∀ ρ, Model N V'.mem ρ → eval V'.mem ρ w' = eval V.mem ρ w) ∧
    (V.lssa ≤ ee → Global ee w') := by
  obtain ⟨r, d1, d2, d3, d4⟩ := deref_ok hok hw
  have hrefl : Chg N V (fun _ => True) V :=
    ⟨⟨hok, rfl, Grow.refl _, fun ρ hρ => ⟨hρ, trivial⟩, fun ρ hρ _ => ⟨ρ, hρ, Agree.refl _ _⟩⟩, fun _ _ _ => rfl, fun _ _ h => h,
      fun _ _ _ h => absurd rfl h⟩
  unfold putUnsafe at h
  rw [d1] at h
  by_cases hr : ∃ a, r = .ref a
  · obtain ⟨a, rfl⟩ := hr
    simp only at h
    split at h
    · obtain ⟨rfl, h1, h2, h3, h4⟩ := globalize_chg hok d2.1 (d3 a rfl) h
      refine ⟨h1, h2, fun ρ hρ => ?_, fun hl b hb => by cases hb; omega⟩
      have := (h1.down ρ hρ).1
      rw [d4 ρ this]
      exact (h4 ρ hρ).symm
    · simp only [Option.some.injEq, Prod.mk.injEq] at h
      obtain ⟨rfl, rfl⟩ := h
      exact ⟨hrefl, d2, fun ρ hρ => (d4 ρ hρ).symm, fun _ b hb => by cases hb; omega⟩
  · have hr' : ∀ a, r ≠ .ref a := fun a h => hr ⟨a, h⟩
    have h' : some (copyWord r, V) = some (w', V') := by
      cases r <;> first | exact absurd rfl (hr' _) | exact h
    rw [copyWord_valid d2] at h'
    simp only [Option.some.injEq, Prod.mk.injEq] at h'
    obtain ⟨rfl, rfl⟩ := h'
    exact ⟨hrefl, d2, fun ρ hρ => (d4 ρ hρ).symm, fun _ b hb => absurd hb (hr' b)⟩

end Gp.CodeGen
