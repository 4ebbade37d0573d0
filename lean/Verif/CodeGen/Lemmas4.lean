import Verif.CodeGen.Lemmas3
namespace Gp.CodeGen
open Gp.Heap Gp.Unify Gp.ListBip
open Gp.Term (isNaN fkey)

variable {N nY e c c' : Nat} {V V' V'' : St} {X X' X'' : Var → Cell} {g g' g'' : G}
  {A B C : (Var → T) → (Adr → T) → Prop} {E : Env}

/-! ## First occurrence of a variable -/

/-- A variable which may be assigned. -/
structure Fresh (nY : Nat) (g : G) (v : Var) : Prop where
  info : g.info v = none
  tmp : ∀ n, v = .tmp n → n < g.tmp
  y : ∀ i, v = .y i → i < nY

theorem put_nonY {m : M} {v : Var} {w : Cell} (h : v.isY = false) : m.put v w = { m with X := setReg m.X v w } := by
  cases v <;> first | rfl | simp [Var.isY] at h

theorem setMem_fill (s : St) {x n : Nat} (w : Cell) (hx : x < s.h ∨ s.h + n ≤ x) : fill (setMem s x w) n = setMem (fill s n) x w := by
  simp only [fill, setMem, St.mk.injEq]
  refine ⟨?_, trivial, trivial, trivial, trivial, trivial⟩
  funext a
  simp only [Mem.set]
  by_cases h1 : a = x
  · subst h1
    have : ¬ (s.h ≤ a ∧ a < s.h + n) := by omega
    simp [this]
  · simp only [h1, if_false]

theorem var_elem {m : M} {p n : Nat} (hi : Inv N nY m.e V m.X g) (hc : Cur N V m g p (n + 1)) {v : Var}
    (hv : Fresh nY g v) {r : Option M} (h : step E m (.unifyVariable v) = some r) :
    ElemOk (c := c) N nY m V g (g.setInfo v .inHeap) p n (fun β ρ => ρ p = β v) r := by
  have h0 := hc.cells 0 (by omega)
  simp only [Nat.add_zero] at h0
  have hpN := Nat.lt_of_lt_of_le h0.1 hi.ok.top
  have hwf := hi.ok.wf p hpN h0.2
  have hl := hc.lssa
  simp only [step] at h
  -- the word given to the variable
  have hgl : ∀ b, V.mem p = .ref b → b < V.lssa := fun b hb => hwf.2.1 b hb h0.1
  rcases hc.mode with ⟨hS, hV⟩ | ⟨hS, hp, hV, hno⟩
  · rw [hS] at h
    simp only [ListBip.unifyVariable, Option.some.injEq] at h
    have hcw : copyWord (m.s.mem p) = V.mem p := by rw [← hV]; exact copyWord_valid hwf.1
    rw [hcw] at h
    subst h
    cases v with
    | y i =>
      have hk := hv.y i rfl
      refine ⟨_, (yvar_tr (i := .inHeap) hi hk hv.info hwf.1 (fun _ => hgl) (fun h => by cases h)).conseq ?_ (fun _ _ _ _ => Iff.rfl),
        ⟨Or.inl ⟨rfl, ?_⟩, hc.cells_next rfl ?_⟩, rfl, rfl⟩
      · intro ρ β hρ _; rw [hρ p hpN h0.2]; exact eq_comm
      · rw [hV]; rfl
      · exact set_grow (hi.yfree i hk hv.info) h0.2
    | _ =>
      refine ⟨V, (reg_tr (i := .inHeap) hi rfl hv.info hv.tmp hwf.1 (fun _ => hgl) (fun h => by cases h) (fun h => by cases h)).conseq ?_ (fun _ _ _ _ => Iff.rfl),
        ⟨Or.inl ⟨rfl, hV⟩, hc.cells_next rfl (Grow.refl _)⟩, rfl, rfl⟩
      intro ρ β hρ _; rw [hρ p hpN h0.2]; exact eq_comm
  · rw [hS] at h
    simp only [ListBip.unifyVariable] at h
    cases hpu : push m.s (.ref m.s.h) with
    | none => rw [hpu] at h; simp at h
    | some s' =>
      rw [hpu] at h
      simp only [Option.some.injEq] at h
      subst h
      have hu : V.mem p = .ref p := by rw [hV, hp]; exact fill_in _ (Nat.le_refl _) (by omega)
      obtain ⟨f1, f2, f3⟩ := push_fill (n := n) hpu
      have hVf : fill s' n = V := by rw [f1, ← hV, ← hp, setMem_self hu]
      have hvp : ValidWord N V.lssa V.mem (.ref p) := ⟨hpN, h0.2⟩
      have hgp : Global V.lssa (.ref p) := fun b hb => by cases hb; exact h0.1
      have hbl : m.s.h + (n + 1) ≤ m.s.lssa := by
        have := (hc.cells n (by omega)).1; rw [hl] at this; omega
      rw [← hp]
      cases v with
      | y i =>
        have hk := hv.y i rfl
        have hy := (hi.env i hk).1
        refine ⟨_, (yvar_tr (i := .inHeap) hi hk hv.info hvp (fun _ => hgp) (fun h => by cases h)).conseq ?_ (fun _ _ _ _ => Iff.rfl),
          ⟨Or.inr ⟨rfl, ?_, ?_, ?_⟩, hc.cells_next rfl ?_⟩, rfl, rfl⟩
        · intro ρ β hρ _; exact eq_comm
        · show p + 1 = s'.h; rw [f2, hp]
        · show setMem V (yadr m.e i) (.ref p) = fill (setMem s' (yadr m.e i) (.ref p)) n
          rw [setMem_fill _ _ (by rw [f2]; omega), hVf]
        · refine ⟨fun b h1 h2 a ha hb => ?_, fun b h1 h2 u hu1 hu2 => ?_⟩
          · simp only [setMem] at hb
            by_cases hay : a = yadr m.e i
            · subst hay; rw [set_same] at hb; cases hb; omega
            · rw [set_other _ _ _ _ hay] at hb; exact hno.mem b (by omega) (by omega) a ha hb
          · rw [setInfo_other _ (by intro h; subst h; simp [Var.isY] at hu1)] at hu2
            exact hno.reg b (by omega) (by omega) u hu1 hu2
        · exact set_grow (hi.yfree i hk hv.info) rfl
      | _ =>
        refine ⟨V, (reg_tr (i := .inHeap) hi rfl hv.info hv.tmp hvp (fun _ => hgp) (fun h => by cases h) (fun h => by cases h)).conseq ?_ (fun _ _ _ _ => Iff.rfl),
          ⟨Or.inr ⟨rfl, ?_, hVf.symm, ?_⟩, hc.cells_next rfl (Grow.refl _)⟩, rfl, rfl⟩
        · intro ρ β hρ _; exact eq_comm
        · show p + 1 = s'.h; rw [f2, hp]
        · refine ⟨fun b h1 h2 => hno.mem b (by omega) (by omega), fun b h1 h2 u hu1 hu2 => ?_⟩
          show setReg m.X _ _ u ≠ _
          simp only [setReg]
          split
          · intro hb; cases hb; omega
          · rename_i hne
            rw [setInfo_other _ hne] at hu2
            exact hno.reg b (by omega) (by omega) u hu1 hu2

/-! ## Voids -/

theorem pushVoids_fill {n q : Nat} {s s' : St} (h : pushVoids n s = some s') :
    fill s' q = fill s (n + q) ∧ s'.h = s.h + n := by
  induction n generalizing s with
  | zero => simp only [pushVoids, Option.some.injEq] at h; subst h; simp
  | succ n ih =>
    simp only [pushVoids] at h
    cases hp : push s (.ref s.h) with
    | none => rw [hp] at h; cases h
    | some s1 =>
      rw [hp] at h
      obtain ⟨h1, h2⟩ := ih h
      obtain ⟨f1, f2, f3⟩ := push_fill (n := n + q) hp
      refine ⟨?_, by omega⟩
      rw [h1, f1, setMem_self (fill_in _ (Nat.le_refl _) (by omega))]
      congr 1; omega

theorem voids_run {m : M} {p n q : Nat} {code : List Ins} {r : Option M} (hc : Cur N V m g p (n + q))
    (h : exec E (voids n ++ code) m = some r) :
    ∃ m', Cur N V m' g (p + n) q ∧ m'.X = m.X ∧ m'.e = m.e ∧ m'.ee = m.ee ∧ exec E code m' = some r := by
  cases n with
  | zero => exact ⟨m, by simpa using hc, rfl, rfl, rfl, by simpa [voids] using h⟩
  | succ n =>
    have hcells : ∀ i, i < q → p + (n + 1) + i < V.lssa ∧ isTerm (V.mem (p + (n + 1) + i)) = true := by
      intro i hi
      have := hc.cells (n + 1 + i) (by omega)
      rw [show p + (n + 1) + i = p + (n + 1 + i) by omega]; exact this
    simp only [voids, List.cons_append, List.nil_append, exec, step] at h
    rcases hc.mode with ⟨hS, hV⟩ | ⟨hS, hp, hV, hno⟩
    · rw [hS] at h
      exact ⟨{ m with S := some (p + (n + 1)) }, ⟨Or.inl ⟨rfl, hV⟩, hcells⟩, rfl, rfl, rfl, h⟩
    · rw [hS] at h
      simp only at h
      cases hpv : pushVoids (n + 1) m.s with
      | none => rw [hpv] at h; simp [M.ret] at h
      | some s' =>
        rw [hpv] at h
        simp only [Option.map_some, M.ret] at h
        obtain ⟨f1, f2⟩ := pushVoids_fill (q := q) hpv
        refine ⟨{ m with s := s', S := none }, ⟨Or.inr ⟨rfl, ?_, ?_, ?_⟩, hcells⟩, rfl, rfl, rfl, h⟩
        · show p + (n + 1) = s'.h; rw [f2, hp]
        · show V = fill s' q; rw [f1, hV]
        · exact ⟨fun b h1 h2 => hno.mem b (by omega) (by omega), fun b h1 h2 => hno.reg b (by omega) (by omega)⟩

/-! ## Structures -/

/-- The terms of `n` consecutive words. -/
def cells (ρ : Adr → T) (p n : Nat) : List T := (List.range n).map fun i => ρ (p + i)

theorem cells_succ (ρ : Adr → T) (p n : Nat) : cells ρ p (n + 1) = ρ p :: cells ρ (p + 1) n := by
  simp only [cells, List.range_succ_eq_map, List.map_cons, List.map_map, Nat.add_zero, List.cons.injEq, true_and]
  apply List.map_congr_left
  intro i _
  simp only [Function.comp]
  congr 1; omega

theorem cells_length (ρ : Adr → T) (p n : Nat) : (cells ρ p n).length = n := by simp [cells]

theorem cells_eq (ts : List T) (ρ : Adr → T) (p : Nat) :
    cells (fun a => if h : p ≤ a ∧ a < p + ts.length then ts[a - p]'(by omega) else ρ a) p ts.length = ts := by
  apply List.ext_getElem
  · simp [cells]
  · intro i h1 h2
    simp only [cells, List.getElem_map, List.getElem_range]
    rw [dif_pos ⟨by omega, by omega⟩]
    congr 1; omega

theorem model_agree (hwf : WF N V.lssa V.mem) {ρ ρ' : Adr → T} (h : Model N V.mem ρ) (ha : Agree V.mem ρ ρ') : Model N V.mem ρ' := by
  intro a h1 h2
  rw [ha a h2, ha.eval (hwf a h1 h2).1]
  exact h a h1 h2

/-- A word which is not a term is pushed. -/
theorem pushRaw_chg (hok : Ok N V) {w : Cell} (hw : isTerm w = false) (h : push V w = some V') :
    Chg N V (fun _ => True) V' ∧ (∀ ρ, Model N V.mem ρ → Model N V'.mem ρ) ∧ V'.mem = V.mem.set V.h w ∧ V'.h = V.h + 1 ∧
      V.h < V.lssa := by
  unfold push at h
  split at h
  · rename_i hlt
    simp only [Option.some.injEq] at h
    subst h
    have hp := hok.free V.h (Nat.le_refl _) hlt
    have hap : ∀ a, isTerm (V.mem.set V.h w a) = true → a ≠ V.h := by
      intro a h h2; subst h2; rw [set_same, hw] at h; cases h
    have hgr : Grow V.mem (V.mem.set V.h w) := by
      refine ⟨fun a h => ?_, fun a h1 h2 => ?_⟩
      · rw [set_other]; exact h
        intro h2; subst h2; rw [hp] at h; simp [isTerm] at h
      · rw [set_other]; intro h3; subst h3; exact h2 hp
    have hup : ∀ ρ, Model N V.mem ρ → Model N (V.mem.set V.h w) ρ := by
      intro ρ hρ a h1 h2
      have := hap a h2
      rw [set_other _ _ _ _ this] at h2 ⊢
      rw [hgr.eval (hok.wf a h1 h2).1]
      exact hρ a h1 h2
    refine ⟨⟨⟨⟨?_, ?_, hok.top⟩, rfl, hgr, ?_, ?_⟩, ?_, ?_, ?_⟩, hup, rfl, rfl, hlt⟩
    · intro a h1 h2
      have := hap a h2
      simp only at h2 ⊢
      rw [set_other _ _ _ _ this] at h2 ⊢
      obtain ⟨k1, k2, k3⟩ := hok.wf a h1 h2
      exact ⟨hgr.valid k1, k2, alloc_acc hok.wf hp a h1 h2 k3⟩
    · intro a h1 h2
      simp only at h1 h2 ⊢
      rw [set_other _ _ _ _ (by omega)]; exact hok.free a (by omega) h2
    · intro ρ hρ
      refine ⟨fun a h1 h2 => ?_, trivial⟩
      have hne : a ≠ V.h := by intro h; subst h; rw [hp] at h2; simp [isTerm] at h2
      have h3 := hρ a h1 (by simp only; rw [set_other _ _ _ _ hne]; exact h2)
      simp only at h3
      rw [set_other _ _ _ _ hne, hgr.eval (hok.wf a h1 h2).1] at h3
      exact h3
    · intro ρ hρ _; exact ⟨ρ, hup ρ hρ, Agree.refl _ _⟩
    · intro a h1 h2; exact set_other _ _ _ _ (by intro h; subst h; exact h2 hp)
    · intro a h1 h2
      show V.mem.set V.h w a = _
      rw [set_other _ _ _ _ (by omega)]; exact h2
    · intro a b h1 h2
      simp only at h1 h2
      by_cases h : a = V.h
      · subst h; rw [set_same] at h1; rw [h1] at hw; cases hw
      · rw [set_other _ _ _ _ h] at h2; exact absurd rfl h2
  · cases h

/-- The words above H become variables. -/
theorem fill_chg (hok : Ok N V) {n : Nat} (hn : V.h + n ≤ V.lssa) :
    Chg N V (fun _ => True) (fill V n) ∧ ∀ ρ, Model N V.mem ρ → Model N (fill V n).mem ρ := by
  have hfree : ∀ a, V.h ≤ a → a < V.h + n → V.mem a = .fn 0 0 := fun a h1 h2 => hok.free a h1 (by omega)
  have hout : ∀ a, isTerm (V.mem a) = true → (fill V n).mem a = V.mem a := by
    intro a h
    refine fill_out V ?_
    by_cases h1 : V.h ≤ a ∧ a < V.h + n
    · rw [hfree a h1.1 h1.2] at h; simp [isTerm] at h
    · omega
  have htop := hok.top
  have hgr : Grow V.mem (fill V n).mem := by
    refine ⟨fun a h => by rw [hout a h]; exact h, fun a h1 h2 => fill_out V ?_⟩
    by_cases h3 : V.h ≤ a ∧ a < V.h + n
    · exact absurd (hfree a h3.1 h3.2) h2
    · omega
  have hacc : ∀ a, a < N → isTerm (V.mem a) = true → Acc (RefTo (fill V n).mem) a := by
    intro a ha hta
    have h3 := (hok.wf a ha hta).2.2
    induction h3 with
    | intro a _ ih =>
      refine Acc.intro a ?_
      rintro b ⟨hb, hbne⟩
      rw [hout a hta] at hb
      have hv := (hok.wf a ha hta).1
      rw [hb] at hv
      exact ih b ⟨hb, hbne⟩ hv.1 hv.2
  have hup : ∀ ρ, Model N V.mem ρ → Model N (fill V n).mem ρ := by
    intro ρ hρ a h1 h2
    by_cases h3 : V.h ≤ a ∧ a < V.h + n
    · rw [fill_in V h3.1 h3.2]; rfl
    · rw [fill_out V (by omega)] at h2 ⊢
      rw [hgr.eval (hok.wf a h1 h2).1]; exact hρ a h1 h2
  refine ⟨⟨⟨⟨?_, ?_, htop⟩, rfl, hgr, ?_, ?_⟩, ?_, ?_, ?_⟩, hup⟩
  · intro a h1 h2
    by_cases h3 : V.h ≤ a ∧ a < V.h + n
    · have e1 := fill_in V h3.1 h3.2
      rw [e1]
      refine ⟨⟨h1, h2⟩, fun b hb h => by cases hb; exact h, Acc.intro a ?_⟩
      rintro b ⟨hb, hbne⟩
      rw [e1] at hb; cases hb; exact absurd rfl hbne
    · have e1 := fill_out V (n := n) (a := a) (by omega)
      rw [e1] at h2 ⊢
      obtain ⟨k1, k2, _⟩ := hok.wf a h1 h2
      exact ⟨hgr.valid k1, k2, hacc a h1 h2⟩
  · intro a h1 h2
    have h1 : V.h + n ≤ a := h1
    rw [fill_out V (by omega)]; exact hok.free a (by omega) h2
  · intro ρ hρ
    refine ⟨fun a h1 h2 => ?_, trivial⟩
    have h3 := hρ a h1 (hgr.term a h2)
    rw [hout a h2, hgr.eval (hok.wf a h1 h2).1] at h3
    exact h3
  · intro ρ hρ _; exact ⟨ρ, hup ρ hρ, Agree.refl _ _⟩
  · intro a h1 h2
    refine fill_out V ?_
    by_cases h3 : V.h ≤ a ∧ a < V.h + n
    · exact absurd (hfree a h3.1 h3.2) h2
    · omega
  · intro a h1 h2; rw [fill_out V (by omega)]; exact h2
  · intro a b h1 h2
    by_cases h3 : V.h ≤ a ∧ a < V.h + n
    · rw [fill_in V h3.1 h3.2] at h1; cases h1; right; omega
    · exact absurd (fill_out V (by omega)) h2

end Gp.CodeGen
