import Verif.CodeGen.Spec
import Verif.ListBip.Lemmas
import Verif.CodeGen.Low
namespace Gp.CodeGen
open Gp.Heap Gp.Unify Gp.ListBip
open Gp.Term (isNaN fkey)

/-- The value of a variable. -/
def val (e : Adr) (mem : Heap.Mem) (X : Var → Cell) (ρ : Adr → T) : Var → T
  | .y i => ρ (yadr e i)
  | v => eval mem ρ (X v)

/-- The known variables have the values `β`. -/
def Holds (e : Adr) (V : St) (X : Var → Cell) (g : G) (β : Var → T) (ρ : Adr → T) : Prop :=
  ∀ v, g.info v ≠ none → β v = val e V.mem X ρ v

structure Inv (N nY e : Nat) (V : St) (X : Var → Cell) (g : G) : Prop where
  ok : Ok N V
  word : ∀ v, v.isY = false → g.info v ≠ none → ValidWord N V.lssa V.mem (X v)
  heap : ∀ v, v.isY = false → g.info v = some .inHeap → Global V.lssa (X v)
  yword : ∀ i, g.info (.y i) ≠ none → isTerm (V.mem (yadr e i)) = true
  yheap : ∀ i, g.info (.y i) = some .inHeap → Global V.lssa (V.mem (yadr e i))
  ydom : ∀ i, g.info (.y i) ≠ none → i < nY
  yfree : ∀ i, i < nY → g.info (.y i) = none → V.mem (yadr e i) = .fn 0 0
  env : ∀ i, i < nY → V.lssa ≤ yadr e i ∧ yadr e i < N
  inj : ∀ i j, i < nY → j < nY → yadr e i = yadr e j → i = j
  tmp : ∀ n, g.tmp ≤ n → g.info (.tmp n) = none
  nouns : ∀ v, v.isY = false → v.isArg = false → g.info v ≠ some .unsafeEnv

/-- `β'` is `β` but for the auxiliary temporaries from `c`. -/
def SameTo (c : Nat) (β β' : Var → T) : Prop := ∀ v, (∀ n, v = .tmp n → n < c) → β' v = β v

/-- No solution of `A`. -/
def NoSol (N e : Nat) (V : St) (X : Var → Cell) (g : G) (A : (Var → T) → (Adr → T) → Prop) : Prop :=
  ∀ ρ β, Model N V.mem ρ → Holds e V X g β ρ → ¬ A β ρ

/-- No reference from below `ee` to the environment above. -/
def Low (ee : Adr) (mem : Heap.Mem) : Prop := ∀ a b, a < ee → mem a = .ref b → b < ee

/-- The word of a variable. -/
def word (e : Adr) (V : St) (X : Var → Cell) : Var → Cell
  | .y i => V.mem (yadr e i)
  | v => X v

/-- The variables said not to be in the current environment do not refer to it. -/
def Safe (ee e : Adr) (V : St) (X : Var → Cell) (g : G) : Prop :=
  ∀ v, g.info v = some .notInCurEnv → ∀ b, word e V X v = .ref b → b < ee

/-- A transition which changes the constraint `A` to `B`; `c` is the first free auxiliary temporary. -/
structure Tr (N nY e c : Nat) (V : St) (X : Var → Cell) (g : G) (V' : St) (X' : Var → Cell) (g' : G)
    (A B : (Var → T) → (Adr → T) → Prop) : Prop where
  inv : Inv N nY e V' X' g'
  lssa : V'.lssa = V.lssa
  grow : Grow V.mem V'.mem
  regs : ∀ v, g.info v ≠ none → X' v = X v
  info : ∀ v i, g.info v = some i → g'.info v = some i
  low : ∀ ee, V.lssa ≤ ee → (∀ i, i < nY → ee ≤ yadr e i) → Low ee V.mem → Low ee V'.mem
  safe : ∀ ee, V.lssa ≤ ee → (∀ i, i < nY → ee ≤ yadr e i) → Safe ee e V X g → Safe ee e V' X' g'
  down : ∀ ρ, Model N V'.mem ρ → Model N V.mem ρ ∧
    ∀ β, Holds e V' X' g' β ρ → B β ρ → Holds e V X g β ρ ∧ A β ρ
  up : ∀ ρ β, Model N V.mem ρ → Holds e V X g β ρ → A β ρ →
    ∃ ρ' β', Model N V'.mem ρ' ∧ Agree V.mem ρ ρ' ∧ SameTo c β β' ∧ Holds e V' X' g' β' ρ' ∧ B β' ρ'

variable {N nY e c c' : Nat} {V V' V'' : St} {X X' X'' : Var → Cell} {g g' g'' : G}
  {A B C : (Var → T) → (Adr → T) → Prop}

theorem SameTo.refl (β : Var → T) : SameTo c β β := fun _ _ => rfl

theorem SameTo.trans {β1 β2 β3 : Var → T} (h : SameTo c β1 β2) (h' : SameTo c' β2 β3) (hc : c ≤ c') : SameTo c β1 β3 :=
  fun v hv => by rw [h' v (fun n hn => Nat.lt_of_lt_of_le (hv n hn) hc), h v hv]

theorem Tr.trans (h : Tr N nY e c V X g V' X' g' A B) (h' : Tr N nY e c' V' X' g' V'' X'' g'' B C) (hc : c ≤ c') :
    Tr N nY e c V X g V'' X'' g'' A C where
  inv := h'.inv
  lssa := by rw [h'.lssa, h.lssa]
  grow := h.grow.trans h'.grow
  regs v hv := by
    obtain ⟨i, hi⟩ := Option.ne_none_iff_exists'.mp hv
    rw [h'.regs v (by rw [h.info v i hi]; simp), h.regs v hv]
  info v i hi := h'.info v i (h.info v i hi)
  low ee h1 h2 h3 := h'.low ee (by rw [h.lssa]; exact h1) h2 (h.low ee h1 h2 h3)
  safe ee h1 h2 h3 := h'.safe ee (by rw [h.lssa]; exact h1) h2 (h.safe ee h1 h2 h3)
  down ρ hρ := by
    obtain ⟨m1, d1⟩ := h'.down ρ hρ
    obtain ⟨m0, d0⟩ := h.down ρ m1
    refine ⟨m0, fun β hh hc => ?_⟩
    obtain ⟨a1, a2⟩ := d1 β hh hc
    exact d0 β a1 a2
  up ρ β hρ hh ha := by
    obtain ⟨ρ1, β1, m1, g1, s1, h1, b1⟩ := h.up ρ β hρ hh ha
    obtain ⟨ρ2, β2, m2, g2, s2, h2, b2⟩ := h'.up ρ1 β1 m1 h1 b1
    exact ⟨ρ2, β2, m2, g1.trans g2 h.grow, s1.trans s2 hc, h2, b2⟩

theorem Tr.fail (h : Tr N nY e c V X g V' X' g' A B) (hn : NoSol N e V' X' g' B) : NoSol N e V X g A := by
  intro ρ β hρ hh ha
  obtain ⟨ρ1, β1, m1, _, _, h1, b1⟩ := h.up ρ β hρ hh ha
  exact hn ρ1 β1 m1 h1 b1

theorem Tr.conseq {A' B' : (Var → T) → (Adr → T) → Prop} (h : Tr N nY e c V X g V' X' g' A B)
    (ha : ∀ ρ β, Model N V.mem ρ → Holds e V X g β ρ → (A β ρ ↔ A' β ρ))
    (hb : ∀ ρ β, Model N V'.mem ρ → Holds e V' X' g' β ρ → (B β ρ ↔ B' β ρ)) :
    Tr N nY e c V X g V' X' g' A' B' :=
  { h with
    down := fun ρ hρ => by
      obtain ⟨m, d⟩ := h.down ρ hρ
      refine ⟨m, fun β hh hB => ?_⟩
      obtain ⟨a1, a2⟩ := d β hh ((hb ρ β hρ hh).mpr hB)
      exact ⟨a1, (ha ρ β m a1).mp a2⟩
    up := fun ρ β hρ hh hA => by
      obtain ⟨ρ1, β1, m1, g1, s1, h1, b1⟩ := h.up ρ β hρ hh ((ha ρ β hρ hh).mpr hA)
      exact ⟨ρ1, β1, m1, g1, s1, h1, (hb ρ1 β1 m1 h1).mp b1⟩ }

/-- Frame: a constraint which does not depend on the transition. -/
theorem Tr.frame {F : (Var → T) → (Adr → T) → Prop} (h : Tr N nY e c V X g V' X' g' A B)
    (hF : ∀ ρ ρ' β β', Agree V.mem ρ ρ' → SameTo c β β' → (F β ρ ↔ F β' ρ')) :
    Tr N nY e c V X g V' X' g' (fun β ρ => A β ρ ∧ F β ρ) (fun β ρ => B β ρ ∧ F β ρ) :=
  { h with
    down := fun ρ hρ => by
      obtain ⟨m, d⟩ := h.down ρ hρ
      refine ⟨m, fun β hh hB => ?_⟩
      obtain ⟨a1, a2⟩ := d β hh hB.1
      exact ⟨a1, a2, hB.2⟩
    up := fun ρ β hρ hh hA => by
      obtain ⟨ρ1, β1, m1, g1, s1, h1, b1⟩ := h.up ρ β hρ hh hA.1
      exact ⟨ρ1, β1, m1, g1, s1, h1, b1, (hF ρ ρ1 β β1 g1 s1).mp hA.2⟩ }

theorem Tr.refl (hi : Inv N nY e V X g) : Tr N nY e c V X g V X g A A where
  inv := hi
  lssa := rfl
  grow := Grow.refl _
  regs _ _ := rfl
  info _ _ h := h
  low _ _ _ h := h
  safe _ _ _ h := h
  down ρ hρ := ⟨hρ, fun _ h hB => ⟨h, hB⟩⟩
  up ρ β hρ hh ha := ⟨ρ, β, hρ, Agree.refl _ _, SameTo.refl _, hh, ha⟩

/-- A change of the memory. -/
structure Chg (N : Nat) (V : St) (P : (Adr → T) → Prop) (V' : St) : Prop extends Step N V P V' where
  keep : ∀ a, V.mem a ≠ .ref a → V.mem a ≠ .fn 0 0 → V'.mem a = V.mem a
  above : ∀ a, V.lssa ≤ a → V.mem a = .fn 0 0 → V'.mem a = .fn 0 0
  refs : ∀ a b, V'.mem a = .ref b → V'.mem a ≠ V.mem a → b < a ∨ b < V.lssa

theorem val_grow (hi : Inv N nY e V X g) (hg : Grow V.mem V'.mem) {v : Var} (hv : g.info v ≠ none) (ρ : Adr → T) :
    val e V'.mem X ρ v = val e V.mem X ρ v := by
  cases v with
  | y i => rfl
  | _ => exact hg.eval (hi.word _ rfl hv) ρ

theorem val_agree (hi : Inv N nY e V X g) {ρ ρ' : Adr → T} (hg : Agree V.mem ρ ρ') {v : Var} (hv : g.info v ≠ none) :
    val e V.mem X ρ' v = val e V.mem X ρ v := by
  cases v with
  | y i => exact hg _ (hi.yword i hv)
  | _ => exact hg.eval (hi.word _ rfl hv)

theorem val_regs {v : Var} (h : X' v = X v) (mem : Heap.Mem) (ρ : Adr → T) : val e mem X' ρ v = val e mem X ρ v := by
  cases v <;> simp only [val, h]

theorem Holds.up (hi : Inv N nY e V X g) (hgr : Grow V.mem V'.mem) (hr : ∀ v, g.info v ≠ none → X' v = X v)
    {ρ ρ' : Adr → T} (hg : Agree V.mem ρ ρ') {β : Var → T} (h : Holds e V X g β ρ) {v : Var} (hv : g.info v ≠ none) :
    β v = val e V'.mem X' ρ' v := by
  rw [val_regs (hr v hv), val_grow hi hgr hv, val_agree hi hg hv]; exact h v hv

theorem Holds.down (hi : Inv N nY e V X g) (hgr : Grow V.mem V'.mem) (hr : ∀ v, g.info v ≠ none → X' v = X v)
    (hin : ∀ v i, g.info v = some i → g'.info v = some i)
    {ρ : Adr → T} {β : Var → T} (h : Holds e V' X' g' β ρ) : Holds e V X g β ρ := by
  intro v hv
  rw [← val_grow hi hgr hv, ← val_regs (hr v hv)]
  obtain ⟨i, hi⟩ := Option.ne_none_iff_exists'.mp hv
  exact h v (by rw [hin v i hi]; simp)

theorem Chg.inv {P : (Adr → T) → Prop} (hi : Inv N nY e V X g) (h : Chg N V P V') : Inv N nY e V' X g where
  ok := h.ok
  word v hv hk := by rw [h.lssa]; exact h.grow.valid (hi.word v hv hk)
  heap v hv hk := by rw [h.lssa]; exact hi.heap v hv hk
  yword i hk := h.grow.term _ (hi.yword i hk)
  yheap i hk := by
    have h1 := hi.yheap i hk
    have hy := (hi.env i (hi.ydom i (by rw [hk]; simp))).1
    rw [h.lssa, h.keep]
    · exact h1
    · intro h2; have := h1 _ h2; omega
    · intro h2; have := hi.yword i (by rw [hk]; simp); rw [h2] at this; simp [isTerm] at this
  ydom := hi.ydom
  yfree i h1 h2 := h.above _ (hi.env i h1).1 (hi.yfree i h1 h2)
  env i h1 := by rw [h.lssa]; exact hi.env i h1
  inj := hi.inj
  tmp := hi.tmp
  nouns := hi.nouns

theorem Chg.tr {P : (Adr → T) → Prop} (hi : Inv N nY e V X g) (h : Chg N V P V') :
    Tr N nY e c V X g V' X g (fun _ ρ => P ρ) (fun _ _ => True) where
  inv := h.inv hi
  lssa := h.lssa
  grow := h.grow
  regs _ _ := rfl
  info _ _ h := h
  low ee h1 _ h3 a b ha hb := by
    by_cases he : V'.mem a = V.mem a
    · exact h3 a b ha (by rw [← he]; exact hb)
    · rcases h.refs a b hb he with h4 | h4 <;> omega
  safe ee h1 h2 h3 v hv b hb := by
    cases v with
    | y i =>
      have hk : g.info (.y i) ≠ none := by rw [hv]; simp
      have hy := h2 i (hi.ydom i hk)
      simp only [word] at hb
      rw [h.keep] at hb
      · exact h3 _ hv b hb
      · intro h4; have := h3 _ hv _ h4; omega
      · intro h4; have := hi.yword i hk; rw [h4] at this; simp [isTerm] at this
    | _ => exact h3 _ hv b hb
  down ρ hρ := by
    obtain ⟨m, d⟩ := h.down ρ hρ
    exact ⟨m, fun β hh _ => ⟨hh.down hi h.grow (fun _ _ => rfl) (fun _ _ h => h), d⟩⟩
  up ρ β hρ hh ha := by
    obtain ⟨ρ', m, g⟩ := h.up ρ hρ ha
    exact ⟨ρ', β, m, g, SameTo.refl _, fun v hv => hh.up hi h.grow (fun _ _ => rfl) g hv, trivial⟩

theorem bind_chg (hok : Ok N V) {x : Adr} {w : Cell} (hx : x < N) (hu : V.mem x = .ref x)
    (hw : ValidWord N V.lssa V.mem w) (hne : ∀ b, w ≠ .ref b) :
    Chg N V (fun ρ => ρ x = eval V.mem ρ w) (V.bindUV x w) :=
  { bind_step hok hx hu hw hne with
    keep := fun a h1 h2 => set_other _ _ _ _ (by intro h; subst h; exact h1 hu)
    above := fun a h1 h2 => by
      show V.mem.set x w a = _
      rw [set_other _ _ _ _ (by intro h; subst h; rw [hu] at h2; cases h2)]; exact h2
    refs := fun a b h1 h2 => Or.inl (DownTo.set (fun b hb => absurd hb (hne b)) a b h1 h2) }

theorem unify_chg (hok : Ok N V) {E : Env} {u v : Cell} (hu : ValidWord N V.lssa V.mem u)
    (hv : ValidWord N V.lssa V.mem v) (h : unify false E.fd E.fuel V u v = some (true, V')) :
    Chg N V (fun ρ => eval V.mem ρ u = eval V.mem ρ v) V' :=
  have hr := unify_res E.fuel V u v true V' rfl hok.wf hu hv h
  { unify_step hok hu hv h with
    keep := fun a h1 _ => by
      by_cases he : V'.mem a = V.mem a
      · exact he
      · exact absurd (hr.keeps a he).1 h1
    above := fun a _ h2 => hr.same.fn h2
    refs := fun a b h1 h2 => Or.inl (unify_low E.fuel V u v true V' rfl hok.wf hu hv h a b h1 h2) }

/-! ## Registers -/

theorem setInfo_same (v : Var) (i : Info) : (g.setInfo v i).info v = some i := by simp [G.setInfo]

theorem setInfo_other {u v : Var} (i : Info) (h : u ≠ v) : (g.setInfo v i).info u = g.info u := by simp [G.setInfo, h]

def setReg (X : Var → Cell) (v : Var) (w : Cell) : Var → Cell := fun u => if u = v then w else X u

/-- Assignment of a register which is not known before. -/
theorem reg_tr (hi : Inv N nY e V X g) {v : Var} {w : Cell} {i : Info} (hv : v.isY = false) (hn : g.info v = none)
    (htmp : ∀ n, v = .tmp n → n < g.tmp)
    (hw : ValidWord N V.lssa V.mem w) (hg : i = .inHeap → Global V.lssa w) (hns : i = .unsafeEnv → v.isArg = true)
    (hsf : i = .notInCurEnv → ∀ ee, V.lssa ≤ ee → Safe ee e V X g → Global ee w) :
    Tr N nY e c V X g V (setReg X v w) (g.setInfo v i) (fun β ρ => β v = eval V.mem ρ w) (fun _ _ => True) := by
  have hval : ∀ ρ, val e V.mem (setReg X v w) ρ v = eval V.mem ρ w := by
    intro ρ; cases v <;> first | (simp [Var.isY] at hv; done) | simp [val, setReg]
  have hregs : ∀ u, g.info u ≠ none → setReg X v w u = X u := by
    intro u hu
    have : u ≠ v := by intro h; subst h; exact hu hn
    simp [setReg, this]
  have hinfo : ∀ u j, g.info u = some j → (g.setInfo v i).info u = some j := by
    intro u j hu
    rw [setInfo_other i (by intro h; subst h; rw [hn] at hu; cases hu)]; exact hu
  refine ⟨⟨hi.ok, ?_, ?_, ?_, ?_, ?_, ?_, hi.env, hi.inj, ?_, ?_⟩, rfl, Grow.refl _, hregs, hinfo,
    fun _ _ _ h => h, ?_, ?_, ?_⟩
  · intro u h1 h2
    by_cases hu : u = v
    · subst hu; simpa [setReg] using hw
    · rw [setInfo_other i hu] at h2; simpa [setReg, hu] using hi.word u h1 h2
  · intro u h1 h2
    by_cases hu : u = v
    · subst hu; rw [setInfo_same] at h2; simpa [setReg] using hg (Option.some.inj h2)
    · rw [setInfo_other i hu] at h2; simpa [setReg, hu] using hi.heap u h1 h2
  · intro j h; rw [setInfo_other i (by intro h; subst h; simp [Var.isY] at hv)] at h; exact hi.yword j h
  · intro j h; rw [setInfo_other i (by intro h; subst h; simp [Var.isY] at hv)] at h; exact hi.yheap j h
  · intro j h; rw [setInfo_other i (by intro h; subst h; simp [Var.isY] at hv)] at h; exact hi.ydom j h
  · intro j h1 h; rw [setInfo_other i (by intro h; subst h; simp [Var.isY] at hv)] at h; exact hi.yfree j h1 h
  · intro n h
    rw [setInfo_other i (by intro h2; have := htmp n h2.symm; simp only [G.setInfo] at h; omega)]; exact hi.tmp n h
  · intro u h1 h3 h2
    by_cases hu : u = v
    · subst hu; rw [setInfo_same] at h2; rw [hns (Option.some.inj h2)] at h3; cases h3
    · rw [setInfo_other i hu] at h2; exact hi.nouns u h1 h3 h2
  · intro ee h1 h2 h3 u hu b hb
    by_cases h : u = v
    · subst h
      rw [setInfo_same] at hu
      refine hsf (Option.some.inj hu) ee h1 h3 b ?_
      cases u <;> first | (simp [Var.isY] at hv; done) | simpa [word, setReg] using hb
    · rw [setInfo_other i h] at hu
      refine h3 u hu b ?_
      cases u <;> first | exact hb | simpa [word, setReg, h] using hb
  · intro ρ hρ
    refine ⟨hρ, fun β hh _ => ⟨hh.down hi (Grow.refl _) hregs hinfo, ?_⟩⟩
    rw [← hval]; exact hh v (by rw [setInfo_same]; simp)
  · intro ρ β hρ hh ha
    refine ⟨ρ, β, hρ, Agree.refl _ _, SameTo.refl _, fun u hu => ?_, trivial⟩
    by_cases h : u = v
    · subst h; rw [hval]; exact ha
    · rw [setInfo_other i h] at hu
      exact hh.up hi (Grow.refl _) hregs (Agree.refl _ _) hu

/-- Well-formedness is kept by the assignment of an unused word of the local stack. -/
theorem allocLocal_wf (hwf : WF N V.lssa V.mem) {p : Adr} {w : Cell} (hp : V.mem p = .fn 0 0) (hpl : V.lssa ≤ p)
    (hw : ValidWord N V.lssa V.mem w) : WF N V.lssa (V.mem.set p w) := by
  have hgr := set_grow hp (valid_isTerm hw)
  intro a ha hta
  by_cases h : a = p
  · subst h
    rw [set_same]
    refine ⟨hgr.valid hw, fun b _ h => by omega, Acc.intro a ?_⟩
    rintro b ⟨hb, hne⟩
    rw [set_same] at hb
    subst hb
    exact alloc_acc hwf hp b hw.1 hw.2 (hwf b hw.1 hw.2).2.2
  · rw [set_other _ _ _ _ h] at hta ⊢
    obtain ⟨h1, h2, h3⟩ := hwf a ha hta
    exact ⟨hgr.valid h1, h2, alloc_acc hwf hp a ha hta h3⟩

def setMem (V : St) (p : Adr) (w : Cell) : St := { V with mem := V.mem.set p w }

/-- Assignment of a permanent variable which is not known before. -/
theorem yvar_tr (hi : Inv N nY e V X g) {k : Nat} {w : Cell} {i : Info} (hk : k < nY) (hn : g.info (.y k) = none)
    (hw : ValidWord N V.lssa V.mem w) (hg : i = .inHeap → Global V.lssa w)
    (hsf : i = .notInCurEnv → ∀ ee, V.lssa ≤ ee → Safe ee e V X g → Global ee w) :
    Tr N nY e c V X g (setMem V (yadr e k) w) X (g.setInfo (.y k) i) (fun β ρ => β (.y k) = eval V.mem ρ w)
      (fun _ _ => True) := by
  have hp := hi.yfree k hk hn
  have hpl := (hi.env k hk).1
  have hpN := (hi.env k hk).2
  have hgr := set_grow hp (valid_isTerm hw)
  have hinfo : ∀ u j, g.info u = some j → (g.setInfo (.y k) i).info u = some j := by
    intro u j hu
    rw [setInfo_other i (by intro h; subst h; rw [hn] at hu; cases hu)]; exact hu
  have hne : ∀ j, j ≠ k → j < nY → yadr e j ≠ yadr e k := fun j h1 h2 h3 => h1 (hi.inj j k h2 hk h3)
  refine ⟨⟨⟨allocLocal_wf hi.ok.wf hp hpl hw, ?_, hi.ok.top⟩, ?_, ?_, ?_, ?_, ?_, ?_, hi.env, hi.inj, ?_, ?_⟩, rfl, hgr,
    fun _ _ => rfl, hinfo, ?_, ?_, ?_, ?_⟩
  · intro a h1 h2
    show V.mem.set _ w a = _
    rw [set_other _ _ _ _ (by simp only [setMem] at h2; omega)]; exact hi.ok.free a h1 h2
  · intro u h1 h2
    rw [setInfo_other i (by intro h; subst h; simp [Var.isY] at h1)] at h2
    exact hgr.valid (hi.word u h1 h2)
  · intro u h1 h2
    rw [setInfo_other i (by intro h; subst h; simp [Var.isY] at h1)] at h2
    exact hi.heap u h1 h2
  · intro j h
    by_cases hj : j = k
    · subst hj; simpa [setMem, Mem.set] using valid_isTerm hw
    · rw [setInfo_other i (by intro h; cases h; exact hj rfl)] at h
      exact hgr.term _ (hi.yword j h)
  · intro j h
    by_cases hj : j = k
    · subst hj; rw [setInfo_same] at h; simpa [setMem, Mem.set] using hg (Option.some.inj h)
    · rw [setInfo_other i (by intro h; cases h; exact hj rfl)] at h
      have hd := hi.ydom j (by rw [h]; simp)
      show Global _ (V.mem.set _ w _)
      rw [set_other _ _ _ _ (hne j hj hd)]
      exact hi.yheap j h
  · intro j h
    by_cases hj : j = k
    · subst hj; exact hk
    · rw [setInfo_other i (by intro h; cases h; exact hj rfl)] at h; exact hi.ydom j h
  · intro j h1 h
    by_cases hj : j = k
    · subst hj; rw [setInfo_same] at h; cases h
    · rw [setInfo_other i (by intro h; cases h; exact hj rfl)] at h
      show V.mem.set _ w _ = _
      rw [set_other _ _ _ _ (hne j hj h1)]; exact hi.yfree j h1 h
  · intro n h; rw [setInfo_other i (by intro h; cases h)]; exact hi.tmp n h
  · intro u h1 h3 h2
    rw [setInfo_other i (by intro h; subst h; simp [Var.isY] at h1)] at h2
    exact hi.nouns u h1 h3 h2
  · intro ee _ h2 h3 a b ha hb
    simp only [setMem] at hb
    rw [set_other _ _ _ _ (by have := h2 k hk; omega)] at hb
    exact h3 a b ha hb
  · intro ee h1 h2 h3 u hu b hb
    cases u with
    | y j =>
      simp only [word, setMem] at hb
      by_cases hj : j = k
      · subst hj
        rw [setInfo_same] at hu
        rw [set_same] at hb
        exact hsf (Option.some.inj hu) ee h1 h3 b hb
      · rw [setInfo_other i (by intro h; cases h; exact hj rfl)] at hu
        rw [set_other _ _ _ _ (hne j hj (hi.ydom j (by rw [hu]; simp)))] at hb
        exact h3 _ hu b hb
    | _ =>
      rw [setInfo_other i (by intro h; cases h)] at hu
      exact h3 _ hu b hb
  · intro ρ hρ
    have hm := alloc_down hi.ok.wf hp (valid_isTerm hw) ρ hρ
    refine ⟨hm, fun β hh _ => ⟨hh.down hi hgr (fun _ _ => rfl) hinfo, ?_⟩⟩
    have h1 := hh (.y k) (by rw [setInfo_same]; simp)
    rw [h1]
    have h2 := hρ (yadr e k) hpN (by simpa [setMem, Mem.set] using valid_isTerm hw)
    simp only [val]
    rw [h2]
    show eval (V.mem.set _ w) ρ (V.mem.set _ w _) = _
    rw [set_same, hgr.eval hw]
  · intro ρ β hρ hh ha
    obtain ⟨ρ', m', ag⟩ := alloc_up hi.ok.wf hp hw ρ hρ
    refine ⟨ρ', β, m', ag, SameTo.refl _, fun u hu => ?_, trivial⟩
    by_cases h : u = .y k
    · subst h
      rw [ha]
      simp only [val]
      have h2 := m' (yadr e k) hpN (by rw [set_same]; exact valid_isTerm hw)
      rw [h2, set_same, hgr.eval hw, ag.eval hw]
    · rw [setInfo_other i h] at hu
      exact hh.up hi hgr (fun _ _ => rfl) ag hu

end Gp.CodeGen
