import Verif.CodeGen.Lemmas
namespace Gp.CodeGen
open Gp.Heap Gp.Unify Gp.ListBip
open Gp.Term (isNaN fkey)

variable {N nY e c c' : Nat} {V V' V'' : St} {X X' X'' : Var → Cell} {g g' g'' : G}
  {A B C : (Var → T) → (Adr → T) → Prop} {E : Env}

/-- The state in which the `n` words above H, not yet written, are variables. -/
def fill (s : St) (n : Nat) : St :=
  { s with mem := fun a => if s.h ≤ a ∧ a < s.h + n then .ref a else s.mem a, h := s.h + n }

theorem fill_zero (s : St) : fill s 0 = s := by
  unfold fill
  have : (fun a => if s.h ≤ a ∧ a < s.h + 0 then Cell.ref a else s.mem a) = s.mem := by
    funext a; rw [if_neg (by omega)]
  rw [this]; rfl

theorem fill_in (s : St) {n a : Nat} (h1 : s.h ≤ a) (h2 : a < s.h + n) : (fill s n).mem a = .ref a := by
  simp [fill, h1, h2]

theorem fill_out (s : St) {n a : Nat} (h : a < s.h ∨ s.h + n ≤ a) : (fill s n).mem a = s.mem a := by
  simp only [fill]; rw [if_neg (by omega)]

/-- Nothing refers to the words not yet written. -/
structure NoRef (N : Nat) (V : St) (X : Var → Cell) (g : G) (p n : Nat) : Prop where
  mem : ∀ b, p ≤ b → b < p + n → ∀ a, a < N → V.mem a = .ref b → a = b
  reg : ∀ b, p ≤ b → b < p + n → ∀ v, v.isY = false → g.info v ≠ none → X v ≠ .ref b

/-- `n` arguments of a structure are at the address `p`: they exist in read mode, they are to be written in
write mode. -/
structure Cur (N : Nat) (V : St) (m : M) (g : G) (p n : Nat) : Prop where
  mode : (m.S = some p ∧ V = m.s) ∨ (m.S = none ∧ p = m.s.h ∧ V = fill m.s n ∧ NoRef N V m.X g p n)
  cells : ∀ i, i < n → p + i < V.lssa ∧ isTerm (V.mem (p + i)) = true

theorem Cur.done {m : M} {p : Nat} (h : Cur N V m g p 0) : V = m.s := by
  rcases h.mode with ⟨_, h⟩ | ⟨_, _, h, _⟩
  · exact h
  · rw [h, fill_zero]

/-- Writing a word of the global stack to which nothing refers. -/
theorem write_chg (hok : Ok N V) {p : Adr} {w : Cell} (hp : p < V.lssa) (hu : V.mem p = .ref p)
    (hno : ∀ a, a < N → V.mem a = .ref p → a = p) (hw : ValidWord N V.lssa V.mem w) (hg : Global V.lssa w)
    (hne : w ≠ .ref p) : Chg N V (fun ρ => ρ p = eval V.mem ρ w) (setMem V p w) := by
  have hpN : p < N := Nat.lt_of_lt_of_le hp hok.top
  have hs : Same V.mem (V.mem.set p w) := Same.set (by rw [hu]; rfl) (valid_isTerm hw)
  have hacc : ∀ a, a < N → isTerm (V.mem a) = true → a ≠ p → Acc (RefTo (V.mem.set p w)) a := by
    intro a ha hta hap
    have h3 := (hok.wf a ha hta).2.2
    induction h3 with
    | intro a _ ih =>
      refine Acc.intro a ?_
      rintro b ⟨hb, hbne⟩
      rw [set_other _ _ _ _ hap] at hb
      have hv := (hok.wf a ha hta).1
      rw [hb] at hv
      exact ih b ⟨hb, hbne⟩ hv.1 hv.2 (fun h => by subst h; exact hap (hno a ha hb))
  refine ⟨⟨⟨?_, ?_, hok.top⟩, rfl, Same.grow hs, ?_, ?_⟩, ?_, ?_, ?_⟩
  · intro a ha hta
    by_cases h : a = p
    · subst h
      simp only [setMem]
      rw [set_same]
      refine ⟨hs.valid hw, fun b hb _ => hg b hb, Acc.intro a ?_⟩
      rintro b ⟨hb, hbne⟩
      rw [set_same] at hb
      subst hb
      exact hacc b hw.1 hw.2 hbne
    · simp only [setMem] at hta ⊢
      rw [set_other _ _ _ _ h] at hta ⊢
      obtain ⟨h1, h2, h3⟩ := hok.wf a ha hta
      exact ⟨hs.valid h1, h2, hacc a ha hta h⟩
  · intro a h1 h2; exact hs.fn (hok.free a h1 h2)
  · intro ρ hρ; exact (bind_models hok.wf hpN hu hw ρ).mp hρ
  · intro ρ hρ hP; exact ⟨ρ, (bind_models hok.wf hpN hu hw ρ).mpr ⟨hρ, hP⟩, Agree.refl _ _⟩
  · intro a h1 h2; exact set_other _ _ _ _ (by intro h; subst h; exact h1 hu)
  · intro a h1 h2; exact hs.fn h2
  · intro a b h1 h2
    simp only [setMem] at h1 h2
    by_cases h : a = p
    · subst h; rw [set_same] at h1; exact Or.inr (hg b h1)
    · rw [set_other _ _ _ _ h] at h2; exact absurd rfl h2

theorem push_fill {s s' : St} {w : Cell} {n : Nat} (h : push s w = some s') :
    fill s' n = setMem (fill s (n + 1)) s.h w ∧ s'.h = s.h + 1 ∧ s'.lssa = s.lssa := by
  unfold push at h
  split at h
  · simp only [Option.some.injEq] at h
    subst h
    refine ⟨?_, rfl, rfl⟩
    simp only [fill, setMem, St.mk.injEq]
    refine ⟨?_, trivial, by omega, trivial, trivial, trivial⟩
    funext a
    simp only [Mem.set]
    by_cases h1 : a = s.h
    · subst h1; simp; omega
    · simp only [h1, if_false]
      by_cases h2 : s.h ≤ a ∧ a < s.h + (n + 1)
      · rw [if_pos (by omega), if_pos h2]
      · rw [if_neg (by omega), if_neg h2]
  · cases h

theorem NoRef.next {p n : Nat} (h : NoRef N V X g p (n + 1)) : NoRef N V X g (p + 1) n where
  mem b h1 h2 := h.mem b (by omega) (by omega)
  reg b h1 h2 := h.reg b (by omega) (by omega)

/-- The word `w` is written at `p`. -/
theorem NoRef.set {p n : Nat} {w : Cell} (h : NoRef N V X g p (n + 1)) (hw : ∀ b, p < b → b < p + 1 + n → w ≠ .ref b) :
    NoRef N (setMem V p w) X g (p + 1) n where
  mem b h1 h2 a ha hb := by
    simp only [setMem] at hb
    by_cases hap : a = p
    · subst hap; rw [set_same] at hb; exact absurd hb (hw b (by omega) h2)
    · rw [set_other _ _ _ _ hap] at hb; exact h.mem b (by omega) (by omega) a ha hb
  reg b h1 h2 := h.reg b (by omega) (by omega)

theorem setMem_self {p : Nat} (h : V.mem p = .ref p) : setMem V p (.ref p) = V := by
  unfold setMem
  have : V.mem.set p (.ref p) = V.mem := by
    funext a; by_cases ha : a = p
    · subst ha; rw [set_same, h]
    · rw [set_other _ _ _ _ ha]
  rw [this]

/-- The cells after a change. -/
theorem Cur.cells_next {m : M} {p n : Nat} (h : Cur N V m g p (n + 1)) (hl : V'.lssa = V.lssa) (hg : Grow V.mem V'.mem) :
    ∀ i, i < n → p + 1 + i < V'.lssa ∧ isTerm (V'.mem (p + 1 + i)) = true := by
  intro i hi
  have := h.cells (i + 1) (by omega)
  rw [show p + 1 + i = p + (i + 1) by omega, hl]
  exact ⟨this.1, hg.term _ this.2⟩

/-- What an instruction on one argument does. -/
def ElemOk (N nY : Nat) (m : M) (V : St) (g g' : G) (p n : Nat) (A : (Var → T) → (Adr → T) → Prop) :
    Option M → Prop
  | none => NoSol N m.e V m.X g A
  | some m' => ∃ V', Tr N nY m.e c V m.X g V' m'.X g' A (fun _ _ => True) ∧ Cur N V' m' g' (p + 1) n ∧ m'.e = m.e ∧ m'.ee = m.ee

/-- Constants in read mode. -/
theorem getCst_chg (hok : Ok N V) {w r : Cell} {t : T} (hr : ValidWord N V.lssa V.mem r)
    (hw : ValidWord N V.lssa V.mem w) (hwt : ∀ m ρ, eval m ρ w = t)
    (hd : ∀ v, ValidWord N V.lssa V.mem v → (∀ b, v ≠ .ref b) → ∀ ρ, eval V.mem ρ v = t → v = w) (hne : ∀ b, w ≠ .ref b)
    {o : Option St} (h : getCst V w r = some o) :
    (o = none → ∀ ρ, Model N V.mem ρ → eval V.mem ρ r ≠ t) ∧
    (∀ V', o = some V' → Chg N V (fun ρ => eval V.mem ρ r = t) V') := by
  obtain ⟨r', h1, h2, h3, h4⟩ := deref_ok hok hr
  unfold getCst at h
  rw [h1] at h
  by_cases hc : ∃ a, r' = .ref a
  · obtain ⟨a, rfl⟩ := hc
    simp only [Option.some.injEq] at h
    subst h
    refine ⟨fun h => (by cases h), fun V' hV => ?_⟩
    simp only [Option.some.injEq] at hV
    subst hV
    have hb := bind_chg hok h2.1 (h3 a rfl) hw hne
    refine { hb with down := ?_, up := ?_ }
    · intro ρ hρ
      obtain ⟨m, d⟩ := hb.down ρ hρ
      refine ⟨m, ?_⟩
      rw [h4 ρ m]; show ρ a = t; rw [d, hwt]
    · intro ρ hρ hp
      refine hb.up ρ hρ ?_
      rw [h4 ρ hρ] at hp
      rw [hwt]; exact hp
  · have hc' : ∀ a, r' ≠ .ref a := fun a h => hc ⟨a, h⟩
    have h' : (if r' = w then some (some V) else some none) = some o := by
      cases r' <;> first | exact absurd rfl (hc' _) | exact h
    by_cases he : r' = w
    · rw [if_pos he] at h'
      simp only [Option.some.injEq] at h'
      subst h'
      refine ⟨fun h => (by cases h), fun V' hV => ?_⟩
      simp only [Option.some.injEq] at hV
      subst hV
      refine ⟨⟨hok, rfl, Grow.refl _, ?_, ?_⟩, fun _ _ _ => rfl, fun _ _ h => h, fun _ _ _ h => absurd rfl h⟩
      · intro ρ hρ; refine ⟨hρ, ?_⟩; rw [h4 ρ hρ, he, hwt]
      · intro ρ hρ _; exact ⟨ρ, hρ, Agree.refl _ _⟩
    · rw [if_neg he] at h'
      simp only [Option.some.injEq] at h'
      subst h'
      refine ⟨fun _ ρ hρ ht => ?_, fun V' hV => by cases hV⟩
      rw [h4 ρ hρ] at ht
      exact he (hd r' h2 hc' ρ ht)

theorem getInt_eq (hok : Ok N V) {z : Int} {r : Cell} (hr : ValidWord N V.lssa V.mem r) :
    getInt E V z r = getCst V (.int z) r := by
  obtain ⟨r', h1, h2, _⟩ := deref_ok hok hr
  unfold getInt getCst
  rw [h1]
  cases r' <;> first | rfl | exact h2.elim

theorem atm_unique {i : Nat} {mem : Heap.Mem} {l : Nat} : ∀ v, ValidWord N l mem v → (∀ b, v ≠ .ref b) → ∀ ρ, eval mem ρ v = .atm i → v = .atm i := by
  intro v hv hne ρ h
  cases v with
  | ref b => exact absurd rfl (hne b)
  | atm j => simp only [eval, T.atm.injEq] at h; rw [h]
  | stc b => obtain ⟨f, n, h1, _⟩ := hv; rw [eval_stc h1] at h; cases h
  | flt b =>
    obtain ⟨x, h1⟩ := hv
    simp only [eval, h1] at h
    split at h <;> cases h
  | lst b => cases h
  | int z => cases h
  | fdv b => exact hv.elim
  | fn f n => exact hv.elim
  | raw x => exact hv.elim

theorem int_unique {z : Int} {mem : Heap.Mem} {l : Nat} : ∀ v, ValidWord N l mem v → (∀ b, v ≠ .ref b) → ∀ ρ, eval mem ρ v = .int z → v = .int z := by
  intro v hv hne ρ h
  cases v with
  | ref b => exact absurd rfl (hne b)
  | int j => simp only [eval, T.int.injEq] at h; rw [h]
  | stc b => obtain ⟨f, n, h1, _⟩ := hv; rw [eval_stc h1] at h; cases h
  | flt b =>
    obtain ⟨x, h1⟩ := hv
    simp only [eval, h1] at h
    split at h <;> cases h
  | lst b => cases h
  | atm z => cases h
  | fdv b => exact hv.elim
  | fn f n => exact hv.elim
  | raw x => exact hv.elim

/-- In read mode: an instruction which changes the state only. -/
theorem read_elem {m : M} {p n : Nat} (hi : Inv N nY m.e V m.X g) (hc : Cur N V m g p (n + 1))
    {P : (Var → T) → (Adr → T) → Prop} {Q : (Adr → T) → Prop}
    (hPQ : ∀ ρ β, Model N V.mem ρ → Holds m.e V m.X g β ρ → (Q ρ ↔ P β ρ))
    {o : Option St} (hno : o = none → ∀ ρ, Model N V.mem ρ → ¬ Q ρ) (hyes : ∀ V', o = some V' → Chg N V Q V') {r : Option M}
    (h : m.ret (some (p + 1)) (some o) = some r) : ElemOk (c := c) N nY m V g g p n P r := by
  cases o with
  | none =>
    simp only [M.ret, Option.some.injEq] at h
    subst h
    intro ρ β hρ hh hp
    exact hno rfl ρ hρ ((hPQ ρ β hρ hh).mpr hp)
  | some V' =>
    simp only [M.ret, Option.some.injEq] at h
    subst h
    have hch := hyes V' rfl
    exact ⟨V', (hch.tr hi).conseq hPQ (fun _ _ _ _ => Iff.rfl),
      ⟨Or.inl ⟨rfl, rfl⟩, hc.cells_next hch.lssa hch.grow⟩, rfl, rfl⟩

/-- In write mode: `Global_Push` of a word. -/
theorem write_elem {m : M} {p n : Nat} (hi : Inv N nY m.e V m.X g) (hc : Cur N V m g p (n + 1)) (hS : m.S = none)
    {w : Cell} (hw : ValidWord N V.lssa V.mem w) (hg : Global V.lssa w) (hne : ∀ b, p ≤ b → b < p + (n + 1) → w ≠ .ref b)
    {P : (Var → T) → (Adr → T) → Prop}
    (hPQ : ∀ ρ β, Model N V.mem ρ → Holds m.e V m.X g β ρ → (ρ p = eval V.mem ρ w ↔ P β ρ))
    {r : Option M} (h : m.ret none (pushRes m.s w) = some r) : ElemOk (c := c) N nY m V g g p n P r := by
  rcases hc.mode with ⟨h1, _⟩ | ⟨_, hp, hV, hno⟩
  · rw [hS] at h1; cases h1
  · unfold pushRes at h
    cases hpu : push m.s w with
    | none => rw [hpu] at h; simp [M.ret] at h
    | some s' =>
      rw [hpu] at h
      simp only [Option.map_some, M.ret, Option.some.injEq] at h
      subst h
      obtain ⟨f1, f2, f3⟩ := push_fill (n := n) hpu
      have hV' : fill s' n = setMem V p w := by rw [f1, hV, hp]
      have h0 := hc.cells 0 (by omega)
      have hu : V.mem p = .ref p := by rw [hV, hp]; exact fill_in _ (Nat.le_refl _) (by omega)
      have hch := write_chg hi.ok (p := p) (w := w) (by simpa using h0.1) hu (hno.mem p (Nat.le_refl _) (by omega)) hw hg
        (hne p (Nat.le_refl _) (by omega))
      refine ⟨setMem V p w, (hch.tr hi).conseq hPQ (fun _ _ _ _ => Iff.rfl), ⟨Or.inr ⟨rfl, ?_, hV'.symm, ?_⟩, ?_⟩, rfl, rfl⟩
      · rw [f2, hp]
      · exact hno.set (fun b h1 h2 => hne b (by omega) (by omega))
      · exact hc.cells_next hch.lssa hch.grow

end Gp.CodeGen
