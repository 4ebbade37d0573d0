import Verif.CodeGen.Lemmas6
namespace Gp.CodeGen
open Gp.Heap Gp.Unify Gp.ListBip
open Gp.Term (isNaN fkey deq)

variable {N nY e c c' : Nat} {V V' V'' : St} {X X' X'' : Var → Cell} {g g' g'' : G}
  {A B C : (Var → T) → (Adr → T) → Prop} {E : Env} {O : Opts}

/-! ## Arguments -/

/-- The constraints on the auxiliary temporaries, numbered from `k`. -/
def Aux (O : Opts) (β : Var → T) : List Arg → Nat → Prop
  | [], _ => True
  | .stc f as :: l, k =>
    if l.isEmpty && O.lastSubterm then Aux O β as k else Den β (.stc f as) (β (.tmp k)) ∧ Aux O β l (k + 1)
  | .flt b :: l, k => β (.tmp k) = .flt (fkey b) ∧ Aux O β l (k + 1)
  | .void :: l, k => Aux O β l k
  | .var _ :: l, k => Aux O β l k
  | .atm _ :: l, k => Aux O β l k
  | .int _ :: l, k => Aux O β l k
  | .nil :: l, k => Aux O β l k

theorem exec_append (E : Env) (c1 c2 : List Ins) (m : M) :
    exec E (c1 ++ c2) m = match exec E c1 m with
      | none => none
      | some none => some none
      | some (some m') => exec E c2 m' := by
  induction c1 generalizing m with
  | nil => rfl
  | cons i l ih =>
    simp only [List.cons_append, exec]
    cases step E m i with
    | none => rfl
    | some o => cases o with
      | none => rfl
      | some m' => exact ih m'

theorem SameTo.mono {β β' : Var → T} (h : SameTo c' β β') (hc : c ≤ c') : SameTo c β β' :=
  fun v hv => h v (fun n hn => Nat.lt_of_lt_of_le (hv n hn) hc)

/-- The variables of the source are not auxiliary temporaries. -/
theorem src_var {v : Var} (h : Src nY (.var v)) : ∀ n, v ≠ .tmp n := by
  intro n hn; subst hn; exact h

/-- `Src` with the auxiliary temporaries below `b`. -/
def SrcB (b nY : Nat) : Arg → Prop
  | .var (.x _) => True
  | .var (.y i) => i < nY
  | .var (.tmp n) => n < b
  | .var (.arg _) => False
  | .flt x => isNaN x = false
  | .stc _ as => as ≠ [] ∧ SrcListB as
  | _ => True
where
  SrcListB : List Arg → Prop
    | [] => True
    | a :: l => SrcB b nY a ∧ SrcListB l

abbrev SrcListB (b nY : Nat) := SrcB.SrcListB b nY

mutual
theorem srcB_mono {b b' : Nat} (hb : b ≤ b') : (a : Arg) → SrcB b nY a → SrcB b' nY a
  | .var (.x _), _ => trivial
  | .var (.y _), h => h
  | .var (.tmp _), h => Nat.lt_of_lt_of_le h hb
  | .var (.arg _), h => h
  | .void, _ => trivial
  | .atm _, _ => trivial
  | .int _, _ => trivial
  | .flt _, h => h
  | .nil, _ => trivial
  | .stc _ as, h => ⟨h.1, srcListB_mono hb as h.2⟩
theorem srcListB_mono {b b' : Nat} (hb : b ≤ b') : (l : List Arg) → SrcListB b nY l → SrcListB b' nY l
  | [], _ => trivial
  | a :: l, h => ⟨srcB_mono hb a h.1, srcListB_mono hb l h.2⟩
end

mutual
theorem src_srcB {b : Nat} : (a : Arg) → Src nY a → SrcB b nY a
  | .var (.x _), _ => trivial
  | .var (.y _), h => h
  | .var (.tmp _), h => h.elim
  | .var (.arg _), h => h
  | .void, _ => trivial
  | .atm _, _ => trivial
  | .int _, _ => trivial
  | .flt _, h => h
  | .nil, _ => trivial
  | .stc _ as, h => ⟨h.1, srcList_srcB as h.2⟩
theorem srcList_srcB {b : Nat} : (l : List Arg) → SrcList nY l → SrcListB b nY l
  | [], _ => trivial
  | a :: l, h => ⟨src_srcB a h.1, srcList_srcB l h.2⟩
end

/-- The auxiliary temporaries of the argument are below `b`. -/
theorem srcB_var {b : Nat} {v : Var} (h : SrcB b nY (.var v)) : ∀ n, v = .tmp n → n < b := by
  intro n hn; subst hn; exact h

mutual
theorem denB_congr {β β' : Var → T} (hs : SameTo c β β') : (a : Arg) → SrcB c nY a → (t : T) → (Den β a t ↔ Den β' a t)
  | .void, _, _ => Iff.rfl
  | .var v, h, t => by
    simp only [Den]
    rw [hs v (srcB_var h)]
  | .atm _, _, _ => Iff.rfl
  | .int _, _, _ => Iff.rfl
  | .flt _, _, _ => Iff.rfl
  | .nil, _, _ => Iff.rfl
  | .stc f as, h, t => by
    simp only [Den]
    constructor
    · rintro ⟨ts, h1, h2⟩; exact ⟨ts, (denListB_congr hs as h.2 ts).mp h1, h2⟩
    · rintro ⟨ts, h1, h2⟩; exact ⟨ts, (denListB_congr hs as h.2 ts).mpr h1, h2⟩
theorem denListB_congr {β β' : Var → T} (hs : SameTo c β β') : (l : List Arg) → SrcListB c nY l → (ts : List T) →
    (DenList β l ts ↔ DenList β' l ts)
  | [], _, [] => Iff.rfl
  | [], _, _ :: _ => Iff.rfl
  | _ :: _, _, [] => Iff.rfl
  | a :: l, h, t :: ts => by
    show (Den β a t ∧ DenList β l ts) ↔ (Den β' a t ∧ DenList β' l ts)
    rw [denB_congr hs a h.1 t, denListB_congr hs l h.2 ts]
end

theorem den_congr {β β' : Var → T} (hs : SameTo c β β') (a : Arg) (h : Src nY a) (t : T) : (Den β a t ↔ Den β' a t) :=
  denB_congr hs a (src_srcB a h) t

theorem denList_congr {β β' : Var → T} (hs : SameTo c β β') (l : List Arg) (h : SrcList nY l) (ts : List T) :
    (DenList β l ts ↔ DenList β' l ts) := denListB_congr hs l (srcList_srcB l h) ts

theorem denList_length {β : Var → T} : {l : List Arg} → {ts : List T} → DenList β l ts → ts.length = l.length
  | [], [], _ => rfl
  | a :: l, t :: ts, h => by simp only [List.length_cons]; rw [denList_length h.2]

theorem cells_agree {mem : Heap.Mem} {ρ ρ' : Adr → T} (ha : Agree mem ρ ρ') {p n : Nat}
    (h : ∀ i, i < n → isTerm (mem (p + i)) = true) : cells ρ' p n = cells ρ p n := by
  simp only [cells]
  apply List.map_congr_left
  intro i hi
  exact ha _ (h i (List.mem_range.mp hi))

/-- What a sequence of instructions does. -/
def RunOk (c N nY : Nat) (m : M) (V : St) (g g' : G) (A B : (Var → T) → (Adr → T) → Prop) : Option M → Prop
  | none => NoSol N m.e V m.X g A
  | some m' => Tr N nY m.e c V m.X g m'.s m'.X g' A B ∧ m'.e = m.e ∧ m'.ee = m.ee

theorem NoSol.conseq {A' : (Var → T) → (Adr → T) → Prop} (h : NoSol N e V X g A)
    (ha : ∀ ρ β, Model N V.mem ρ → Holds e V X g β ρ → A' β ρ → A β ρ) : NoSol N e V X g A' :=
  fun ρ β hρ hh h' => h ρ β hρ hh (ha ρ β hρ hh h')

theorem RunOk.conseq {m : M} {A' B' : (Var → T) → (Adr → T) → Prop} {r : Option M} (h : RunOk c N nY m V g g' A B r)
    (ha : ∀ ρ β, Model N V.mem ρ → Holds m.e V m.X g β ρ → (A β ρ ↔ A' β ρ)) (hb : ∀ β ρ, B β ρ ↔ B' β ρ) :
    RunOk c N nY m V g g' A' B' r := by
  cases r with
  | none => exact NoSol.conseq h (fun ρ β hρ hh => (ha ρ β hρ hh).mpr)
  | some m' => exact ⟨h.1.conseq ha (fun ρ β _ _ => hb β ρ), h.2⟩

theorem RunOk.pre {m : M} {r : Option M} {D : (Var → T) → (Adr → T) → Prop} (ht : Tr N nY m.e c V m.X g V' m.X g' A B)
    (hc : c ≤ c') (h : RunOk c' N nY m V' g' g'' B D r) : RunOk c N nY m V g g'' A D r := by
  cases r with
  | none => exact ht.fail h
  | some m' => exact ⟨ht.trans h.1 hc, h.2⟩

/-- A frame. -/
theorem RunOk.frame {m : M} {F : (Var → T) → (Adr → T) → Prop} {r : Option M} (h : RunOk c N nY m V g g' A B r)
    (hF : ∀ ρ ρ' β β', Agree V.mem ρ ρ' → SameTo c β β' → (F β ρ ↔ F β' ρ')) :
    RunOk c N nY m V g g' (fun β ρ => A β ρ ∧ F β ρ) (fun β ρ => B β ρ ∧ F β ρ) r := by
  cases r with
  | none => exact NoSol.conseq h (fun _ _ _ _ h => h.1)
  | some m' => exact ⟨h.1.frame hF, h.2⟩

theorem exec_cons {i : Ins} {l : List Ins} {m : M} {r : Option M} (h : exec E (i :: l) m = some r) :
    (step E m i = some none ∧ r = none) ∨ ∃ m', step E m i = some (some m') ∧ exec E l m' = some r := by
  simp only [exec] at h
  cases hs : step E m i with
  | none => rw [hs] at h; cases h
  | some o =>
    rw [hs] at h
    cases o with
    | none => exact Or.inl ⟨rfl, (Option.some.inj h).symm⟩
    | some m' => exact Or.inr ⟨m', rfl, h⟩

/-- One argument and then the others. -/
theorem elem_run {m : M} {p n : Nat} {i : Ins} {code : List Ins} {r : Option M} {A1 A2 B2 F : (Var → T) → (Adr → T) → Prop}
    (hel : ∀ r, step E m i = some r → ElemOk (c := c) N nY m V g g' p n A1 r)
    (hcont : ∀ m1 V1, V1.lssa = V.lssa → Inv N nY m1.e V1 m1.X g' → Cur N V1 m1 g' (p + 1) n → exec E code m1 = some r →
      RunOk c N nY m1 V1 g' g'' A2 B2 r)
    (hA : ∀ ρ ρ' β β', Agree V.mem ρ ρ' → SameTo c β β' → (A2 β ρ ↔ A2 β' ρ'))
    (hF : ∀ ρ ρ' β β', SameTo c β β' → (F β ρ ↔ F β' ρ'))
    (h : exec E (i :: code) m = some r) :
    RunOk c N nY m V g g'' (fun β ρ => A1 β ρ ∧ A2 β ρ ∧ F β ρ) (fun β ρ => B2 β ρ ∧ F β ρ) r := by
  rcases exec_cons h with ⟨h1, rfl⟩ | ⟨m1, h1, h2⟩
  · exact NoSol.conseq (hel none h1) (fun _ _ _ _ h => h.1)
  · obtain ⟨V1, t1, c1, e1, e2⟩ := hel _ h1
    have t1' := t1.frame (F := fun β ρ => A2 β ρ ∧ F β ρ) (fun ρ ρ' β β' ha hs => by rw [hA ρ ρ' β β' ha hs, hF ρ ρ' β β' hs])
    have hr := (hcont m1 V1 t1.lssa (by rw [e1]; exact t1.inv) c1 h2).frame (F := F) (fun ρ ρ' β β' _ hs => hF ρ ρ' β β' hs)
    cases r with
    | none =>
      refine t1'.fail ?_
      rw [← e1]
      exact NoSol.conseq hr (fun _ _ _ _ h => h.2)
    | some m' =>
      obtain ⟨t2, e3, e4⟩ := hr
      rw [e1] at t2
      refine ⟨t1'.trans (t2.conseq (fun _ _ _ _ => ?_) (fun _ _ _ _ => Iff.rfl)) (Nat.le_refl _), by rw [e3, e1], by rw [e4, e2]⟩
      simp

/-- The auxiliary temporary `k` is given a value. -/
theorem rename_tr (hi : Inv N nY e V X g) {k p : Nat} (hk : g.info (.tmp k) = none) {P : (Var → T) → T → Prop} {F : (Var → T) → (Adr → T) → Prop}
    (hP : ∀ β β' t, SameTo k β β' → (P β t ↔ P β' t)) (hF : ∀ ρ β β', SameTo k β β' → (F β ρ ↔ F β' ρ)) :
    Tr N nY e k V X g V X g (fun β ρ => P β (ρ p) ∧ F β ρ)
      (fun β ρ => ρ p = β (.tmp k) ∧ F β ρ ∧ P β (β (.tmp k))) where
  inv := hi
  lssa := rfl
  grow := Grow.refl _
  regs _ _ := rfl
  info _ _ h := h
  low _ _ _ h := h
  safe _ _ _ h := h
  down ρ hρ := ⟨hρ, fun β hh hB => ⟨hh, by rw [hB.1]; exact hB.2.2, hB.2.1⟩⟩
  up ρ β hρ hh ha := by
    let β' : Var → T := fun v => if v = .tmp k then ρ p else β v
    have hs : SameTo k β β' := by
      intro v hv
      show (if v = .tmp k then ρ p else β v) = β v
      rw [if_neg]; intro h; exact Nat.lt_irrefl _ (hv k h)
    have hk' : β' (.tmp k) = ρ p := if_pos rfl
    refine ⟨ρ, β', hρ, Agree.refl _ _, hs, ?_, hk'.symm, (hF ρ β β' hs).mp ha.2, ?_⟩
    · intro v hv
      rw [← hh v hv]
      show (if v = .tmp k then ρ p else β v) = β v
      rw [if_neg]; intro h; subst h; exact hv hk
    · rw [hk']; exact (hP β β' _ hs).mp ha.1

theorem flatArg_le (O : Opts) : (b : Bool) → (a : Arg) → (k : Nat) → k ≤ (flatArg O b a k).2
  | b, .stc f as, k => by
    simp only [flatArg]
    split
    · exact flatList_le O as k
    · exact Nat.le_succ k
  | _, .flt _, k => Nat.le_succ k
  | _, .void, _ => Nat.le_refl _
  | _, .var _, _ => Nat.le_refl _
  | _, .atm _, _ => Nat.le_refl _
  | _, .int _, _ => Nat.le_refl _
  | _, .nil, _ => Nat.le_refl _
where
  flatList_le (O : Opts) : (l : List Arg) → (k : Nat) → k ≤ (flatList O l k).2
    | [], _ => Nat.le_refl _
    | a :: l, k => Nat.le_trans (flatArg_le O l.isEmpty a k) (flatList_le O l _)

theorem flatList_le (O : Opts) (l : List Arg) (k : Nat) : k ≤ (flatList O l k).2 := flatArg_le.flatList_le O l k

theorem genSubVar_elem {m : M} {p n : Nat} (hi : Inv N nY m.e V m.X g) (hc : Cur N V m g p (n + 1)) {v : Var}
    (ht : ∀ j, v = .tmp j → j < g.tmp) (hy : ∀ i, v = .y i → i < nY) {r : Option M}
    (h : step E m (genSubVar v g).1 = some r) :
    ElemOk (c := c) N nY m V g (genSubVar v g).2 p n (fun β ρ => ρ p = β v) r := by
  unfold genSubVar at h ⊢
  cases hv : g.info v with
  | none => rw [hv] at h; exact var_elem hi hc ⟨hv, ht, hy⟩ h
  | some i =>
    rw [hv] at h
    cases i with
    | inHeap => exact value_elem hi hc hv h
    | unsafeEnv => exact local_elem hi hc (by rw [hv]; simp) h
    | notInCurEnv => exact local_elem hi hc (by rw [hv]; simp) h

theorem genSubVar_tmp (v : Var) (g : G) : (genSubVar v g).2.tmp = g.tmp := by
  unfold genSubVar; split <;> rfl

theorem genSubVar_info (v : Var) (g : G) {u : Var} (hu : u ≠ v) : (genSubVar v g).2.info u = g.info u := by
  unfold genSubVar; split
  · exact setInfo_other _ hu
  · rfl
  · rfl

theorem genSubVar_known (v : Var) (g : G) : (genSubVar v g).2.info v ≠ none := by
  unfold genSubVar; split
  · rw [setInfo_same]; simp
  · rename_i h; simp [h]
  · rename_i h; simp [h]

end Gp.CodeGen
