import Verif.CodeGen.Equal
import Verif.CodeGen.Lemmas17
namespace Gp.CodeGen
open Gp.Heap Gp.Unify Gp.ListBip
open Gp.Term (isNaN fkey deq)

variable {N nY e c c' : Nat} {V V' V'' : St} {X X' X'' : Var → Cell} {g g' g'' : G}
  {A B C : (Var → T) → (Adr → T) → Prop} {E : Env} {O : Opts} {m m1 m2 m' : M}

/-- The two arguments have a common value. -/
def EqA (β : Var → T) (a b : Arg) : Prop := ∃ t, Den β a t ∧ Den β b t

/-! ## Terms -/

mutual
theorem den_total (β : Var → T) : (a : Arg) → ∃ t, Den β a t
  | .void => ⟨.atm 0, trivial⟩
  | .var v => ⟨_, rfl⟩
  | .atm i => ⟨_, rfl⟩
  | .int i => ⟨_, rfl⟩
  | .flt i => ⟨_, rfl⟩
  | .nil => ⟨_, rfl⟩
  | .stc f as => by
    obtain ⟨ts, h⟩ := denList_total β as
    exact ⟨_, ts, h, rfl⟩
theorem denList_total (β : Var → T) : (l : List Arg) → ∃ ts, DenList β l ts
  | [] => ⟨[], trivial⟩
  | a :: l => by
    obtain ⟨t, h⟩ := den_total β a
    obtain ⟨ts, h'⟩ := denList_total β l
    exact ⟨t :: ts, h, h'⟩
end

mutual
theorem same_den (β : Var → T) : (a b : Arg) → sameArg a b = true → ∀ t, (Den β a t ↔ Den β b t)
  | .var u, .var v, h, t => by simp only [sameArg, decide_eq_true_eq] at h; rw [h]
  | .atm i, .atm j, h, t => by simp only [sameArg, decide_eq_true_eq] at h; rw [h]
  | .int i, .int j, h, t => by simp only [sameArg, decide_eq_true_eq] at h; rw [h]
  | .flt b, .flt b', h, t => by simp only [sameArg, decide_eq_true_eq] at h; simp only [Den, h]
  | .nil, .nil, h, t => Iff.rfl
  | .nil, .atm j, h, t => by simp only [sameArg, decide_eq_true_eq] at h; simp only [Den, h]
  | .atm i, .nil, h, t => by simp only [sameArg, decide_eq_true_eq] at h; simp only [Den, h]
  | .stc f as, .stc f' bs, h, t => by
    simp only [sameArg, Bool.and_eq_true, decide_eq_true_eq] at h
    obtain ⟨rfl, h⟩ := h
    simp only [Den]
    exact exists_congr fun ts => and_congr_left fun _ => same_denList β as bs h ts
  | .void, _, h, _ => by simp [sameArg] at h
  | .var _, .void, h, _ | .var _, .atm _, h, _ | .var _, .int _, h, _ | .var _, .flt _, h, _ | .var _, .nil, h, _ | .var _, .stc _ _, h, _ => by
    simp [sameArg] at h
  | .atm _, .void, h, _ | .atm _, .var _, h, _ | .atm _, .int _, h, _ | .atm _, .flt _, h, _ | .atm _, .stc _ _, h, _ => by
    simp [sameArg] at h
  | .int _, .void, h, _ | .int _, .var _, h, _ | .int _, .atm _, h, _ | .int _, .flt _, h, _ | .int _, .nil, h, _ | .int _, .stc _ _, h, _ => by
    simp [sameArg] at h
  | .flt _, .void, h, _ | .flt _, .var _, h, _ | .flt _, .atm _, h, _ | .flt _, .int _, h, _ | .flt _, .nil, h, _ | .flt _, .stc _ _, h, _ => by
    simp [sameArg] at h
  | .nil, .void, h, _ | .nil, .var _, h, _ | .nil, .int _, h, _ | .nil, .flt _, h, _ | .nil, .stc _ _, h, _ => by
    simp [sameArg] at h
  | .stc _ _, .void, h, _ | .stc _ _, .var _, h, _ | .stc _ _, .atm _, h, _ | .stc _ _, .int _, h, _ | .stc _ _, .flt _, h, _ | .stc _ _, .nil, h, _ => by
    simp [sameArg] at h
theorem same_denList (β : Var → T) : (l l' : List Arg) → sameArg.sameList l l' = true → ∀ ts, (DenList β l ts ↔ DenList β l' ts)
  | [], [], _, _ => Iff.rfl
  | a :: l, b :: l', h, ts => by
    simp only [sameArg.sameList, Bool.and_eq_true] at h
    cases ts with
    | nil => exact Iff.rfl
    | cons t ts => exact and_congr (same_den β a b h.1 t) (same_denList β l l' h.2 ts)
  | [], _ :: _, h, _ => by simp [sameArg.sameList] at h
  | _ :: _, [], h, _ => by simp [sameArg.sameList] at h
end

theorem same_eqA {β : Var → T} {a b : Arg} (h : sameArg a b = true) : EqA β a b := by
  obtain ⟨t, ht⟩ := den_total β a
  exact ⟨t, ht, (same_den β a b h t).mp ht⟩

mutual
theorem occursIn_iff (v : Var) : (a : Arg) → (occursIn v a = true ↔ Occ v a)
  | .var u => by simp [occursIn, Occ]
  | .stc f as => by simp only [occursIn, Occ]; exact occursList_iff v as
  | .void => by simp [occursIn, Occ]
  | .atm _ => by simp [occursIn, Occ]
  | .int _ => by simp [occursIn, Occ]
  | .flt _ => by simp [occursIn, Occ]
  | .nil => by simp [occursIn, Occ]
theorem occursList_iff (v : Var) : (l : List Arg) → (occursIn.occursList v l = true ↔ OccList v l)
  | [] => by simp [occursIn.occursList, Occ.OccList]
  | a :: l => by
    simp only [occursIn.occursList, Bool.or_eq_true, Occ.OccList, occursIn_iff v a]
    exact or_congr Iff.rfl (occursList_iff v l)
end

theorem mk_cases (f : Nat) (ts : List T) : (∃ h t, f = 46 ∧ ts = [h, t] ∧ mk f ts = .lst h t) ∨ mk f ts = .app f ts := by
  unfold mk
  split
  · rename_i h t
    split
    · exact Or.inl ⟨h, t, by assumption, rfl, rfl⟩
    · exact Or.inr rfl
  · exact Or.inr rfl

theorem mk_size (f : Nat) (ts : List T) : ∀ t ∈ ts, sizeOf t < sizeOf (mk f ts) := by
  intro t ht
  rcases mk_cases f ts with ⟨h, u, _, rfl, h3⟩ | h3
  · rw [h3]
    simp only [List.mem_cons, List.not_mem_nil, or_false] at ht
    rcases ht with rfl | rfl <;> simp <;> omega
  · rw [h3]
    have := List.sizeOf_lt_of_mem ht
    simp; omega

mutual
/-- A variable of a term is smaller than the term. -/
theorem occ_size {β : Var → T} {v : Var} : (a : Arg) → (t : T) → Occ v a → Den β a t → sizeOf (β v) ≤ sizeOf t ∧
    ((∀ u, a ≠ .var u) → sizeOf (β v) < sizeOf t)
  | .var u, t, h, hd => by
    simp only [Occ] at h; subst h
    simp only [Den] at hd; subst hd
    exact ⟨Nat.le_refl _, fun h => absurd rfl (h _)⟩
  | .stc f as, t, h, hd => by
    obtain ⟨ts, h1, rfl⟩ := hd
    obtain ⟨t, k1, k2⟩ := occList_size as ts h h1
    have := mk_size f ts t k1
    exact ⟨by omega, fun _ => by omega⟩
theorem occList_size {β : Var → T} {v : Var} : (l : List Arg) → (ts : List T) → OccList v l → DenList β l ts → ∃ t ∈ ts, sizeOf (β v) ≤ sizeOf t
  | a :: l, t :: ts, h, hd => by
    rcases h with h | h
    · exact ⟨t, List.mem_cons_self, (occ_size a t h hd.1).1⟩
    · obtain ⟨t', k1, k2⟩ := occList_size l ts h hd.2
      exact ⟨t', List.mem_cons_of_mem _ k1, k2⟩
end

theorem eqA_symm {β : Var → T} {a b : Arg} : EqA β a b ↔ EqA β b a :=
  ⟨fun ⟨t, h1, h2⟩ => ⟨t, h2, h1⟩, fun ⟨t, h1, h2⟩ => ⟨t, h2, h1⟩⟩

theorem eqA_var {β : Var → T} {v : Var} {a : Arg} : EqA β (.var v) a ↔ Den β a (β v) :=
  ⟨fun ⟨t, h1, h2⟩ => by simp only [Den] at h1; rw [← h1]; exact h2, fun h => ⟨_, rfl, h⟩⟩

theorem eqA_same {β β' : Var → T} {a b : Arg} (ha : Src nY a) (hb : Src nY b) (h : SameTo c β β') : EqA β a b ↔ EqA β' a b :=
  exists_congr fun t => and_congr (den_congr h a ha t) (den_congr h b hb t)

/-- The arguments of both lists are equal. -/
def EqsA (β : Var → T) : List Arg → List Arg → Prop
  | a :: l, b :: l' => EqA β a b ∧ EqsA β l l'
  | _, _ => True

theorem eqsA_iff {β : Var → T} : (l l' : List Arg) → l.length = l'.length → (EqsA β l l' ↔ ∃ ts, DenList β l ts ∧ DenList β l' ts)
  | [], [], _ => ⟨fun _ => ⟨[], trivial, trivial⟩, fun _ => trivial⟩
  | a :: l, b :: l', h => by
    simp only [EqsA, eqsA_iff l l' (by simpa using h)]
    constructor
    · rintro ⟨⟨t, h1, h2⟩, ts, h3, h4⟩
      exact ⟨t :: ts, ⟨h1, h3⟩, h2, h4⟩
    · rintro ⟨ts, h1, h2⟩
      cases ts with
      | nil => exact h1.elim
      | cons t ts => exact ⟨⟨t, h1.1, h2.1⟩, ts, h1.2, h2.2⟩
  | [], _ :: _, h => by simp at h
  | _ :: _, [], h => by simp at h

theorem eqsA_same {β β' : Var → T} (h : SameTo c β β') : (l l' : List Arg) → SrcList nY l → SrcList nY l' → (EqsA β l l' ↔ EqsA β' l l')
  | [], _, _, _ => Iff.rfl
  | _ :: _, [], _, _ => Iff.rfl
  | _ :: l, _ :: l', h1, h2 => and_congr (eqA_same h1.1 h2.1 h) (eqsA_same h l l' h1.2 h2.2)

theorem mk_arity {f f' : Nat} {ts ts' : List T} (h : mk f ts = mk f' ts') : f = f' ∧ ts.length = ts'.length := by
  rcases mk_cases f ts with ⟨x, y, h1, h2, h3⟩ | h3 <;> rcases mk_cases f' ts' with ⟨x', y', k1, k2, k3⟩ | k3 <;> rw [h3, k3] at h
  · exact ⟨by rw [h1, k1], by rw [h2, k2]; rfl⟩
  · cases h
  · cases h
  · injection h with h1 h2; exact ⟨h1, by rw [h2]⟩

theorem mk_shape (f : Nat) (ts : List T) : (∀ i, mk f ts ≠ .atm i) ∧ (∀ i, mk f ts ≠ .int i) ∧ (∀ i, mk f ts ≠ .flt i) := by
  unfold mk
  split
  · split <;> refine ⟨?_, ?_, ?_⟩ <;> intro i h <;> cases h
  · refine ⟨?_, ?_, ?_⟩ <;> intro i h <;> cases h

end Gp.CodeGen
