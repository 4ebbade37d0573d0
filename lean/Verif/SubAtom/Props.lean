import Verif.SubAtom.Lemmas
/-! Properties C31 (sub_atom/5) and C32 (atom_concat/3). -/
namespace Gp.SubAtom

/-! ### Specification -/

/-- A constraint "this argument has this value". -/
abbrev Con := Arg × Val

/-- The argument has the value under the substitution `σ` of the variables. -/
def Agree (σ : Nat → Val) : Con → Prop
  | (.var i, v) => σ i = v
  | (.int z, v) => v = .int z
  | (.atm s, v) => v = .atm s
  | (.other, _) => False

/-- Some substitution satisfies all the constraints. -/
def Consistent (L : List Con) : Prop := ∃ σ, ∀ c ∈ L, Agree σ c

/-- The bindings of a solution: each variable has the value required. -/
def bindings (L : List Con) : Env := fun i => (L.find? (fun c => decide (c.1 = .var i))).map (·.2)

open Classical in
/-- The answer substitution, if there is one. -/
noncomputable def answer (L : List Con) : Option Env := if Consistent L then some (bindings L) else none

/-- All decompositions of a text of length `n`: Before + Length + After = `n`, by increasing Before then
Length. -/
def decomps (n : Nat) : List BLA :=
  (List.range (n + 1)).flatMap fun b => (List.range (n - b + 1)).map fun (l : Nat) => ⟨(b : Int), (l : Int), (n : Int) - b - l⟩

/-- The factor of `A` meant by a decomposition. -/
def factor (A : Text) (t : BLA) : Text := (A.drop t.b.toNat).take t.l.toNat

/-- sub_atom(A, Before, Length, After, Sub) for a decomposition. -/
def subCons (A : Text) (before len after sub : Arg) (t : BLA) : List Con :=
  [(before, .int t.b), (len, .int t.l), (after, .int t.a), (sub, .atm (factor A t))]

/-- The answers of sub_atom/5: one for each decomposition which agrees with the arguments. -/
noncomputable def subSpec (A : Text) (before len after sub : Arg) : List Env :=
  (decomps A.length).filterMap fun t => answer (subCons A before len after sub t)

/-- All splits of a text in two. -/
def splits (A : Text) : List (Text × Text) := (List.range (A.length + 1)).map fun k => (A.take k, A.drop k)

/-! ### Lemmas on answers -/

def Sol (L : List Con) (e : Env) : Prop := Consistent L ∧ ∀ i v, e i = some v ↔ (Arg.var i, v) ∈ L

theorem Sol_bindings {L : List Con} (h : Consistent L) : Sol L (bindings L) := by
  refine ⟨h, fun i v => ?_⟩
  obtain ⟨σ, hσ⟩ := h
  simp only [bindings, Option.map_eq_some_iff]
  constructor
  · rintro ⟨c, h1, rfl⟩
    have h2 := List.find?_some h1
    simp only [decide_eq_true_eq] at h2
    have := List.mem_of_find?_eq_some h1
    rw [← h2]; exact this
  · intro hm
    cases hf : L.find? (fun c => decide (c.1 = .var i)) with
    | none =>
      have := List.find?_eq_none.1 hf _ hm
      simp at this
    | some c =>
      refine ⟨c, rfl, ?_⟩
      have h2 := List.find?_some hf
      simp only [decide_eq_true_eq] at h2
      have a1 := hσ _ (List.mem_of_find?_eq_some hf)
      have a2 := hσ _ hm
      obtain ⟨c1, c2⟩ := c
      simp only at h2
      subst h2
      simp only [Agree] at a1 a2
      exact a1.symm.trans a2

theorem Sol_unique {L : List Con} {e e' : Env} (h : Sol L e) (h' : Sol L e') : e = e' := by
  funext i
  cases he : e i with
  | none =>
    cases he' : e' i with
    | none => rfl
    | some v => rw [(h.2 i v).2 ((h'.2 i v).1 he')] at he; cases he
  | some v => exact ((h'.2 i v).2 ((h.2 i v).1 he)).symm

theorem answer_of_Sol {L : List Con} {e : Env} (h : Sol L e) : answer L = some e := by
  unfold answer
  rw [if_pos h.1, Sol_unique h (Sol_bindings h.1)]

theorem answer_of_not {L : List Con} (h : ¬ Consistent L) : answer L = none := by
  unfold answer
  rw [if_neg h]

theorem Consistent_mono {L L' : List Con} (h : ∀ c ∈ L', c ∈ L) (hc : Consistent L) : Consistent L' := by
  obtain ⟨σ, hσ⟩ := hc
  exact ⟨σ, fun c hm => hσ c (h c hm)⟩

theorem Sol_congr {L L' : List Con} {e : Env} (h : ∀ c, c ∈ L' ↔ c ∈ L) (hs : Sol L e) : Sol L' e :=
  ⟨Consistent_mono (fun c hc => (h c).1 hc) hs.1, fun i v => (hs.2 i v).trans (h _).symm⟩

/-- Two lists with the same constraints have the same answer. -/
theorem answer_congr {L L' : List Con} (h : ∀ c, c ∈ L' ↔ c ∈ L) : answer L' = answer L := by
  by_cases hc : Consistent L
  · rw [answer_of_Sol (Sol_congr h (Sol_bindings hc)), answer_of_Sol (Sol_bindings hc)]
  · rw [answer_of_not hc, answer_of_not (fun hc' => hc (Consistent_mono (fun c hm => (h c).2 hm) hc'))]

/-- A constant which agrees. -/
def Const : Con → Prop
  | (.var _, _) => False
  | (.int z, v) => v = .int z
  | (.atm s, v) => v = .atm s
  | (.other, _) => False

theorem Sol_const {L : List Con} {e : Env} {c : Con} (hc : Const c) (h : Sol L e) : Sol (c :: L) e := by
  obtain ⟨a, v⟩ := c
  obtain ⟨⟨σ, hσ⟩, h2⟩ := h
  refine ⟨⟨σ, fun c' hc' => ?_⟩, fun i w => ?_⟩
  · rcases List.mem_cons.1 hc' with rfl | h3
    · cases a <;> simp_all [Const, Agree]
    · exact hσ _ h3
  · rw [h2, List.mem_cons]
    constructor
    · exact .inr
    · rintro (h3 | h3)
      · injection h3 with h3 _; subst h3; exact absurd hc (by simp [Const])
      · exact h3

theorem answer_const {L : List Con} {c : Con} (hc : Const c) : answer (c :: L) = answer L := by
  by_cases h : Consistent L
  · rw [answer_of_Sol (Sol_const hc (Sol_bindings h)), answer_of_Sol (Sol_bindings h)]
  · rw [answer_of_not h, answer_of_not (fun h' => h (Consistent_mono (fun _ hm => List.mem_cons_of_mem _ hm) h'))]

theorem Sol_nil : Sol [] noEnv := ⟨⟨fun _ => .int 0, by simp⟩, by simp [noEnv]⟩

/-- `get` adds one constraint. -/
theorem get_spec {L : List Con} {e : Env} (h : Sol L e) (v : Val) (a : Arg) :
    (∀ e', get e v a = some e' → Sol ((a, v) :: L) e') ∧ (get e v a = none → ¬ Consistent ((a, v) :: L)) := by
  cases a with
  | other =>
    refine ⟨by simp [get], fun _ ⟨σ, hσ⟩ => hσ (Arg.other, v) (by simp)⟩
  | int z =>
    by_cases hv : v = .int z
    · refine ⟨fun e' he => ?_, by simp [get, hv]⟩
      simp only [get, if_pos hv, Option.some.injEq] at he
      subst he
      exact Sol_const hv h
    · exact ⟨by simp [get, hv], fun _ ⟨σ, hσ⟩ => hv (hσ (Arg.int z, v) (by simp))⟩
  | atm s =>
    by_cases hv : v = .atm s
    · refine ⟨fun e' he => ?_, by simp [get, hv]⟩
      simp only [get, if_pos hv, Option.some.injEq] at he
      subst he
      exact Sol_const hv h
    · exact ⟨by simp [get, hv], fun _ ⟨σ, hσ⟩ => hv (hσ (Arg.atm s, v) (by simp))⟩
  | var i =>
    obtain ⟨⟨σ, hσ⟩, h2⟩ := h
    cases he : e i with
    | none =>
      have hno : ∀ w, (Arg.var i, w) ∉ L := fun w hw => by rw [(h2 i w).2 hw] at he; cases he
      refine ⟨fun e' hg => ?_, by simp [get, he]⟩
      simp only [get, he, Option.some.injEq] at hg
      subst hg
      refine ⟨⟨fun j => if j = i then v else σ j, fun c hc => ?_⟩, fun j w => ?_⟩
      · rcases List.mem_cons.1 hc with rfl | hc
        · simp [Agree]
        · have := hσ c hc
          obtain ⟨c1, c2⟩ := c
          cases c1 with
          | var j =>
            have hj : j ≠ i := fun e => hno c2 (e ▸ hc)
            simpa [Agree, hj] using this
          | int _ => exact this
          | atm _ => exact this
          | other => exact this
      · by_cases hj : j = i
        · subst hj
          simp only [if_true, Option.some.injEq, List.mem_cons, Prod.mk.injEq, true_and]
          constructor
          · exact fun h => .inl h.symm
          · rintro (h | h)
            · exact h.symm
            · exact absurd h (hno w)
        · show (if j = i then some v else e j) = some w ↔ _
          rw [if_neg hj, h2]
          simp [hj]
    | some w =>
      have hw := (h2 i w).1 he
      by_cases hv : w = v
      · subst hv
        refine ⟨fun e' hg => ?_, by simp [get, he]⟩
        simp only [get, he, if_true, Option.some.injEq] at hg
        subst hg
        refine ⟨⟨σ, fun c hc => ?_⟩, fun j u => ?_⟩
        · rcases List.mem_cons.1 hc with rfl | hc
          · exact hσ _ hw
          · exact hσ _ hc
        · rw [h2, List.mem_cons]
          constructor
          · exact .inr
          · rintro (h3 | h3)
            · rw [h3]; exact hw
            · exact h3
      · refine ⟨by simp [get, he, hv], fun _ ⟨τ, hτ⟩ => hv ?_⟩
        have a1 := hτ (Arg.var i, v) (by simp)
        have a2 := hτ (Arg.var i, w) (by simp [hw])
        simp only [Agree] at a1 a2
        exact a2.symm.trans a1

theorem answer_not_mono {L L' : List Con} (hm : ∀ c ∈ L, c ∈ L') (h : ¬ Consistent L) : answer L' = none :=
  answer_of_not fun h' => h (Consistent_mono hm h')

theorem get_answer {L : List Con} {e : Env} (h : Sol L e) (v : Val) (a : Arg) :
    get e v a = answer ((a, v) :: L) := by
  obtain ⟨h1, h2⟩ := get_spec h v a
  cases hg : get e v a with
  | none => rw [answer_of_not (h2 hg)]
  | some e' => rw [answer_of_Sol (h1 e' hg)]

theorem get_noEnv (v : Val) (a : Arg) : get noEnv v a = answer [(a, v)] := get_answer Sol_nil v a

/-- Two `get` in sequence. -/
theorem get2_answer {L : List Con} {e : Env} (h : Sol L e) (v w : Val) (a b : Arg) :
    get2 e v a w b = answer ((b, w) :: (a, v) :: L) := by
  obtain ⟨h1, h2⟩ := get_spec h v a
  unfold get2
  cases hg : get e v a with
  | none => rw [answer_not_mono (fun _ hm => List.mem_cons_of_mem _ hm) (h2 hg)]
  | some e' => exact get_answer (h1 e' hg) w b

/-! ### Lemmas on lists -/

theorem mem_decomps (n : Nat) (t : BLA) :
    t ∈ decomps n ↔ 0 ≤ t.b ∧ 0 ≤ t.l ∧ 0 ≤ t.a ∧ t.b + t.l + t.a = n := by
  simp only [decomps, List.mem_flatMap, List.mem_range, List.mem_map]
  constructor
  · rintro ⟨b, hb, l, hl, rfl⟩; simp only; omega
  · rintro ⟨h1, h2, h3, h4⟩
    exact ⟨t.b.toNat, by omega, t.l.toNat, by omega, BLA.ext' (by simp only; omega) (by simp only; omega)
      (by simp only; omega)⟩

theorem sorted_decomps (n : Nat) : (decomps n).Pairwise Lt := by
  unfold decomps
  rw [List.pairwise_flatMap]
  refine ⟨fun b hb => ?_, ?_⟩
  · rw [List.pairwise_map]
    exact List.pairwise_lt_range.imp fun {x y} h => Or.inr ⟨rfl, by simp only; omega⟩
  · refine List.pairwise_lt_range.imp fun h => ?_
    intro t ht u hu
    simp only [List.mem_map] at ht hu
    obtain ⟨_, _, rfl⟩ := ht
    obtain ⟨_, _, rfl⟩ := hu
    exact .inl (by simp only; omega)

theorem sorted_unique {l l' : List BLA} (h : l.Pairwise Lt) (h' : l'.Pairwise Lt) (hm : ∀ t, t ∈ l ↔ t ∈ l') :
    l = l' := by
  induction l generalizing l' with
  | nil =>
    cases l' with
    | nil => rfl
    | cons x l' => exact absurd ((hm x).2 (by simp)) (by simp)
  | cons x l ih =>
    cases l' with
    | nil => exact absurd ((hm x).1 (by simp)) (by simp)
    | cons y l' =>
      rw [List.pairwise_cons] at h h'
      have asymm : ∀ t u : BLA, Lt t u → ¬ Lt u t := fun t u => by unfold Lt; omega
      have hxy : x = y := by
        rcases List.mem_cons.1 ((hm x).1 (by simp)) with e | e
        · exact e
        · rcases List.mem_cons.1 ((hm y).2 (by simp)) with e' | e'
          · exact e'.symm
          · exact absurd (h.1 y e') (asymm _ _ (h'.1 x e))
      subst hxy
      have irr : ¬ Lt x x := fun hh => asymm _ _ hh hh
      congr 1
      refine ih h.2 h'.2 fun t => ?_
      constructor
      · intro ht
        rcases List.mem_cons.1 ((hm t).1 (by simp [ht])) with e | e
        · subst e; exact absurd (h.1 _ ht) irr
        · exact e
      · intro ht
        rcases List.mem_cons.1 ((hm t).2 (by simp [ht])) with e | e
        · subst e; exact absurd (h'.1 _ ht) irr
        · exact e

/-- A sorted list of the decompositions satisfying `P` gives the answers of the specification. -/
theorem filterMap_decomps {β : Type} (n : Nat) (T : List BLA) (P : BLA → Prop) (hs : T.Pairwise Lt)
    (hT : ∀ t, t ∈ T ↔ t ∈ decomps n ∧ P t) (f g : BLA → Option β) (hf : ∀ t ∈ T, f t = g t)
    (hg : ∀ t ∈ decomps n, ¬ P t → g t = none) : T.filterMap f = (decomps n).filterMap g := by
  classical
  have hT' : T = (decomps n).filter (fun t => decide (P t)) := by
    refine sorted_unique hs ((sorted_decomps n).filter _) fun t => ?_
    rw [hT, List.mem_filter, decide_eq_true_eq]
  have hfg : T.filterMap f = T.filterMap g := by
    clear hT hT' hs
    induction T with
    | nil => rfl
    | cons x T ih =>
      rw [List.filterMap_cons, List.filterMap_cons, hf x (by simp), ih (fun t ht => hf t (by simp [ht]))]
  rw [hfg, hT']
  have : ∀ l : List BLA, (∀ t ∈ l, ¬ P t → g t = none) →
      (l.filter (fun t => decide (P t))).filterMap g = l.filterMap g := by
    intro l hl
    induction l with
    | nil => rfl
    | cons x l ih =>
      have ih := ih (fun t ht => hl t (by simp [ht]))
      by_cases hp : P x
      · rw [List.filter_cons_of_pos (by simpa using hp), List.filterMap_cons, List.filterMap_cons, ih]
      · rw [List.filter_cons_of_neg (by simpa using hp), List.filterMap_cons, hl x (by simp) hp, ih]
  exact this _ hg

/-! ### sub_atom/5 -/

/-- A Before, Length or After argument allowed by the standard: a variable or a non-negative integer. -/
def IntArg : Arg → Prop
  | .var _ => True
  | .int z => 0 ≤ z
  | _ => False

theorem IntArg_cases {a : Arg} (h : IntArg a) : (∃ i, a = .var i) ∨ ∃ z : Int, 0 ≤ z ∧ a = .int z := by
  cases a with
  | var i => exact .inl ⟨i, rfl⟩
  | int z => exact .inr ⟨z, h, rfl⟩
  | atm _ => exact absurd h (by simp [IntArg])
  | other => exact absurd h (by simp [IntArg])

theorem derefLg_var (i : Nat) : derefLg (.var i) = .ok (0, 0) := rfl

theorem derefLg_int {z : Int} (h : 0 ≤ z) : derefLg (.int z) = .ok (z, 1) := by
  simp only [derefLg]; rw [if_neg (by omega)]

theorem inconsistent_int {L : List Con} {z : Int} {v : Val} (hm : (Arg.int z, v) ∈ L) (hv : v ≠ .int z) :
    ¬ Consistent L := fun ⟨_, hσ⟩ => hv (hσ _ hm)

theorem inconsistent_atm {L : List Con} {s : Text} {v : Val} (hm : (Arg.atm s, v) ∈ L) (hv : v ≠ .atm s) :
    ¬ Consistent L := fun ⟨_, hσ⟩ => hv (hσ _ hm)

/-- The unifications for one triple when the sub-atom is a variable. -/
theorem solve_var (mask : Nat) (hmask : mask ≤ 7) (A : Text) (before len after : Arg) (k : Nat) (t : BLA)
    (hlen : (∃ i, len = .var i ∧ i ≠ k) ∨ len = .int t.l) :
    solve mask A before len after (.var k) t = answer (subCons A before len after (.var k) t) := by
  have s1 : ∃ e1, get noEnv (.atm (factor A t)) (.var k) = some e1 ∧
      Sol [(Arg.var k, .atm (factor A t))] e1 := by
    refine ⟨_, rfl, ?_⟩
    exact (get_spec Sol_nil _ _).1 _ rfl
  obtain ⟨e1, g1, s1⟩ := s1
  have s2 : ∃ e2, get e1 (.int t.l) len = some e2 := by
    cases hg : get e1 (.int t.l) len with
    | some e2 => exact ⟨e2, rfl⟩
    | none =>
      exfalso
      refine (get_spec s1 _ _).2 hg ?_
      rcases hlen with ⟨i, rfl, hi⟩ | rfl
      · refine ⟨fun j => if j = k then .atm (factor A t) else .int t.l, fun c hc => ?_⟩
        simp only [List.mem_cons, List.not_mem_nil, or_false] at hc
        rcases hc with rfl | rfl
        · simp [Agree, hi]
        · simp [Agree]
      · refine ⟨fun j => .atm (factor A t), fun c hc => ?_⟩
        simp only [List.mem_cons, List.not_mem_nil, or_false] at hc
        rcases hc with rfl | rfl
        · simp [Agree]
        · simp [Agree]
  obtain ⟨e2, g2⟩ := s2
  have s2 := (get_spec s1 _ _).1 _ g2
  unfold solve
  simp only [if_pos hmask, factor] at g1 ⊢
  rw [g1]
  simp only [Option.getD_some, g2]
  have := get2_answer s2 (.int t.b) (.int t.a) before after
  rw [this]
  refine answer_congr fun c => ?_
  simp only [subCons, List.mem_cons, List.not_mem_nil, or_false, factor]
  constructor
  · rintro (h | h | h | h) <;> simp [h]
  · rintro (h | h | h | h) <;> simp [h]

/-- The unifications for one triple when the sub-atom is fixed and found. -/
theorem solve_fixed (A s : Text) (before len after : Arg) (t : BLA) (hf : factor A t = s)
    (hlen : (∃ i, len = .var i) ∨ len = .int t.l) :
    solve 8 A before len after (.atm s) t = answer (subCons A before len after (.atm s) t) := by
  have s2 : ∃ e2, get noEnv (.int t.l) len = some e2 := by
    rcases hlen with ⟨i, rfl⟩ | rfl
    · exact ⟨_, rfl⟩
    · exact ⟨noEnv, by simp [get]⟩
  obtain ⟨e2, g2⟩ := s2
  have s2 := (get_spec Sol_nil _ _).1 _ g2
  unfold solve
  rw [if_neg (by omega)]
  simp only [g2, Option.getD_some]
  rw [get2_answer s2 (.int t.b) (.int t.a) before after]
  rw [← answer_const (c := (Arg.atm s, Val.atm (factor A t))) (by simp [Const, hf])]
  refine answer_congr fun c => ?_
  simp only [subCons, List.mem_cons, List.not_mem_nil, or_false]
  constructor
  · rintro (h | h | h | h) <;> simp [h]
  · rintro (h | h | h | h) <;> simp [h]

theorem factor_iff {A s : Text} {t : BLA} (hl : t.l = s.length) : factor A t = s ↔ pref s (A.drop t.b.toNat) = true := by
  rw [pref_iff, factor, hl]; simp

/-- The sub-atom is a variable. -/
theorem sub_var (A : Text) (before len after : Arg) (k : Nat) (hb : IntArg before) (hl : IntArg len)
    (ha : IntArg after) (hshare : len ≠ .var k) :
    subAtom (.atm A) before len after (.var k) = .sols (subSpec A before len after (.var k)) := by
  have key : ∀ (mask : Nat) (b l a : Int), mask ≤ 7 → 0 ≤ b → 0 ≤ l → 0 ≤ a →
      (mask ≠ 4 → mask ≠ 5 → mask ≠ 6 → mask ≠ 7 → b = 0) → (mask = 0 ∨ mask = 4 → l = 0) →
      (mask = 4 ∨ mask = 5 ∨ mask = 6 ∨ mask = 7 → before = .int b) →
      (mask = 2 ∨ mask = 3 ∨ mask = 6 ∨ mask = 7 → len = .int l) →
      (mask = 1 ∨ mask = 3 ∨ mask = 5 → after = .int a) →
      (mask = 0 ∨ mask = 1 ∨ mask = 4 ∨ mask = 5 → ∃ i, len = .var i) →
      enum mask A [] before len after (.var k) b l a = subSpec A before len after (.var k) := by
    intro mask b l a hmask h1 h2 h3 h4 h5 h6 h7 h8 h9
    rw [enum_eq]
    obtain ⟨t1, t2⟩ := tried_spec mask (by omega) A [] b l a h1 h2 h3 h4 h5
    have hcase : mask = 0 ∨ mask = 1 ∨ mask = 2 ∨ mask = 3 ∨ mask = 4 ∨ mask = 5 ∨ mask = 6 ∨ mask = 7 := by omega
    refine filterMap_decomps A.length _ (Pm mask A [] b l a) t1 (fun t => ?_) _ _ (fun t ht => ?_) (fun t ht hp => ?_)
    · rw [t2, mem_decomps]; exact ⟨fun h => ⟨h.1, h⟩, fun h => h.2⟩
    · refine solve_var mask hmask A before len after k t ?_
      have hp := ((t2 t).1 ht).2
      rcases hcase with rfl | rfl | rfl | rfl | rfl | rfl | rfl | rfl
      · obtain ⟨i, hi⟩ := h9 (by omega); exact .inl ⟨i, hi, fun e => hshare (e ▸ hi)⟩
      · obtain ⟨i, hi⟩ := h9 (by omega); exact .inl ⟨i, hi, fun e => hshare (e ▸ hi)⟩
      · right; rw [h7 (by omega)]; exact congrArg _ (Eq.symm hp)
      · right; rw [h7 (by omega)]; exact congrArg _ (Eq.symm hp.1)
      · obtain ⟨i, hi⟩ := h9 (by omega); exact .inl ⟨i, hi, fun e => hshare (e ▸ hi)⟩
      · obtain ⟨i, hi⟩ := h9 (by omega); exact .inl ⟨i, hi, fun e => hshare (e ▸ hi)⟩
      · right; rw [h7 (by omega)]; exact congrArg _ (Eq.symm hp.2)
      · right; rw [h7 (by omega)]; exact congrArg _ (Eq.symm hp.2)
    · have hd := (mem_decomps _ _).1 ht
      have nb : ∀ z, before = .int z → t.b ≠ z → answer (subCons A before len after (.var k) t) = none := by
        rintro z rfl hz
        refine answer_of_not (inconsistent_int (z := z) (v := .int t.b) (by simp [subCons]) ?_)
        simpa using hz
      have nl : ∀ z, len = .int z → t.l ≠ z → answer (subCons A before len after (.var k) t) = none := by
        rintro z rfl hz
        refine answer_of_not (inconsistent_int (z := z) (v := .int t.l) (by simp [subCons]) ?_)
        simpa using hz
      have na : ∀ z, after = .int z → t.a ≠ z → answer (subCons A before len after (.var k) t) = none := by
        rintro z rfl hz
        refine answer_of_not (inconsistent_int (z := z) (v := .int t.a) (by simp [subCons]) ?_)
        simpa using hz
      rcases hcase with rfl | rfl | rfl | rfl | rfl | rfl | rfl | rfl
      · exact absurd ⟨hd, trivial⟩ hp
      · exact na a (h8 (by omega)) fun e => hp ⟨hd, e⟩
      · exact nl l (h7 (by omega)) fun e => hp ⟨hd, e⟩
      · by_cases e1 : t.l = l
        · exact na a (h8 (by omega)) fun e => hp ⟨hd, e1, e⟩
        · exact nl l (h7 (by omega)) e1
      · exact nb b (h6 (by omega)) fun e => hp ⟨hd, e⟩
      · by_cases e1 : t.b = b
        · exact na a (h8 (by omega)) fun e => hp ⟨hd, e1, e⟩
        · exact nb b (h6 (by omega)) e1
      · by_cases e1 : t.b = b
        · exact nl l (h7 (by omega)) fun e => hp ⟨hd, e1, e⟩
        · exact nb b (h6 (by omega)) e1
      · by_cases e1 : t.b = b
        · exact nl l (h7 (by omega)) fun e => hp ⟨hd, e1, e⟩
        · exact nb b (h6 (by omega)) e1
  rcases IntArg_cases hb with ⟨i, rfl⟩ | ⟨b, h1, rfl⟩ <;> rcases IntArg_cases hl with ⟨j, rfl⟩ | ⟨l, h2, rfl⟩ <;>
    rcases IntArg_cases ha with ⟨m, rfl⟩ | ⟨a, h3, rfl⟩ <;>
    simp only [subAtom, derefLg_var, derefLg_int, *] <;> apply congrArg
  · exact key 0 0 0 0 (by omega) (by omega) (by omega) (by omega) (by omega) (by omega) (by omega) (by omega) (by omega) (fun _ => ⟨_, rfl⟩)
  · exact key 1 0 0 a (by omega) (by omega) (by omega) (by omega) (by omega) (by omega) (by omega) (by omega) (fun _ => rfl) (fun _ => ⟨_, rfl⟩)
  · exact key 2 0 l 0 (by omega) (by omega) (by omega) (by omega) (by omega) (by omega) (by omega) (fun _ => rfl) (by omega) (by omega)
  · exact key 3 0 l a (by omega) (by omega) (by omega) (by omega) (by omega) (by omega) (by omega) (fun _ => rfl) (fun _ => rfl) (by omega)
  · exact key 4 b 0 0 (by omega) (by omega) (by omega) (by omega) (by omega) (by omega) (fun _ => rfl) (by omega) (by omega) (fun _ => ⟨_, rfl⟩)
  · exact key 5 b 0 a (by omega) (by omega) (by omega) (by omega) (by omega) (by omega) (fun _ => rfl) (by omega) (fun _ => rfl) (fun _ => ⟨_, rfl⟩)
  · exact key 6 b l 0 (by omega) (by omega) (by omega) (by omega) (by omega) (by omega) (fun _ => rfl) (fun _ => rfl) (by omega) (by omega)
  · exact key 7 b l a (by omega) (by omega) (by omega) (by omega) (by omega) (by omega) (fun _ => rfl) (fun _ => rfl) (by omega) (by omega)

theorem factor_length {A : Text} {t : BLA} (h : t ∈ decomps A.length) : ((factor A t).length : Int) = t.l := by
  have := (mem_decomps _ _).1 h
  simp only [factor, List.length_take, List.length_drop]
  omega

/-- The sub-atom is fixed. -/
theorem sub_fixed (A s : Text) (before len after : Arg) (hb : IntArg before) (hl : IntArg len)
    (ha : IntArg after)
    (hB : ∀ b, before = .int b → (∀ a, after ≠ .int a) → b ≤ A.length)
    (hA : ∀ a, after = .int a → (∀ b, before ≠ .int b) → s.length + a ≤ A.length) :
    subAtom (.atm A) before len after (.atm s) = .sols (subSpec A before len after (.atm s)) := by
  have nf : ∀ t ∈ decomps A.length, factor A t ≠ s → answer (subCons A before len after (.atm s) t) = none := by
    intro t _ hf
    refine answer_of_not (inconsistent_atm (s := s) (v := .atm (factor A t)) (by simp [subCons]) ?_)
    simpa using hf
  have nb : ∀ t z, before = .int z → t.b ≠ z → answer (subCons A before len after (.atm s) t) = none := by
    rintro t z rfl hz
    refine answer_of_not (inconsistent_int (z := z) (v := .int t.b) (by simp [subCons]) ?_)
    simpa using hz
  have nl : ∀ t z, len = .int z → t.l ≠ z → answer (subCons A before len after (.atm s) t) = none := by
    rintro t z rfl hz
    refine answer_of_not (inconsistent_int (z := z) (v := .int t.l) (by simp [subCons]) ?_)
    simpa using hz
  have na : ∀ t z, after = .int z → t.a ≠ z → answer (subCons A before len after (.atm s) t) = none := by
    rintro t z rfl hz
    refine answer_of_not (inconsistent_int (z := z) (v := .int t.a) (by simp [subCons]) ?_)
    simpa using hz
  have empty : (∀ t ∈ decomps A.length, factor A t = s → t.l = s.length →
      answer (subCons A before len after (.atm s) t) = none) → [] = subSpec A before len after (.atm s) := by
    intro h
    have := filterMap_decomps A.length [] (fun _ => False) List.Pairwise.nil (by simp)
      (fun t => answer (subCons A before len after (.atm s) t))
      (fun t => answer (subCons A before len after (.atm s) t)) (by simp) (fun t ht _ => by
        by_cases hf : factor A t = s
        · refine h t ht hf ?_
          rw [← hf]; exact (factor_length ht).symm
        · exact nf t ht hf)
    unfold subSpec
    rw [← this]; rfl
  have single : ∀ t0 ∈ decomps A.length, (∀ t ∈ decomps A.length, factor A t = s → t.l = s.length → t ≠ t0 →
      answer (subCons A before len after (.atm s) t) = none) →
      (answer (subCons A before len after (.atm s) t0)).toList = subSpec A before len after (.atm s) := by
    intro t0 h0 h
    have := filterMap_decomps A.length [t0] (fun t => t = t0) (List.pairwise_singleton _ _)
      (fun t => by rw [List.mem_singleton]; exact ⟨fun e => ⟨e ▸ h0, e⟩, fun e => e.2⟩)
      (fun t => answer (subCons A before len after (.atm s) t))
      (fun t => answer (subCons A before len after (.atm s) t)) (fun _ _ => rfl) (fun t ht hne => by
        by_cases hf : factor A t = s
        · refine h t ht hf ?_ hne
          rw [← hf]; exact (factor_length ht).symm
        · exact nf t ht hf)
    unfold subSpec
    rw [← this, List.filterMap_cons]
    cases answer (subCons A before len after (.atm s) t0) <;> rfl
  -- the length
  cases hg : get noEnv (.int s.length) len with
  | none =>
    have hlen : ∃ z, len = .int z ∧ (s.length : Int) ≠ z := by
      rcases IntArg_cases hl with ⟨j, rfl⟩ | ⟨l, h2, rfl⟩
      · simp [get, noEnv] at hg
      · refine ⟨l, rfl, fun e => ?_⟩
        simp [get, e] at hg
    obtain ⟨z, rfl, hz⟩ := hlen
    have hfc : ∀ mask b a, fixedCase mask A s before (.int z) after b a = some (.sols []) := by
      intro mask b a; unfold fixedCase; simp only [hg]
    have he : [] = subSpec A before (.int z) after (.atm s) :=
      empty fun t ht _ hl => nl t z rfl (by omega)
    rcases IntArg_cases hb with ⟨i, rfl⟩ | ⟨b, h1, rfl⟩ <;> rcases IntArg_cases ha with ⟨m, rfl⟩ | ⟨a, h3, rfl⟩ <;>
      simp only [subAtom, derefLg_var, derefLg_int, IntArg, *] <;>
      simp only [derefLg_int hl, hfc, he]
  | some e =>
    have se := (get_spec Sol_nil _ _).1 _ hg
    have hlen : (∃ i, len = .var i) ∨ len = .int s.length := by
      rcases IntArg_cases hl with ⟨j, rfl⟩ | ⟨l, h2, rfl⟩
      · exact .inl ⟨j, rfl⟩
      · right
        simp only [get] at hg
        split at hg
        · rename_i h; injection h with h; rw [h]
        · cases hg
    -- B fixed
    have caseB : ∀ mask b a, mask ≥ 4 → before = .int b → 0 ≤ b → (mask = 5 ∨ mask = 7 ↔ ∃ a, after = .int a) →
        (mask = 5 ∨ mask = 7 → after = .int a) → 0 ≤ a →
        fixedCase mask A s before len after b a = some (.sols (subSpec A before len after (.atm s))) := by
      intro mask b a hm hbe hb0 hma hma' ha0
      unfold fixedCase
      simp only [hg]
      by_cases hsum : (mask = 5 ∨ mask = 7) ∧ (A.length : Int) ≠ b + s.length + a
      · rw [if_pos hsum, empty fun t ht hf hl => ?_]
        have := (mem_decomps _ _).1 ht
        by_cases e1 : t.b = b
        · exact na t a (hma' hsum.1) (by omega)
        · exact nb t b hbe e1
      · rw [if_neg hsum, if_pos hm]
        have hbn : b ≤ A.length := by
          by_cases h5 : mask = 5 ∨ mask = 7
          · have : (A.length : Int) = b + s.length + a := by
              apply Classical.byContradiction; exact fun h => hsum ⟨h5, h⟩
            omega
          · exact hB b hbe fun a' ha' => h5 (hma.2 ⟨a', ha'⟩)
        rw [if_neg (by omega)]
        by_cases hp : pref s (A.drop b.toNat) = true
        · rw [if_pos hp]
          have hle : b + s.length ≤ A.length := by
            have := congrArg List.length ((pref_iff _ _).1 hp)
            simp only [List.length_take, List.length_drop] at this
            omega
          have h0 : (⟨b, s.length, (A.length : Int) - b - s.length⟩ : BLA) ∈ decomps A.length := by
            rw [mem_decomps]; simp only; omega
          have hf : factor A ⟨b, s.length, (A.length : Int) - b - s.length⟩ = s := (factor_iff rfl).2 hp
          rw [← single _ h0 fun t ht hf hl hne => ?_]
          · rw [get_answer se]
            have : answer (subCons A before len after (.atm s) ⟨b, s.length, (A.length : Int) - b - s.length⟩)
                = answer [(after, .int ((A.length : Int) - b - s.length)), (len, .int s.length)] := by
              rw [← answer_const (L := [(after, .int ((A.length : Int) - b - s.length)), (len, .int s.length)])
                (c := (before, .int b)) (by rw [hbe]; simp [Const])]
              rw [← answer_const (L := [(before, .int b), (after, .int ((A.length : Int) - b - s.length)), (len, .int s.length)])
                (c := (Arg.atm s, Val.atm s)) (by simp [Const])]
              refine answer_congr fun c => ?_
              simp only [subCons, hf, List.mem_cons, List.not_mem_nil, or_false]
              constructor
              · rintro (h | h | h | h) <;> simp [h]
              · rintro (h | h | h | h) <;> simp [h]
            rw [this]
          · by_cases e1 : t.b = b
            · have := (mem_decomps _ _).1 ht
              exact absurd (BLA.ext' e1 hl (by simp only; omega)) hne
            · exact nb t b hbe e1
        · rw [if_neg hp, empty fun t ht hf hl => ?_]
          by_cases e1 : t.b = b
          · rw [factor_iff hl, e1] at hf; exact absurd hf hp
          · exact nb t b hbe e1
    -- A fixed, B not
    have caseA : ∀ mask b a, (mask = 1 ∨ mask = 3) → (∀ b, before ≠ .int b) → after = .int a → 0 ≤ a →
        fixedCase mask A s before len after b a = some (.sols (subSpec A before len after (.atm s))) := by
      intro mask b a hm hbe hae ha0
      unfold fixedCase
      simp only [hg]
      rw [if_neg (by omega), if_neg (by omega), if_pos hm]
      have hn := hA a hae hbe
      rw [if_neg (by omega)]
      by_cases hp : pref s (A.drop ((A.length : Int) - s.length - a).toNat) = true
      · rw [if_pos hp]
        have h0 : (⟨(A.length : Int) - s.length - a, s.length, a⟩ : BLA) ∈ decomps A.length := by
          rw [mem_decomps]; simp only; omega
        have hf : factor A ⟨(A.length : Int) - s.length - a, s.length, a⟩ = s := (factor_iff rfl).2 hp
        rw [← single _ h0 fun t ht hf hl hne => ?_]
        · rw [get_answer se]
          have : answer (subCons A before len after (.atm s) ⟨(A.length : Int) - s.length - a, s.length, a⟩)
              = answer [(before, .int ((A.length : Int) - s.length - a)), (len, .int s.length)] := by
            rw [← answer_const (L := [(before, .int ((A.length : Int) - s.length - a)), (len, .int s.length)])
              (c := (after, .int a)) (by rw [hae]; simp [Const])]
            rw [← answer_const (L := [(after, .int a), (before, .int ((A.length : Int) - s.length - a)), (len, .int s.length)])
              (c := (Arg.atm s, Val.atm s)) (by simp [Const])]
            refine answer_congr fun c => ?_
            simp only [subCons, hf, List.mem_cons, List.not_mem_nil, or_false]
            constructor
            · rintro (h | h | h | h) <;> simp [h]
            · rintro (h | h | h | h) <;> simp [h]
          rw [this]
        · by_cases e1 : t.a = a
          · have := (mem_decomps _ _).1 ht
            exact absurd (BLA.ext' (by simp only; omega) hl e1) hne
          · exact na t a hae e1
      · rw [if_neg hp, empty fun t ht hf hl => ?_]
        by_cases e1 : t.a = a
        · have := (mem_decomps _ _).1 ht
          rw [factor_iff hl, show t.b = (A.length : Int) - s.length - a by omega] at hf
          exact absurd hf hp
        · exact na t a hae e1
    -- neither
    have caseN : ∀ mask a, (mask = 0 ∨ mask = 2) → fixedCase mask A s before len after 0 a = none := by
      intro mask a hm
      unfold fixedCase
      simp only [hg]
      rw [if_neg (by omega), if_neg (by omega), if_neg (by omega)]
    have caseE : ∀ l, enum 8 A s before len after (.atm s) 0 l 0 = subSpec A before len after (.atm s) := by
      intro l
      rw [enum_eq]
      have htried : tried 8 A s 0 l 0 = tried 8 A s 0 s.length 0 := rfl
      rw [htried]
      obtain ⟨t1, t2⟩ := tried_spec 8 (by omega) A s 0 s.length 0 (by omega) (by omega) (by omega) (by omega) (by omega)
      refine filterMap_decomps A.length _ (Pm 8 A s 0 s.length 0) t1 (fun t => ?_) _ _ (fun t ht => ?_) (fun t ht hp => ?_)
      · rw [t2, mem_decomps]; exact ⟨fun h => ⟨h.1, h⟩, fun h => h.2⟩
      · obtain ⟨_, hp⟩ := (t2 t).1 ht
        simp only at hp
        exact solve_fixed A s before len after t ((factor_iff hp.1).2 hp.2) (by rw [hp.1]; exact hlen)
      · by_cases hf : factor A t = s
        · have hl : t.l = s.length := by rw [← hf]; exact (factor_length ht).symm
          exact absurd ⟨(mem_decomps _ _).1 ht, hl, (factor_iff hl).1 hf⟩ hp
        · exact nf t ht hf
    rcases IntArg_cases hb with ⟨i, rfl⟩ | ⟨b, h1, rfl⟩ <;> rcases IntArg_cases hl with ⟨j, rfl⟩ | ⟨l, h2, rfl⟩ <;>
      rcases IntArg_cases ha with ⟨m, rfl⟩ | ⟨a, h3, rfl⟩ <;>
      simp only [subAtom, derefLg_var, derefLg_int, *]
    · rw [caseN 0 0 (by omega)]
    · rw [caseA 1 0 a (by omega) (by simp) rfl h3]
    · rw [caseN 2 0 (by omega)]
    · rw [caseA 3 0 a (by omega) (by simp) rfl h3]
    · rw [caseB 4 b 0 (by omega) rfl h1 (by simp) (by omega) (by omega)]
    · rw [caseB 5 b a (by omega) rfl h1 (by simp) (fun _ => rfl) h3]
    · rw [caseB 6 b 0 (by omega) rfl h1 (by simp) (by omega) (by omega)]
    · rw [caseB 7 b a (by omega) rfl h1 (by simp) (fun _ => rfl) h3]

/-- A Sub argument allowed by the standard. -/
def SubArg : Arg → Prop
  | .var _ => True
  | .atm _ => True
  | _ => False

/-- **C31** (partial: three excluded situations, each refuted below). sub_atom/5 yields exactly one answer for
each decomposition of the atom which agrees with the arguments, in increasing order of Before then Length,
and nothing else. Excluded: Length and Sub are the same variable; Sub is given with Before given beyond the
end of the atom and After unknown; Sub is given with After given, Before unknown, and no room for Sub. -/
theorem C31_sub_atom_partial (A : Text) (before len after sub : Arg) (hb : IntArg before) (hl : IntArg len)
    (ha : IntArg after) (hs : SubArg sub) (hshare : ∀ i, len = .var i → sub ≠ .var i)
    (hB : ∀ s b, sub = .atm s → before = .int b → (∀ a, after ≠ .int a) → b ≤ A.length)
    (hA : ∀ s a, sub = .atm s → after = .int a → (∀ b, before ≠ .int b) → s.length + a ≤ A.length) :
    subAtom (.atm A) before len after sub = .sols (subSpec A before len after sub) := by
  cases sub with
  | var k => exact sub_var A before len after k hb hl ha fun e => hshare k e rfl
  | atm s => exact sub_fixed A s before len after hb hl ha (fun b h1 h2 => hB s b rfl h1 h2) fun a h1 h2 => hA s a rfl h1 h2
  | int _ => exact absurd hs (by simp [SubArg])
  | other => exact absurd hs (by simp [SubArg])

/-- **C31** (the enumeration is without repetition and complete): the decompositions ranged over by the
answers are exactly the triples of non-negative integers of sum the length, each once. -/
theorem C31_decompositions (A : Text) :
    (decomps A.length).Nodup ∧ ∀ t : BLA, t ∈ decomps A.length ↔
      0 ≤ t.b ∧ 0 ≤ t.l ∧ 0 ≤ t.a ∧ t.b + t.l + t.a = A.length :=
  ⟨(sorted_decomps _).imp fun h e => by subst e; unfold Lt at h; omega, mem_decomps _⟩

/-- **C31** (errors): the call raises an error exactly when the standard says so. -/
theorem C31_sub_atom_errors (atom before len after sub : Arg) :
    (∃ e, subAtom atom before len after sub = .err e) ↔
      ¬ ((∃ A, atom = .atm A) ∧ IntArg before ∧ IntArg len ∧ IntArg after ∧ SubArg sub) := by
  have hd : ∀ a : Arg, IntArg a ↔ ∃ r, derefLg a = .ok r := by
    intro a
    cases a with
    | var i => simp [IntArg, derefLg]
    | int z =>
      simp only [IntArg, derefLg]
      by_cases hz : z < 0
      · rw [if_pos hz]; simp; omega
      · rw [if_neg hz]; simp; omega
    | atm _ => simp [IntArg, derefLg]
    | other => simp [IntArg, derefLg]
  have hfix : ∀ mask A s before len after b a e, fixedCase mask A s before len after b a ≠ some (.err e) := by
    intro mask A s before len after b a e
    unfold fixedCase
    simp only
    cases get noEnv (.int s.length) len with
    | none => simp
    | some e =>
      simp only
      split
      · simp
      · split
        · split
          · simp
          · split <;> simp
        · split
          · split
            · simp
            · split <;> simp
          · simp
  cases atom with
  | var _ => simp [subAtom]
  | int _ => simp [subAtom]
  | other => simp [subAtom]
  | atm A =>
    simp only [hd]
    simp only [subAtom]
    cases h1 : derefLg before with
    | error e => simp
    | ok r1 =>
      cases h2 : derefLg len with
      | error e => simp
      | ok r2 =>
        cases h3 : derefLg after with
        | error e => simp
        | ok r3 =>
          cases sub with
          | var _ => simp [SubArg]
          | int _ => simp [SubArg]
          | other => simp [SubArg]
          | atm s =>
            simp only [SubArg]
            cases hf : fixedCase (r1.2 * 4 + r2.2 * 2 + r3.2) A s before len after r1.1 r3.1 with
            | none => simp
            | some r =>
              simp only
              constructor
              · rintro ⟨e, rfl⟩; exact absurd hf (hfix _ _ _ _ _ _ _ _ e)
              · intro h; exact absurd ⟨⟨A, rfl⟩, ⟨r1, rfl⟩, ⟨r2, rfl⟩, ⟨r3, rfl⟩, trivial⟩ h

/-- **C31** (negation): `sub_atom(abc, 4, L, A, '')` succeeds, with After = -1. -/
theorem C31_before_beyond_end :
    ∃ e, subAtom (.atm [97, 98, 99]) (.int 4) (.var 0) (.var 1) (.atm []) = .sols [e] ∧ e 1 = some (.int (-1)) :=
  ⟨_, rfl, rfl⟩

/-- **C31** (negation): `sub_atom(abc, B, L, 5, '')` succeeds, with Before = -2. -/
theorem C31_after_beyond_start :
    ∃ e, subAtom (.atm [97, 98, 99]) (.var 1) (.var 0) (.int 5) (.atm []) = .sols [e] ∧ e 1 = some (.int (-2)) :=
  ⟨_, rfl, rfl⟩

/-- **C31** (negation): `sub_atom(abc, 4, L, A, x)` reads outside the text of the atom. -/
theorem C31_out_of_bounds :
    subAtom (.atm [97, 98, 99]) (.int 4) (.var 0) (.var 1) (.atm [120]) = .outOfBounds := rfl

/-- **C31** (negation): `sub_atom(abc, 0, X, 1, X)` succeeds although Length is an integer and Sub an atom. -/
theorem C31_length_is_sub :
    ∃ e, subAtom (.atm [97, 98, 99]) (.int 0) (.var 0) (.int 1) (.var 0) = .sols [e] ∧ e 0 = some (.atm [97, 98]) :=
  ⟨_, rfl, rfl⟩

/-- The hypotheses of `C31_sub_atom_partial` hold for a call with a repeated variable (Before and After). -/
example : subAtom (.atm [97, 98, 99]) (.var 0) (.var 1) (.var 0) (.var 2)
    = .sols (subSpec [97, 98, 99] (.var 0) (.var 1) (.var 0) (.var 2)) :=
  C31_sub_atom_partial _ _ _ _ _ trivial trivial trivial trivial (by simp) (by simp) (by simp)

/-- ... and for a fixed sub-atom with a fixed Before. -/
example : subAtom (.atm [97, 98, 99]) (.int 1) (.var 1) (.var 0) (.atm [98])
    = .sols (subSpec [97, 98, 99] (.int 1) (.var 1) (.var 0) (.atm [98])) :=
  C31_sub_atom_partial _ _ _ _ _ (by simp [IntArg]) trivial trivial trivial (by simp)
    (by intro s b h1 h2 _; injection h2 with h2; subst h2; simp) (by simp)

/-! ### atom_concat/3 -/

/-- The answers of atom_concat/3. -/
noncomputable def concatSpec (a1 a2 a3 : Arg) : List Env :=
  match a3 with
  | .atm s3 => (splits s3).filterMap fun p => answer [(a1, .atm p.1), (a2, .atm p.2)]
  | a3 =>
    match a1, a2 with
    | .atm s1, .atm s2 => (answer [(a3, .atm (s1 ++ s2))]).toList
    | _, _ => []

theorem filterMap_range_single {β : Type} (n k : Nat) (g : Nat → Option β) (h : ∀ j, j < n → j ≠ k → g j = none) :
    (List.range n).filterMap g = if k < n then (g k).toList else [] := by
  induction n with
  | zero => rfl
  | succ n ih =>
    rw [List.range_succ, List.filterMap_append, ih (fun j hj => h j (by omega))]
    by_cases hk : k < n
    · rw [if_pos hk, if_pos (by omega)]
      have : [n].filterMap g = [] := by rw [List.filterMap_cons, h n (by omega) (by omega)]; rfl
      rw [this, List.append_nil]
    · rw [if_neg hk, List.nil_append]
      by_cases hk' : k = n
      · subst hk'
        rw [if_pos (by omega), List.filterMap_cons]
        cases g k <;> rfl
      · rw [if_neg (by omega), List.filterMap_cons, h n (by omega) (by omega)]; rfl

theorem concatSpec_single (a1 a2 : Arg) (s3 : Text) (k : Nat)
    (h : ∀ j, j ≤ s3.length → j ≠ k → ¬ Consistent [(a1, .atm (s3.take j)), (a2, .atm (s3.drop j))]) :
    concatSpec a1 a2 (.atm s3) = if k ≤ s3.length then
      (answer [(a1, .atm (s3.take k)), (a2, .atm (s3.drop k))]).toList else [] := by
  simp only [concatSpec, splits, List.filterMap_map]
  show List.filterMap (fun j => answer [(a1, .atm (s3.take j)), (a2, .atm (s3.drop j))]) _ = _
  rw [filterMap_range_single (s3.length + 1) k _ fun j hj hne => answer_of_not (h j (by omega) hne)]
  by_cases hk : k ≤ s3.length
  · rw [if_pos hk, if_pos (by omega)]
  · rw [if_neg hk, if_neg (by omega)]

theorem concatAlt_eq (s3 : Text) (a1 a2 : Arg) (k cnt : Nat) :
    concatAlt s3 a1 a2 k cnt = (List.range' k (cnt + 1)).filterMap
      fun j => answer [(a1, .atm (s3.take j)), (a2, .atm (s3.drop j))] := by
  have h1 : ∀ j, get2 noEnv (.atm (s3.take j)) a1 (.atm (s3.drop j)) a2
      = answer [(a1, .atm (s3.take j)), (a2, .atm (s3.drop j))] := by
    intro j
    rw [get2_answer Sol_nil]
    exact answer_congr fun c => by simp only [List.mem_cons, List.not_mem_nil, or_false]; exact or_comm
  induction cnt generalizing k with
  | zero =>
    rw [concatAlt, h1]
    simp only [List.range'_one, List.append_nil, List.filterMap_cons, List.filterMap_nil, Nat.zero_add]
    cases answer [(a1, .atm (s3.take k)), (a2, .atm (s3.drop k))] <;> rfl
  | succ cnt ih =>
    rw [concatAlt, h1, List.range'_succ, List.filterMap_cons, ih (k + 1)]
    cases answer [(a1, .atm (s3.take k)), (a2, .atm (s3.drop k))] <;> rfl

/-- **C32**. When atom_concat/3 does not raise an error (third argument given, or both first arguments), it
yields exactly the splits of the third argument which agree with the first two, by increasing length of the
first one, or the concatenation of the first two. -/
theorem C32_atom_concat (a1 a2 a3 : Arg) (h1 : SubArg a1) (h2 : SubArg a2) (h3 : SubArg a3)
    (hi : (∃ s, a3 = .atm s) ∨ ((∃ s, a1 = .atm s) ∧ ∃ s, a2 = .atm s)) :
    atomConcat a1 a2 a3 = .sols (concatSpec a1 a2 a3) := by
  have hnl : ∀ (x : Text) (L : List Con) (v : Text), (Arg.atm x, Val.atm v) ∈ L → v ≠ x → ¬ Consistent L :=
    fun x L v hm hv => inconsistent_atm hm (by simpa using hv)
  have hok : ∀ a, SubArg a → concatOk a = true := by
    intro a ha; cases a <;> simp_all [SubArg, concatOk]
  unfold atomConcat
  rw [if_neg (by simp [hok _ h1, hok _ h2, hok _ h3])]
  cases a3 with
  | int _ => exact absurd h3 (by simp [SubArg])
  | other => exact absurd h3 (by simp [SubArg])
  | var k =>
    rcases hi with ⟨s, hs⟩ | ⟨⟨s1, rfl⟩, s2, rfl⟩
    · cases hs
    · simp only [concatSpec, get_noEnv]
  | atm s3 =>
    cases a1 with
    | int _ => exact absurd h1 (by simp [SubArg])
    | other => exact absurd h1 (by simp [SubArg])
    | atm s1 =>
      have hj : ∀ a2, ∀ j, j ≤ s3.length → j ≠ s1.length →
          ¬ Consistent [(Arg.atm s1, .atm (s3.take j)), (a2, .atm (s3.drop j))] := by
        intro a2 j hj hne
        refine hnl s1 _ _ (List.mem_cons_self ..) fun e => hne ?_
        have := congrArg List.length e
        simp only [List.length_take] at this
        omega
      cases a2 with
      | int _ => exact absurd h2 (by simp [SubArg])
      | other => exact absurd h2 (by simp [SubArg])
      | atm s2 =>
        simp only
        rw [concatSpec_single _ _ _ s1.length (hj _)]
        by_cases he : s1 ++ s2 = s3
        · subst he
          rw [if_pos (by simp)]
          simp only [List.take_left', List.drop_left', get_noEnv]
          rw [answer_const (by simp [Const]), answer_const (by simp [Const]), answer_const (by simp [Const])]
        · have hg : get noEnv (.atm (s1 ++ s2)) (.atm s3) = none := by simp [get, he]
          rw [hg]
          by_cases hk : s1.length ≤ s3.length
          · rw [if_pos hk]
            by_cases e1 : s3.take s1.length = s1
            · by_cases e2 : s3.drop s1.length = s2
              · exact absurd (by rw [← e2]; conv => lhs; arg 1; rw [← e1]
                                 exact List.take_append_drop _ _) he
              · rw [answer_of_not (hnl s2 _ _ (by simp) e2)]
            · rw [answer_of_not (hnl s1 _ _ (List.mem_cons_self ..) e1)]
          · rw [if_neg hk]; rfl
      | var k =>
        simp only
        rw [concatSpec_single _ _ _ s1.length (hj _)]
        by_cases hk : s1.length ≤ s3.length
        · rw [if_pos hk]
          by_cases hp : pref s1 s3 = true
          · rw [if_neg (by simp [hp]; omega), answer_const (by simp [Const, (pref_iff _ _).1 hp]), get_noEnv]
          · rw [if_pos (by simp [hp]), answer_of_not (hnl s1 _ _ (List.mem_cons_self ..) (by rwa [pref_iff] at hp))]; rfl
        · rw [if_neg hk, if_pos (by omega)]
    | var i =>
      cases a2 with
      | int _ => exact absurd h2 (by simp [SubArg])
      | other => exact absurd h2 (by simp [SubArg])
      | atm s2 =>
        simp only
        rw [concatSpec_single (.var i) (.atm s2) s3 (s3.length - s2.length) ?_]
        · rw [if_pos (show s3.length - s2.length ≤ s3.length by omega)]
          by_cases hk : s2.length ≤ s3.length
          · by_cases hp : pref s2 (s3.drop (s3.length - s2.length)) = true
            · rw [if_neg (by simp [hp]; omega), get_noEnv]
              have he : s3.drop (s3.length - s2.length) = s2 := by
                rw [pref_iff] at hp
                rw [List.take_of_length_le (by simp; omega)] at hp
                exact hp
              rw [he]
              refine congrArg _ (congrArg _ ?_)
              rw [← answer_const (L := [(Arg.var i, _)]) (c := (Arg.atm s2, Val.atm s2)) (by simp [Const])]
              exact answer_congr fun c => by simp only [List.mem_cons, List.not_mem_nil, or_false]; exact or_comm
            · rw [if_pos (by simp [hp]), answer_of_not (hnl s2 _ (s3.drop (s3.length - s2.length)) (by simp) ?_)]
              · rfl
              · intro e; rw [pref_iff, e, List.take_length] at hp; exact hp rfl
          · rw [if_pos (by omega), answer_of_not (hnl s2 _ (s3.drop (s3.length - s2.length)) (by simp) ?_)]
            · rfl
            · intro e
              have := congrArg List.length e
              simp only [List.length_drop] at this
              omega
        · intro j hj hne
          refine hnl s2 _ _ (List.mem_cons_of_mem _ (List.mem_cons_self ..)) fun e => hne ?_
          have := congrArg List.length e
          simp only [List.length_drop] at this
          omega
      | var j =>
        simp only
        by_cases hij : i = j
        · subst hij
          rw [if_pos rfl]
          have hcons : ∀ x y : Text, Consistent [(Arg.var i, Val.atm x), (Arg.var i, Val.atm y)] → x = y := by
            rintro x y ⟨σ, hσ⟩
            have a1 := hσ (Arg.var i, Val.atm x) (by simp)
            have a2 := hσ (Arg.var i, Val.atm y) (by simp)
            simp only [Agree] at a1 a2
            rw [a1] at a2; injection a2
          rw [concatSpec_single (.var i) (.var i) s3 (s3.length / 2) ?_]
          · rw [if_pos (show s3.length / 2 ≤ s3.length by omega)]
            by_cases hev : s3.length % 2 ≠ 0
            · rw [if_pos hev, answer_of_not]
              · rfl
              · intro hc
                have := congrArg List.length (hcons _ _ hc)
                simp only [List.length_take, List.length_drop] at this
                omega
            · rw [if_neg hev]
              by_cases hp : pref (s3.take (s3.length / 2)) (s3.drop (s3.length / 2)) = true
              · have he : s3.take (s3.length / 2) = s3.drop (s3.length / 2) := by
                  rw [pref_iff] at hp
                  rw [← hp]
                  rw [List.take_of_length_le]
                  simp only [List.length_take, List.length_drop]; omega
                rw [if_neg (by simp [hp]), he]
                rw [answer_of_Sol (e := fun k => if k = i then some (.atm (s3.drop (s3.length / 2))) else none)]
                · rfl
                · refine ⟨⟨fun _ => .atm (s3.drop (s3.length / 2)), by simp [Agree]⟩, fun m w => ?_⟩
                  by_cases hm : m = i
                  · subst hm; simp [eq_comm]
                  · simp [hm]
              · rw [if_pos (by simpa using hp), answer_of_not]
                · rfl
                · intro hc
                  have := hcons _ _ hc
                  refine hp ((pref_iff _ _).2 ?_)
                  conv => rhs; rw [this]
                  rw [List.take_of_length_le]
                  simp only [List.length_take, List.length_drop]; omega
          · intro j hj hne hc
            have := congrArg List.length (hcons _ _ hc)
            simp only [List.length_take, List.length_drop] at this
            omega
        · rw [if_neg hij]
          have hfirst : (get2 noEnv (.atm []) (.var i) (.atm s3) (.var j)).toList
              ++ (if s3.length > 0 then concatAlt s3 (.var i) (.var j) 1 (s3.length - 1) else [])
              = concatAlt s3 (.var i) (.var j) 0 s3.length := by
            cases s3 with
            | nil => simp [concatAlt]
            | cons x s3 => simp [concatAlt]
          rw [hfirst, concatAlt_eq]
          simp only [concatSpec, splits, List.filterMap_map, List.range_eq_range']
          rfl

/-- **C32** (errors). -/
theorem C32_atom_concat_errors (a1 a2 a3 : Arg) :
    (∃ e, atomConcat a1 a2 a3 = .err e) ↔
      ¬ (SubArg a1 ∧ SubArg a2 ∧ SubArg a3 ∧ ((∃ s, a3 = .atm s) ∨ ((∃ s, a1 = .atm s) ∧ ∃ s, a2 = .atm s))) := by
  constructor
  · rintro ⟨e, he⟩ ⟨h1, h2, h3, h4⟩
    rw [C32_atom_concat a1 a2 a3 h1 h2 h3 h4] at he
    cases he
  · intro h
    cases a1 <;> cases a2 <;> cases a3 <;> simp_all [SubArg, atomConcat, concatOk]

/-- Two distinct variables: all the splits. -/
example : atomConcat (.var 0) (.var 1) (.atm [97, 98]) = .sols (concatSpec (.var 0) (.var 1) (.atm [97, 98])) :=
  C32_atom_concat _ _ _ trivial trivial trivial (.inl ⟨_, rfl⟩)

end Gp.SubAtom
