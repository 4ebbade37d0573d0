import Verif.CodeGen.Lemmas9
namespace Gp.CodeGen
open Gp.Heap Gp.Unify Gp.ListBip
open Gp.Term (isNaN fkey deq)

variable {N nY e c c' : Nat} {V V' V'' : St} {X X' X'' : Var → Cell} {g g' g'' : G}
  {A B C : (Var → T) → (Adr → T) → Prop} {E : Env} {O : Opts}

/-! ## The variables which are known after the code of the head -/

/-- The variable occurs in an auxiliary argument. -/
def AuxOcc (O : Opts) (v : Var) : List Arg → Prop
  | [] => False
  | .stc f as :: l =>
    if l.isEmpty && O.lastSubterm then AuxOcc O v as else Occ v (.stc f as) ∨ AuxOcc O v l
  | .flt _ :: l => AuxOcc O v l
  | .void :: l => AuxOcc O v l
  | .var _ :: l => AuxOcc O v l
  | .atm _ :: l => AuxOcc O v l
  | .int _ :: l => AuxOcc O v l
  | .nil :: l => AuxOcc O v l

theorem flat_last {f : Nat} {as : List Arg} {k : Nat} (hlast : ((([] : List Arg)).isEmpty && O.lastSubterm) = true) :
    flatList O [.stc f as] k = ([.stc f (flatList O as k).1], (flatList O as k).2) := by
  show (_, _) = _
  simp only [flatArg, flatArg.flatList, hlast, if_true]

theorem flat_not_last {f : Nat} {as l : List Arg} {k : Nat} (hlast : ¬ (l.isEmpty && O.lastSubterm) = true) :
    flatList O (.stc f as :: l) k = (.var (.tmp k) :: (flatList O l (k + 1)).1, (flatList O l (k + 1)).2) := by
  show (_, _) = _
  simp only [flatArg, hlast, if_false, Bool.false_eq_true]

theorem last_nil {l : List Arg} (hlast : (l.isEmpty && O.lastSubterm) = true) : l = [] := by
  simp only [Bool.and_eq_true, List.isEmpty_iff] at hlast; exact hlast.1

theorem sub_occ (O : Opts) (v : Var) : (as : List Arg) → (k n : Nat) → (g : G) → OccList v as →
    AuxOcc O v as ∨ (genSubList n (flatList O as k).1 g).2.info v ≠ none
  | [], _, _, _, h => h.elim
  | .void :: l, k, n, g, h => by
    rw [AuxOcc]; exact sub_occ O v l k (n + 1) g (h.resolve_left (fun h => h))
  | .atm _ :: l, k, n, g, h => by
    rw [AuxOcc]; exact sub_occ O v l k 0 g (h.resolve_left (fun h => h))
  | .int _ :: l, k, n, g, h => by
    rw [AuxOcc]; exact sub_occ O v l k 0 g (h.resolve_left (fun h => h))
  | .nil :: l, k, n, g, h => by
    rw [AuxOcc]; exact sub_occ O v l k 0 g (h.resolve_left (fun h => h))
  | .flt _ :: l, k, n, g, h => by
    rw [AuxOcc]; exact sub_occ O v l (k + 1) 0 _ (h.resolve_left (fun h => h))
  | .var u :: l, k, n, g, h => by
    rw [AuxOcc]
    rcases h with h | h
    · have h : u = v := h
      subst h
      exact Or.inr ((sub_pure O l k 0 _).2.1 u (genSubVar_known u g))
    · exact sub_occ O v l k 0 _ h
  | .stc f as' :: l, k, n, g, h => by
    rw [AuxOcc]
    by_cases hlast : (l.isEmpty && O.lastSubterm) = true
    · have hl := last_nil hlast
      subst hl
      rw [if_pos hlast, flat_last hlast]
      rcases h with h | h
      · exact sub_occ O v as' k 0 g h
      · exact h.elim
    · rw [if_neg hlast, flat_not_last hlast]
      rcases h with h | h
      · exact Or.inl (Or.inl h)
      · rcases sub_occ O v l (k + 1) 0 (genSubVar (.tmp k) g).2 h with h | h
        · exact Or.inl (Or.inr h)
        · exact Or.inr h
termination_by as => sizeOf as

theorem genUnifVar_mono (v r : Var) (g : G) {u : Var} (hu : g.info u ≠ none) : (genUnifVar O v r g).2.info u ≠ none := by
  unfold genUnifVar
  split
  · by_cases h : u = v
    · subst h; rw [setInfo_same]; simp
    · rw [setInfo_other _ h]; exact hu
  · exact hu

theorem genUnifVar_known (v r : Var) (g : G) : (genUnifVar O v r g).2.info v ≠ none := by
  unfold genUnifVar
  split
  · rw [setInfo_same]; simp
  · rename_i h; simp [h]

theorem genAux_stc_last {f : Nat} {as l : List Arg} {k : Nat} (hlast : (l.isEmpty && O.lastSubterm) = true) :
    genAux O (.stc f as :: l) k g = genAux O as k g := by
  show genUnif.genAux O (.stc f as :: l) k g = _
  rw [genUnif.genAux, if_pos hlast]

theorem genAux_stc {f : Nat} {as l : List Arg} {k : Nat} (hlast : ¬ (l.isEmpty && O.lastSubterm) = true) :
    genAux O (.stc f as :: l) k g = ((genUnif O (.stc f as) (.tmp k) g).1 ++
      (genAux O l (k + 1) (genUnif O (.stc f as) (.tmp k) g).2).1,
      (genAux O l (k + 1) (genUnif O (.stc f as) (.tmp k) g).2).2) := by
  show genUnif.genAux O (.stc f as :: l) k g = _
  rw [genUnif.genAux, if_neg hlast]

mutual
theorem unif_mono (O : Opts) (u : Var) : (a : Arg) → (r : Var) → (g : G) → g.info u ≠ none → (genUnif O a r g).2.info u ≠ none
  | .void, _, _, h => h
  | .var v, r, g, h => genUnifVar_mono v r g h
  | .atm _, _, _, h => h
  | .int _, _, _, h => h
  | .flt _, _, _, h => h
  | .nil, _, _, h => h
  | .stc f as, r, g, h => aux_mono O u as g.tmp _ ((sub_pure O as g.tmp 0 { g with tmp := (flatList O as g.tmp).2 }).2.1 u h)
theorem aux_mono (O : Opts) (u : Var) : (l : List Arg) → (k : Nat) → (g : G) → g.info u ≠ none → (genAux O l k g).2.2.info u ≠ none
  | [], _, _, h => h
  | .void :: l, k, g, h => aux_mono O u l k g h
  | .var _ :: l, k, g, h => aux_mono O u l k g h
  | .atm _ :: l, k, g, h => aux_mono O u l k g h
  | .int _ :: l, k, g, h => aux_mono O u l k g h
  | .nil :: l, k, g, h => aux_mono O u l k g h
  | .flt _ :: l, k, g, h => aux_mono O u l (k + 1) g h
  | .stc f as :: l, k, g, h => by
    by_cases hlast : (l.isEmpty && O.lastSubterm) = true
    · rw [genAux_stc_last hlast]; exact aux_mono O u as k g h
    · rw [genAux_stc hlast]
      exact aux_mono O u l (k + 1) _ (unif_mono O u (.stc f as) (.tmp k) g h)
end

mutual
theorem unif_occ (O : Opts) (u : Var) : (a : Arg) → (r : Var) → (g : G) → Occ u a → (genUnif O a r g).2.info u ≠ none
  | .void, _, _, h => h.elim
  | .var v, r, g, h => by
    have h : v = u := h
    subst h; exact genUnifVar_known v r g
  | .atm _, _, _, h => h.elim
  | .int _, _, _, h => h.elim
  | .flt _, _, _, h => h.elim
  | .nil, _, _, h => h.elim
  | .stc f as, r, g, h => by
    rcases sub_occ O u as g.tmp 0 { g with tmp := (flatList O as g.tmp).2 } h with h | h
    · exact aux_occ O u as g.tmp _ h
    · exact aux_mono O u as g.tmp _ h
theorem aux_occ (O : Opts) (u : Var) : (l : List Arg) → (k : Nat) → (g : G) → AuxOcc O u l → (genAux O l k g).2.2.info u ≠ none
  | [], _, _, h => by rw [AuxOcc] at h; exact h.elim
  | .void :: l, k, g, h => by rw [AuxOcc] at h; exact aux_occ O u l k g h
  | .var _ :: l, k, g, h => by rw [AuxOcc] at h; exact aux_occ O u l k g h
  | .atm _ :: l, k, g, h => by rw [AuxOcc] at h; exact aux_occ O u l k g h
  | .int _ :: l, k, g, h => by rw [AuxOcc] at h; exact aux_occ O u l k g h
  | .nil :: l, k, g, h => by rw [AuxOcc] at h; exact aux_occ O u l k g h
  | .flt _ :: l, k, g, h => by rw [AuxOcc] at h; exact aux_occ O u l (k + 1) g h
  | .stc f as :: l, k, g, h => by
    rw [AuxOcc] at h
    by_cases hlast : (l.isEmpty && O.lastSubterm) = true
    · rw [if_pos hlast] at h
      rw [genAux_stc_last hlast]; exact aux_occ O u as k g h
    · rw [if_neg hlast] at h
      rw [genAux_stc hlast]
      rcases h with h | h
      · exact aux_mono O u l (k + 1) _ (unif_occ O u (.stc f as) (.tmp k) g h)
      · exact aux_occ O u l (k + 1) _ h
end

theorem unifList_mono (O : Opts) (u : Var) : (l : List (Arg × Var)) → (g : G) → g.info u ≠ none → (genUnifList O l g).2.info u ≠ none
  | [], _, h => h
  | (a, r) :: l, g, h => unifList_mono O u l _ (unif_mono O u a r g h)

theorem unifList_occ (O : Opts) (u : Var) : (l : List (Arg × Var)) → (g : G) → (∃ x ∈ l, Occ u x.1) → (genUnifList O l g).2.info u ≠ none
  | [], _, h => by obtain ⟨_, h, _⟩ := h; cases h
  | (a, r) :: l, g, ⟨x, hx, ho⟩ => by
    rcases List.mem_cons.mp hx with rfl | hx
    · exact unifList_mono O u l _ (unif_occ O u a r g ho)
    · exact unifList_occ O u l _ ⟨x, hx, ho⟩

/-! ## No variable of the head is unsafe -/

theorem genSubVar_nouns (v : Var) (g : G) {u : Var} (hu : g.info u ≠ some .unsafeEnv) :
    (genSubVar v g).2.info u ≠ some .unsafeEnv := by
  unfold genSubVar
  split
  · by_cases h : u = v
    · subst h; rw [setInfo_same]; simp
    · rw [setInfo_other _ h]; exact hu
  · exact hu
  · exact hu

theorem sub_nouns (O : Opts) (u : Var) : (as : List Arg) → (k n : Nat) → (g : G) → g.info u ≠ some .unsafeEnv →
    (genSubList n (flatList O as k).1 g).2.info u ≠ some .unsafeEnv
  | [], _, _, _, h => h
  | .void :: l, k, n, g, h => sub_nouns O u l k (n + 1) g h
  | .atm _ :: l, k, n, g, h => sub_nouns O u l k 0 g h
  | .int _ :: l, k, n, g, h => sub_nouns O u l k 0 g h
  | .nil :: l, k, n, g, h => sub_nouns O u l k 0 g h
  | .flt _ :: l, k, n, g, h => sub_nouns O u l (k + 1) 0 _ (genSubVar_nouns (.tmp k) g h)
  | .var v :: l, k, n, g, h => sub_nouns O u l k 0 _ (genSubVar_nouns v g h)
  | .stc f as' :: l, k, n, g, h => by
    by_cases hlast : (l.isEmpty && O.lastSubterm) = true
    · have hl := last_nil hlast
      subst hl
      rw [flat_last hlast]; exact sub_nouns O u as' k 0 g h
    · rw [flat_not_last hlast]
      exact sub_nouns O u l (k + 1) 0 _ (genSubVar_nouns (.tmp k) g h)
termination_by as => sizeOf as

mutual
theorem unif_nouns (hO : O.body = false) (u : Var) : (a : Arg) → (r : Var) → (g : G) → g.info u ≠ some .unsafeEnv →
    (genUnif O a r g).2.info u ≠ some .unsafeEnv
  | .void, _, _, h => h
  | .var v, r, g, h => by
    show (genUnifVar O v r g).2.info u ≠ _
    unfold genUnifVar
    split
    · by_cases h : u = v
      · subst h; rw [setInfo_same, hO]; simp
      · rw [setInfo_other _ h]; assumption
    · exact h
  | .atm _, _, _, h => h
  | .int _, _, _, h => h
  | .flt _, _, _, h => h
  | .nil, _, _, h => h
  | .stc f as, r, g, h => aux_nouns hO u as g.tmp _ (sub_nouns O u as g.tmp 0 { g with tmp := (flatList O as g.tmp).2 } h)
theorem aux_nouns (hO : O.body = false) (u : Var) : (l : List Arg) → (k : Nat) → (g : G) → g.info u ≠ some .unsafeEnv →
    (genAux O l k g).2.2.info u ≠ some .unsafeEnv
  | [], _, _, h => h
  | .void :: l, k, g, h => aux_nouns hO u l k g h
  | .var _ :: l, k, g, h => aux_nouns hO u l k g h
  | .atm _ :: l, k, g, h => aux_nouns hO u l k g h
  | .int _ :: l, k, g, h => aux_nouns hO u l k g h
  | .nil :: l, k, g, h => aux_nouns hO u l k g h
  | .flt _ :: l, k, g, h => aux_nouns hO u l (k + 1) g h
  | .stc f as :: l, k, g, h => by
    by_cases hlast : (l.isEmpty && O.lastSubterm) = true
    · rw [genAux_stc_last hlast]; exact aux_nouns hO u as k g h
    · rw [genAux_stc hlast]
      exact aux_nouns hO u l (k + 1) _ (unif_nouns hO u (.stc f as) (.tmp k) g h)
end

theorem unifList_nouns (hO : O.body = false) (u : Var) : (l : List (Arg × Var)) → (g : G) → g.info u ≠ some .unsafeEnv →
    (genUnifList O l g).2.info u ≠ some .unsafeEnv
  | [], _, h => h
  | (a, r) :: l, g, h => unifList_nouns hO u l _ (unif_nouns hO u a r g h)

theorem start_nouns (n : Nat) (u : Var) : (atStart n).info u ≠ some .unsafeEnv := by
  cases u with
  | arg i => simp only [atStart]; split <;> simp
  | _ => simp [atStart]

/-! ## The head -/

theorem mem_reorderHead {l : List (Arg × Var)} {x : Arg × Var} : x ∈ reorderHead l ↔ x ∈ l := by
  simp only [reorderHead, List.mem_append, List.mem_filter, List.mem_reverse, beq_iff_eq]
  constructor
  · rintro ((h | h) | h) <;> exact h.1
  · intro h
    cases hc : classOf x.1 with
    | s => exact Or.inr ⟨h, rfl⟩
    | t => exact Or.inl (Or.inr ⟨h, rfl⟩)
    | k => exact Or.inl (Or.inl ⟨h, rfl⟩)

theorem mem_reorderBody {l : List (Arg × Var)} {x : Arg × Var} : x ∈ reorderBody l ↔ x ∈ l := by
  simp only [reorderBody, List.mem_append, List.mem_filter, beq_iff_eq]
  constructor
  · rintro ((h | h) | h) <;> exact h.1
  · intro h
    cases hc : classOf x.1 with
    | s => exact Or.inl (Or.inl ⟨h, rfl⟩)
    | t => exact Or.inl (Or.inr ⟨h, rfl⟩)
    | k => exact Or.inr ⟨h, rfl⟩

theorem mem_numbered {l : List Arg} {a : Arg} {v : Var} : (a, v) ∈ numbered l ↔ ∃ i, v = .arg i ∧ l[i]? = some a := by
  unfold numbered
  simp only [List.mem_map, Prod.mk.injEq, Prod.exists, List.mem_zipIdx_iff_getElem?]
  constructor
  · rintro ⟨x, i, h1, rfl, rfl⟩; exact ⟨i, rfl, h1⟩
  · rintro ⟨i, rfl, h⟩; exact ⟨a, i, h, rfl, rfl⟩

theorem denList_iff {β : Var → T} : (l : List Arg) → (ts : List T) → (DenList β l ts ↔ l.length = ts.length ∧
    ∀ (i : Nat) (a : Arg), l[i]? = some a → ∀ t, ts[i]? = some t → Den β a t)
  | [], [] => ⟨fun _ => ⟨rfl, fun i a h => by simp at h⟩, fun _ => trivial⟩
  | [], _ :: _ => ⟨fun h => h.elim, fun h => by simp at h⟩
  | _ :: _, [] => ⟨fun h => h.elim, fun h => by simp at h⟩
  | a :: l, t :: ts => by
    show (Den β a t ∧ DenList β l ts) ↔ _
    rw [denList_iff l ts]
    constructor
    · rintro ⟨h1, h2, h3⟩
      refine ⟨by simp [h2], fun i b hb u hu => ?_⟩
      cases i with
      | zero => simp only [List.getElem?_cons_zero, Option.some.injEq] at hb hu; subst hb; subst hu; exact h1
      | succ i => simp only [List.getElem?_cons_succ] at hb hu; exact h3 i b hb u hu
    · rintro ⟨h1, h2⟩
      refine ⟨h2 0 a rfl t rfl, by simpa using h1, fun i b hb u hu => h2 (i + 1) b ?_ u ?_⟩
      · simpa using hb
      · simpa using hu

theorem numbered_den {β : Var → T} {l : List Arg} :
    (∀ x ∈ numbered l, Den β x.1 (β x.2)) ↔ DenList β l ((List.range l.length).map fun i => β (.arg i)) := by
  rw [denList_iff]
  constructor
  · intro h
    refine ⟨by simp, fun i a ha t ht => ?_⟩
    have := h (a, .arg i) (mem_numbered.mpr ⟨i, rfl, ha⟩)
    simp only [List.getElem?_map, List.getElem?_range, Option.map_eq_some_iff] at ht
    obtain ⟨j, h1, rfl⟩ := ht
    have : i < l.length := (List.getElem?_eq_some_iff.mp ha).1
    rw [List.getElem?_range this] at h1
    cases h1
    assumption
  · rintro ⟨_, h⟩ ⟨a, v⟩ hx
    obtain ⟨i, rfl, ha⟩ := mem_numbered.mp hx
    have : i < l.length := (List.getElem?_eq_some_iff.mp ha).1
    exact h i a ha _ (by rw [List.getElem?_map, List.getElem?_range this]; rfl)

theorem srcList_mem {l : List Arg} : SrcList nY l → ∀ a ∈ l, Src nY a := by
  induction l with
  | nil => intro _ a h; cases h
  | cons b l ih =>
    intro h a ha
    rcases List.mem_cons.mp ha with rfl | ha
    · exact h.1
    · exact ih h.2 a ha

theorem occList_mem {v : Var} {l : List Arg} : OccList v l → ∃ a ∈ l, Occ v a := by
  induction l with
  | nil => intro h; exact h.elim
  | cons b l ih =>
    rintro (h | h)
    · exact ⟨b, List.mem_cons_self, h⟩
    · obtain ⟨a, h1, h2⟩ := ih h
      exact ⟨a, List.mem_cons_of_mem _ h1, h2⟩

theorem start_inv {n : Nat} {m : M} (h : Start N nY n m) : Inv N nY m.e m.s m.X (atStart n) where
  ok := h.ok
  word v hv hk := by
    cases v with
    | arg i =>
      simp only [atStart] at hk
      split at hk
      · exact h.args i (by assumption)
      · exact absurd rfl hk
    | _ => exact absurd rfl hk
  heap v hv hk := by
    cases v with
    | arg i => simp only [atStart] at hk; split at hk <;> cases hk
    | _ => cases hk
  yword i hk := absurd rfl hk
  yheap i hk := by cases hk
  ydom i hk := absurd rfl hk
  yfree i h1 _ := (h.env i h1).2.2
  env i h1 := ⟨(h.env i h1).1, (h.env i h1).2.1⟩
  inj i j h1 h2 h3 := by have := h.size; simp only [yadr] at h3; omega
  tmp n _ := rfl
  nouns v _ _ := by
    cases v with
    | arg i => simp only [atStart]; split <;> simp
    | _ => simp [atStart]

/-- The list of the arguments treated by the head. -/
def headArgs (reorder : Bool) (args : List Arg) : List (Arg × Var) :=
  if reorder then reorderHead (numbered args) else numbered args

theorem mem_headArgs {b : Bool} {args : List Arg} {x : Arg × Var} : x ∈ headArgs b args ↔ x ∈ numbered args := by
  unfold headArgs; split
  · exact mem_reorderHead
  · exact Iff.rfl

theorem numbered_known {args : List Arg} : ∀ x ∈ numbered args, (atStart args.length).info x.2 ≠ none ∧ SrcReg (atStart args.length) x.2 := by
  rintro ⟨a, v⟩ hx
  obtain ⟨i, rfl, ha⟩ := mem_numbered.mp hx
  have : i < args.length := (List.getElem?_eq_some_iff.mp ha).1
  refine ⟨?_, rfl, start_nouns _ _⟩
  simp only [atStart]
  rw [if_pos this]
  simp

theorem head_run {b : Bool} {args : List Arg} {m : M} {r : Option M} (hm : Start N nY args.length m) (hs : SrcList nY args)
    (h : exec E (genHead O b args (atStart args.length)).1 m = some r) :
    RunOk 0 N nY m m.s (atStart args.length) (genHead O b args (atStart args.length)).2
      (fun β _ => DenList β args ((List.range args.length).map fun i => β (.arg i))) (fun _ _ => True) r := by
  have hi := start_inv hm
  refine (unifList_ok O E (headArgs b args) (atStart args.length) m r ?_ hi ?_ h).conseq ?_ (fun _ _ => Iff.rfl)
  · rintro ⟨a, v⟩ hx
    obtain ⟨i, _, ha⟩ := mem_numbered.mp (mem_headArgs.mp hx)
    exact srcList_mem hs a (List.mem_of_getElem? ha)
  · intro x hx; exact numbered_known x (mem_headArgs.mp hx)
  · intro ρ β _ _
    rw [← numbered_den]
    constructor
    · intro h x hx; exact h x (mem_headArgs.mpr hx)
    · intro h x hx; exact h x (mem_headArgs.mp hx)

theorem head_occ {b : Bool} {args : List Arg} {v : Var} (h : OccList v args) (g : G) : (genHead O b args g).2.info v ≠ none := by
  obtain ⟨a, h1, h2⟩ := occList_mem h
  obtain ⟨i, hi⟩ := List.mem_iff_getElem?.mp h1
  exact unifList_occ O v (headArgs b args) g ⟨(a, .arg i), mem_headArgs.mpr (mem_numbered.mpr ⟨i, rfl, hi⟩), h2⟩

mutual
theorem occ_src {v : Var} : (a : Arg) → Src nY a → Occ v a → (∃ n, v = .x n) ∨ ∃ i, v = .y i ∧ i < nY
  | .var u, hs, ho => by
    have ho : u = v := ho
    subst ho
    cases u with
    | x n => exact Or.inl ⟨n, rfl⟩
    | y i => exact Or.inr ⟨i, rfl, hs⟩
    | _ => exact hs.elim
  | .void, _, ho => ho.elim
  | .atm _, _, ho => ho.elim
  | .int _, _, ho => ho.elim
  | .flt _, _, ho => ho.elim
  | .nil, _, ho => ho.elim
  | .stc _ as, hs, ho => occList_src as hs.2 ho
theorem occList_src {v : Var} : (l : List Arg) → SrcList nY l → OccList v l → (∃ n, v = .x n) ∨ ∃ i, v = .y i ∧ i < nY
  | [], _, ho => ho.elim
  | a :: l, hs, ho => by
    rcases ho with ho | ho
    · exact occ_src a hs.1 ho
    · exact occList_src l hs.2 ho
end

theorem occ_arg {i : Nat} {l : List Arg} (hs : SrcList nY l) : ¬ OccList (.arg i) l := by
  intro h
  rcases occList_src l hs h with ⟨_, h⟩ | ⟨_, h, _⟩ <;> cases h

theorem occ_tmp {i : Nat} {l : List Arg} (hs : SrcList nY l) : ¬ OccList (.tmp i) l := by
  intro h
  rcases occList_src l hs h with ⟨_, h⟩ | ⟨_, h, _⟩ <;> cases h

mutual
theorem den_occ {β β' : Var → T} : (a : Arg) → (t : T) → (∀ v, Occ v a → β v = β' v) → (Den β a t ↔ Den β' a t)
  | .void, _, _ => Iff.rfl
  | .var v, t, h => by simp only [Den]; rw [h v rfl]
  | .atm _, _, _ => Iff.rfl
  | .int _, _, _ => Iff.rfl
  | .flt _, _, _ => Iff.rfl
  | .nil, _, _ => Iff.rfl
  | .stc f as, t, h => by
    simp only [Den]
    exact exists_congr fun ts => and_congr_left fun _ => denList_occ as ts h
theorem denList_occ {β β' : Var → T} : (l : List Arg) → (ts : List T) → (∀ v, OccList v l → β v = β' v) →
    (DenList β l ts ↔ DenList β' l ts)
  | [], [], _ => Iff.rfl
  | [], _ :: _, _ => Iff.rfl
  | _ :: _, [], _ => Iff.rfl
  | a :: l, t :: ts, h => and_congr (den_occ a t fun v hv => h v (Or.inl hv)) (denList_occ l ts fun v hv => h v (Or.inr hv))
end

variable {args : List Arg} {m : M}

theorem holds_value {X : Var → Cell} {g : G} {m : M} {ρ : Adr → T} (hX : X = m.X) (hi : Inv N nY m.e m.s X g)
    (hρ : Model N m.s.mem ρ) : Holds m.e m.s X g (m.value ρ) ρ := by
  subst hX
  intro v hv
  cases v with
  | y i => exact (hρ _ (hi.env i (hi.ydom i hv)).2 (hi.yword i hv)).symm
  | _ => rfl

theorem start_known {n i : Nat} (h : i < n) : (atStart n).info (.arg i) ≠ none := by
  simp only [atStart]; rw [if_pos h]; simp

theorem map_args {β : Var → T} {ρ : Adr → T} (h : Holds m.e m.s m.X (atStart args.length) β ρ) :
    ((List.range args.length).map fun i => β (.arg i)) = (List.range args.length).map fun i => eval m.s.mem ρ (m.X (.arg i)) :=
  List.map_congr_left fun i hi => h (.arg i) (start_known (List.mem_range.mp hi))

/-- The values of the variables of the clause, and the argument registers. -/
def withArgs (m : M) (β : Var → T) (ρ : Adr → T) : Var → T
  | .arg i => eval m.s.mem ρ (m.X (.arg i))
  | v => β v

theorem den_withArgs {β : Var → T} {ρ : Adr → T} {ts : List T} (hs : SrcList nY args) (h : DenList β args ts) :
    DenList (withArgs m β ρ) args ts := by
  refine (denList_occ args ts ?_).mp h
  intro v hv
  cases v <;> first | rfl | exact absurd hv (occ_arg hs)

theorem holds_withArgs {β : Var → T} {ρ : Adr → T} : Holds m.e m.s m.X (atStart args.length) (withArgs m β ρ) ρ := by
  intro v hv
  cases v with
  | arg i => rfl
  | _ => exact absurd rfl hv

end Gp.CodeGen
