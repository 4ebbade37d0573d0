import Verif.Sort.Func
import Verif.Term.Props
/-!
Properties C11 (msort/2, keysort/2) and C12 (sort/2). The order is the standard order specified in
Verif/Term/Order.lean.
-/
namespace Gp.Sort
open Gp.Term

/-- `u` is before or equivalent to `v` in the standard order. -/
def StdLe (u v : Tree) : Prop := StdLt u v ∨ Same u v

/-- The list elements equivalent to `k`, in their order of appearance (classical filter: the
specification does not use the code's comparison). -/
noncomputable def sameAs (key : Tree → Tree) (k : Tree) (l : List Tree) : List Tree :=
  open Classical in l.filter (fun x => decide (Same k (key x)))

theorem compare_cmpOk : CmpOk compare Ok where
  lt_gt := fun a b ha hb => by rw [(compare_spec ha hb).1, (compare_spec hb ha).2.2]
  trans := fun a b c ha hb hc h1 h2 => (compare_trans a b c ha hb hc h1 h2).1

theorem keysort_cmpOk : CmpOk keysortCmp (fun t => Ok (arg0 t)) where
  lt_gt := fun a b ha hb => compare_cmpOk.lt_gt _ _ ha hb
  trans := fun a b c ha hb hc => compare_cmpOk.trans _ _ _ ha hb hc

theorem le_iff {u v : Tree} (hu : Ok u) (hv : Ok v) : compare u v ≤ 0 ↔ StdLe u v := by
  unfold StdLe
  rw [← (compare_spec hu hv).1, ← (compare_spec hu hv).2.1]; omega

theorem sortArray_eq (ty : SortType) (m : Mem Tree) (h : Nat) (l : List Tree) :
    sortArray ty m h l = sortL ty.cmp (decide (ty ≠ .sort)) l := by
  have := mergeSort_spec ty.cmp (decide (ty ≠ .sort)) l.length (store m h l) h (h + l.length) (Nat.le_refl _)
  rw [seg_store] at this
  unfold sortArray
  simp only
  rw [this.1]
  exact this.2.1

/-- The memory outside the array and its auxiliary area is not modified (used for C11 and C12: the
terms being sorted are in the heap below the array). -/
theorem C11_sort_memory_frame (ty : SortType) (m : Mem Tree) (h : Nat) (l : List Tree) (b : Nat)
    (hb : b < h ∨ h + 2 * l.length ≤ b) :
    (mergeSort ty.cmp (decide (ty ≠ .sort)) (store m h l) h (h + l.length) l.length).1 b = m b := by
  have := (mergeSort_spec ty.cmp (decide (ty ≠ .sort)) l.length (store m h l) h (h + l.length) (Nat.le_refl _)).2.2
    b (by omega) (by omega)
  rw [this]
  exact store_other _ _ _ _ (by omega)

theorem rd_ofList (start : Tree) (l : List Tree) : rdProperList .ok start (.ofList l) = .ok l := by
  induction l with
  | nil => simp [Tree.ofList, Tree.nil, rdProperList]
  | cons x l ih =>
    simp only [Tree.ofList, Tree.cons, rdProperList, if_true, ih]; rfl

/-- A pair `k-v`. -/
def IsPair (t : Tree) : Prop := ∃ k v, t = .app minus [k, v]

theorem rd_ofList_pairs (start : Tree) (l : List Tree) (hl : ∀ x ∈ l, IsPair x) :
    rdProperList getPair start (.ofList l) = .ok l := by
  induction l with
  | nil => simp [Tree.ofList, Tree.nil, rdProperList]
  | cons x l ih =>
    obtain ⟨k, v, rfl⟩ := hl x (by simp)
    simp only [Tree.ofList, Tree.cons, rdProperList, if_true, ih (fun y hy => hl y (by simp [hy])), getPair]; rfl

theorem sortList2_of_read {ty : SortType} {m : Mem Tree} {h : Nat} {l : List Tree} {v : Nat}
    (hl : ty = .keysort → ∀ x ∈ l, IsPair x) :
    sortList2 ty m h (.ofList l) (.var v) = .ok (.ofList (sortL ty.cmp (decide (ty ≠ .sort)) l)) := by
  have hrd : readArgs ty (.ofList l) (.var v) = .ok l := by
    unfold readArgs
    split
    · rename_i h; rw [rd_ofList_pairs _ _ (hl h)]; rfl
    · rw [rd_ofList]; rfl
  unfold sortList2
  rw [hrd]
  match l with
  | [] => rw [sortL]; rfl
  | [x] => rw [sortL]; rfl
  | x :: y :: l => simp only [sortArray_eq]; rfl

/-- **C11** (msort/2). For every list of terms, `msort(L, M)` binds `M` to a list which is a permutation
of `L` and is ascending in the standard order; equivalent elements keep their order. -/
theorem C11_msort (m : Mem Tree) (h v : Nat) (l : List Tree) (hl : ∀ x ∈ l, Ok x) :
    ∃ r, sortList2 .msort m h (.ofList l) (.var v) = .ok (.ofList r) ∧ r.Perm l ∧ r.Pairwise StdLe ∧
      ∀ k, Ok k → sameAs id k r = sameAs id k l := by
  obtain ⟨p, s, c⟩ := sortL_keep compare_cmpOk l hl
  have hr : ∀ x ∈ sortL compare true l, Ok x := fun x hx => hl x (p.mem_iff.1 hx)
  refine ⟨sortL compare true l, sortList2_of_read (by simp), p, ?_, ?_⟩
  · refine List.Pairwise.imp_of_mem ?_ s
    intro a b ha hb hab
    exact (le_iff (hr a ha) (hr b hb)).1 hab
  · intro k hk
    have conv : ∀ r : List Tree, (∀ x ∈ r, Ok x) → sameAs id k r = classOf compare k r := by
      intro r hr
      unfold sameAs classOf
      apply List.filter_congr
      intro x hx
      rw [Bool.eq_iff_iff]
      simp only [decide_eq_true_eq]
      exact ((compare_spec hk (hr x hx)).2.1).symm
    rw [conv _ hr, conv _ hl, c k hk]

/-- **C11** (keysort/2). For every list of pairs, `keysort(L, M)` binds `M` to a permutation of `L`
ascending on the keys, and pairs with equivalent keys keep their order (stability). -/
theorem C11_keysort (m : Mem Tree) (h v : Nat) (l : List Tree) (hp : ∀ x ∈ l, IsPair x)
    (hl : ∀ x ∈ l, Ok x) :
    ∃ r, sortList2 .keysort m h (.ofList l) (.var v) = .ok (.ofList r) ∧ r.Perm l ∧
      r.Pairwise (fun a b => StdLe (arg0 a) (arg0 b)) ∧
      ∀ k, Ok k → sameAs arg0 k r = sameAs arg0 k l := by
  have hok : ∀ x ∈ l, Ok (arg0 x) := by
    intro x hx
    obtain ⟨k, v, rfl⟩ := hp x hx
    exact (hl _ hx).arg k (by simp)
  obtain ⟨p, s, c⟩ := sortL_keep keysort_cmpOk l hok
  have hr : ∀ x ∈ sortL keysortCmp true l, Ok (arg0 x) := fun x hx => hok x (p.mem_iff.1 hx)
  refine ⟨sortL keysortCmp true l, sortList2_of_read (fun _ => hp), p, ?_, ?_⟩
  · refine List.Pairwise.imp_of_mem ?_ s
    intro a b ha hb hab
    exact (le_iff (hr a ha) (hr b hb)).1 hab
  · intro k hk
    have conv : ∀ r : List Tree, (∀ x ∈ r, Ok (arg0 x)) →
        sameAs arg0 k r = classOf keysortCmp (.app minus [k, k]) r := by
      intro r hr
      unfold sameAs classOf
      apply List.filter_congr
      intro x hx
      rw [Bool.eq_iff_iff]
      simp only [decide_eq_true_eq]
      exact ((compare_spec hk (hr x hx)).2.1).symm
    rw [conv _ hr, conv _ hok, c (.app minus [k, k]) hk]

/-- **C12** (sort/2). For every list of terms, `sort(L, M)` binds `M` to a strictly ascending list
(no two elements are equivalent) whose elements are elements of `L`, and every element of `L` is
equivalent to one of `M`. -/
theorem C12_sort (m : Mem Tree) (h v : Nat) (l : List Tree) (hl : ∀ x ∈ l, Ok x) :
    ∃ r, sortList2 .sort m h (.ofList l) (.var v) = .ok (.ofList r) ∧ r.Pairwise StdLt ∧
      (∀ x ∈ r, x ∈ l) ∧ ∀ x ∈ l, ∃ y ∈ r, Same x y := by
  obtain ⟨s, p, c⟩ := sortL_dedup compare_cmpOk l hl
  have hr : ∀ x ∈ sortL compare false l, Ok x := fun x hx => hl x (p x hx)
  refine ⟨sortL compare false l, sortList2_of_read (by simp), ?_, p, ?_⟩
  · refine List.Pairwise.imp_of_mem ?_ s
    intro a b ha hb hab
    exact (compare_spec (hr a ha) (hr b hb)).1.1 hab
  · intro x hx
    obtain ⟨y, hy, e⟩ := c x hx
    exact ⟨y, hy, (compare_spec (hl x hx) (hr y hy)).2.1.1 e⟩

/-- **C12** (the result is determined by the set of elements). Two lists with the same elements up to
identity give equivalent results, element by element: sort/2 computes a canonical form. Stated for
terms without float -0.0, where equivalence is equality. -/
theorem C12_sort_canonical (m m' : Mem Tree) (h h' v v' : Nat) (l l' : List Tree)
    (hl : ∀ x ∈ l, Ok x) (hz : ∀ x ∈ l, NoNegZero x) (he : ∀ x, x ∈ l ↔ x ∈ l') :
    sortList2 .sort m h (.ofList l) (.var v) = sortList2 .sort m' h' (.ofList l') (.var v') := by
  have hl' : ∀ x ∈ l', Ok x := fun x hx => hl x ((he x).2 hx)
  obtain ⟨s, p, c⟩ := sortL_dedup compare_cmpOk l hl
  obtain ⟨s', p', c'⟩ := sortL_dedup compare_cmpOk l' hl'
  rw [sortList2_of_read (by simp), sortList2_of_read (by simp)]
  show Except.ok _ = Except.ok _
  have key : ∀ x y, x ∈ l → y ∈ l → compare x y = 0 → x = y := fun x y hx hy e =>
    same_eq ((compare_spec (hl x hx) (hl y hy)).2.1.1 e) (hz x hx) (hz y hy)
  have m1 : ∀ x, x ∈ sortL compare false l ↔ x ∈ l := by
    intro x
    refine ⟨p x, fun hx => ?_⟩
    obtain ⟨y, hy, e⟩ := c x hx
    rw [key x y hx (p y hy) e]; exact hy
  have m2 : ∀ x, x ∈ sortL compare false l' ↔ x ∈ l := by
    intro x
    refine ⟨fun h => (he x).2 (p' x h), fun hx => ?_⟩
    obtain ⟨y, hy, e⟩ := c' x ((he x).1 hx)
    rw [key x y hx ((he y).2 (p' y hy)) e]; exact hy
  have uniq : ∀ a b : List Tree, StrictlyAscending compare a → StrictlyAscending compare b →
      (∀ x ∈ a, x ∈ l) → (∀ x ∈ b, x ∈ l) → (∀ x, x ∈ a ↔ x ∈ b) → a = b := by
    intro a
    induction a with
    | nil =>
      intro b _ _ _ _ hm
      cases b with
      | nil => rfl
      | cons y b => exact absurd ((hm y).2 (by simp)) (by simp)
    | cons x a ih =>
      intro b sa sb ha hb hm
      cases b with
      | nil => exact absurd ((hm x).1 (by simp)) (by simp)
      | cons y b =>
        unfold StrictlyAscending at sa sb
        rw [List.pairwise_cons] at sa sb
        have irr : ∀ z ∈ l, ¬ compare z z < 0 := fun z hz => by
          have := compare_cmpOk.lt_gt z z (hl z hz) (hl z hz); omega
        have hxy : x = y := by
          have h1 := (hm x).1 (by simp)
          have h2 := (hm y).2 (by simp)
          rw [List.mem_cons] at h1 h2
          rcases h1 with h1 | h1
          · exact h1
          · rcases h2 with h2 | h2
            · exact h2.symm
            · have a1 := sa.1 y h2
              have a2 := sb.1 x h1
              have := compare_cmpOk.lt_gt x y (hl x (ha x (by simp))) (hl y (hb y (by simp)))
              omega
        subst hxy
        congr 1
        refine ih b sa.2 sb.2 (fun z hz => ha z (by simp [hz])) (fun z hz => hb z (by simp [hz])) ?_
        intro z
        have := hm z
        simp only [List.mem_cons] at this
        constructor
        · intro hz
          rcases this.1 (.inr hz) with rfl | h
          · exact absurd (sa.1 z hz) (irr z (ha z (by simp)))
          · exact h
        · intro hz
          rcases this.2 (.inr hz) with rfl | h
          · exact absurd (sb.1 z hz) (irr z (ha z (by simp)))
          · exact h
  have : sortL compare false l = sortL compare false l' :=
    uniq _ _ s s' p (fun x hx => (m2 x).1 hx) (fun x => by rw [m1, m2])
  exact congrArg (fun r => Except.ok (Tree.ofList r)) this

/-- **C11**, **C12** (errors). A partial list raises an instantiation error and a non-list a type
error whose culprit is the whole first argument; nothing is sorted. -/
theorem C12_sort_errors (ty : SortType) (hty : ty ≠ .keysort) (m : Mem Tree) (h v : Nat) (l : List Tree)
    (tl : Tree) (htl : ∀ a b, tl ≠ .app dot [a, b]) :
    let t := l.foldr Tree.cons tl
    ((∃ a, tl = .var a) → sortList2 ty m h t (.var v) = .error .instantiation) ∧
    ((∀ a, tl ≠ .var a) → tl ≠ .nil → sortList2 ty m h t (.var v) = .error (.typeList t)) := by
  have rd : ∀ start (l : List Tree),
      ((∃ a, tl = .var a) → rdProperList .ok start (l.foldr Tree.cons tl) = .error .instantiation) ∧
      ((∀ a, tl ≠ .var a) → tl ≠ .nil → rdProperList .ok start (l.foldr Tree.cons tl) = .error (.typeList start)) := by
    intro start l
    induction l with
    | nil =>
      constructor
      · rintro ⟨a, rfl⟩; simp [rdProperList]
      · intro h1 h2
        simp only [List.foldr_nil]
        cases htl' : tl with
        | var a => exact absurd htl' (h1 a)
        | atm s =>
          have : s ≠ nilName := by rintro rfl; exact h2 htl'
          simp [rdProperList, this]
        | app f us =>
          match us, htl' with
          | [], _ => simp [rdProperList]
          | [x], _ => simp [rdProperList]
          | [x, y], e =>
            have : f ≠ dot := by rintro rfl; exact htl x y e
            simp [rdProperList, this]
          | x :: y :: z :: r, _ => simp [rdProperList]
        | _ => simp [rdProperList]
    | cons x l ih =>
      refine ⟨fun h1 => ?_, fun h1 h2 => ?_⟩
      · simp only [List.foldr_cons, Tree.cons, rdProperList, if_true]
        rw [ih.1 h1]; rfl
      · simp only [List.foldr_cons, Tree.cons, rdProperList, if_true]
        rw [ih.2 h1 h2]; rfl
  simp only
  refine ⟨fun h1 => ?_, fun h1 h2 => ?_⟩
  · unfold sortList2 readArgs
    rw [if_neg hty, (rd _ l).1 h1]; rfl
  · unfold sortList2 readArgs
    rw [if_neg hty, (rd _ l).2 h1 h2]; rfl

/-- A list `[b, 2, X]` of terms of the engine without float -0.0, and a list of pairs. -/
example : ∀ x ∈ [Tree.atm [98], .int 2, .var 7], Ok x ∧ NoNegZero x := by
  intro x hx
  simp only [List.mem_cons, List.not_mem_nil, or_false] at hx
  rcases hx with rfl | rfl | rfl
  · exact ⟨.atm _ (by decide), .atm _⟩
  · exact ⟨.int _, .int _⟩
  · exact ⟨.var _, .var _⟩

example : ∀ x ∈ [Tree.app minus [.int 2, .atm [97]], .app minus [.int 1, .var 4]], IsPair x ∧ Ok x := by
  intro x hx
  simp only [List.mem_cons, List.not_mem_nil, or_false] at hx
  rcases hx with rfl | rfl
  · refine ⟨⟨_, _, rfl⟩, .app _ _ (by decide) ?_⟩
    intro u hu
    simp only [List.mem_cons, List.not_mem_nil, or_false] at hu
    rcases hu with rfl | rfl
    · exact .int _
    · exact .atm _ (by decide)
  · refine ⟨⟨_, _, rfl⟩, .app _ _ (by decide) ?_⟩
    intro u hu
    simp only [List.mem_cons, List.not_mem_nil, or_false] at hu
    rcases hu with rfl | rfl
    · exact .int _
    · exact .var _

end Gp.Sort
