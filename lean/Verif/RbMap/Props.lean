import Verif.RbMap.Loc

/-
C42: the sorted maps of the tools. Specification: a finite map given by its sorted list of entries, and, for
histories, a function from keys to optional values.
-/
namespace Gp.RbMap

variable {K V : Type} (cmp : K → K → Int)

/-- The entries, in the order of the tree. -/
def entries (m : Map K V) : List (K × V) := inorder m.root

/-- Invariant of a map: sorted without duplicates, balanced, exact counters. -/
structure WF (m : Map K V) : Prop where
  sorted : Sorted cmp (entries m)
  balanced : ∃ n, Inv m.root .black n
  size : m.size = (entries m).length
  counters : m.counterAdd = m.counterDel + (entries m).length

theorem WF_init : WF cmp (init : Map K V) :=
  ⟨by simp [entries, init, inorder, Sorted], ⟨0, .nil⟩, by simp [entries, init, inorder],
   by simp [entries, init, inorder]⟩

variable {cmp}

theorem WF.good {m : Map K V} (h : WF cmp m) : Good m.root [] := by
  obtain ⟨n, hn⟩ := h.balanced
  exact ⟨_, .red, n, hn, .nil, by simp⟩

/-- In a sorted list a key occurs at most once. -/
theorem sorted_unique (hc : IsOrder cmp) {es : List (K × V)} (hs : Sorted cmp es) {a b : K × V}
    (ha : a ∈ es) (hb : b ∈ es) (hk : a.1 = b.1) : a = b := by
  induction es with
  | nil => simp at ha
  | cons e es ih =>
    simp only [Sorted, List.pairwise_cons] at hs
    have irr : ∀ k, ¬ cmp k k < 0 := by intro k; have := (hc.eq0 k k).mpr rfl; omega
    rcases List.mem_cons.mp ha with ha | ha <;> rcases List.mem_cons.mp hb with hb | hb
    · rw [ha, hb]
    · exact absurd (hs.1 b hb) (by rw [← hk, ha]; exact irr _)
    · exact absurd (hs.1 a ha) (by rw [hk, hb]; exact irr _)
    · exact ih hs.2 ha hb

/-- `get` finds exactly the entry with that key. -/
theorem C42_get (hc : IsOrder cmp) (m : Map K V) (hm : WF cmp m) (k : K) (v : V) :
    ((get cmp m k).map (·.e) = some (k, v)) ↔ (k, v) ∈ entries m := by
  unfold get
  generalize h : locate cmp k [] m.root = o
  cases o with
  | none =>
    have := locate_none _ _ _ h
    simp [entries, this, inorder]
  | some x =>
    obtain ⟨h1, h2⟩ := locate_spec _ _ _ _ h
    obtain ⟨hb, ha⟩ := locate_bounds hc k _ _ _ hm.sorted (by simp [before]) (by simp [after]) h
    have hin : entries m = x.before ++ x.e :: x.after := by rw [← x.inorder_root, h1]; rfl
    have irr : ∀ k, ¬ cmp k k < 0 := by intro k; have := (hc.eq0 k k).mpr rfl; omega
    simp only
    by_cases hk : cmp k x.e.1 = 0
    · rw [if_pos hk]
      have hk' := (hc.eq0 _ _).mp hk
      simp only [Option.map_some, Option.some.injEq]
      constructor
      · intro he; rw [hin, ← he]; simp
      · intro hmem
        exact sorted_unique hc hm.sorted (by rw [hin]; simp) hmem hk'.symm
    · rw [if_neg hk]
      simp only [Option.map_none, reduceCtorEq, false_iff]
      rw [hin]
      intro hmem
      simp only [List.mem_append, List.mem_cons] at hmem
      rcases hmem with hmem | hmem | hmem
      · exact irr _ (hb _ hmem)
      · rw [← hmem] at hk; exact hk ((hc.eq0 _ _).mpr rfl)
      · exact irr _ (ha _ hmem)

/-- `put` of a new key adds one entry at its place; of a present key changes nothing and returns the entry. It
never follows a NULL pointer, and the result is a well-formed map. -/
theorem C42_put (hc : IsOrder cmp) (value : Map K V → V) (m : Map K V) (hm : WF cmp m) (k : K) :
    ∃ m' e b, put cmp value m k = some (m', e, b) ∧ WF cmp m' ∧ e.1 = k ∧ e ∈ entries m' ∧
      (b = false → e ∈ entries m ∧ m' = m) ∧
      (b = true → (∀ v, (k, v) ∉ entries m) ∧ m'.size = m.size + 1 ∧ m'.counterAdd = m.counterAdd + 1 ∧
        m'.counterDel = m.counterDel ∧
        e.2 = value { m with size := m.size + 1, counterAdd := m.counterAdd + 1 } ∧
        ∃ lo hi, entries m = lo ++ hi ∧ entries m' = lo ++ e :: hi) := by
  unfold put
  generalize h : search cmp k [] m.root = o
  cases o with
  | inl e =>
    obtain ⟨h1, h2⟩ := search_inl hc _ _ _ _ h
    exact ⟨m, e, false, rfl, hm, h2, h1, fun _ => ⟨h1, rfl⟩, by simp⟩
  | inr p =>
    obtain ⟨h1, h2, h3, h4⟩ := search_inr hc _ _ _ _ hm.sorted (by simp [before]) (by simp [after]) hm.good h
    simp only [before, after, List.nil_append, List.append_nil] at h1
    obtain ⟨c, pc, n, k1, k2, k3⟩ := h4
    cases k1
    simp only
    obtain ⟨t, n', ht, hi⟩ := insertFix_inv p .nil (k, value { m with size := m.size + 1, counterAdd := m.counterAdd + 1 }) .nil pc 0 k2 .nil .nil
    have hin := insertFix_inorder _ _ _ _ _ ht
    simp only [inorder, List.nil_append] at hin
    rw [ht]
    have hent : entries m = before p ++ after p := h1.symm
    have irr : ∀ k, ¬ cmp k k < 0 := by intro k; have := (hc.eq0 k k).mpr rfl; omega
    refine ⟨_, _, true, rfl, ⟨?_, ⟨n', hi⟩, ?_, ?_⟩, rfl, ?_, by simp, fun _ => ⟨?_, rfl, rfl, rfl, rfl, before p, after p, hent, ?_⟩⟩
    · have hs := hm.sorted
      rw [hent] at hs
      simp only [Sorted, List.pairwise_append] at hs
      simp only [entries, hin, Sorted, List.append_assoc, List.cons_append, List.nil_append, List.pairwise_append, List.pairwise_cons, List.mem_cons]
      refine ⟨hs.1, ⟨h3, hs.2.1⟩, ?_⟩
      intro a ha b hb
      rcases hb with rfl | hb
      · exact h2 a ha
      · exact hs.2.2 a ha b hb
    · have := hm.size; rw [hent] at this; simp [entries, hin, this]; omega
    · have := hm.counters; rw [hent] at this; simp [entries, hin, this]; omega
    · simp [entries, hin]
    · intro v hv
      rw [hent] at hv
      rcases List.mem_append.mp hv with hv | hv
      · exact irr _ (h2 _ hv)
      · exact irr _ (h3 _ hv)
    · simp [entries, hin]

/-- `remove` deletes exactly the entry with that key, and answers whether there was one. It never follows a
NULL pointer, and the result is a well-formed map. -/
theorem C42_remove (hc : IsOrder cmp) (m : Map K V) (hm : WF cmp m) (k : K) :
    ∃ m' b, remove cmp m k = some (m', b) ∧ WF cmp m' ∧ (b = true ↔ ∃ v, (k, v) ∈ entries m) ∧
      (b = false → m' = m) ∧
      (b = true → m'.size = m.size - 1 ∧ m'.counterAdd = m.counterAdd ∧ m'.counterDel = m.counterDel + 1 ∧
        ∃ lo v hi, entries m = lo ++ (k, v) :: hi ∧ entries m' = lo ++ hi) := by
  unfold remove
  have hget := C42_get hc m hm k
  generalize h : get cmp m k = o at hget
  cases o with
  | none => exact ⟨m, false, rfl, hm, by simp [← hget], fun _ => rfl, by simp⟩
  | some x =>
    simp only
    unfold get at h
    generalize hl : locate cmp k [] m.root = o at h
    cases o with
    | none => simp at h
    | some x' =>
      simp only at h
      split at h
      · rename_i hk
        simp at h; subst h
        obtain ⟨h1, h2⟩ := locate_spec _ _ _ _ hl
        have hg := h2 hm.good
        have hk' := (hc.eq0 _ _).mp hk
        obtain ⟨t, n, ht, hi⟩ := erase_inv _ _ _ _ _ hg
        have hin := erase_inorder _ _ _ _ _ ht
        rw [ht]
        have hent : entries m = x'.before ++ x'.e :: x'.after := by rw [← x'.inorder_root, h1]; rfl
        have hin' : inorder t = x'.before ++ x'.after := by rw [hin]; simp [Loc.before, Loc.after]
        refine ⟨_, true, rfl, ⟨?_, ⟨n, hi⟩, ?_, ?_⟩, ?_, by simp, fun _ => ⟨rfl, rfl, rfl, x'.before, x'.e.2, x'.after, ?_, ?_⟩⟩
        · have hs := hm.sorted
          rw [hent] at hs
          simp only [Sorted, List.pairwise_append, List.pairwise_cons, List.mem_cons] at hs
          simp only [entries, hin', Sorted, List.pairwise_append]
          exact ⟨hs.1, hs.2.1.2, fun a ha b hb => hs.2.2 a ha b (Or.inr hb)⟩
        · have := hm.size; rw [hent] at this; simp [entries, hin', this]; omega
        · have := hm.counters; rw [hent] at this; simp [entries, hin', this]; omega
        · simp only [true_iff]
          exact ⟨x'.e.2, by rw [hent, hk']; simp⟩
        · rw [hent, hk']
        · simp [entries, hin']
      · simp at h

/-- The tree is balanced: a search in a map of `n` entries compares at most `2 log2 (n + 1)` keys. -/
theorem C42_height (m : Map K V) (hm : WF cmp m) : 2 ^ (height m.root) ≤ ((entries m).length + 1) ^ 2 := by
  obtain ⟨n, hn⟩ := hm.balanced
  have h1 := hn.height
  have h2 := hn.size
  simp only [reduceCtorEq, if_false, Nat.add_zero] at h1
  calc 2 ^ height m.root ≤ 2 ^ (2 * n) := Nat.pow_le_pow_right (by omega) h1
    _ = (2 ^ n) ^ 2 := by rw [Nat.mul_comm, Nat.pow_mul]
    _ ≤ _ := Nat.pow_le_pow_left h2 2

/-- `map_first` is the least entry, `map_last` the greatest. -/
theorem C42_first_last (m : Map K V) :
    ((first m.root).map (·.e) = (entries m).head?) ∧ ((last m.root).map (·.e) = (entries m).getLast?) := by
  cases h : m.root with
  | nil => simp [first, last, entries, h, inorder]
  | node c l e r =>
    obtain ⟨h1, h2⟩ := downLeft_spec l c e r []
    obtain ⟨h3, h4⟩ := downRight_spec r c l e []
    have k1 := Loc.inorder_root (downLeft c e r [] l)
    have k2 := Loc.inorder_root (downRight c l e [] r)
    rw [h1, h2] at k1
    rw [h3, h4] at k2
    constructor
    · simp only [first, Option.map_some, entries, h]
      rw [show inorder (Tree.node c l e r) = inorder (plug (Tree.node c l e r) []) from rfl, k1]
      simp [before]
    · simp only [last, Option.map_some, entries, h]
      rw [show inorder (Tree.node c l e r) = inorder (plug (Tree.node c l e r) []) from rfl, k2]
      simp [after]

/-- Least entry with a key `≥ k` (or `> k` if strict). -/
def IsNext (cmp : K → K → Int) (es : List (K × V)) (k : K) (strict : Bool) (e : K × V) : Prop :=
  e ∈ es ∧ (cmp k e.1 < 0 ∨ (strict = false ∧ k = e.1)) ∧
  ∀ e' ∈ es, (cmp k e'.1 < 0 ∨ (strict = false ∧ k = e'.1)) → e' = e ∨ cmp e.1 e'.1 < 0

/-- `map_next(key, strict)`: the least entry with a key greater than (or equal to) the given one. -/
theorem C42_next (hc : IsOrder cmp) (m : Map K V) (hm : WF cmp m) (k : K) (strict : Bool) :
    match mapNext cmp m k strict with
    | some x => IsNext cmp (entries m) k strict x.e
    | none => ∀ e ∈ entries m, ¬ (cmp k e.1 < 0 ∨ (strict = false ∧ k = e.1)) := by
  have irr : ∀ k, ¬ cmp k k < 0 := by intro k; have := (hc.eq0 k k).mpr rfl; omega
  have asym : ∀ a b, cmp a b < 0 → ¬ cmp b a < 0 := fun a b h h' => irr _ (hc.trans _ _ _ h h')
  unfold mapNext
  generalize h : locate cmp k [] m.root = o
  cases o with
  | none =>
    have := locate_none _ _ _ h
    simp [entries, this, inorder]
  | some x =>
    obtain ⟨h1, h2⟩ := locate_spec _ _ _ _ h
    obtain ⟨hb, ha⟩ := locate_bounds hc k _ _ _ hm.sorted (by simp [before]) (by simp [after]) h
    have hin : entries m = x.before ++ x.e :: x.after := by rw [← x.inorder_root, h1]; rfl
    have hs := hm.sorted
    rw [hin] at hs ⊢
    simp only [Sorted, List.pairwise_append, List.pairwise_cons, List.mem_cons] at hs
    have low : ∀ e ∈ x.before, ¬ (cmp k e.1 < 0 ∨ (strict = false ∧ k = e.1)) := by
      rintro e he (h' | ⟨_, rfl⟩)
      · exact asym _ _ h' (hb e he)
      · exact irr _ (hb e he)
    simp only
    by_cases hk : cmp k x.e.1 > 0 ∨ (cmp k x.e.1 = 0 ∧ strict = true)
    · rw [if_pos hk]
      have lowx : ¬ (cmp k x.e.1 < 0 ∨ (strict = false ∧ k = x.e.1)) := by
        rintro (h' | ⟨h', h''⟩)
        · omega
        · have := (hc.eq0 _ _).mpr h''; rcases hk with hk | hk
          · omega
          · simp [h'] at hk
      cases hn : next x with
      | none =>
        have := next_none x hn
        rw [this]
        intro e he
        simp only [List.mem_append, List.mem_cons, List.not_mem_nil, or_false] at he
        rcases he with he | rfl
        · exact low e he
        · exact lowx
      | some y =>
        have hy := next_after x y hn
        rw [hy] at hs ha ⊢
        refine ⟨by simp, Or.inl (ha _ (by simp)), ?_⟩
        intro e' he' hge
        simp only [List.mem_append, List.mem_cons] at he'
        rcases he' with he' | rfl | rfl | he'
        · exact absurd hge (low _ he')
        · exact absurd hge lowx
        · exact Or.inl rfl
        · right
          simp only [List.pairwise_cons] at hs
          exact hs.2.1.2.1 _ he'
    · rw [if_neg hk]
      refine ⟨by simp, ?_, ?_⟩
      · by_cases h0 : cmp k x.e.1 = 0
        · right; refine ⟨?_, (hc.eq0 _ _).mp h0⟩
          cases strict
          · rfl
          · exact absurd (Or.inr ⟨h0, rfl⟩) hk
        · left; omega
      · intro e' he' hge
        simp only [List.mem_append, List.mem_cons] at he'
        rcases he' with he' | rfl | he'
        · exact absurd hge (low _ he')
        · exact Or.inl rfl
        · exact Or.inr (hs.2.1.1 _ he')

/-- Greatest entry with a key `≤ k` (or `< k` if strict). -/
def IsPrev (cmp : K → K → Int) (es : List (K × V)) (k : K) (strict : Bool) (e : K × V) : Prop :=
  e ∈ es ∧ (cmp e.1 k < 0 ∨ (strict = false ∧ k = e.1)) ∧
  ∀ e' ∈ es, (cmp e'.1 k < 0 ∨ (strict = false ∧ k = e'.1)) → e' = e ∨ cmp e'.1 e.1 < 0

/-- `map_prev(key, strict)`: the greatest entry with a key smaller than (or equal to) the given one. -/
theorem C42_prev (hc : IsOrder cmp) (m : Map K V) (hm : WF cmp m) (k : K) (strict : Bool) :
    match mapPrev cmp m k strict with
    | some x => IsPrev cmp (entries m) k strict x.e
    | none => ∀ e ∈ entries m, ¬ (cmp e.1 k < 0 ∨ (strict = false ∧ k = e.1)) := by
  have irr : ∀ k, ¬ cmp k k < 0 := by intro k; have := (hc.eq0 k k).mpr rfl; omega
  have asym : ∀ a b, cmp a b < 0 → ¬ cmp b a < 0 := fun a b h h' => irr _ (hc.trans _ _ _ h h')
  unfold mapPrev
  generalize h : locate cmp k [] m.root = o
  cases o with
  | none =>
    have := locate_none _ _ _ h
    simp [entries, this, inorder]
  | some x =>
    obtain ⟨h1, h2⟩ := locate_spec _ _ _ _ h
    obtain ⟨hb, ha⟩ := locate_bounds hc k _ _ _ hm.sorted (by simp [before]) (by simp [after]) h
    have hin : entries m = x.before ++ x.e :: x.after := by rw [← x.inorder_root, h1]; rfl
    have hs := hm.sorted
    rw [hin] at hs ⊢
    simp only [Sorted, List.pairwise_append, List.pairwise_cons, List.mem_cons] at hs
    have hi : ∀ e ∈ x.after, ¬ (cmp e.1 k < 0 ∨ (strict = false ∧ k = e.1)) := by
      rintro e he (h' | ⟨_, rfl⟩)
      · exact asym _ _ h' (ha e he)
      · exact irr _ (ha e he)
    simp only
    by_cases hk : cmp k x.e.1 < 0 ∨ (cmp k x.e.1 = 0 ∧ strict = true)
    · rw [if_pos hk]
      have hix : ¬ (cmp x.e.1 k < 0 ∨ (strict = false ∧ k = x.e.1)) := by
        rintro (h' | ⟨h', h''⟩)
        · rw [hc.anti] at h'; omega
        · have := (hc.eq0 _ _).mpr h''; rcases hk with hk | hk
          · omega
          · simp [h'] at hk
      cases hn : prev x with
      | none =>
        have := prev_none x hn
        rw [this]
        intro e he
        simp only [List.nil_append, List.mem_cons] at he
        rcases he with rfl | he
        · exact hix
        · exact hi e he
      | some y =>
        have hy := prev_before x y hn
        rw [hy] at hs hb ⊢
        refine ⟨by simp, Or.inl (hb _ (by simp)), ?_⟩
        intro e' he' hge
        simp only [List.mem_append, List.mem_cons, List.not_mem_nil, or_false] at he'
        rcases he' with (he' | rfl) | rfl | he'
        · right
          simp only [List.pairwise_append] at hs
          exact hs.1.2.2 _ he' _ (by simp)
        · exact Or.inl rfl
        · exact absurd hge hix
        · exact absurd hge (hi _ he')
    · rw [if_neg hk]
      refine ⟨by simp, ?_, ?_⟩
      · by_cases h0 : cmp k x.e.1 = 0
        · right; refine ⟨?_, (hc.eq0 _ _).mp h0⟩
          cases strict
          · rfl
          · exact absurd (Or.inr ⟨h0, rfl⟩) hk
        · left; rw [hc.anti]; omega
      · intro e' he' hge
        simp only [List.mem_append, List.mem_cons] at he'
        rcases he' with he' | rfl | he'
        · exact Or.inr (hs.2.2 _ he' _ (Or.inl rfl))
        · exact Or.inl rfl
        · exact absurd hge (hi _ he')

/-- The loop of `map_foreach` (map_rbtree.h:474-475) from a position: the entries visited. -/
def foreachFrom {E : Type} (x : Loc E) : List E :=
  match h : next x with
  | none => [x.e]
  | some y => x.e :: foreachFrom y
termination_by x.after.length
decreasing_by rw [next_after x y h]; simp

/-- `map_foreach`. -/
def foreachMap (m : Map K V) : List (K × V) :=
  match first m.root with
  | none => []
  | some x => foreachFrom x

/-- The loop of `map_foreach_rev` (map_rbtree.h:477-478). -/
def foreachRevFrom {E : Type} (x : Loc E) : List E :=
  match h : prev x with
  | none => [x.e]
  | some y => x.e :: foreachRevFrom y
termination_by x.before.length
decreasing_by rw [prev_before x y h]; simp

def foreachRev (m : Map K V) : List (K × V) :=
  match last m.root with
  | none => []
  | some x => foreachRevFrom x

theorem foreachFrom_eq {E : Type} (x : Loc E) : foreachFrom x = x.e :: x.after := by
  fun_induction foreachFrom x with
  | case1 x h => rw [next_none x h]
  | case2 x y h ih => rw [ih, next_after x y h]

theorem foreachRevFrom_eq {E : Type} (x : Loc E) : foreachRevFrom x = x.e :: x.before.reverse := by
  fun_induction foreachRevFrom x with
  | case1 x h => rw [prev_none x h]; rfl
  | case2 x y h ih => rw [ih, prev_before x y h]; simp

/-- `map_foreach` visits every entry once in the order of the keys; `map_foreach_rev` in the reverse order. -/
theorem C42_foreach (m : Map K V) : foreachMap m = entries m ∧ foreachRev m = (entries m).reverse := by
  unfold foreachMap foreachRev
  cases h : m.root with
  | nil => simp [first, last, entries, h, inorder]
  | node c l e r =>
    obtain ⟨h1, h2⟩ := downLeft_spec l c e r []
    obtain ⟨h3, h4⟩ := downRight_spec r c l e []
    have k1 := Loc.inorder_root (downLeft c e r [] l)
    have k2 := Loc.inorder_root (downRight c l e [] r)
    rw [h1, h2] at k1
    rw [h3, h4] at k2
    simp only [first, last, foreachFrom_eq, foreachRevFrom_eq, entries, h]
    rw [show inorder (Tree.node c l e r) = inorder (plug (Tree.node c l e r) []) from rfl]
    exact ⟨by rw [k1]; simp [before], by rw [k2]; simp [after]⟩

/-! Histories -/

inductive Op (K : Type) where
  | put (k : K)
  | remove (k : K)
deriving DecidableEq

def step (cmp : K → K → Int) (value : Map K V → V) (m : Map K V) : Op K → Option (Map K V)
  | .put k => (put cmp value m k).map (·.1)
  | .remove k => (remove cmp m k).map (·.1)

def run (cmp : K → K → Int) (value : Map K V → V) (m : Map K V) : List (Op K) → Option (Map K V)
  | [] => some m
  | op :: ops => (step cmp value m op).bind fun m' => run cmp value m' ops

/-- Specification of the set of keys after a history. -/
def keysAfter (ops : List (Op K)) (k : K) : Prop :=
  ∃ pre post, ops = pre ++ .put k :: post ∧ ∀ op ∈ post, op ≠ .remove k

theorem step_spec (hc : IsOrder cmp) (value : Map K V → V) (m : Map K V) (hm : WF cmp m) (op : Op K) :
    ∃ m', step cmp value m op = some m' ∧ WF cmp m' ∧
      ∀ k, (∃ v, (k, v) ∈ entries m') ↔ (op = .put k ∨ (op ≠ .remove k ∧ ∃ v, (k, v) ∈ entries m)) := by
  cases op with
  | put k0 =>
    obtain ⟨m', e, b, h1, h2, h3, h4, h5, h6⟩ := C42_put hc value m hm k0
    refine ⟨m', by simp [step, h1], h2, ?_⟩
    intro k
    obtain ⟨ek, ev⟩ := e
    simp only at h3; subst h3
    cases b with
    | false =>
      obtain ⟨h7, rfl⟩ := h5 rfl
      constructor
      · exact fun hk => Or.inr ⟨by simp, hk⟩
      · rintro (h | ⟨_, h⟩)
        · simp only [Op.put.injEq] at h; subst h; exact ⟨_, h7⟩
        · exact h
    | true =>
      obtain ⟨_, _, _, _, _, lo, hi, h8, h9⟩ := h6 rfl
      rw [h8, h9]
      constructor
      · rintro ⟨v, hv⟩
        simp only [List.mem_append, List.mem_cons, Prod.mk.injEq] at hv
        rcases hv with hv | ⟨rfl, _⟩ | hv
        · exact Or.inr ⟨by simp, v, by simp [hv]⟩
        · exact Or.inl rfl
        · exact Or.inr ⟨by simp, v, by simp [hv]⟩
      · rintro (h | ⟨_, v, h⟩)
        · simp only [Op.put.injEq] at h; subst h; exact ⟨ev, by simp⟩
        · rcases List.mem_append.mp h with h | h
          · exact ⟨v, by simp [h]⟩
          · exact ⟨v, by simp [h]⟩
  | remove k0 =>
    obtain ⟨m', b, h1, h2, h3, h4, h5⟩ := C42_remove hc m hm k0
    refine ⟨m', by simp [step, h1], h2, ?_⟩
    intro k
    cases b with
    | false =>
      have := h4 rfl
      subst this
      constructor
      · intro hk
        refine Or.inr ⟨?_, hk⟩
        intro h
        simp only [Op.remove.injEq] at h; subst h
        exact absurd (h3.mpr hk) (by simp)
      · rintro (h | ⟨_, h⟩)
        · simp at h
        · exact h
    | true =>
      obtain ⟨_, _, _, lo, v0, hi, h8, h9⟩ := h5 rfl
      have hs := hm.sorted
      rw [h8] at hs
      rw [h8, h9]
      simp only [Sorted, List.pairwise_append, List.pairwise_cons, List.mem_cons] at hs
      have irr : ∀ k, ¬ cmp k k < 0 := by intro k; have := (hc.eq0 k k).mpr rfl; omega
      constructor
      · rintro ⟨v, hv⟩
        refine Or.inr ⟨?_, v, by rcases List.mem_append.mp hv with hv | hv <;> simp [hv]⟩
        intro h
        simp only [Op.remove.injEq] at h; subst h
        rcases List.mem_append.mp hv with hv | hv
        · exact irr _ (hs.2.2 _ hv (_, v0) (Or.inl rfl))
        · exact irr _ (hs.2.1.1 _ hv)
      · rintro (h | ⟨h', v, h⟩)
        · simp at h
        · simp only [List.mem_append, List.mem_cons, Prod.mk.injEq] at h
          rcases h with h | ⟨rfl, _⟩ | h
          · exact ⟨v, by simp [h]⟩
          · exact absurd rfl h'
          · exact ⟨v, by simp [h]⟩

theorem run_spec (hc : IsOrder cmp) (value : Map K V → V) (ops : List (Op K)) (m : Map K V) (hm : WF cmp m) :
    ∃ m', run cmp value m ops = some m' ∧ WF cmp m' ∧
      ∀ k, (∃ v, (k, v) ∈ entries m') ↔
        (keysAfter ops k ∨ ((∀ op ∈ ops, op ≠ .remove k) ∧ ∃ v, (k, v) ∈ entries m)) := by
  induction ops generalizing m with
  | nil => exact ⟨m, rfl, hm, fun k => by simp [keysAfter]⟩
  | cons op ops ih =>
    obtain ⟨m1, h1, h2, h3⟩ := step_spec hc value m hm op
    obtain ⟨m2, k1, k2, k3⟩ := ih m1 h2
    refine ⟨m2, by simp [run, h1, k1], k2, ?_⟩
    intro k
    rw [k3 k, h3 k]
    constructor
    · rintro (⟨pre, post, rfl, hp⟩ | ⟨hr, h | ⟨hne, hv⟩⟩)
      · exact Or.inl ⟨op :: pre, post, rfl, hp⟩
      · exact Or.inl ⟨[], ops, by rw [h]; rfl, hr⟩
      · exact Or.inr ⟨by intro o ho; rcases List.mem_cons.mp ho with rfl | ho; exacts [hne, hr o ho], hv⟩
    · rintro (⟨pre, post, heq, hp⟩ | ⟨hr, hv⟩)
      · cases pre with
        | nil =>
          simp only [List.nil_append, List.cons.injEq] at heq
          obtain ⟨rfl, rfl⟩ := heq
          exact Or.inr ⟨hp, Or.inl rfl⟩
        | cons o pre =>
          simp only [List.cons_append, List.cons.injEq] at heq
          obtain ⟨rfl, rfl⟩ := heq
          exact Or.inl ⟨pre, post, rfl, hp⟩
      · exact Or.inr ⟨fun o ho => hr o (List.mem_cons_of_mem _ ho), Or.inr ⟨hr op (List.mem_cons_self ..), hv⟩⟩

/-- Every history of puts and removes runs without fault; the map then contains exactly the keys put and not
removed since, in increasing order, in a balanced tree with exact counters. -/
theorem C42_history (hc : IsOrder cmp) (value : Map K V → V) (ops : List (Op K)) :
    ∃ m, run cmp value init ops = some m ∧ WF cmp m ∧
      ∀ k, (∃ v, (k, v) ∈ entries m) ↔ keysAfter ops k := by
  obtain ⟨m, h1, h2, h3⟩ := run_spec hc value ops init (WF_init cmp)
  refine ⟨m, h1, h2, fun k => ?_⟩
  rw [h3 k]
  simp [entries, init, inorder]

/-- Numbering of the atoms by `wam2ma` (Wam2Ma/wam2ma.c: a new entry gets `counter_add - 1`): after any
sequence of puts the numbers are exactly `0 … n-1`, each used once. -/
theorem C42_numbering (hc : IsOrder cmp) (ks : List K) (m : Map K Nat)
    (h : run cmp (fun m => m.counterAdd - 1) init (ks.map .put) = some m) :
    ((entries m).map (·.2)).Perm (List.range (entries m).length) := by
  suffices H : ∀ (ks : List K) (m0 : Map K Nat), WF cmp m0 → m0.counterAdd = (entries m0).length →
      ((entries m0).map (·.2)).Perm (List.range (entries m0).length) →
      ∀ m, run cmp (fun m => m.counterAdd - 1) m0 (ks.map .put) = some m →
      ((entries m).map (·.2)).Perm (List.range (entries m).length) from
    H ks init (WF_init cmp) rfl (by simp [entries, init, inorder]) m h
  intro ks
  induction ks with
  | nil => intro m0 _ _ hp m h; simp [run] at h; subst h; exact hp
  | cons k ks ih =>
    intro m0 hm hca hp m h
    obtain ⟨m', e, b, h1, h2, h3, h4, h5, h6⟩ := C42_put hc (fun m => m.counterAdd - 1) m0 hm k
    simp only [List.map_cons, run, step, h1, Option.map_some, Option.bind_some] at h
    cases b with
    | false => obtain ⟨_, rfl⟩ := h5 rfl; exact ih m' hm hca hp m h
    | true =>
      obtain ⟨_, _, hca', hcd, hv, lo, hi, h8, h9⟩ := h6 rfl
      have hlen : (entries m').length = (entries m0).length + 1 := by rw [h9, h8]; simp; omega
      refine ih m' h2 (by omega) ?_ m h
      rw [hlen, List.range_succ, h9]
      have hv' : e.2 = (entries m0).length := by rw [hv]; simp [hca]
      rw [h8] at hp ⊢
      rw [h8] at hv'
      simp only [List.map_append, List.map_cons]
      refine List.perm_middle.trans ?_
      rw [hv', ← List.map_append]
      exact (List.Perm.cons _ hp).trans (List.perm_append_singleton _ _).symm

/-! Concrete cases: integers compared by subtraction, seven keys put, two removed. -/

def cmpInt (a b : Int) : Int := a - b

theorem cmpInt_order : IsOrder cmpInt :=
  ⟨fun a b => by unfold cmpInt; omega, fun a b => by unfold cmpInt; omega, fun a b c => by unfold cmpInt; omega⟩

def sampleOps : List (Op Int) :=
  [.put 5, .put 3, .put 9, .put 1, .put 4, .put 3, .put 7, .put 8, .remove 5, .remove 2, .remove 1]

def sample : Option (Map Int Nat) := run cmpInt (fun m => m.counterAdd - 1) init sampleOps

example : sample.map entries = some [(3, 1), (4, 4), (7, 5), (8, 6), (9, 2)] := by decide +kernel
example : sample.map (fun m => (m.size, m.counterAdd, m.counterDel)) = some (5, 7, 2) := by decide +kernel
example : ∃ m, sample = some m ∧ WF cmpInt m :=
  let ⟨m, h1, h2, _⟩ := C42_history cmpInt_order (fun m => m.counterAdd - 1) sampleOps
  ⟨m, h1, h2⟩
example : sample.map (fun m => ((mapNext cmpInt m 4 true).map (·.e), (mapPrev cmpInt m 6 false).map (·.e))) =
    some (some (7, 5), some (4, 4)) := by decide +kernel
example : keysAfter sampleOps 3 :=
  ⟨[.put 5], [.put 9, .put 1, .put 4, .put 3, .put 7, .put 8, .remove 5, .remove 2, .remove 1], rfl, by decide +kernel⟩
example : (run cmpInt (fun m => m.counterAdd - 1) (init : Map Int Nat) ([7, 3, 7, 5].map .put)).map
    (fun m => (entries m).map (·.2)) = some [1, 2, 0] := by decide +kernel

end Gp.RbMap
