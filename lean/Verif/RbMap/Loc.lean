import Verif.RbMap.Lemmas

namespace Gp.RbMap

variable {E : Type}

/-- A sub-tree in its place in a red-black tree. -/
def Good (t : Tree E) (p : Path E) : Prop :=
  ∃ c pc n, Inv t c n ∧ PInv p pc n ∧ (pc = .red → c = .black)

theorem Good.left {c : Color} {l : Tree E} {e : E} {r : Tree E} {p : Path E} (h : Good (.node c l e r) p) (e' : E) :
    Good l (⟨c, .left, e', r⟩ :: p) := by
  obtain ⟨c', pc, n, h1, h2, h3⟩ := h
  cases h1 with
  | red k1 k2 =>
    have : pc = .black := by cases pc <;> simp_all
    subst this
    exact ⟨_, _, _, k1, .red h2 k2, by simp⟩
  | black k1 k2 => exact ⟨_, _, _, k1, .black h2 k2, by simp⟩

theorem Good.right {c : Color} {l : Tree E} {e : E} {r : Tree E} {p : Path E} (h : Good (.node c l e r) p) (e' : E) :
    Good r (⟨c, .right, e', l⟩ :: p) := by
  obtain ⟨c', pc, n, h1, h2, h3⟩ := h
  cases h1 with
  | red k1 k2 =>
    have : pc = .black := by cases pc <;> simp_all
    subst this
    exact ⟨_, _, _, k2, .red h2 k1, by simp⟩
  | black k1 k2 => exact ⟨_, _, _, k2, .black h2 k1, by simp⟩

theorem leftmost_good (t : Tree E) (c : Color) (e : E) (r : Tree E) (path : Path E) (h : Good (.node c t e r) path)
    (child : Tree E) (sc : Color) (se : E) (inner : Path E) (hq : leftmost c e r path t = (child, sc, se, inner)) :
    Good (.node sc .nil se child) inner := by
  induction t generalizing c e r path with
  | nil => simp [leftmost] at hq; obtain ⟨rfl, rfl, rfl, rfl⟩ := hq; exact h
  | node c' l' e' r' ihl ihr => rw [leftmost] at hq; exact ihl _ _ _ _ (h.left e) hq

theorem leftmost_append (t : Tree E) (c : Color) (e : E) (r : Tree E) (p q : Path E) :
    leftmost c e r (p ++ q) t =
      ((leftmost c e r p t).1, (leftmost c e r p t).2.1, (leftmost c e r p t).2.2.1, (leftmost c e r p t).2.2.2 ++ q) := by
  induction t generalizing c e r p with
  | nil => simp [leftmost]
  | node c' l' e' r' ihl ihr => rw [leftmost, leftmost, ← List.cons_append, ihl]

theorem erase_inv (c : Color) (l : Tree E) (e : E) (r : Tree E) (path : Path E) (h : Good (.node c l e r) path) :
    ∃ t m, erase c l r path = some t ∧ Inv t .black m := by
  unfold erase
  split
  · obtain ⟨c', pc, n, h1, h2, h3⟩ := h
    cases h1 with
    | red k1 k2 =>
      rw [if_neg (by simp)]
      obtain ⟨m, hm⟩ := plug_inv _ _ _ h2 _ _ k1 (by simp)
      exact ⟨_, m, rfl, hm⟩
    | black k1 k2 =>
      cases k1; cases k2
      by_cases hp : path = []
      · subst hp
        rw [if_neg (by simp)]
        exact ⟨_, _, rfl, Inv.nil⟩
      · rw [if_pos ⟨rfl, hp⟩]
        exact eraseColor_inv _ _ _ _ h2 .nil
  · obtain ⟨c', pc, n, h1, h2, h3⟩ := h
    cases h1 with
    | red k1 k2 => cases k1; cases k2
    | black k1 k2 =>
      cases k1
      cases k2 with
      | red j1 j2 =>
        obtain ⟨m, hm⟩ := plug_inv _ _ _ h2 _ _ (Inv.black (e := _) j1 j2) (by simp)
        exact ⟨_, m, rfl, hm⟩
  · obtain ⟨c', pc, n, h1, h2, h3⟩ := h
    cases h1 with
    | red k1 k2 => cases k2; cases k1
    | black k1 k2 =>
      cases k2
      cases k1 with
      | red j1 j2 =>
        obtain ⟨m, hm⟩ := plug_inv _ _ _ h2 _ _ (Inv.black (e := _) j1 j2) (by simp)
        exact ⟨_, m, rfl, hm⟩
  · rename_i lc ll le lr rc rl re rr
    generalize Tree.node lc ll le lr = l at h ⊢
    generalize hq : leftmost rc re rr [] rl = q
    obtain ⟨child, sc, se, inner⟩ := q
    have hg := h.right se
    have hq' := leftmost_append rl rc re rr [] (⟨c, .right, se, l⟩ :: path)
    rw [hq] at hq'
    have := leftmost_good _ _ _ _ _ hg _ _ _ _ hq'
    simp only
    generalize inner ++ ⟨c, .right, se, l⟩ :: path = path2 at this
    obtain ⟨c', pc, n, h1, h2, h3⟩ := this
    cases h1 with
    | red k1 k2 =>
      cases k1; cases k2
      simp only
      rw [if_neg (by simp)]
      obtain ⟨m, hm⟩ := plug_inv _ _ _ h2 _ _ Inv.nil (by simp)
      exact ⟨_, m, rfl, hm⟩
    | black k1 k2 =>
      cases k1
      cases k2 with
      | nil =>
        simp only
        rw [if_pos trivial]
        exact eraseColor_inv _ _ _ _ h2 .nil
      | red j1 j2 =>
        obtain ⟨m, hm⟩ := plug_inv _ _ _ h2 _ _ (Inv.black (e := _) j1 j2) (by simp)
        exact ⟨_, m, rfl, hm⟩

/-! Positions -/

def Loc.tree (x : Loc E) : Tree E := .node x.c x.l x.e x.r
def Loc.root (x : Loc E) : Tree E := plug x.tree x.path
def Loc.before (x : Loc E) : List E := RbMap.before x.path ++ inorder x.l
def Loc.after (x : Loc E) : List E := inorder x.r ++ RbMap.after x.path

theorem Loc.inorder_root (x : Loc E) : inorder x.root = x.before ++ x.e :: x.after := by
  rw [Loc.root, inorder_plug, Loc.tree, inorder]
  simp [Loc.before, Loc.after]

theorem downLeft_spec (l : Tree E) (c : Color) (e : E) (r : Tree E) (p : Path E) :
    (downLeft c e r p l).root = plug (.node c l e r) p ∧ (downLeft c e r p l).before = before p := by
  induction l generalizing c e r p with
  | nil => simp [downLeft, Loc.root, Loc.tree, Loc.before, inorder]
  | node c' l' e' r' ihl ihr =>
    rw [downLeft]
    obtain ⟨h1, h2⟩ := ihl c' e' r' (⟨c, .left, e, r⟩ :: p)
    exact ⟨by rw [h1]; rfl, by rw [h2]; rfl⟩

theorem downRight_spec (r : Tree E) (c : Color) (l : Tree E) (e : E) (p : Path E) :
    (downRight c l e p r).root = plug (.node c l e r) p ∧ (downRight c l e p r).after = after p := by
  induction r generalizing c l e p with
  | nil => simp [downRight, Loc.root, Loc.tree, Loc.after, inorder]
  | node c' l' e' r' ihl ihr =>
    rw [downRight]
    obtain ⟨h1, h2⟩ := ihr c' l' e' (⟨c, .right, e, l⟩ :: p)
    exact ⟨by rw [h1]; rfl, by rw [h2]; rfl⟩

theorem upNext_some (p : Path E) (t : Tree E) (y : Loc E) (h : upNext t p = some y) :
    y.root = plug t p ∧ y.before = before p ++ inorder t := by
  induction p generalizing t with
  | nil => simp [upNext] at h
  | cons f p ih =>
    obtain ⟨c, d, e, o⟩ := f
    cases d with
    | left => simp [upNext] at h; subst h; exact ⟨rfl, rfl⟩
    | right =>
      simp only [upNext] at h
      obtain ⟨h1, h2⟩ := ih _ h
      exact ⟨by rw [h1]; rfl, by rw [h2]; simp [inorder, before]⟩

theorem upNext_none (p : Path E) (t : Tree E) (h : upNext t p = none) : after p = [] := by
  induction p generalizing t with
  | nil => rfl
  | cons f p ih =>
    obtain ⟨c, d, e, o⟩ := f
    cases d with
    | left => simp [upNext] at h
    | right => simp only [upNext] at h; exact ih _ h

theorem upPrev_some (p : Path E) (t : Tree E) (y : Loc E) (h : upPrev t p = some y) :
    y.root = plug t p ∧ y.after = inorder t ++ after p := by
  induction p generalizing t with
  | nil => simp [upPrev] at h
  | cons f p ih =>
    obtain ⟨c, d, e, o⟩ := f
    cases d with
    | right => simp [upPrev] at h; subst h; exact ⟨rfl, rfl⟩
    | left =>
      simp only [upPrev] at h
      obtain ⟨h1, h2⟩ := ih _ h
      exact ⟨by rw [h1]; rfl, by rw [h2]; simp [inorder, after]⟩

theorem upPrev_none (p : Path E) (t : Tree E) (h : upPrev t p = none) : before p = [] := by
  induction p generalizing t with
  | nil => rfl
  | cons f p ih =>
    obtain ⟨c, d, e, o⟩ := f
    cases d with
    | right => simp [upPrev] at h
    | left => simp only [upPrev] at h; exact ih _ h

theorem next_some (x y : Loc E) (h : next x = some y) : y.root = x.root ∧ y.before = x.before ++ [x.e] := by
  obtain ⟨c, l, e, r, p⟩ := x
  cases r with
  | nil =>
    simp only [next] at h
    obtain ⟨h1, h2⟩ := upNext_some _ _ _ h
    exact ⟨h1, by rw [h2]; simp [Loc.before, inorder]⟩
  | node c' l' e' r' =>
    simp only [next, Option.some.injEq] at h
    obtain ⟨h1, h2⟩ := downLeft_spec l' c' e' r' (⟨c, .right, e, l⟩ :: p)
    subst h
    exact ⟨by rw [h1]; rfl, by rw [h2]; simp [Loc.before, before]⟩

theorem next_none (x : Loc E) (h : next x = none) : x.after = [] := by
  obtain ⟨c, l, e, r, p⟩ := x
  cases r with
  | nil => simp only [next] at h; simp [Loc.after, inorder, upNext_none _ _ h]
  | node c' l' e' r' => simp [next] at h

theorem prev_some (x y : Loc E) (h : prev x = some y) : y.root = x.root ∧ y.after = x.e :: x.after := by
  obtain ⟨c, l, e, r, p⟩ := x
  cases l with
  | nil =>
    simp only [prev] at h
    obtain ⟨h1, h2⟩ := upPrev_some _ _ _ h
    exact ⟨h1, by rw [h2]; simp [Loc.after, inorder]⟩
  | node c' l' e' r' =>
    simp only [prev, Option.some.injEq] at h
    obtain ⟨h1, h2⟩ := downRight_spec r' c' l' e' (⟨c, .left, e, r⟩ :: p)
    subst h
    exact ⟨by rw [h1]; rfl, by rw [h2]; simp [Loc.after, after]⟩

theorem prev_none (x : Loc E) (h : prev x = none) : x.before = [] := by
  obtain ⟨c, l, e, r, p⟩ := x
  cases l with
  | nil => simp only [prev] at h; simp [Loc.before, inorder, upPrev_none _ _ h]
  | node c' l' e' r' => simp [prev] at h

theorem next_after (x y : Loc E) (h : next x = some y) : x.after = y.e :: y.after := by
  obtain ⟨h1, h2⟩ := next_some x y h
  have h3 := x.inorder_root
  rw [← h1, y.inorder_root, h2] at h3
  simpa using h3.symm

theorem prev_before (x y : Loc E) (h : prev x = some y) : x.before = y.before ++ [y.e] := by
  obtain ⟨h1, h2⟩ := prev_some x y h
  have h3 := x.inorder_root
  rw [← h1, y.inorder_root, h2] at h3
  have h4 : (y.before ++ [y.e]) ++ (x.e :: x.after) = x.before ++ x.e :: x.after := by simpa using h3
  exact (List.append_cancel_right h4).symm

/-! Searches -/

section
variable {K V : Type} {cmp : K → K → Int}

theorem locate_spec (k : K) (t : Tree (K × V)) (path : Path (K × V)) (x : Loc (K × V))
    (h : locate cmp k path t = some x) : x.root = plug t path ∧ (Good t path → Good x.tree x.path) := by
  fun_induction locate cmp k path t with
  | case1 => simp at h
  | case2 => simp at h; subst h; exact ⟨rfl, id⟩
  | case3 path c e r hc c' l' e' r' ih =>
    obtain ⟨h1, h2⟩ := ih h
    exact ⟨h1, fun hg => h2 (hg.left e)⟩
  | case4 => simp at h; subst h; exact ⟨rfl, id⟩
  | case5 path c l e hc hc2 c' l' e' r' ih =>
    obtain ⟨h1, h2⟩ := ih h
    exact ⟨h1, fun hg => h2 (hg.right e)⟩
  | case6 => simp at h; subst h; exact ⟨rfl, id⟩

theorem locate_none (k : K) (t : Tree (K × V)) (path : Path (K × V)) (h : locate cmp k path t = none) :
    t = .nil := by
  fun_induction locate cmp k path t with
  | case1 => rfl
  | case2 => simp at h
  | case3 path c e r hc c' l' e' r' ih => exact absurd (ih h) (by simp)
  | case4 => simp at h
  | case5 path c l e hc hc2 c' l' e' r' ih => exact absurd (ih h) (by simp)
  | case6 => simp at h

/-- `cmp` is a total order (as C comparison functions encode it). -/
structure IsOrder (cmp : K → K → Int) : Prop where
  eq0 : ∀ a b, cmp a b = 0 ↔ a = b
  anti : ∀ a b, cmp a b < 0 ↔ 0 < cmp b a
  trans : ∀ a b c, cmp a b < 0 → cmp b c < 0 → cmp a c < 0

/-- Keys in strictly increasing order. -/
def Sorted (cmp : K → K → Int) (es : List (K × V)) : Prop := es.Pairwise (fun a b => cmp a.1 b.1 < 0)

theorem locate_bounds (hc : IsOrder cmp) (k : K) (t : Tree (K × V)) (path : Path (K × V)) (x : Loc (K × V))
    (hs : Sorted cmp (inorder t)) (hb : ∀ e ∈ before path, cmp e.1 k < 0) (ha : ∀ e ∈ after path, cmp k e.1 < 0)
    (h : locate cmp k path t = some x) :
    (∀ e ∈ x.before, cmp e.1 k < 0) ∧ (∀ e ∈ x.after, cmp k e.1 < 0) := by
  fun_induction locate cmp k path t with
  | case1 => simp at h
  | case2 path c e r hk =>
    simp at h; subst h
    simp only [inorder, List.nil_append, Sorted, List.pairwise_cons] at hs
    refine ⟨by simpa [Loc.before, inorder] using hb, ?_⟩
    intro a ham
    simp only [Loc.after, List.mem_append] at ham
    rcases ham with ham | ham
    · exact hc.trans _ _ _ hk (hs.1 a ham)
    · exact ha a ham
  | case3 path c e r hk c' l' e' r' ih =>
    simp only [inorder.eq_2 _ (Tree.node c' l' e' r'), Sorted, List.pairwise_append, List.pairwise_cons] at hs
    refine ih hs.1 (by simpa [before] using hb) ?_ h
    intro a ham
    simp only [after, List.cons_append, List.mem_cons, List.mem_append] at ham
    rcases ham with rfl | ham | ham
    · exact hk
    · exact hc.trans _ _ _ hk (hs.2.1.1 a ham)
    · exact ha a ham
  | case4 path c l e hk hk2 =>
    simp at h; subst h
    simp only [inorder, Sorted, List.pairwise_append] at hs
    refine ⟨?_, by simpa [Loc.after, inorder] using ha⟩
    intro a ham
    simp only [Loc.before, List.mem_append] at ham
    rcases ham with ham | ham
    · exact hb a ham
    · exact hc.trans _ _ _ (hs.2.2 a ham e (by simp)) ((hc.anti _ _).mpr hk2)
  | case5 path c l e hk hk2 c' l' e' r' ih =>
    simp only [inorder.eq_2 _ l, Sorted, List.pairwise_append, List.pairwise_cons] at hs
    refine ih hs.2.1.2 ?_ (by simpa [after] using ha) h
    intro a ham
    simp only [before, List.mem_append, List.mem_singleton] at ham
    rcases ham with ham | ham | rfl
    · exact hb a ham
    · exact hc.trans _ _ _ (hs.2.2 a ham e (by simp)) ((hc.anti _ _).mpr hk2)
    · exact (hc.anti _ _).mpr hk2
  | case6 path c l e r hk hk2 =>
    simp at h; subst h
    have : k = e.1 := (hc.eq0 _ _).mp (by omega)
    subst this
    simp only [inorder, Sorted, List.pairwise_append, List.pairwise_cons] at hs
    constructor
    · intro a ham
      simp only [Loc.before, List.mem_append] at ham
      rcases ham with ham | ham
      · exact hb a ham
      · exact hs.2.2 a ham e (by simp)
    · intro a ham
      simp only [Loc.after, List.mem_append] at ham
      rcases ham with ham | ham
      · exact hs.2.1.1 a ham
      · exact ha a ham

theorem search_inl (hc : IsOrder cmp) (k : K) (t : Tree (K × V)) (path : Path (K × V)) (e : K × V)
    (h : search cmp k path t = .inl e) : e ∈ inorder t ∧ e.1 = k := by
  fun_induction search cmp k path t with
  | case1 => simp at h
  | case2 path c l e' r hk ih => simp [inorder, ih h]
  | case3 path c l e' r hk hk2 ih => simp [inorder, ih h]
  | case4 path c l e' r hk hk2 =>
    simp at h; subst h
    exact ⟨by simp [inorder], ((hc.eq0 _ _).mp (by omega)).symm⟩

theorem search_inr (hc : IsOrder cmp) (k : K) (t : Tree (K × V)) (path p : Path (K × V))
    (hs : Sorted cmp (inorder t)) (hb : ∀ e ∈ before path, cmp e.1 k < 0) (ha : ∀ e ∈ after path, cmp k e.1 < 0)
    (hg : Good t path) (h : search cmp k path t = .inr p) :
    before p ++ after p = before path ++ inorder t ++ after path ∧
    (∀ e ∈ before p, cmp e.1 k < 0) ∧ (∀ e ∈ after p, cmp k e.1 < 0) ∧ Good .nil p := by
  fun_induction search cmp k path t with
  | case1 => simp at h; subst h; exact ⟨by simp [inorder], hb, ha, hg⟩
  | case2 path c l e r hk ih =>
    simp only [inorder, Sorted, List.pairwise_append, List.pairwise_cons] at hs
    obtain ⟨h1, h2⟩ := ih hs.1 (by simpa [before] using hb) (by
      intro a ham
      simp only [after, List.cons_append, List.mem_cons, List.mem_append] at ham
      rcases ham with rfl | ham | ham
      · exact hk
      · exact hc.trans _ _ _ hk (hs.2.1.1 a ham)
      · exact ha a ham) (hg.left e) h
    exact ⟨by rw [h1]; simp [before, after, inorder], h2⟩
  | case3 path c l e r hk hk2 ih =>
    simp only [inorder, Sorted, List.pairwise_append, List.pairwise_cons] at hs
    obtain ⟨h1, h2⟩ := ih hs.2.1.2 (by
      intro a ham
      simp only [before, List.mem_append, List.mem_singleton] at ham
      rcases ham with ham | ham | rfl
      · exact hb a ham
      · exact hc.trans _ _ _ (hs.2.2 a ham e (by simp)) ((hc.anti _ _).mpr hk2)
      · exact (hc.anti _ _).mpr hk2) (by simpa [after] using ha) (hg.right e) h
    exact ⟨by rw [h1]; simp [before, after, inorder], h2⟩
  | case4 => simp at h

end

/-! Height -/

def height : Tree E → Nat
  | .nil => 0
  | .node _ l _ r => max (height l) (height r) + 1

theorem Inv.height {t : Tree E} {c : Color} {n : Nat} (h : Inv t c n) :
    RbMap.height t ≤ 2 * n + (if c = .red then 1 else 0) := by
  induction h with
  | nil => simp [RbMap.height]
  | red h1 h2 ih1 ih2 => simp [RbMap.height] at *; omega
  | black h1 h2 ih1 ih2 =>
    simp only [RbMap.height]
    split at ih1 <;> split at ih2 <;> simp <;> omega

theorem Inv.size {t : Tree E} {c : Color} {n : Nat} (h : Inv t c n) : 2 ^ n ≤ (inorder t).length + 1 := by
  induction h with
  | nil => simp [inorder]
  | red h1 h2 ih1 ih2 => simp [inorder]; omega
  | black h1 h2 ih1 ih2 => simp [inorder, Nat.pow_succ]; omega

end Gp.RbMap
