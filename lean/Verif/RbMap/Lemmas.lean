import Verif.RbMap.Model
import Mathlib.Tactic.Ring

namespace Gp.RbMap

variable {E : Type}

def inorder : Tree E → List E
  | .nil => []
  | .node _ l e r => inorder l ++ e :: inorder r

def before : Path E → List E
  | [] => []
  | f :: p => match f.dir with
    | .left => before p
    | .right => before p ++ (inorder f.other ++ [f.e])

def after : Path E → List E
  | [] => []
  | f :: p => match f.dir with
    | .left => f.e :: inorder f.other ++ after p
    | .right => after p

@[simp] theorem inorder_paintBlack (t : Tree E) : inorder (paintBlack t) = inorder t := by
  cases t <;> rfl

theorem inorder_plug (t : Tree E) (p : Path E) : inorder (plug t p) = before p ++ inorder t ++ after p := by
  induction p generalizing t with
  | nil => simp [plug, before, after]
  | cons f p ih =>
    rw [plug, ih]
    obtain ⟨c, d, e, o⟩ := f
    cases d <;> simp [mk, inorder, before, after]

theorem insertFix_inorder (p : Path E) (l : Tree E) (e : E) (r t : Tree E) (h : insertFix l e r p = some t) :
    inorder t = before p ++ (inorder l ++ e :: inorder r) ++ after p := by
  fun_induction insertFix l e r p with
  | case1 l e r => simp at h; subst h; simp [inorder, before, after]
  | case2 l e r p path hc => simp at h; subst h; simp [inorder_plug, inorder]
  | case3 => simp at h
  | case4 l e r p hc g path hr p' u hd ih =>
    rw [ih h]
    obtain ⟨pc, pd, pe, po⟩ := p
    obtain ⟨gc, gd, ge, go⟩ := g
    simp only at hd; subst hd
    cases pd <;> simp [before, after, p', u, mk, inorder]
  | case5 l e r p hc g path hr p' u hd ih =>
    rw [ih h]
    obtain ⟨pc, pd, pe, po⟩ := p
    obtain ⟨gc, gd, ge, go⟩ := g
    simp only at hd; subst hd
    cases pd <;> simp [before, after, p', u, mk, inorder]
  | case6 l e r p hc g path hr hd =>
    simp at h; subst h
    obtain ⟨pc, pd, pe, po⟩ := p
    obtain ⟨gc, gd, ge, go⟩ := g
    simp only at hd; subst hd
    cases pd <;> simp [before, after, mk, inorder, inorder_plug]
  | case7 l e r p hc g path hr hd hg =>
    simp at h; subst h
    obtain ⟨pc, pd, pe, po⟩ := p
    obtain ⟨gc, gd, ge, go⟩ := g
    simp only at hg hd; subst hg
    cases pd <;> simp_all [before, after, inorder, inorder_plug]
  | case8 l e r p hc g path hr hd hg =>
    simp at h; subst h
    obtain ⟨pc, pd, pe, po⟩ := p
    obtain ⟨gc, gd, ge, go⟩ := g
    simp only at hg hd; subst hg
    cases pd <;> simp_all [before, after, inorder, inorder_plug]

def Turn.tree : Turn E → Tree E
  | .done t => t
  | .up t => t

theorem eraseTurn_inorder (t : Tree E) (d : Dir) (c : Color) (e : E) (sl : Tree E) (se : E) (sr : Tree E)
    (x : Turn E) (h : eraseTurn t d c e sl se sr = some x) (c' : Color) :
    inorder x.tree = inorder (mk d c' t e (.node c' sl se sr)) := by
  unfold eraseTurn at h
  simp only at h
  by_cases hr : isRed (sons d sl sr).2 = true
  · rw [if_pos hr] at h
    simp only [Option.some.injEq] at h
    subst h
    cases d <;> simp [Turn.tree, mk, inorder, sons]
  · rw [if_neg hr] at h
    split at h
    · rename_i nl ne nr hn
      simp only [Option.some.injEq] at h
      subst h
      cases d <;> simp only [sons] at hn <;> subst hn <;> simp [Turn.tree, mk, inorder, sons]
    · split at h <;> simp only [Option.some.injEq] at h <;> subst h <;> cases d <;> simp [Turn.tree, mk, inorder]

theorem eraseColor_inorder (p : Path E) (t t' : Tree E) (h : eraseColor t p = some t') :
    inorder t' = before p ++ inorder t ++ after p := by
  induction p generalizing t with
  | nil => simp [eraseColor] at h; subst h; simp [before, after]
  | cons f p ih =>
    obtain ⟨fc, d, fe, fo⟩ := f
    rw [eraseColor] at h
    simp only at h
    split at h
    · simp at h
    · rename_i sl se sr
      generalize hs : sons d sl sr = ss at h
      obtain ⟨near, far⟩ := ss
      simp only at h
      split at h
      · simp at h
      · rename_i nc nl ne nr hn
        split at h
        · rename_i t1 ht1
          have hx := eraseTurn_inorder _ _ _ _ _ _ _ _ ht1 .red
          simp only [Turn.tree] at hx
          simp at h; subst h
          have hn' : inorder near = inorder nl ++ ne :: inorder nr := by
            rw [← inorder_paintBlack, hn]; simp [inorder]
          cases d <;> simp [sons] at hs <;> obtain ⟨rfl, rfl⟩ := hs <;>
            simp [inorder_plug, mk, inorder, hx, before, after, hn']
        · simp at h
    · rename_i sl se sr
      split at h
      · rename_i t1 ht1
        have hx := eraseTurn_inorder _ _ _ _ _ _ _ _ ht1 .red
        simp only [Turn.tree] at hx
        simp at h; subst h
        cases d <;> simp [inorder_plug, mk, inorder, hx, before, after]
      · rename_i t1 ht1
        have hx := eraseTurn_inorder _ _ _ _ _ _ _ _ ht1 .red
        simp only [Turn.tree] at hx
        rw [ih _ h]
        cases d <;> simp [mk, inorder, hx, before, after]
      · simp at h

theorem before_append (p q : Path E) : before (p ++ q) = before q ++ before p := by
  induction p with
  | nil => simp [before]
  | cons f p ih => obtain ⟨c, d, e, o⟩ := f; cases d <;> simp [before, ih]

theorem after_append (p q : Path E) : after (p ++ q) = after p ++ after q := by
  induction p with
  | nil => simp [after]
  | cons f p ih => obtain ⟨c, d, e, o⟩ := f; cases d <;> simp [after, ih]

/-- All the frames are left descents. -/
theorem leftmost_inorder (t : Tree E) (c : Color) (e : E) (r : Tree E) (path : Path E) (hb : before path = [])
    (child : Tree E) (sc : Color) (se : E) (inner : Path E) (h : leftmost c e r path t = (child, sc, se, inner)) :
    before inner = [] ∧ inorder t ++ e :: inorder r ++ after path = se :: (inorder child ++ after inner) := by
  induction t generalizing c e r path with
  | nil => simp [leftmost] at h; obtain ⟨rfl, rfl, rfl, rfl⟩ := h; simp [inorder, hb]
  | node c' l' e' r' ihl ihr =>
    rw [leftmost] at h
    obtain ⟨h1, h2⟩ := ihl c' e' r' _ (by simp [before, hb]) h
    refine ⟨h1, ?_⟩
    rw [← h2]; simp [inorder, after]

theorem erase_inorder (c : Color) (l r : Tree E) (path : Path E) (t : Tree E) (h : erase c l r path = some t) :
    inorder t = before path ++ (inorder l ++ inorder r) ++ after path := by
  unfold erase at h
  split at h
  · split at h
    · rw [eraseColor_inorder _ _ _ h]; simp [inorder]
    · simp at h; subst h; simp [inorder_plug, inorder]
  · simp at h; subst h; simp [inorder_plug, inorder]
  · simp at h; subst h; simp [inorder_plug, inorder]
  · rename_i lc ll le lr rc rl re rr
    generalize Tree.node lc ll le lr = l at h ⊢
    generalize hq : leftmost rc re rr [] rl = q at h
    obtain ⟨child, sc, se, inner⟩ := q
    obtain ⟨hb, hi⟩ := leftmost_inorder _ _ _ _ _ (by simp [before]) _ _ _ _ hq
    simp only [after, List.append_nil] at hi
    have key : ∀ t', inorder t' = before (inner ++ ⟨c, .right, se, l⟩ :: path) ++ inorder child ++ after (inner ++ ⟨c, .right, se, l⟩ :: path) →
        inorder t' = before path ++ (inorder l ++ inorder (.node rc rl re rr)) ++ after path := by
      intro t' ht'
      rw [ht', before_append, after_append, hb]
      simp only [inorder]
      rw [hi]
      simp [before, after]
    apply key
    simp only at h
    split at h
    · simp at h; subst h; simp [inorder_plug, inorder]
    · split at h
      · rw [eraseColor_inorder _ _ _ h]
      · simp at h; subst h; simp [inorder_plug]

/-! Red-black invariants -/

/-- Red-black trees, with the colour of the root and the black height. -/
inductive Inv : Tree E → Color → Nat → Prop
  | nil : Inv .nil .black 0
  | red {l r : Tree E} {e : E} {n : Nat} : Inv l .black n → Inv r .black n → Inv (.node .red l e r) .red n
  | black {l r : Tree E} {e : E} {c1 c2 : Color} {n : Nat} :
      Inv l c1 n → Inv r c2 n → Inv (.node .black l e r) .black (n + 1)

/-- Paths whose hole needs black height `n`; `pc` is the colour of the parent. The root, which is black, has
no parent: this counts as a red parent. -/
inductive PInv : Path E → Color → Nat → Prop
  | nil {n : Nat} : PInv [] .red n
  | red {p : Path E} {d : Dir} {e : E} {o : Tree E} {n : Nat} :
      PInv p .black n → Inv o .black n → PInv (⟨.red, d, e, o⟩ :: p) .red n
  | black {p : Path E} {d : Dir} {e : E} {o : Tree E} {pc c : Color} {n : Nat} :
      PInv p pc (n + 1) → Inv o c n → PInv (⟨.black, d, e, o⟩ :: p) .black n

theorem Inv.mkRed {d : Dir} {t o : Tree E} {e : E} {n : Nat} (ht : Inv t .black n) (ho : Inv o .black n) :
    Inv (mk d .red t e o) .red n := by cases d <;> exact .red ‹_› ‹_›

theorem Inv.mkBlack {d : Dir} {t o : Tree E} {e : E} {c1 c2 : Color} {n : Nat} (ht : Inv t c1 n) (ho : Inv o c2 n) :
    Inv (mk d .black t e o) .black (n + 1) := by cases d <;> exact .black ‹_› ‹_›

theorem Inv.paint {t : Tree E} {n : Nat} (h : Inv t .black n) : paintBlack t = t := by
  cases h <;> rfl

theorem Inv.painted {t : Tree E} {n : Nat} (h : Inv t .black n) : Inv (paintBlack t) .black n := by
  rw [h.paint]; exact h

theorem Inv.paintRed {t : Tree E} {n : Nat} (h : Inv t .red n) : Inv (paintBlack t) .black (n + 1) := by
  cases h with | red h1 h2 => exact .black h1 h2

theorem Inv.isRed {t : Tree E} {c : Color} {n : Nat} (h : Inv t c n) : isRed t = decide (c = .red) := by
  cases h <;> rfl

theorem plug_inv (p : Path E) (pc : Color) (n : Nat) (hp : PInv p pc n) (t : Tree E) (c : Color)
    (ht : Inv t c n) (hc : pc = .red → c = .black) : ∃ m, Inv (plug t p) .black m := by
  induction hp generalizing t c with
  | nil => exact ⟨_, by rw [plug, ← hc rfl]; exact ht⟩
  | red hp ho ih =>
    rw [hc rfl] at ht
    exact ih _ .red (Inv.mkRed ht ho) (by simp)
  | black hp ho ih => exact ih _ .black (Inv.mkBlack ht ho) (by simp)

theorem insertFix_inv (p : Path E) (l : Tree E) (e : E) (r : Tree E) (pc : Color) (n : Nat) (hp : PInv p pc n)
    (hl : Inv l .black n) (hr : Inv r .black n) : ∃ t m, insertFix l e r p = some t ∧ Inv t .black m := by
  fun_induction insertFix l e r p generalizing pc n with
  | case1 l e r => exact ⟨_, _, rfl, .black hl hr⟩
  | case2 l e r p path hc =>
    cases hp with
    | red => simp at hc
    | black hp ho =>
      obtain ⟨m, hm⟩ := plug_inv _ _ _ (PInv.black hp ho) _ _ (Inv.red (e := e) hl hr) (by simp)
      exact ⟨_, m, rfl, hm⟩
  | case3 l e r p hc =>
    cases hp with
    | red h1 => cases h1
    | black => simp at hc
  | case4 l e r p hc g path hgr p' u hd ih =>
    cases hp with
    | black => simp at hc
    | red h1 h2 =>
      cases h1 with
      | black h3 h4 =>
        rename_i cc
        rw [h4.isRed] at hgr
        have : cc = .red := by simpa using hgr
        subst this
        exact ih _ _ h3 (Inv.mkBlack (Inv.red hl hr) h2) h4.paintRed
  | case5 l e r p hc g path hgr p' u hd ih =>
    cases hp with
    | black => simp at hc
    | red h1 h2 =>
      cases h1 with
      | black h3 h4 =>
        rename_i cc
        rw [h4.isRed] at hgr
        have : cc = .red := by simpa using hgr
        subst this
        exact ih _ _ h3 h4.paintRed (Inv.mkBlack (Inv.red hl hr) h2)
  | case6 l e r p hc g path hgr hd =>
    cases hp with
    | black => simp at hc
    | red h1 h2 =>
      cases h1 with
      | black h3 h4 =>
        rename_i cc
        have : cc = .black := by rw [h4.isRed] at hgr; cases cc <;> simp_all
        subst this
        obtain ⟨m, hm⟩ := plug_inv _ _ _ h3 _ _ (Inv.mkBlack (Inv.red (e := e) hl hr) (Inv.mkRed h2.painted h4)) (by simp)
        exact ⟨_, m, rfl, hm⟩
  | case7 l e r p hc g path hgr hd hg =>
    cases hp with
    | black => simp at hc
    | red h1 h2 =>
      cases h1 with
      | black h3 h4 =>
        rename_i cc
        have : cc = .black := by rw [h4.isRed] at hgr; cases cc <;> simp_all
        subst this
        obtain ⟨m, hm⟩ := plug_inv _ _ _ h3 _ _ (Inv.black (Inv.red h2 hl.painted) (Inv.red hr.painted h4)) (by simp)
        exact ⟨_, m, rfl, hm⟩
  | case8 l e r p hc g path hgr hd hg =>
    cases hp with
    | black => simp at hc
    | red h1 h2 =>
      cases h1 with
      | black h3 h4 =>
        rename_i cc
        have : cc = .black := by rw [h4.isRed] at hgr; cases cc <;> simp_all
        subst this
        obtain ⟨m, hm⟩ := plug_inv _ _ _ h3 _ _ (Inv.black (Inv.red h4 hl.painted) (Inv.red hr.painted h2)) (by simp)
        exact ⟨_, m, rfl, hm⟩

theorem sons_inv {d : Dir} {l r : Tree E} {c1 c2 : Color} {n : Nat} (hl : Inv l c1 n) (hr : Inv r c2 n) :
    ∃ c3 c4, Inv (sons d l r).1 c3 n ∧ Inv (sons d l r).2 c4 n := by
  cases d
  · exact ⟨_, _, hl, hr⟩
  · exact ⟨_, _, hr, hl⟩

theorem sons_inv_black {d : Dir} {l r : Tree E} {n : Nat} (hl : Inv l .black n) (hr : Inv r .black n) :
    Inv (sons d l r).1 .black n ∧ Inv (sons d l r).2 .black n := by
  cases d
  · exact ⟨hl, hr⟩
  · exact ⟨hr, hl⟩

/-- One turn: the current node has black height `n` but `n + 1` is needed. -/
theorem eraseTurn_inv (t : Tree E) (d : Dir) (c : Color) (e : E) (sl : Tree E) (se : E) (sr : Tree E) (n : Nat)
    (c1 c2 : Color) (ht : Inv t .black n) (hl : Inv sl c1 n) (hr : Inv sr c2 n) :
    (∃ t', eraseTurn t d c e sl se sr = some (.done t') ∧
      ((c = .black → Inv t' .black (n + 2)) ∧ (c = .red → ∃ c', Inv t' c' (n + 1)))) ∨
    (c = .black ∧ ∃ t', eraseTurn t d c e sl se sr = some (.up t') ∧ Inv t' .black (n + 1)) := by
  obtain ⟨c3, c4, hn, hf⟩ := sons_inv (d := d) hl hr
  unfold eraseTurn
  simp only
  by_cases hfr : isRed (sons d sl sr).2 = true
  · rw [if_pos hfr]
    left
    refine ⟨_, rfl, ?_⟩
    rw [hf.isRed] at hfr
    have : c4 = .red := by simpa using hfr
    subst this
    cases c with
    | red => exact ⟨by simp, fun _ => ⟨_, Inv.mkRed (Inv.mkBlack ht hn) hf.paintRed⟩⟩
    | black => exact ⟨fun _ => Inv.mkBlack (Inv.mkBlack ht hn) hf.paintRed, by simp⟩
  · rw [if_neg hfr]
    have h4 : c4 = .black := by rw [hf.isRed] at hfr; cases c4 <;> simp_all
    subst h4
    split
    · rename_i nl ne nr hnear
      rw [hnear] at hn
      cases hn with
      | red h1 h2 =>
        obtain ⟨k1, k2⟩ := sons_inv_black (d := d) h1 h2
        left
        refine ⟨_, rfl, ?_⟩
        rw [k2.paint]
        cases c with
        | red => exact ⟨by simp, fun _ => ⟨_, Inv.mkRed (Inv.mkBlack ht k1) (Inv.mkBlack k2 hf)⟩⟩
        | black => exact ⟨fun _ => Inv.mkBlack (Inv.mkBlack ht k1) (Inv.mkBlack k2 hf), by simp⟩
    · rename_i hnear
      have hn' : c3 = .black := by
        generalize (sons d sl sr).1 = near at hn hnear
        cases hn with
        | nil => rfl
        | red => exact absurd rfl (hnear _ _ _)
        | black => rfl
      subst hn'
      have hl' : Inv sl .black n := by cases d <;> assumption
      have hr' : Inv sr .black n := by cases d <;> assumption
      cases c with
      | red =>
        rw [if_pos rfl]
        left
        exact ⟨_, rfl, by simp, fun _ => ⟨_, Inv.mkBlack ht (Inv.red hl' hr')⟩⟩
      | black =>
        rw [if_neg (by simp)]
        right
        exact ⟨rfl, _, rfl, Inv.mkBlack ht (Inv.red hl' hr')⟩

theorem eraseColor_inv (p : Path E) (t : Tree E) (pc : Color) (n : Nat) (hp : PInv p pc (n + 1))
    (ht : Inv t .black n) : ∃ t' m, eraseColor t p = some t' ∧ Inv t' .black m := by
  induction p generalizing t pc n with
  | nil => exact ⟨_, _, rfl, ht⟩
  | cons f p ih =>
    cases hp with
    | red hp ho =>
      rename_i d e o
      cases ho with
      | black h1 h2 =>
        rw [eraseColor]
        simp only
        rcases eraseTurn_inv t d .red e _ _ _ n _ _ ht h1 h2 with ⟨t', h3, _, h4⟩ | ⟨h, _⟩
        · rw [h3]
          simp only
          obtain ⟨c', h5⟩ := h4 rfl
          obtain ⟨m, hm⟩ := plug_inv _ _ _ hp _ _ h5 (by simp)
          exact ⟨_, m, rfl, hm⟩
        · simp at h
    | black hp ho =>
      rename_i d e o pc' c
      cases ho with
      | red h1 h2 =>
        rename_i sl sr se
        obtain ⟨k1, k2⟩ := sons_inv_black (d := d) h1 h2
        rw [eraseColor]
        simp only
        rw [k1.paint]
        generalize hs : sons d sl sr = ss at k1 k2
        obtain ⟨near, far⟩ := ss
        simp only at k1 k2 ⊢
        cases k1 with
        | black h3 h4 =>
          simp only
          rcases eraseTurn_inv t d .red e _ _ _ n _ _ ht h3 h4 with ⟨t', h5, _, h6⟩ | ⟨h, _⟩
          · rw [h5]
            simp only
            obtain ⟨c', h7⟩ := h6 rfl
            obtain ⟨m, hm⟩ := plug_inv _ _ _ hp _ _ (Inv.mkBlack h7 k2) (by simp)
            exact ⟨_, m, rfl, hm⟩
          · simp at h
      | black h1 h2 =>
        rw [eraseColor]
        simp only
        rcases eraseTurn_inv t d .black e _ _ _ n _ _ ht h1 h2 with ⟨t', h3, h4, _⟩ | ⟨_, t', h3, h4⟩
        · rw [h3]
          simp only
          obtain ⟨m, hm⟩ := plug_inv _ _ _ hp _ _ (h4 rfl) (by simp)
          exact ⟨_, m, rfl, hm⟩
        · rw [h3]
          simp only
          exact ih _ _ _ hp h4

end Gp.RbMap
