import Verif.Wam.Spec

namespace Gp.Wam
open Gp.Heap
variable {X : Type}

@[simp] theorem set_same (m : Mem) (a : Adr) (w : Cell) : m.set a w a = w := by simp [Mem.set]
theorem set_other (m : Mem) (a b : Adr) (w : Cell) (h : b ≠ a) : m.set a w b = m b := by simp [Mem.set, h]

theorem set_congr {m1 m2 : Mem} {x : Adr} (h : m1 x = m2 x) (a : Adr) (w : Cell) : m1.set a w x = m2.set a w x := by
  by_cases hx : x = a
  · subst hx; simp
  · rw [set_other _ _ _ _ hx, set_other _ _ _ _ hx, h]

theorem setMany_congr {m1 m2 : Mem} {x : Adr} (h : m1 x = m2 x) (a : Adr) (ws : List Cell) :
    setMany m1 a ws x = setMany m2 a ws x := by
  induction ws generalizing m1 m2 a with
  | nil => exact h
  | cons w ws ih => exact ih (set_congr h a w) (a + 1)

theorem setMany_out (m : Mem) (a : Adr) (ws : List Cell) (x : Adr) (h : x < a ∨ a + ws.length ≤ x) :
    setMany m a ws x = m x := by
  induction ws generalizing m a with
  | nil => rfl
  | cons w ws ih =>
    simp only [List.length_cons] at h
    rw [setMany, ih _ _ (by omega), set_other _ _ _ _ (by omega)]

theorem getMany_length (m : Mem) (a : Adr) (n : Nat) : (getMany m a n).length = n := by
  induction n generalizing a with
  | zero => rfl
  | succ n ih => simp [getMany, ih]

theorem setMany_getMany (m m' : Mem) (a : Adr) (n : Nat) (h : ∀ x, x < a ∨ a + n ≤ x → m' x = m x) :
    setMany m' a (getMany m a n) = m := by
  induction n generalizing m' a with
  | zero => funext x; exact h x (by omega)
  | succ n ih =>
    rw [getMany, setMany]
    apply ih
    intro x hx
    by_cases hxa : x = a
    · subst hxa; simp
    · rw [set_other _ _ _ _ hxa]; exact h x (by omega)

/-- The addresses restored by a record. -/
def touches : TrRec → Adr → Prop
  | .uv b, a => a = b
  | .ov b _, a => a = b
  | .mv b ws, a => b ≤ a ∧ a < b + ws.length
  | .fc _ _, _ => False

def undo : List TrRec → Mem → Mem
  | [], m => m
  | r :: t, m => undo t (undo1 m r)

def undoExt (fc : Nat → List Cell → X → X) : List TrRec → X → X
  | [], x => x
  | r :: t, x => undoExt fc t (undoExt1 fc x r)

theorem undo_append (p q : List TrRec) (m : Mem) : undo (p ++ q) m = undo q (undo p m) := by
  induction p generalizing m with
  | nil => rfl
  | cons r p ih => exact ih _

theorem undoExt_append (fc : Nat → List Cell → X → X) (p q : List TrRec) (x : X) :
    undoExt fc (p ++ q) x = undoExt fc q (undoExt fc p x) := by
  induction p generalizing x with
  | nil => rfl
  | cons r p ih => exact ih _

theorem undo1_congr {m1 m2 : Mem} {x : Adr} (h : m1 x = m2 x) (r : TrRec) : undo1 m1 r x = undo1 m2 r x := by
  cases r with
  | uv a => exact set_congr h _ _
  | ov a w => exact set_congr h _ _
  | mv a ws => exact setMany_congr h _ _
  | fc f args => exact h

theorem undo_congr {m1 m2 : Mem} {x : Adr} (h : m1 x = m2 x) (p : List TrRec) : undo p m1 x = undo p m2 x := by
  induction p generalizing m1 m2 with
  | nil => exact h
  | cons r p ih => exact ih (undo1_congr h r)

theorem undo1_out (m : Mem) (r : TrRec) (x : Adr) (h : ¬ touches r x) : undo1 m r x = m x := by
  cases r with
  | uv a => exact set_other _ _ _ _ h
  | ov a w => exact set_other _ _ _ _ h
  | mv a ws => simp only [touches] at h; exact setMany_out _ _ _ _ (by omega)
  | fc f args => rfl

theorem undo_out (p : List TrRec) (m : Mem) (x : Adr) (h : ∀ r ∈ p, ¬ touches r x) : undo p m x = m x := by
  induction p generalizing m with
  | nil => rfl
  | cons r p ih =>
    rw [undo, ih _ (fun r' hr => h r' (List.mem_cons_of_mem _ hr)), undo1_out _ _ _ (h r (by simp))]

theorem recLen_pos (r : TrRec) : 0 < recLen r := by cases r <;> simp [recLen]

theorem trLen_append (p q : List TrRec) : trLen (p ++ q) = trLen p + trLen q := by
  induction p with
  | nil => simp [trLen]
  | cons r p ih => simp [trLen, ih]; omega

theorem untrail_eq (fc : Nat → List Cell → X → X) (p q : List TrRec) (m : Mem) (x : X) :
    untrail fc (trLen q) (p ++ q) m x = (q, undo p m, undoExt fc p x) := by
  induction p generalizing m x with
  | nil =>
    cases q with
    | nil => rfl
    | cons r q => simp [untrail, undo, undoExt]
  | cons r p ih =>
    rw [List.cons_append, untrail]
    have : trLen (r :: (p ++ q)) > trLen q := by
      have := recLen_pos r
      simp only [trLen, trLen_append]; omega
    rw [if_pos this, ih]
    rfl

/-! Frames -/

theorem saveArgs_out (m : Mem) (b : Nat) (ar : Nat → Cell) (n : Nat) (x : Adr) (h : ∀ i, i < n → x ≠ b - 8 - i) :
    saveArgs m b ar n x = m x := by
  induction n with
  | zero => rfl
  | succ n ih => rw [saveArgs, set_other _ _ _ _ (h n (by omega)), ih (fun i hi => h i (by omega))]

theorem saveArgs_in (m : Mem) (b : Nat) (ar : Nat → Cell) (n i : Nat) (hi : i < n) (hb : n + 7 ≤ b) :
    saveArgs m b ar n (b - 8 - i) = ar i := by
  induction n with
  | zero => omega
  | succ n ih =>
    rw [saveArgs]
    by_cases h : i = n
    · subst h; simp
    · rw [set_other _ _ _ _ (by omega), ih (by omega) (by omega)]

/-- The words of the frame of a choice point, but the link. -/
structure FrameOk (mem : Mem) (S : Snap X) : Prop where
  alt : mem (S.b - 1) = .int S.alt
  cp : mem (S.b - 2) = .int S.st.cp
  e : mem (S.b - 3) = .int S.st.e
  h : mem (S.b - 5) = .int S.st.h
  tr : mem (S.b - 6) = .int (trLen S.st.trail)
  cs : mem (S.b - 7) = .int S.st.cs
  args : ∀ i, i < S.arity → mem (S.b - 8 - i) = S.st.areg i

theorem FrameOk.mono {mem mem' : Mem} {S : Snap X} (h : FrameOk mem S) (hb : 7 + S.arity ≤ S.b)
    (he : ∀ a, S.frame a → mem' a = mem a) : FrameOk mem' S where
  alt := by rw [he _ (by unfold Snap.frame; omega)]; exact h.alt
  cp := by rw [he _ (by unfold Snap.frame; omega)]; exact h.cp
  e := by rw [he _ (by unfold Snap.frame; omega)]; exact h.e
  h := by rw [he _ (by unfold Snap.frame; omega)]; exact h.h
  tr := by rw [he _ (by unfold Snap.frame; omega)]; exact h.tr
  cs := by rw [he _ (by unfold Snap.frame; omega)]; exact h.cs
  args := fun i hi => by rw [he _ (by unfold Snap.frame; omega)]; exact h.args i hi

/-- The links of the choice points. -/
def Chain (mem : Mem) : List (Snap X) → Prop
  | [] => True
  | [S] => rd mem (S.b - 4) < S.b
  | S :: S' :: ss => mem (S.b - 4) = .int S'.b ∧ Chain mem (S' :: ss)

theorem rd_congr {m m' : Mem} {a : Adr} (h : m' a = m a) : rd m' a = rd m a := by unfold rd; rw [h]

theorem rd_int {m : Mem} {a : Adr} {n : Nat} (h : m a = .int n) : rd m a = n := by unfold rd; rw [h]; rfl

theorem Chain.mono {mem mem' : Mem} {ss : List (Snap X)} (h : Chain mem ss)
    (he : ∀ S ∈ ss, mem' (S.b - 4) = mem (S.b - 4)) : Chain mem' ss := by
  induction ss with
  | nil => trivial
  | cons S ss ih =>
    cases ss with
    | nil => show rd mem' _ < _; rw [rd_congr (he S (by simp))]; exact h
    | cons S' ss =>
      exact ⟨by rw [he S (by simp)]; exact h.1, ih h.2 (fun T hT => he T (List.mem_cons_of_mem _ hT))⟩

theorem Chain.tail {mem : Mem} {ss ss' : List (Snap X)} (h : Chain mem (ss ++ ss')) : Chain mem ss' := by
  induction ss with
  | nil => exact h
  | cons S ss ih =>
    apply ih
    cases hs : ss ++ ss' with
    | nil => trivial
    | cons T l => rw [List.cons_append, hs] at h; exact h.2

/-! The invariant -/

/-- A choice point and the current state. -/
structure SnapOk (fc : Nat → List Cell → X → X) (m : M X) (S : Snap X) : Prop where
  hb : S.b = S.st.localTop + 7 + S.arity
  lssa : S.st.lssa = m.lssa
  base : m.lssa ≤ S.st.b
  frame : FrameOk m.mem S
  hle : S.st.h ≤ m.h
  hlb : S.st.h ≤ m.hb1
  ble : S.b ≤ m.b
  hl : S.st.h ≤ m.lssa
  tr : ∃ pre, m.trail = pre ++ S.st.trail ∧ (∀ r ∈ pre, ∀ a, touches r a → ¬ S.frame a) ∧
    (∀ a, S.old a → a ∉ S.dirty → undo pre m.mem a = S.st.mem a) ∧ undoExt fc pre m.ext = S.st.ext

/-- `S` is newer than `S'`. -/
def Newer (S S' : Snap X) : Prop := S'.b ≤ S.st.b ∧ S'.st.h ≤ S.st.h ∧ ∃ q, S.st.trail = q ++ S'.st.trail

structure Inv (fc : Nat → List Cell → X → X) (m : M X) (ss : List (Snap X)) : Prop where
  top : ∃ S ss', ss = S :: ss' ∧ m.b = S.b ∧ m.hb1 = S.st.h
  chain : Chain m.mem ss
  snaps : ∀ S ∈ ss, SnapOk fc m S
  order : ss.Pairwise Newer
  hl : m.h ≤ m.lssa

theorem SnapOk.b7 {fc : Nat → List Cell → X → X} {m : M X} {S : Snap X} (h : SnapOk fc m S) : 7 + S.arity ≤ S.b := by
  have := h.hb; omega

theorem localTop_ge (m : M X) : m.b ≤ m.localTop ∧ m.e ≤ m.localTop := by
  unfold M.localTop; split <;> omega

theorem localTop_eq (m : M X) : m.localTop = m.b ∨ m.localTop = m.e := by
  unfold M.localTop; split <;> simp

/-- The frame is above the old cells. -/
theorem frame_not_old {fc : Nat → List Cell → X → X} {m : M X} {S : Snap X} (h : SnapOk fc m S) {a : Adr}
    (ha : S.frame a) : ¬ S.old a ∧ m.lssa ≤ a ∧ a < m.b := by
  unfold Snap.frame at ha
  unfold Snap.old
  have h1 := h.hb
  have h2 := h.base
  have h3 := h.hl
  have h4 := localTop_ge S.st
  have h5 := h.ble
  have h6 := h.lssa
  refine ⟨?_, by omega, by omega⟩
  omega

/-- A change of the memory (and of the trail) which does not concern the frames nor the old cells. -/
theorem SnapOk.change {fc : Nat → List Cell → X → X} {m m' : M X} {S : Snap X} (h : SnapOk fc m S)
    (hl : m'.lssa = m.lssa) (hb : m'.b = m.b) (hh : m.h ≤ m'.h) (hb1 : m'.hb1 = m.hb1)
    (ht : m'.trail = m.trail) (hx : m'.ext = m.ext)
    (hf : ∀ a, S.frame a → m'.mem a = m.mem a) (ho : ∀ a, S.old a → a ∉ S.dirty → m'.mem a = m.mem a) : SnapOk fc m' S where
  hb := h.hb
  lssa := h.lssa.trans hl.symm
  base := by rw [hl]; exact h.base
  frame := h.frame.mono h.b7 hf
  hle := Nat.le_trans h.hle hh
  hlb := by rw [hb1]; exact h.hlb
  ble := by rw [hb]; exact h.ble
  hl := by rw [hl]; exact h.hl
  tr := by
    obtain ⟨pre, h1, h2, h3, h4⟩ := h.tr
    refine ⟨pre, by rw [ht]; exact h1, h2, ?_, by rw [hx]; exact h4⟩
    intro a ha hd
    rw [undo_congr (ho a ha hd) pre]
    exact h3 a ha hd

theorem Inv.change {fc : Nat → List Cell → X → X} {m m' : M X} {ss : List (Snap X)} (h : Inv fc m ss)
    (hl : m'.lssa = m.lssa) (hb : m'.b = m.b) (hh : m.h ≤ m'.h) (hhl : m'.h ≤ m'.lssa) (hb1 : m'.hb1 = m.hb1)
    (ht : m'.trail = m.trail) (hx : m'.ext = m.ext)
    (hf : ∀ S ∈ ss, ∀ a, S.frame a → m'.mem a = m.mem a)
    (ho : ∀ S ∈ ss, ∀ a, S.old a → a ∉ S.dirty → m'.mem a = m.mem a) : Inv fc m' ss where
  top := by rw [hb, hb1]; exact h.top
  chain := h.chain.mono (fun S hS => hf S hS _ (by have := (h.snaps S hS).b7; unfold Snap.frame; omega))
  snaps := fun S hS => (h.snaps S hS).change hl hb hh hb1 ht hx (hf S hS) (ho S hS)
  order := h.order
  hl := hhl

/-- A change of the memory undone by one record pushed on the trail. -/
theorem Inv.trailed {fc : Nat → List Cell → X → X} {m : M X} {ss : List (Snap X)} (h : Inv fc m ss) (r : TrRec)
    (mem' : Mem) (x' : X) (hr : ∀ S ∈ ss, ∀ a, touches r a → ¬ S.frame a) (hm : undo1 mem' r = m.mem)
    (hx : undoExt1 fc x' r = m.ext) : Inv fc { m with trail := r :: m.trail, mem := mem', ext := x' } ss := by
  have hf : ∀ S ∈ ss, ∀ a, S.frame a → mem' a = m.mem a := by
    intro S hS a ha
    have : ¬ touches r a := fun ht => hr S hS a ht ha
    rw [← hm, undo1_out _ _ _ this]
  refine ⟨h.top, ?_, ?_, h.order, h.hl⟩
  · exact h.chain.mono (fun S hS => hf S hS _ (by have := (h.snaps S hS).b7; unfold Snap.frame; omega))
  · intro S hS
    have hs := h.snaps S hS
    refine ⟨hs.hb, hs.lssa, hs.base, hs.frame.mono hs.b7 (hf S hS), hs.hle, hs.hlb, hs.ble, hs.hl, ?_⟩
    obtain ⟨pre, h1, h2, h3, h4⟩ := hs.tr
    refine ⟨r :: pre, by simp only [h1, List.cons_append], ?_, ?_, ?_⟩
    · intro r' hr' a ha
      rcases List.mem_cons.mp hr' with rfl | hr'
      · exact hr S hS a ha
      · exact h2 r' hr' a ha
    · intro a ha hd
      show undo pre (undo1 mem' r) a = _
      rw [hm]
      exact h3 a ha hd
    · show undoExt fc pre (undoExt1 fc x' r) = _
      rw [hx]
      exact h4

/-- A cell which does not need trailing is not an old cell of any choice point. -/
theorem Inv.notOld {fc : Nat → List Cell → X → X} {m : M X} {ss : List (Snap X)} (h : Inv fc m ss) {a : Adr}
    (hn : m.needsTrailing a = false) {S : Snap X} (hS : S ∈ ss) : ¬ S.old a := by
  have hs := h.snaps S hS
  have h1 := hs.hb
  have h2 := hs.hlb
  have h4 := localTop_ge S.st
  have h5 := hs.ble
  have h6 := hs.lssa
  simp only [M.needsTrailing, Bool.or_eq_false_iff, decide_eq_false_iff_not, Bool.and_eq_false_imp, decide_eq_true_eq] at hn
  unfold Snap.old
  omega

end Gp.Wam
