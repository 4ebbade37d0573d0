import Verif.Stream.Spec
namespace Gp.Stream
open Spec (lines col)

/-- The content of a push-back stack, the top first. -/
def contents (p : Pb) : List Int := (List.range p.nb).map fun i => p.buff ((p.ptr + 7 - i) % 8)

/-- The indices are in the array. -/
structure PbOk (p : Pb) : Prop where
  ptr : p.ptr < 8
  nb : p.nb ≤ 8

theorem contents_length (p : Pb) : (contents p).length = p.nb := by simp [contents]

theorem pbPush_ok {p : Pb} (h : PbOk p) (x : Int) : PbOk (pbPush p x) := by
  have := h.ptr; have := h.nb
  have hs : PB_SIZE = 8 := rfl
  constructor <;> simp only [pbPush] <;> split <;> omega

theorem pbPush_contents {p : Pb} (h : PbOk p) (x : Int) : contents (pbPush p x) = (x :: contents p).take 8 := by
  have h1 := h.ptr; have h2 := h.nb
  apply List.ext_getElem?
  intro i
  have hs : PB_SIZE = 8 := rfl
  have hp : (pbPush p x).ptr = (p.ptr + 1) % 8 := by simp only [pbPush]; split <;> omega
  have hn : (pbPush p x).nb = min 8 (p.nb + 1) := by simp only [pbPush]; split <;> omega
  simp only [contents, hp, hn, List.getElem?_take, List.getElem?_map]
  cases i with
  | zero =>
    rw [List.getElem?_range (by omega)]
    have e : ((p.ptr + 1) % 8 + 7 - 0) % 8 = p.ptr := by omega
    simp only [Option.map_some, e, List.getElem?_cons_zero, pbPush]
    simp
  | succ j =>
    by_cases hj : j + 1 < min 8 (p.nb + 1)
    · rw [List.getElem?_range hj, if_pos (by omega), List.getElem?_cons_succ, List.getElem?_map, List.getElem?_range (by omega)]
      have e : ((p.ptr + 1) % 8 + 7 - (j + 1)) % 8 = (p.ptr + 7 - j) % 8 := by omega
      have ne : (p.ptr + 7 - j) % 8 ≠ p.ptr := by omega
      simp only [Option.map_some, e, pbPush]
      rw [if_neg ne]
    · rw [List.getElem?_eq_none (by simp; omega)]
      split
      · rw [List.getElem?_cons_succ, List.getElem?_map, List.getElem?_eq_none (by simp; omega)]; rfl
      · rfl

theorem pbPop_ok {p : Pb} (h : PbOk p) : PbOk (pbPop p).2 := by
  have := h.ptr; have := h.nb
  have hs : PB_SIZE = 8 := rfl
  constructor <;> simp only [pbPop]
  · split <;> omega
  · omega

theorem pbPop_contents {p : Pb} (h : PbOk p) (hn : p.nb ≠ 0) : contents p = (pbPop p).1 :: contents (pbPop p).2 := by
  have h1 := h.ptr; have h2 := h.nb
  have hs : PB_SIZE = 8 := rfl
  have hp : (if p.ptr ≠ 0 then p.ptr - 1 else PB_SIZE - 1) = (p.ptr + 7) % 8 := by split <;> omega
  apply List.ext_getElem?
  intro i
  simp only [contents, pbPop, hp, List.getElem?_map]
  cases i with
  | zero => rw [List.getElem?_range (by omega)]; simp
  | succ j =>
    rw [List.getElem?_cons_succ, List.getElem?_map]
    by_cases hj : j + 1 < p.nb
    · rw [List.getElem?_range hj, List.getElem?_range (by omega)]
      have e : ((p.ptr + 7) % 8 + 7 - j) % 8 = (p.ptr + 7 - (j + 1)) % 8 := by omega
      simp only [Option.map_some, e]
    · rw [List.getElem?_eq_none (by simp; omega), List.getElem?_eq_none (by simp; omega)]; rfl

theorem pbTop_eq {p : Pb} (h : PbOk p) (hn : p.nb ≠ 0) : (contents p).head? = some (pbTop p) := by
  rw [pbPop_contents h hn]
  simp only [pbPop, pbTop, List.head?_cons, Option.some.injEq]
  split <;> rfl

theorem pbInit_ok (p : Pb) : PbOk (pbInit p) := ⟨by simp [pbInit], by simp [pbInit]⟩
theorem pbInit_contents (p : Pb) : contents (pbInit p) = [] := rfl

theorem pbEmpty_iff (p : Pb) : pbEmpty p = true ↔ contents p = [] := by
  rw [← List.length_eq_zero_iff, contents_length]; simp [pbEmpty]

/-- The lengths of the lines ended in the text read, the last one first. -/
def lens : List Int → List Int
  | [] => []
  | c :: r => if c = NL then (col r : Int) :: lens r else lens r

theorem lens_length (l : List Int) : (lens l).length = lines l := by
  induction l with
  | nil => rfl
  | cons c r ih =>
    unfold lens lines
    rw [List.countP_cons]
    split
    · next h => subst h; simp [ih, lines]
    · next h => simp [ih, lines, h]

theorem col_cons (c : Int) (r : List Int) : col (c :: r) = if c = NL then 0 else col r + 1 := by
  unfold col
  rw [List.takeWhile_cons]
  split
  · next h => simp at h; simp [h]
  · next h => simp at h; simp [h]

theorem lines_cons (c : Int) (r : List Int) : lines (c :: r) = (if c = NL then 1 else 0) + lines r := by
  unfold lines
  rw [List.countP_cons]
  split
  · next h => simp at h; simp [h]; omega
  · next h => simp at h; simp [h]

theorem lines_append (a b : List Int) : lines (a ++ b) = lines a + lines b := by simp [lines]
theorem lines_reverse (a : List Int) : lines a.reverse = lines a := by simp [lines]
theorem lines_le (l : List Int) : lines l ≤ l.length := List.countP_le_length

/-- The stream `s` on the file is the stream `a` of the program. -/
structure R (file : List Int) (p : Props) (s : Stm) (a : Spec.S) : Prop where
  src : s.src = file
  prop : s.prop = p
  past : s.eofReached = a.past
  okc : PbOk s.pbChar
  okl : PbOk s.pbLine
  pbc : contents s.pbChar = a.todo.take a.look ++ (if a.seenEof then [EOF] else [])
  look : a.look ≤ a.todo.length
  pos : s.pos = a.back.length + a.look
  rest : a.todo.drop a.look = file.drop s.pos
  len : a.back.length + a.todo.length = file.length
  seen : a.seenEof = true → a.look = a.todo.length
  eoft : ∀ c ∈ a.todo, c ≠ EOF
  cc : s.charCount = a.back.length
  lc : p.text = true → s.lineCount = lines a.back
  lp : p.text = true → s.linePos = col a.back + a.eofs
  eofs : a.eofs > 0 → lines a.todo = 0
  shape : (a.back.reverse ++ a.todo).map (· == NL) = file.map (· == NL)
  since : a.since ≤ a.back.length
  hist : p.text = true → min (lines (a.back.take a.since)) (8 - lines (a.todo.take a.look)) ≤ (contents s.pbLine).length ∧
    (contents s.pbLine).take (min (lines (a.back.take a.since)) (8 - lines (a.todo.take a.look))) =
      (lens a.back).take (min (lines (a.back.take a.since)) (8 - lines (a.todo.take a.look)))

end Gp.Stream
