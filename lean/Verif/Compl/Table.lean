import Verif.Compl.Props
import Verif.Linedit.Lemmas

/-
C62, continued: moves among the completions, the solutions of find_linedit_completion/2, the tabulation key and
the table displayed by two tabulations.
-/
namespace Gp.Compl
open Gp.RbMap

theorem forward_ok (x : Loc (Word × Int)) (k : Nat) (h : k ≤ x.after.length) :
    ∃ y, forward x k = some y ∧ y.root = x.root ∧ y.before.length = x.before.length + k := by
  induction k generalizing x with
  | zero => exact ⟨x, rfl, rfl, rfl⟩
  | succ k ih =>
    cases hn : next x with
    | none => rw [next_none x hn] at h; simp at h
    | some y =>
      obtain ⟨h1, h2⟩ := next_some x y hn
      have h3 := next_after x y hn
      obtain ⟨z, z1, z2, z3⟩ := ih y (by rw [h3] at h; simpa using h)
      refine ⟨z, by simp [forward, hn, z1], by rw [z2, h1], ?_⟩
      rw [z3, h2]; simp; omega

theorem backward_ok (x : Loc (Word × Int)) (k : Nat) (h : k ≤ x.before.length) :
    ∃ y, backward x k = some y ∧ y.root = x.root ∧ y.before.length + k = x.before.length := by
  induction k generalizing x with
  | zero => exact ⟨x, rfl, rfl, rfl⟩
  | succ k ih =>
    cases hn : prev x with
    | none => rw [prev_none x hn] at h; simp at h
    | some y =>
      obtain ⟨h1, h2⟩ := prev_some x y hn
      have h3 := prev_before x y hn
      obtain ⟨z, z1, z2, z3⟩ := ih y (by rw [h3] at h; simpa using h)
      refine ⟨z, by simp [backward, hn, z1], by rw [z2, h1], ?_⟩
      rw [h3]; simp; omega

/-- A move among the completions succeeds exactly when its target is one of them, and then shows it; otherwise
nothing changes. -/
theorem C62_navig (d : Dico) (pre : Word) (cm : Cm) (h : Pointing d pre cm) (step : Int) :
    ∃ cm' b, navig cm step = some (cm', b) ∧
      (b = true ↔ 0 ≤ cm.curNo + step ∧ cm.curNo + step < (completions d pre).length) ∧
      (b = false → cm' = cm) ∧
      (b = true → Pointing d pre cm' ∧ cm'.curNo = cm.curNo + step ∧ cm'.maxWord = cm.maxWord ∧
        cm'.maxPrefix = cm.maxPrefix ∧ curWord cm' = (completions d pre)[(cm.curNo + step).toNat]?) := by
  obtain ⟨h1, h2, h3, x, lo, hi, h4, h5, h6, h7⟩ := id h
  unfold navig
  simp only
  by_cases k : cm.curNo + step < 0 ∨ (cm.nb : Int) ≤ cm.curNo + step
  · rw [if_pos k]
    exact ⟨cm, false, rfl, by simp; omega, by simp, by simp⟩
  · rw [if_neg k]
    by_cases k0 : step = 0
    · rw [if_pos k0]
      subst k0
      exact ⟨cm, true, rfl, by simp; omega, by simp, fun _ => ⟨h, by omega, rfl, rfl, by rw [Int.add_zero]; exact h.word.1⟩⟩
    · rw [if_neg k0, h4]
      have hin := loc_entry d x h5
      have hl1 : (entries d).length = x.before.length + 1 + x.after.length := by rw [hin]; simp; omega
      have hl2 : (entries d).length = lo.length + (ents d pre).length + hi.length := by
        conv => lhs; rw [h6]
        simp; omega
      have hl3 : (completions d pre).length = (ents d pre).length := by rw [completions_eq, List.length_map]
      have fin : ∀ y : Loc (Word × Int), y.root = x.root →
          y.before.length = lo.length + (cm.curNo + step).toNat →
          Pointing d pre { cm with curNo := cm.curNo + step, entry := some y } := by
        intro y hy1 hy2
        exact ⟨h1, by simp only; omega, by simp only; omega, y, lo, hi, rfl, by rw [hy1, h5], h6, hy2⟩
      by_cases kp : step > 0
      · obtain ⟨y, y1, y2, y3⟩ := forward_ok x step.toNat (by omega)
        simp only [Option.bind_some, if_pos kp, y1, Option.map_some]
        have hp := fin y y2 (by omega)
        exact ⟨_, true, rfl, by simp; omega, by simp, fun _ => ⟨hp, rfl, rfl, rfl, hp.word.1⟩⟩
      · obtain ⟨y, y1, y2, y3⟩ := backward_ok x (-step).toNat (by omega)
        simp only [Option.bind_some, if_neg kp, y1, Option.map_some]
        have hp := fin y y2 (by omega)
        exact ⟨_, true, rfl, by simp; omega, by simp, fun _ => ⟨hp, rfl, rfl, rfl, hp.word.1⟩⟩

/-- The last completion. -/
theorem C62_match_last (d : Dico) (hd : Ok d) (cm : Cm) (pre : Word) :
    ∃ cm' b, matchLast d cm pre pre.length = some (cm', b) ∧ (b = true ↔ completions d pre ≠ []) ∧
      (b = true → curWord cm' = (completions d pre).getLast?) := by
  obtain ⟨c1, b, h1, h2, h3, _, h5⟩ := C62_match_first d hd cm pre
  unfold matchLast
  rw [h1]
  cases b with
  | false => exact ⟨c1, false, rfl, h3, by simp⟩
  | true =>
    obtain ⟨hp, h0, _⟩ := h5 rfl
    obtain ⟨c2, b2, k1, k2, _, k4⟩ := C62_navig d pre c1 hp ((c1.nb : Int) - 1)
    have hne := h3.mp rfl
    have hpos : 0 < (completions d pre).length := List.length_pos_iff.mpr hne
    have hb : b2 = true := k2.mpr (by omega)
    subst hb
    refine ⟨c2, true, by simp only [Option.bind_some, if_true, k1], by simp [hne], fun _ => ?_⟩
    rw [(k4 rfl).2.2.2.2, List.getLast?_eq_getElem?]
    congr 1; omega

/-- The solution number `k` of find_linedit_completion(Prefix, X): the call, then `k` times backtracking (only
while a choice point is left). -/
def sol (d : Dico) (cm : Cm) (pre : Word) : Nat → Option (Cm × Option Sol)
  | 0 => find d cm pre
  | k + 1 => (sol d cm pre k).bind fun r =>
    match r.2 with
    | some s => if s.more then (findAlt r.1).map fun t => (t.1, some t.2) else some (r.1, none)
    | none => some (r.1, none)

/-- find_linedit_completion/2 has for solutions the words which have the prefix, once each, in increasing order;
no choice point is left with the last one (when no other call of find_linedit_completion/2 is made in between and
no word is added: see `C62_find_nested`). -/
theorem C62_find_partial (d : Dico) (hd : Ok d) (cm : Cm) (pre : Word) (k : Nat) :
    ∃ cm' s, sol d cm pre k = some (cm', s) ∧ s.map (·.word) = (completions d pre)[k]? ∧
      ∀ t, s = some t → (t.more = true ↔ k + 1 < (completions d pre).length) := by
  suffices H : ∃ cm' s, sol d cm pre k = some (cm', s) ∧ s.map (·.word) = (completions d pre)[k]? ∧
      (∀ t, s = some t → (t.more = true ↔ k + 1 < (completions d pre).length)) ∧
      (s.isSome = true → Pointing d pre cm' ∧ cm'.curNo = k) by
    obtain ⟨a, b, c1, c2, c3, _⟩ := H; exact ⟨a, b, c1, c2, c3⟩
  induction k with
  | zero =>
    obtain ⟨c1, b, h1, h2, h3, _, h5⟩ := C62_match_first d hd cm pre
    simp only [sol, find, h1, Option.bind_some]
    cases b with
    | false =>
      have : completions d pre = [] := by
        by_cases q : completions d pre = []
        · exact q
        · exact absurd (h3.mpr q) (by simp)
      exact ⟨c1, none, rfl, by rw [this]; rfl, by simp, by simp⟩
    | true =>
      obtain ⟨hp, h0, hw, _⟩ := h5 rfl
      have hne := h3.mp rfl
      cases hc : completions d pre with
      | nil => exact absurd hc hne
      | cons w ws =>
        rw [hc] at hw h2
        simp only [List.head?_cons] at hw
        simp only [if_true, hw, Option.map_some]
        refine ⟨c1, _, rfl, by simp, ?_, fun _ => ⟨hp, h0⟩⟩
        rintro t ht
        simp only [Option.some.injEq] at ht
        subst ht
        simp only [decide_eq_true_eq]; omega
  | succ k ih =>
    obtain ⟨c1, s, h1, h2, h3, h4⟩ := ih
    simp only [sol, h1, Option.bind_some]
    cases s with
    | none =>
      refine ⟨c1, none, rfl, ?_, by simp, by simp⟩
      simp only [Option.map_none] at h2 ⊢
      have := List.getElem?_eq_none_iff.mp h2.symm
      exact (List.getElem?_eq_none_iff.mpr (by omega)).symm
    | some t =>
      have ht := h3 t rfl
      obtain ⟨hp, h0⟩ := h4 rfl
      by_cases q : t.more = true
      · simp only [q, if_true]
        obtain ⟨c2, b2, k1, k2, _, k4⟩ := C62_navig d pre c1 hp 1
        have hb : b2 = true := k2.mpr (by have := ht.mp q; omega)
        subst hb
        obtain ⟨p1, p2, _, _, p5⟩ := k4 rfl
        have e : (c1.curNo + 1).toNat = k + 1 := by omega
        rw [e] at p5
        have hlt := ht.mp q
        have p6 := p5
        rw [List.getElem?_eq_getElem hlt] at p6
        have hf : findAlt c1 = some (c2, ⟨(completions d pre)[k + 1], decide (¬ c2.curNo ≥ (c2.nb : Int) - 1)⟩) := by
          simp only [findAlt, matchNext, k1, Option.bind_some, p6, Option.map_some]
        rw [hf]
        refine ⟨c2, _, rfl, ?_, ?_, fun _ => ⟨p1, by omega⟩⟩
        · simp [List.getElem?_eq_getElem hlt]
        · intro t' ht'
          simp only [Option.some.injEq] at ht'
          subst ht'
          have := p1.1
          simp only [decide_eq_true_eq]; omega
      · simp only [q, Bool.false_eq_true, if_false]
        refine ⟨c1, none, rfl, ?_, by simp, by simp⟩
        simp only [Option.map_none]
        refine (List.getElem?_eq_none_iff.mpr ?_).symm
        have : ¬ (k + 1 < (completions d pre).length) := fun h' => q (ht.mpr h')
        omega

/-- What the tabulation key writes after a prefix: together they are the longest common prefix of the words which
have this prefix; nothing if there are none. -/
theorem C62_tab_partial (d : Dico) (hd : Ok d) (cm : Cm) (pre : Word) :
    ∃ cm' t, tabText d cm pre = some (cm', t) ∧ (completions d pre = [] → t = []) ∧
      (completions d pre ≠ [] → IsLcp (completions d pre) (pre ++ t)) := by
  obtain ⟨c1, b, h1, h2, h3, h4, h5⟩ := C62_match_first d hd cm pre
  unfold tabText
  rw [h1]
  cases b with
  | false => exact ⟨c1, [], rfl, fun _ => rfl, fun h => absurd (h3.mpr h) (by simp)⟩
  | true =>
    obtain ⟨hp, h0, hw, _, _, w, w1, w2, w3, w4⟩ := h5 rfl
    obtain ⟨_, x, hx, _, hx2, _⟩ := hp.word
    have hne := h3.mp rfl
    have ew : x.e.1 = w := by simp only [curWord, hx, Option.map_some, Option.some.injEq] at w1; exact w1
    have hpx : pre <+: x.e.1 := (has_iff pre x.e).mp (List.mem_filter.mp hx2).2
    have hall : ∀ v ∈ completions d pre, pre <+: v := by
      intro v hv
      simp only [completions, List.mem_filter, List.isPrefixOf_iff_prefix] at hv
      exact hv.2
    have hle : pre.length ≤ c1.maxPrefix.toNat := by
      have := w4.2 pre hall
      rw [List.length_take] at this; omega
    simp only [Option.bind_some, if_true, hx]
    rw [if_neg (by rw [ew]; omega)]
    refine ⟨c1, _, rfl, fun h => absurd h hne, fun _ => ?_⟩
    have e : pre ++ (x.e.1.drop pre.length).take (c1.maxPrefix - pre.length).toNat = w.take c1.maxPrefix.toNat := by
      obtain ⟨t, ht⟩ := hpx
      rw [← ew, ← ht, List.drop_left, List.take_append]
      rw [List.take_of_length_le hle]
      congr 2; omega
    rw [e]
    exact w4

/-! The table of the completions -/

/-- The words on a line: each one but the last is followed by spaces up to the width `mx + 1`. -/
def layout (mx : Nat) : List Word → Word
  | [] => []
  | [w] => w
  | w :: ws => w ++ List.replicate (mx + 1 - w.length) 32 ++ layout mx ws

/-- The words of the line `l` of a table of `L` lines filled by columns, from the column `c`, on `k` columns. -/
def lineWords (M : List Word) (L l c k : Nat) : List Word :=
  (List.range' c k).filterMap fun c => M[c * L + l]?

/-- The text of a line after `sp` spaces. -/
def spaced (sp : Nat) (mx : Nat) (ws : List Word) : Word :=
  if ws = [] then [] else List.replicate sp 32 ++ layout mx ws

theorem layout_cons (mx : Nat) (w : Word) (ws : List Word) :
    layout mx (w :: ws) = w ++ spaced (mx + 1 - w.length) mx ws := by
  cases ws with
  | nil => simp [layout, spaced]
  | cons v ws => simp [layout, spaced]

/-- The longest word. -/
def IsMax (d : Dico) (pre : Word) (cm : Cm) (mx : Nat) : Prop :=
  cm.maxWord = mx ∧ ∀ w ∈ completions d pre, w.length ≤ mx

theorem row_ok (d : Dico) (hd : Ok d) (pre : Word) (L l k c : Nat) (cm : Cm) (h : Pointing d pre cm) (mx : Nat)
    (hmx : IsMax d pre cm mx) (sp : Nat) :
    ∃ cm', row L l k c cm (sp : Int) = some (cm', spaced sp mx (lineWords (completions d pre) L l c k)) ∧
      Pointing d pre cm' ∧ IsMax d pre cm' mx ∧ cm'.nb = cm.nb := by
  induction k generalizing c cm sp with
  | zero => exact ⟨cm, by simp [row, lineWords, spaced], h, hmx, rfl⟩
  | succ k ih =>
    obtain ⟨c2, b, k1, k2, k3, k4⟩ := C62_navig d pre cm h (((c * L + l : Nat) : Int) - cm.curNo)
    have e : cm.curNo + (((c * L + l : Nat) : Int) - cm.curNo) = ((c * L + l : Nat) : Int) := by omega
    rw [e] at k2 k4
    simp only [row, goto, k1, Option.bind_some]
    have hlw : lineWords (completions d pre) L l c (k + 1) =
        match (completions d pre)[c * L + l]? with
        | none => lineWords (completions d pre) L l (c + 1) k
        | some w => w :: lineWords (completions d pre) L l (c + 1) k := by
      simp only [lineWords, List.range'_succ, List.filterMap_cons]
      split <;> rename_i q <;> rw [q]
    cases b with
    | false =>
      have hc2 := k3 rfl
      subst hc2
      have hnone : (completions d pre)[c * L + l]? = none := by
        refine List.getElem?_eq_none_iff.mpr ?_
        have : ¬ (0 ≤ ((c * L + l : Nat) : Int) ∧ ((c * L + l : Nat) : Int) < (completions d pre).length) :=
          fun h' => absurd (k2.mpr h') (by simp)
        omega
      rw [hlw, hnone]
      exact ih (c + 1) c2 h hmx sp
    | true =>
      obtain ⟨p1, p2, p3, p4, p5⟩ := k4 rfl
      obtain ⟨_, x, x1, x2, x3, x4⟩ := p1.word
      rw [p2, Int.toNat_natCast] at x4
      rw [hlw, x4]
      have hxl : x.e.2 = x.e.1.length := hd.lens x.e x2
      have hxm : x.e.1.length ≤ mx := hmx.2 _ (List.mem_of_getElem? x4)
      have hmx2 : IsMax d pre c2 mx := ⟨by rw [p3]; exact hmx.1, hmx.2⟩
      obtain ⟨c3, r1, r2, r3, r4⟩ := ih (c + 1) c2 p1 hmx2 (mx + 1 - x.e.1.length)
      have hsp : c2.maxWord - x.e.2 + 1 = ((mx + 1 - x.e.1.length : Nat) : Int) := by rw [hmx2.1, hxl]; omega
      simp only [if_true, x1]
      rw [if_neg (by omega), hsp, r1]
      refine ⟨c3, ?_, r2, r3, ?_⟩
      · simp only [Option.map_some, Int.toNat_natCast, spaced, reduceCtorEq, if_false]
        rw [layout_cons, ← List.append_assoc]
        rfl
      · rw [r4]; have := h.1; have := p1.1; omega

theorem rows_ok (d : Dico) (hd : Ok d) (pre : Word) (L cols k l : Nat) (cm : Cm) (h : Pointing d pre cm) (mx : Nat)
    (hmx : IsMax d pre cm mx) :
    ∃ cm', rows L cols k l cm = some (cm', (List.range' l k).map fun l => layout mx (lineWords (completions d pre) L l 0 cols)) := by
  induction k generalizing l cm with
  | zero => exact ⟨cm, by simp [rows]⟩
  | succ k ih =>
    obtain ⟨c1, r1, r2, r3, _⟩ := row_ok d hd pre L l cols 0 cm h mx hmx 0
    obtain ⟨c2, q⟩ := ih (l + 1) c1 r2 r3
    refine ⟨c2, ?_⟩
    have r1' : row L l cols 0 cm 0 = some (c1, spaced 0 mx (lineWords (completions d pre) L l 0 cols)) := r1
    simp only [rows, r1', Option.bind_some, q, Option.map_some, List.range'_succ, List.map_cons]
    congr 3
    unfold spaced
    split
    · rename_i h'; rw [h']; rfl
    · rfl

theorem lineWords_get (M : List Word) (L l c k j : Nat) :
    (lineWords M L l c k)[j]? = if j < k then M[(c + j) * L + l]? else none := by
  induction k generalizing c j with
  | zero => simp [lineWords]
  | succ k ih =>
    have hlw : lineWords M L l c (k + 1) =
        match M[c * L + l]? with
        | none => lineWords M L l (c + 1) k
        | some w => w :: lineWords M L l (c + 1) k := by
      simp only [lineWords, List.range'_succ, List.filterMap_cons]
      split <;> rename_i q <;> rw [q]
    rw [hlw]
    cases hm : M[c * L + l]? with
    | none =>
      have hall : ∀ i, M[(c + i) * L + l]? = none := by
        intro i
        have := List.getElem?_eq_none_iff.mp hm
        refine List.getElem?_eq_none_iff.mpr ?_
        have : c * L ≤ (c + i) * L := Nat.mul_le_mul_right _ (by omega)
        omega
      simp only
      rw [ih, show c + 1 + j = c + (1 + j) by omega, hall, hall]
      simp
    | some w =>
      simp only
      cases j with
      | zero => simp [hm]
      | succ j =>
        rw [List.getElem?_cons_succ, ih, show c + 1 + j = c + (j + 1) by omega]
        simp

theorem layout_at (mx : Nat) (ws : List Word) (h : ∀ w ∈ ws, w.length ≤ mx) (j : Nat) (w : Word)
    (hj : ws[j]? = some w) : ((layout mx ws).drop (j * (mx + 1))).take w.length = w := by
  induction ws generalizing j with
  | nil => simp at hj
  | cons v ws ih =>
    rw [layout_cons]
    cases j with
    | zero => simp at hj; subst hj; simp
    | succ j =>
      have hv := h v (List.mem_cons_self ..)
      simp only [List.getElem?_cons_succ] at hj
      have hne : ws ≠ [] := by rintro rfl; simp at hj
      have := ih (fun a ha => h a (List.mem_cons_of_mem _ ha)) j hj
      rw [spaced, if_neg hne, ← List.append_assoc]
      have e : (j + 1) * (mx + 1) = (v ++ List.replicate (mx + 1 - v.length) 32).length + j * (mx + 1) := by
        rw [Nat.add_mul]; simp; omega
      rw [e, List.drop_append]
      have e2 : List.drop ((v ++ List.replicate (mx + 1 - v.length) 32).length + j * (mx + 1)) (v ++ List.replicate (mx + 1 - v.length) 32) = [] :=
        List.drop_eq_nil_of_le (by omega)
      rw [e2, List.nil_append, Nat.add_sub_cancel_left]
      exact this

theorem layout_length (mx : Nat) (ws : List Word) (h : ∀ w ∈ ws, w.length ≤ mx) :
    (layout mx ws).length + 1 ≤ ws.length * (mx + 1) ∨ ws = [] := by
  induction ws with
  | nil => exact Or.inr rfl
  | cons v ws ih =>
    left
    rw [layout_cons]
    have hv := h v (List.mem_cons_self ..)
    rcases ih (fun a ha => h a (List.mem_cons_of_mem _ ha)) with ih | rfl
    · have : (spaced (mx + 1 - v.length) mx ws).length ≤ mx + 1 - v.length + (layout mx ws).length := by
        unfold spaced; split <;> simp
      simp only [List.length_append, List.length_cons, Nat.add_mul]; omega
    · simp [spaced]; omega

/-- The completions displayed by two tabulations: never a fault; the word number `k` is in the line `k % L` of the
`L` lines, in the column `(k / L) * (width + 1)`, so that every word is displayed, at one place; a line contains
nothing else than words of the table at their columns and spaces; if the longest word is shorter than the screen no
line fills the width of the screen. -/
theorem C62_display (d : Dico) (hd : Ok d) (pre : Word) (cm : Cm) (h : Pointing d pre cm) (mx : Nat)
    (hmx : IsMax d pre cm mx) (col : Nat) :
    ∃ cm' ls, displayAll col cm = some (cm', ls) ∧ 0 < ls.length ∧
      (∀ k w, (completions d pre)[k]? = some w → ∃ t, ls[k % ls.length]? = some t ∧
        (t.drop ((k / ls.length) * (mx + 1))).take w.length = w) ∧
      (∀ l t, ls[l]? = some t → ∃ ws, t = layout mx ws ∧ ws ≠ [] ∧
        ∀ j w, ws[j]? = some w → (completions d pre)[j * ls.length + l]? = some w) ∧
      (mx < col → ∀ t ∈ ls, t.length < col) := by
  obtain ⟨h1, h2, h3, _⟩ := id h
  unfold displayAll
  generalize hcols : nbCols col cm.maxWord = cols
  generalize hL : nbLines cm.nb cols = L
  obtain ⟨cm', hr⟩ := rows_ok d hd pre L cols L 0 cm h mx hmx
  have hcpos : 0 < cols := by
    rw [← hcols]; unfold nbCols; split <;> omega
  have hLval : L = (cm.nb + cols - 1) / cols := by rw [← hL]; rfl
  have hnb : 0 < cm.nb := by omega
  have hLpos : 0 < L := by rw [hLval]; exact Nat.div_pos (by omega) hcpos
  have hcover : cm.nb ≤ L * cols := by
    have q1 := Nat.div_add_mod (cm.nb + cols - 1) cols
    have q2 := Nat.mod_lt (cm.nb + cols - 1) hcpos
    rw [← hLval, Nat.mul_comm] at q1
    omega
  have hLle : L ≤ cm.nb := by
    rw [hLval]
    rw [Nat.div_le_iff_le_mul_add_pred hcpos]
    have : cm.nb ≤ cols * cm.nb := Nat.le_mul_of_pos_left _ hcpos
    omega
  have hlen : ∀ l, ∀ w ∈ lineWords (completions d pre) L l 0 cols, w.length ≤ mx := by
    intro l w hw
    simp only [lineWords, List.mem_filterMap] at hw
    obtain ⟨c, _, hc⟩ := hw
    exact hmx.2 w (List.mem_of_getElem? hc)
  refine ⟨cm', _, hr, by simpa using hLpos, ?_, ?_, ?_⟩
  · intro k w hk
    have hkl : k < cm.nb := by rw [h1]; exact (List.getElem?_eq_some_iff.mp hk).1
    simp only [List.length_map, List.length_range']
    have hmod := Nat.mod_lt k hLpos
    refine ⟨_, by rw [List.getElem?_map, List.getElem?_range' hmod]; rfl, ?_⟩
    refine layout_at mx _ (hlen _) (k / L) w ?_
    rw [lineWords_get, if_pos]
    · have q1 := Nat.div_add_mod k L
      rw [Nat.mul_comm] at q1
      rw [Nat.zero_add]
      rw [show k / L * L + (0 + 1 * (k % L)) = k by omega]; exact hk
    · rw [Nat.div_lt_iff_lt_mul hLpos, Nat.mul_comm]; omega
  · intro l t ht
    simp only [List.getElem?_map, List.length_map, List.length_range'] at ht ⊢
    have hlL : l < L := by
      rcases Nat.lt_or_ge l L with q | q
      · exact q
      · rw [List.getElem?_eq_none (by simpa using q)] at ht; simp at ht
    rw [List.getElem?_range' hlL] at ht
    simp only [Option.map_some, Option.some.injEq] at ht
    refine ⟨_, ht.symm, ?_, ?_⟩
    · intro h0
      have hg := lineWords_get (completions d pre) L (0 + 1 * l) 0 cols 0
      rw [h0, if_pos hcpos] at hg
      have := List.getElem?_eq_none_iff.mp hg.symm
      simp only [Nat.add_zero, Nat.zero_mul, Nat.zero_add, Nat.one_mul] at this
      omega
    · intro j w hj
      rw [lineWords_get] at hj
      split at hj
      · simpa using hj
      · simp at hj
  · intro hw t ht
    simp only [List.mem_map] at ht
    obtain ⟨l, _, rfl⟩ := ht
    have hcv : cols * (mx + 1) ≤ col := by
      have e : ((col : Int) - 1 + 1) / (cm.maxWord + 1) = ((col / (mx + 1) : Nat) : Int) := by
        rw [hmx.1]
        have : (col : Int) - 1 + 1 = col := by omega
        rw [this]; exact (Int.natCast_ediv col (mx + 1)).symm
      have hge : 1 ≤ col / (mx + 1) := Nat.div_pos (by omega) (by omega)
      have : cols = col / (mx + 1) := by
        rw [← hcols]; unfold nbCols
        rw [e, if_neg (by omega), Int.toNat_natCast]
      rw [this]; exact Nat.div_mul_le_self _ _
    have hn : (lineWords (completions d pre) L l 0 cols).length ≤ cols := by
      have := List.length_filterMap_le (fun c => (completions d pre)[c * L + l]?) (List.range' 0 cols)
      simpa [lineWords] using this
    rcases layout_length mx _ (hlen l) with q | q
    · have := Nat.mul_le_mul_right (mx + 1) hn
      omega
    · rw [q]; simp [layout]; omega

/-! The word to complete -/

/-- After a word without separators, the tabulation completes this word: the prefix is the text from the start of
the word to the cursor. -/
theorem C62_tab_word (c : Linedit.Cfg) (u w v r : List Nat) (hw : w ≠ []) (hsep : ∀ y ∈ w, c.sep y = false)
    (hu : u = [] ∨ ∃ u' x, u = u' ++ [x] ∧ c.sep x = true) :
    tabStart c (u ++ w ++ v ++ r) (u.length + w.length : Nat) (u.length + w.length + v.length : Nat) =
      some ((u.length : Nat) : Int) := by
  have hlen : 0 < w.length := List.length_pos_iff.mpr hw
  unfold tabStart
  rw [if_neg (by omega)]
  obtain ⟨y, w', rfl⟩ : ∃ y w', w = y :: w' := by
    cases w with
    | nil => exact absurd rfl hw
    | cons y w' => exact ⟨y, w', rfl⟩
  have hy : c.sep y = false := hsep y (List.mem_cons_self ..)
  rcases hu with rfl | ⟨u', x, rfl, hx⟩
  · have e1 := Linedit.skipBack c false w' [] (v ++ r) y (((([] : List Nat).length + (y :: w').length : Nat) : Int) - 1)
      (fun z hz => hsep z (List.mem_cons_of_mem _ hz)) (Or.inr rfl) (by simp)
    replace e1 := e1.trans (show _ = some ((0 : Nat) : Int) from rfl)
    have e2 := Linedit.skipForw c true (y :: w' ++ v) [] r 0 ((([] : List Nat).length + (y :: w').length + v.length : Nat) : Int)
      (by simp) (by simp; omega)
    have a1 : ([] : List Nat) ++ (y :: w') ++ v ++ r = [] ++ y :: (w' ++ (v ++ r)) := by simp
    have a2 : ([] : List Nat) ++ (y :: w') ++ v ++ r = [] ++ (y :: w' ++ v ++ r) := by simp
    rw [a1, e1, ← a1, a2]
    simp only [Option.bind_some, List.length_nil]
    refine Eq.trans e2 ?_
    simp [hy]
  · have e1 := Linedit.skipBack c false (y :: w') u' (v ++ r) x (((((u' ++ [x]) : List Nat).length + (y :: w').length : Nat) : Int) - 1)
      hsep (Or.inl (by simp [hx])) (by simp; omega)
    replace e1 := e1.trans (show _ = some ((u'.length : Nat) : Int) from rfl)
    have e2 := Linedit.skipForw c true (x :: y :: w' ++ v) u' r u'.length
      (((u' ++ [x]).length + (y :: w').length + v.length : Nat) : Int) rfl (by simp; omega)
    have a1 : (u' ++ [x]) ++ (y :: w') ++ v ++ r = u' ++ x :: (y :: w' ++ (v ++ r)) := by simp
    have a2 : (u' ++ [x]) ++ (y :: w') ++ v ++ r = u' ++ (x :: y :: w' ++ v ++ r) := by simp
    rw [a1, e1, ← a1, a2]
    simp only [Option.bind_some]
    refine Eq.trans e2 ?_
    simp [hx, hy]

/-- After a separator, the prefix is empty only if no separator follows the cursor: otherwise the word found starts
after the cursor and the length of the prefix given to the completion is negative (`pos - p`, linedit.c:557), with a
text which is not ended (linedit.c:559 ends it at the cursor). -/
theorem C62_tab_after_separator (c : Linedit.Cfg) (u v r : List Nat) (x : Nat) (hx : c.sep x = true) :
    tabStart c (u ++ [x] ++ v ++ r) (u.length + 1 : Nat) (u.length + 1 + v.length : Nat) =
      some ((u.length + 1 + (v.takeWhile c.sep).length : Nat) : Int) := by
  unfold tabStart
  rw [if_neg (by omega)]
  have e1 := Linedit.skipBack c false [] u (v ++ r) x (((u.length + 1 : Nat) : Int) - 1) (by simp) (Or.inl (by simp [hx]))
    (by simp)
  replace e1 := e1.trans (show _ = some ((u.length : Nat) : Int) from rfl)
  have e2 := Linedit.skipForw c true (x :: v) u r u.length ((u.length + 1 + v.length : Nat) : Int) rfl (by simp; omega)
  have a1 : u ++ [x] ++ v ++ r = u ++ x :: ([] ++ (v ++ r)) := by simp
  have a2 : u ++ [x] ++ v ++ r = u ++ (x :: v ++ r) := by simp
  rw [a1, e1, ← a1, a2]
  simp only [Option.bind_some]
  refine Eq.trans e2 ?_
  have e3 : (fun y => c.sep y == true) = c.sep := by funext y; simp
  rw [e3, List.takeWhile_cons_of_pos hx]
  simp; omega

/-! Defects -/

/-- The state of the enumeration is one static variable: backtracking into find_linedit_completion/2 after another
call of it which found one word gives this word, whatever the prefix of the first call; after a call which found
none, it reads the word through NULL. -/
theorem C62_find_nested (d : Dico) (hd : Ok d) (cm : Cm) (p1 p2 : Word) :
    ∃ c1 s1 c2 s2, find d cm p1 = some (c1, s1) ∧ find d c1 p2 = some (c2, s2) ∧
      (∀ w, completions d p2 = [w] → ∃ c3, findAlt c2 = some (c3, ⟨w, false⟩)) ∧
      (completions d p2 = [] → findAlt c2 = none) := by
  have hf : ∀ cm p, ∃ c s, find d cm p = some (c, s) ∧ c.nb = (completions d p).length ∧
      (completions d p ≠ [] → Pointing d p c ∧ c.curNo = 0) ∧ (completions d p = [] → c.entry = none ∧ c.curNo = 0) := by
    intro cm p
    obtain ⟨c1, b, h1, h2, h3, h4, h5⟩ := C62_match_first d hd cm p
    unfold find
    rw [h1]
    cases b with
    | false =>
      refine ⟨c1, none, rfl, h2, fun h => absurd (h3.mpr h) (by simp), fun _ => h4 rfl⟩
    | true =>
      obtain ⟨hp, h0, _, _, _, w, w1, _⟩ := h5 rfl
      refine ⟨c1, _, by simp only [Option.bind_some, if_true, w1, Option.map_some]; rfl, h2, fun _ => ⟨hp, h0⟩, fun h => absurd h (h3.mp rfl)⟩
  obtain ⟨c1, s1, h1, _⟩ := hf cm p1
  obtain ⟨c2, s2, k1, k2, k3, k4⟩ := hf c1 p2
  refine ⟨c1, s1, c2, s2, h1, k1, ?_, ?_⟩
  · intro w hw
    obtain ⟨hp, h0⟩ := k3 (by rw [hw]; simp)
    have hcw := hp.word.1
    rw [h0, hw] at hcw
    rw [hw] at k2
    refine ⟨c2, ?_⟩
    have hn : navig c2 1 = some (c2, false) := by
      unfold navig; simp only; rw [if_pos (by rw [h0, k2]; simp)]
    simp only [findAlt, matchNext, hn, Option.bind_some, hcw, h0, k2]
    rfl
  · intro he
    obtain ⟨q1, q2⟩ := k4 he
    rw [he] at k2
    have hn : navig c2 1 = some (c2, false) := by
      unfold navig; simp only; rw [if_pos (by rw [q2, k2]; simp)]
    simp only [findAlt, matchNext, hn, Option.bind_some, curWord, q1, Option.map_none]

/-- A prefix longer than the length given (allowed by the comment of completion.c:257-258): words which have the
prefix of this length are not found. -/
theorem C62_longer_prefix : ∃ d : Dico, run init [.add [97, 98]] = some d ∧ [97, 98] ∈ completions d ([97, 122].take 1) ∧
    (matchFirst d ⟨0, 0, 0, 0, 0, none⟩ [97, 122] 1).map (fun r => (r.2, r.1.nb)) = some (false, 0) := by
  refine ⟨⟨1, 1, 0, .node .black .nil ([97, 98], 2) .nil⟩, rfl, by decide, by decide⟩

/-! Examples: the words "append", "apply", "atom", "wall", and "appear" removed. -/

def sampleOps : List Op :=
  [.add [97, 112, 112, 108, 121], .add [97, 116, 111, 109], .add [97, 112, 112, 101, 97, 114], .add [119, 97, 108, 108],
   .add [97, 112, 112, 101, 110, 100], .remove [97, 112, 112, 101, 97, 114]]

example : (run init sampleOps).map words =
    some [[97, 112, 112, 101, 110, 100], [97, 112, 112, 108, 121], [97, 116, 111, 109], [119, 97, 108, 108]] := by
  decide +kernel

example : (run init sampleOps).map (fun d => (completions d [97, 112], completions d [119], completions d [64])) =
    some ([[97, 112, 112, 101, 110, 100], [97, 112, 112, 108, 121]], [[119, 97, 108, 108]], []) := by decide +kernel

/-- The dictionary is as the theorems require. -/
example : ∃ d, run init sampleOps = some d ∧ Ok d := by
  obtain ⟨d, h1, h2, _⟩ := C62_words sampleOps (by simp [sampleOps])
  exact ⟨d, h1, h2⟩

/-- A history with a word removed then absent, and one present. -/
example : ¬ After [97, 112, 112, 101, 97, 114] False sampleOps ∧ After [119, 97, 108, 108] False sampleOps := by
  simp [sampleOps, After]

/-- `Pointing` and `IsMax` are met after a completion which succeeds. -/
example (d : Dico) (hd : Ok d) (cm : Cm) (pre : Word) (h : completions d pre ≠ []) :
    ∃ cm' mx, matchFirst d cm pre pre.length = some (cm', true) ∧ Pointing d pre cm' ∧ IsMax d pre cm' mx := by
  obtain ⟨c1, b, h1, _, h3, _, h5⟩ := C62_match_first d hd cm pre
  have hb := h3.mpr h
  subst hb
  obtain ⟨hp, _, _, m1, ⟨w, _, m2⟩, _⟩ := h5 rfl
  exact ⟨c1, w.length, h1, hp, m2.symm, fun v hv => by have := m1 v hv; omega⟩

/-- The longest common prefix of "append" and "apply" is "app". -/
example : IsLcp [[97, 112, 112, 101, 110, 100], [97, 112, 112, 108, 121]] [97, 112, 112] := by
  refine ⟨by decide, fun r hr => ?_⟩
  have h1 := hr _ (List.mem_cons_self ..)
  have h2 := hr [97, 112, 112, 108, 121] (by simp)
  rcases Nat.lt_or_ge 3 r.length with q | q
  · exfalso
    have e1 := List.prefix_iff_eq_take.mp h1
    have e2 := List.prefix_iff_eq_take.mp h2
    have g1 : r[3]? = some 101 := by rw [e1, List.getElem?_take_of_lt q]; rfl
    have g2 : r[3]? = some 108 := by rw [e2, List.getElem?_take_of_lt q]; rfl
    rw [g1] at g2; simp at g2
  · simpa using q

/-- Two words on a line of a table whose longest word has 6 letters. -/
example : layout 6 [[97, 116, 111, 109], [119]] = [97, 116, 111, 109, 32, 32, 32, 119] := by decide

/-- A line where the cursor is between two spaces. -/
example : tabStart ⟨80, 0, fun x => x == 32, fun _ => false, fun _ => true, id, id⟩ [97, 32, 32, 98] 2 4 = some 3 := by decide

end Gp.Compl
