import Verif.Stream.LC
/-
C36: stream positions.
-/
namespace Gp.Stream
open Spec (lines col)

/-- C36: after any legal history a stream gives the codes of the text in order: every answer of get, peek, at_end_of_stream, set_stream_position and
set_stream_line_column is the one of the text (`Spec.step`), for every end of file action. -/
theorem C36_answers (file : List Int) (p : Props) (g1 g2 : Nat → Int) (ops : List Op) (hf : ∀ c ∈ file, c ≠ EOF)
    (hl : Spec.LegalRun file p (Spec.at_ file 0) ops) :
    (run (openStm file p g1 g2) ops).map Prod.fst = some (Spec.run file p (Spec.at_ file 0) ops).1 := by
  obtain ⟨s, e, _⟩ := run_sim hf (open_R file p g1 g2 hf) hl
  rw [e]; rfl

/-- C36: after any legal history the character count and the line count are those of the codes read; the line position and the offset also, if
the end of file has not been read on this line and is not looked ahead. Missing: these two cases (`C36_eof_shifts_column`, `C36_lookahead_eof_offset`). -/
theorem C36_positions_partial (file : List Int) (p : Props) (g1 g2 : Nat → Int) (ops : List Op) (hf : ∀ c ∈ file, c ≠ EOF)
    (hl : Spec.LegalRun file p (Spec.at_ file 0) ops) :
    ∃ rs s, run (openStm file p g1 g2) ops = some (rs, s) ∧
      let a := (Spec.run file p (Spec.at_ file 0) ops).2
      (getPosition s).2.1 = (Spec.position p a.back).2.1 ∧ (getPosition s).2.2.1 = (Spec.position p a.back).2.2.1 ∧
      (a.seenEof = false → (getPosition s).1 = (Spec.position p a.back).1) ∧ (a.eofs = 0 → (getPosition s).2.2.2 = (Spec.position p a.back).2.2.2) := by
  obtain ⟨s, e, h⟩ := run_sim hf (open_R file p g1 g2 hf) hl
  refine ⟨_, s, e, ?_⟩
  generalize (Spec.run file p (Spec.at_ file 0) ops).2 = a at h
  have hnb : (s.pbChar.nb : Int) = a.look + (if a.seenEof then 1 else 0) := by
    rw [← contents_length, h.pbc]
    have := h.look
    cases a.seenEof <;> simp <;> omega
  have hpos := h.pos
  simp only [getPosition, Spec.position, h.prop]
  refine ⟨?_, ?_, ?_, ?_⟩
  · split <;> exact h.cc
  · split
    · next ht => exact h.lc ht
    · rfl
  · intro hs
    rw [hs] at hnb
    have h1 : ¬ ((s.pos : Int) - s.pbChar.nb < 0) := by rw [hnb, hpos]; simp
    have h2 : (s.pos : Int) - s.pbChar.nb = a.back.length := by rw [hnb, hpos]; simp
    rw [if_neg h1, h2]
    split <;> rfl
  · intro hs
    split
    · next ht => have := h.lp ht; rw [hs] at this; simpa using this
    · rfl

/-- C36: the codes read are those of the file when every code put back is the one that was read: `back` reversed is a prefix of the file. -/
theorem C36_prefix (file : List Int) (p : Props) : ∀ (ops : List Op) (a : Spec.S), a.back.reverse ++ a.todo = file → Spec.LegalRun file p a ops →
    (∀ pre c post, ops = pre ++ .unget c :: post → (Spec.run file p a pre).2.back.head? = some c) →
    (Spec.run file p a ops).2.back.reverse ++ (Spec.run file p a ops).2.todo = file
  | [], _, h, _, _ => h
  | op :: ops, a, h, hl, hu => by
    have hat : ∀ n, (Spec.at_ file n).back.reverse ++ (Spec.at_ file n).todo = file := fun n => by simp [Spec.at_]
    have hbef : ∀ a', Spec.before file p a = .inr a' → a'.back.reverse ++ a'.todo = file := by
      intro a' e
      unfold Spec.before at e
      split at e
      · split at e
        · cases e
        · cases e
        · injection e with e
          subst e
          split
          · exact hat 0
          · exact h
      · injection e with e; subst e; exact h
    have hpk : ∀ a' : Spec.S, a'.back.reverse ++ a'.todo = file → (Spec.peekBody a').2.back.reverse ++ (Spec.peekBody a').2.todo = file := by
      intro a' e
      unfold Spec.peekBody
      split <;> exact e
    refine C36_prefix file p ops (Spec.step file p a op).2 ?_ hl.2 (fun pre c post e => hu (op :: pre) c post (by rw [e]; rfl))
    cases op with
    | get =>
      simp only [Spec.step]
      split
      · exact h
      · next a' e =>
        have h' := hbef a' e
        unfold Spec.getBody
        split
        · exact h'
        · next c t et => rw [et] at h'; simpa using h'
    | peek =>
      simp only [Spec.step]
      split
      · exact h
      · next a' e => exact hpk a' (hbef a' e)
    | unget c =>
      have hc := hu [] c ops rfl
      simp only [Spec.run] at hc
      simp only [Spec.step]
      cases hb : a.back with
      | nil => rw [hb] at hc; cases hc
      | cons c' b =>
        rw [hb] at hc h
        have : c' = c := by simpa using hc
        subst this
        simpa using h
    | eos =>
      simp only [Spec.step]
      split
      · exact h
      · split
        · exact h
        · exact hpk a h
    | setPos off _ _ _ => exact hat _
    | setLC l c =>
      simp only [Spec.step]
      split
      · exact hat _
      · exact h

/-- The streams that a program can obtain, with the text that it has read and has still to read. -/
def Reach (file : List Int) (p : Props) (s : Stm) (a : Spec.S) : Prop :=
  ∃ g1 g2 ops, Spec.LegalRun file p (Spec.at_ file 0) ops ∧ (∃ rs, run (openStm file p g1 g2) ops = some (rs, s)) ∧
    a = (Spec.run file p (Spec.at_ file 0) ops).2

theorem reach_R {file p s a} (hf : ∀ c ∈ file, c ≠ EOF) (h : Reach file p s a) : R file p s a := by
  obtain ⟨g1, g2, ops, hl, ⟨rs, e⟩, rfl⟩ := h
  obtain ⟨s', e', h'⟩ := run_sim hf (open_R file p g1 g2 hf) hl
  rw [e] at e'
  injection e' with e'
  injection e' with _ e'
  subst e'; exact h'

theorem getPosition_R {file p s a} (h : R file p s a) : getPosition s =
    (if p.reposition then ((a.back.length - (if a.seenEof then 1 else 0) : Nat)   : Int) else 0, (a.back.length : Int),
     if p.text then (lines a.back : Int) else 0, if p.text then (col a.back : Int) + a.eofs else 0) := by
  have hnb : (s.pbChar.nb : Int) = a.look + (if a.seenEof then 1 else 0) := by
    rw [← contents_length, h.pbc]
    have := h.look
    cases a.seenEof <;> simp <;> omega
  have hpos := h.pos
  have hoff : (if (s.pos : Int) - s.pbChar.nb < 0 then (0 : Int) else (s.pos : Int) - s.pbChar.nb) =
      ((a.back.length - (if a.seenEof then 1 else 0) : Nat) : Int) := by
    rw [hnb, hpos]
    cases a.seenEof <;> simp <;> omega
  simp only [getPosition, h.prop, hoff, h.cc]
  cases ht : p.text with
  | true => simp only [if_true, h.lc ht, h.lp ht]
  | false => simp

/-- C36: looking at the next code consumes nothing: after a peek that answers a code, the position is the same, and the next get answers the same code. -/
theorem C36_peek_consumes_nothing {file p s a} {c : Int} (hf : ∀ c ∈ file, c ≠ EOF) (h : Reach file p s a) (hp : a.past = false)
    (hc : (peekc s).1 = .code c) : (getc s).1 = .code c ∧ (getc (peekc s).2).1 = .code c ∧ (c ≠ EOF → getPosition (peekc s).2 = getPosition s) ∧
      (getPosition (getc (peekc s).2).2) = getPosition (getc s).2 := by
  have h := reach_R hf h
  have h1 := peekc_sim hf h
  have h2 := getc_sim hf h
  have h3 := getc_sim hf h1.2
  have hpk : Spec.step file p a .peek = (.code (Spec.peekBody a).1, (Spec.peekBody a).2) := by simp only [Spec.step, Spec.before, hp]; simp
  have hgt : Spec.step file p a .get = (.code (Spec.getBody a).1, (Spec.getBody a).2) := by simp only [Spec.step, Spec.before, hp]; simp
  have hp' : (Spec.peekBody a).2.past = false := by unfold Spec.peekBody; split <;> exact hp
  have hgt' : Spec.step file p (Spec.peekBody a).2 .get = (.code (Spec.getBody (Spec.peekBody a).2).1, (Spec.getBody (Spec.peekBody a).2).2) := by
    simp only [Spec.step, Spec.before, hp']; simp
  rw [hpk] at h1 h3
  rw [hgt] at h2
  rw [hgt'] at h3
  have hcc : (Spec.peekBody a).1 = c := by
    have := h1.1.symm.trans hc
    injection this
  have e1 : (Spec.getBody a).1 = (Spec.peekBody a).1 := by unfold Spec.getBody Spec.peekBody; split <;> rfl
  have e2 : (Spec.getBody (Spec.peekBody a).2).1 = (Spec.peekBody a).1 := by
    unfold Spec.getBody Spec.peekBody
    cases ht : a.todo <;> simp [ht]
  refine ⟨by rw [h2.1, e1, hcc], by rw [h3.1, e2, hcc], ?_, ?_⟩
  · intro hne
    rw [getPosition_R h1.2, getPosition_R h]
    unfold Spec.peekBody at hcc ⊢
    cases ht : a.todo with
    | nil => rw [ht] at hcc; exact absurd hcc.symm hne
    | cons x t => rfl
  · rw [getPosition_R h3.2, getPosition_R h2.2]
    unfold Spec.getBody Spec.peekBody
    cases ht : a.todo <;> simp [ht]

/-- C36: putting back the code just read gives the position before the reading, also over a newline, and the next get gives the code again. -/
theorem C36_unget_restores {file p s a} {c : Int} (hf : ∀ c ∈ file, c ≠ EOF) (h : Reach file p s a) (hp : a.past = false) (hc : (getc s).1 = .code c)
    (hne : c ≠ EOF) : getPosition (ungetc c (getc s).2) = getPosition s ∧ (getc (ungetc c (getc s).2)).1 = .code c := by
  have h := reach_R hf h
  have h2 := getc_sim hf h
  have hgt : Spec.step file p a .get = (.code (Spec.getBody a).1, (Spec.getBody a).2) := by simp only [Spec.step, Spec.before, hp]; simp
  rw [hgt] at h2
  have hcc : (Spec.getBody a).1 = c := by
    have := h2.1.symm.trans hc
    injection this
  have hlook : a.look + (if a.seenEof then 1 else 0) ≤ 8 := by
    have hnb := contents_length s.pbChar
    have := h.okc.nb
    have := h.look
    rw [h.pbc] at hnb
    cases he : a.seenEof <;> simp [he] at hnb ⊢ <;> omega
  cases ht : a.todo with
  | nil => unfold Spec.getBody at hcc; rw [ht] at hcc; exact absurd hcc.symm hne
  | cons x t =>
    have hg : Spec.getBody a = (x, { a with back := x :: a.back, todo := t, look := a.look - 1, since := a.since + 1, eofs := if x = NL then 0 else a.eofs }) := by
      unfold Spec.getBody; rw [ht]
    rw [hg] at hcc h2
    dsimp only at hcc
    subst hcc
    have hroom : a.look - 1 + (if a.seenEof then 1 else 0) < 8 := by
      cases he : a.seenEof with
      | false => simp [he] at hlook ⊢; omega
      | true => have := h.seen he; simp [he, ht] at hlook this ⊢; omega
    have h3 := ungetc_sim (c := x) h2.2 ⟨by simp, hroom, hne, by simp⟩
    have he0 : x = NL → a.eofs = 0 := by
      intro e
      rcases Nat.eq_zero_or_pos a.eofs with e' | e'
      · exact e'
      · have := h.eofs e'; rw [ht, lines_cons, if_pos e] at this; omega
    refine ⟨?_, ?_⟩
    · rw [getPosition_R h3, getPosition_R h]
      simp only [Spec.step, List.tail_cons]
      by_cases e : x = NL
      · simp [e, he0 e]
      · simp [e]
    · have h4 := (getc_sim hf h3).1
      rw [h4]
      simp [Spec.step, Spec.before, Spec.getBody]

/-- C36: the position of a text stream can be set again after any reading: the stream then reads the file from there, with the same position.
(If the end of file is looked ahead or has been read on the line, see `C36_lookahead_eof_offset` and `C36_eof_shifts_column`.) -/
theorem C36_set_position {file p s a s2 a2} (hf : ∀ c ∈ file, c ≠ EOF) (hp : p.reposition = true) (ht : p.text = true) (h : Reach file p s a) (h2 : Reach file p s2 a2)
    (hs : a.seenEof = false) (he : a.eofs = 0) :
    let q := getPosition s
    (setPosition s2 .set q.1 q.2.1 q.2.2.1 q.2.2.2).1 = true ∧
    getPosition (setPosition s2 .set q.1 q.2.1 q.2.2.1 q.2.2.2).2 = q ∧
    ∀ ops, Spec.LegalRun file p (Spec.at_ file a.back.length) ops →
      (run (setPosition s2 .set q.1 q.2.1 q.2.2.1 q.2.2.2).2 ops).map Prod.fst = some (Spec.run file p (Spec.at_ file a.back.length) ops).1 := by
  have h := reach_R hf h
  have h2 := reach_R hf h2
  have hpos := getPosition_R h
  rw [hs, he, ht, hp] at hpos
  simp at hpos
  have hlen := h.len
  -- the shape of the text read is the shape of the file
  have hsh : a.back.reverse.map (· == NL) = (file.take a.back.length).map (· == NL) := by
    have := congrArg (List.take a.back.length) h.shape
    rw [← List.map_take, ← List.map_take, List.take_append_of_le_length (by simp), List.take_of_length_le (by simp)] at this
    exact this
  have hl : ∀ l m : List Int, l.map (· == NL) = m.map (· == NL) → lines l = lines m := by
    intro l m e
    have e1 : ∀ l : List Int, lines l = (l.map (· == NL)).countP id := fun l => by simp [lines, List.countP_map, Function.comp_def]
    rw [e1, e1, e]
  have hcl : ∀ l m : List Int, l.map (· == NL) = m.map (· == NL) → col l = col m := by
    intro l m e
    have e1 : ∀ l : List Int, col l = ((l.map (· == NL)).takeWhile (fun b => !b)).length := fun l => by
      rw [List.takeWhile_map]; simp only [col, List.length_map]; rfl
    rw [e1, e1, e]
  have hlines : lines a.back = lines (file.take a.back.length) := by rw [← lines_reverse]; exact hl _ _ hsh
  have hcol : col a.back = col (file.take a.back.length).reverse := by
    apply hcl
    have := congrArg List.reverse hsh
    rwa [← List.map_reverse, List.reverse_reverse, ← List.map_reverse] at this
  have hq := setPosition_sim (s := s2) (p := p) (n := a.back.length) (cc := a.back.length) (lc := lines a.back) (lp := col a.back) hf (by omega) h2.src h2.prop rfl
    (fun _ => by rw [hlines, hcol]; exact ⟨rfl, rfl⟩)
  intro q
  have eq : q = ((a.back.length : Int), (a.back.length : Int), (lines a.back : Int), (col a.back : Int)) := hpos
  clear_value q
  subst eq
  refine ⟨hq.1, ?_, ?_⟩
  · have hpos2 := getPosition_R hq.2
    simp only [Spec.at_, ht, hp] at hpos2
    dsimp only
    rw [hpos2, ← hcol, lines_reverse, ← hlines]
    simp; omega
  · intro ops hl
    obtain ⟨s', e, _⟩ := run_sim hf hq.2 hl
    dsimp only
    rw [e]; rfl

/-! ### The end of the file -/

theorem run_gets (file : List Int) (p : Props) : ∀ (n k : Nat), k + n = file.length →
    (Spec.run file p (rd file k) (List.replicate n .get)).2 = rd file file.length
  | 0, k, h => by have : k = file.length := by omega
                  subst this; rfl
  | n + 1, k, h => by
    have : Spec.step file p (rd file k) .get = (.code (Spec.getBody (rd file k)).1, (Spec.getBody (rd file k)).2) := by simp [Spec.step, Spec.before, rd]
    rw [List.replicate_succ, Spec.run, this, rd_get (by omega)]
    exact run_gets file p n (k + 1) (by omega)

theorem legal_gets (file : List Int) (p : Props) : ∀ (n : Nat) (a : Spec.S), Spec.LegalRun file p a (List.replicate n .get)
  | 0, _ => trivial
  | n + 1, a => ⟨trivial, legal_gets file p n _⟩

/-- A stream that has read the whole file. -/
theorem reach_end (file : List Int) (p : Props) (hf : ∀ c ∈ file, c ≠ EOF) : ∃ s, Reach file p s (rd file file.length) := by
  obtain ⟨s, e, _⟩ := run_sim hf (open_R file p (fun _ => 0) (fun _ => 0) hf) (legal_gets file p file.length _)
  exact ⟨s, _, _, _, legal_gets file p file.length _, ⟨_, e⟩, (run_gets file p file.length 0 (by omega)).symm⟩

/-- C36 (violated): reading the end of file adds one to the line position, for every file. -/
theorem C36_eof_shifts_column (file : List Int) (p : Props) (hf : ∀ c ∈ file, c ≠ EOF) (ht : p.text = true) :
    ∃ s, Reach file p s (rd file file.length) ∧ (getPosition s).2.2.2 = col file.reverse ∧
      (getc s).1 = .code EOF ∧ (getPosition (getc s).2).2.2.2 = col file.reverse + 1 := by
  obtain ⟨s, h⟩ := reach_end file p hf
  have hR := reach_R hf h
  have hg := getc_sim hf hR
  have hst : Spec.step file p (rd file file.length) .get =
      (.code EOF, { rd file file.length with past := true, eofs := 1 }) := by
    simp [Spec.step, Spec.before, rd, Spec.getBody]
  rw [hst] at hg
  refine ⟨s, h, ?_, hg.1, ?_⟩
  · rw [getPosition_R hR, ht]; simp [rd]
  · rw [getPosition_R hg.2, ht]; simp [rd]

theorem getc_plain {c : Int} (s : Stm) (h1 : s.eofReached = false) (h2 : pbEmpty s.pbChar = true) (h3 : s.src[s.pos]? = some c) :
    (getc s).1 = .code c := by simp [getc, beforeReading, h1, getcBody, h2, callGetc, h3]

/-- C36 (violated): at the end of a non-empty file, once the end has been looked ahead (peek_char, at_end_of_stream), the offset of the position is one too
small: setting this position makes the stream read the last code again. -/
theorem C36_lookahead_eof_offset (file : List Int) (p : Props) (hf : ∀ c ∈ file, c ≠ EOF) (hp : p.reposition = true) (hne : file ≠ []) :
    ∃ s, Reach file p s (rd file file.length) ∧ (peekc s).1 = .code EOF ∧
      let q := getPosition (peekc s).2
      q.1 = file.length - 1 ∧ q.2.1 = file.length ∧
      (getc (setPosition (peekc s).2 .set q.1 q.2.1 q.2.2.1 q.2.2.2).2).1 = .code (file.getLast hne) := by
  obtain ⟨s, h⟩ := reach_end file p hf
  have hR := reach_R hf h
  have hg := peekc_sim hf hR
  have hst : Spec.step file p (rd file file.length) .peek = (.code EOF, { rd file file.length with seenEof := true }) := by
    simp [Spec.step, Spec.before, rd, Spec.peekBody]
  rw [hst] at hg
  have hlen : 0 < file.length := List.length_pos_iff.2 hne
  have hq := getPosition_R hg.2
  have hq1 : (getPosition (peekc s).2).1 = ((file.length - 1 : Nat) : Int) := by rw [hq, hp]; simp [rd]
  refine ⟨s, h, hg.1, by rw [hq1]; omega, by rw [hq]; simp [rd], ?_⟩
  rw [hq1]
  generalize (peekc s).2 = s' at hg
  generalize getPosition s' = q
  obtain ⟨x1, x2, x3, x4⟩ := q
  have hsp : ∀ (s : Stm) (x2 x3 x4 : Int), s.src = file → (getc (setPosition s .set ((file.length - 1 : Nat) : Int) x2 x3 x4).2).1 = .code (file.getLast hne) := by
    intro s x2 x3 x4 hsrc
    obtain ⟨src, pos, ⟨text, input, repo, act⟩, eof, pc, y1, y2, y3, pl⟩ := s
    dsimp only at hsrc
    subst hsrc
    have e : setPosition ⟨src, pos, ⟨text, input, repo, act⟩, eof, pc, y1, y2, y3, pl⟩ .set ((src.length - 1 : Nat) : Int) x2 x3 x4 = (true,
        ⟨src, src.length - 1, ⟨text, input, repo, act⟩, false, pbInit pc, x2, if text then x3 else y2, if text then x4 else y3, pbInit pl⟩) := by
      unfold setPosition callSeek
      dsimp only
      rw [if_neg (by omega)]
      cases text <;> cases eof <;> rfl
    rw [e]
    have hg : src[src.length - 1]? = some (src.getLast hne) := by rw [List.getLast_eq_getElem]; exact List.getElem?_eq_getElem _
    exact getc_plain _ rfl rfl hg
  exact hsp s' x2 x3 x4 hg.2.src

/-- C36 (violated): the tokeniser puts back the end of file that follows the last token (lexer_supp.c:88, `Unget_Last_Char`); then the character count is one
too small, for every non-empty file. -/
theorem C36_unget_eof_count (file : List Int) (p : Props) (hf : ∀ c ∈ file, c ≠ EOF) (hne : file ≠ []) :
    ∃ s, Reach file p s (rd file file.length) ∧ (getc s).1 = .code EOF ∧ (getPosition s).2.1 = file.length ∧
      (getPosition (ungetc EOF (getc s).2)).2.1 = file.length - 1 := by
  obtain ⟨s, h⟩ := reach_end file p hf
  have hR := reach_R hf h
  have hg := getc_sim hf hR
  have hst : Spec.step file p (rd file file.length) .get =
      (.code EOF, { rd file file.length with past := true, eofs := 1 }) := by
    simp [Spec.step, Spec.before, rd, Spec.getBody]
  rw [hst] at hg
  refine ⟨s, h, hg.1, by rw [getPosition_R hR]; simp [rd], ?_⟩
  have hlen : 0 < file.length := List.length_pos_iff.2 hne
  have hcc : (getc s).2.charCount = file.length := by rw [hg.2.cc]; simp [rd]
  have key : ∀ s : Stm, s.charCount > 0 → (getPosition (ungetc EOF s)).2.1 = s.charCount - 1 := by
    intro s hs
    simp only [getPosition, ungetc, hs, show ¬ (EOF = NL) by decide, if_false, if_true]
    split <;> (split <;> rfl)
  rw [key _ (by rw [hcc]; omega), hcc]

/-! ### Limits of the push-back stacks -/

/-- A file with the codes 0, 1, …, n - 1 plus 97. -/
def letters (n : Nat) : List Int := (List.range n).map fun (i : Nat) => (97 + i : Int)

def textProp : Props := ⟨true, true, true, .eofCode⟩

/-- C36 (violated): eight codes may be put back (flag `max_unget`), but not after a look ahead: reading eight codes, looking at the ninth, putting
the eight back loses the ninth. -/
theorem C36_lookahead_unget_loses :
    (run (openStm (letters 10) textProp (fun _ => 0) (fun _ => 0))
      (List.replicate 8 .get ++ [.peek] ++ ((letters 8).reverse.map .unget) ++ List.replicate 9 .get)).map (fun r => r.1.drop 17) =
    some ((letters 8).map .code ++ [.code 106]) := by decide +kernel

/-- Without the look ahead the ninth code is read. -/
example : (run (openStm (letters 10) textProp (fun _ => 0) (fun _ => 0))
      (List.replicate 8 .get ++ ((letters 8).reverse.map .unget) ++ List.replicate 9 .get)).map (fun r => r.1.drop 16) =
    some ((letters 9).map .code) := by decide +kernel

/-- C36 (violated): a set_stream_line_column/3 that fails forgets the lengths of the lines: here the newline of the second line (length 3) is put back after
such a failure, and the line position is 1 instead of 3. -/
theorem C36_failed_line_column :
    ∃ file : List Int, (run (openStm file textProp (fun _ => 0) (fun _ => 0))
      (List.replicate 6 .get ++ [.setLC 9 1, .unget 10])).map (fun r => (r.1.drop 6, (getPosition r.2).2.2)) = some ([.fail, .ok], (1, 1)) ∧
    (run (openStm file textProp (fun _ => 0) (fun _ => 0)) (List.replicate 6 .get ++ [.unget 10])).map (fun r => (getPosition r.2).2.2) = some (1, 3) :=
  ⟨[97, 10, 97, 98, 99, 10, 97, 10], by decide +kernel, by decide +kernel⟩

/-! ### seek/4, get_key/2, string streams -/

/-- C36 (violated): seek/4 from the current position does not count the codes looked ahead: for every file of two codes or more, after a peek
`seek(S, current, 0, Loc)` moves the stream one code forward. -/
theorem C36_seek_current_skips (a b : Int) (rest : List Int) (g1 g2 : Nat → Int) :
    let s := openStm (a :: b :: rest) ⟨false, true, true, .eofCode⟩ g1 g2
    let s := (peekc s).2
    (peekc (openStm (a :: b :: rest) ⟨false, true, true, .eofCode⟩ g1 g2)).1 = .code a ∧ (getPosition s).1 = 0 ∧
    (seek4 s .cur 0).1 = some 1 ∧ (getc (seek4 s .cur 0).2).1 = .code b := by
  refine ⟨rfl, rfl, rfl, rfl⟩

/-- C36 (violated): after `seek(S, eof, 0, Loc)` the location is right but the character count is the offset given, 0, for every file. -/
theorem C36_seek_eof_count (file : List Int) (g1 g2 : Nat → Int) :
    let s := openStm file ⟨false, true, true, .eofCode⟩ g1 g2
    (seek4 s .«end» 0).1 = some (file.length : Int) ∧ (getPosition (seek4 s .«end» 0).2).2.1 = 0 := by
  have e : setPosition (openStm file ⟨false, true, true, .eofCode⟩ g1 g2) .«end» 0 0 0 0 =
      (true, { openStm file ⟨false, true, true, .eofCode⟩ g1 g2 with pos := file.length }) := by
    unfold setPosition callSeek
    dsimp only
    rw [if_neg (by simp [openStm])]
    simp [openStm, pbInit]
  simp only [seek4, e]
  refine ⟨?_, rfl⟩
  simp [getPosition, openStm]
  omega

/-- C36: `seek(S, bof, N, Loc)` to an offset of the file goes there, with the right character count, from any state of a binary stream. -/
theorem C36_seek_bof {file p s a} {n : Nat} (hf : ∀ c ∈ file, c ≠ EOF) (hr : p.reposition = true) (ht : p.text = false) (h : Reach file p s a) (hn : n ≤ file.length) :
    (seek4 s .set n).1 = some (n : Int) ∧ (getPosition (seek4 s .set n).2).2.1 = n ∧ R file p (seek4 s .set n).2 (Spec.at_ file n) := by
  have hR := reach_R hf h
  have := setPosition_sim (s := s) (p := p) (n := n) (cc := n) (lc := 0) (lp := 0) hf hn hR.src hR.prop rfl (by simp [ht])
  have e : setPosition s .set n n 0 0 = (true, (setPosition s .set n n 0 0).2) := by rw [← this.1]
  have hpos := getPosition_R this.2
  unfold seek4
  rw [e]
  refine ⟨?_, ?_, this.2⟩
  · dsimp only
    rw [hpos, hr]; simp [Spec.at_]; omega
  · dsimp only
    rw [hpos]; simp [Spec.at_]; omega

/-- C36 (violated): get_key/2 on a file reads the rest of the line but counts one character: after it the character count is 1 and the next line is read. -/
theorem C36_get_key_count (c : Int) (line rest : List Int) (g1 g2 : Nat → Int) (hc : 32 ≤ c) (hl : ∀ x ∈ line, 32 ≤ x) :
    let s := openStm (c :: line ++ NL :: rest) textProp g1 g2
    (getKey s).1 = .code c ∧ (getPosition (getKey s).2).2.1 = 1 ∧ (getKey s).2.pos = line.length + 2 := by
  have hsk : ∀ l : List Int, (∀ x ∈ l, 32 ≤ x) → skipLine (l ++ NL :: rest) = l.length + 1 := by
    intro l
    induction l with
    | nil => intro _; rfl
    | cons x l ih =>
      intro h
      rw [List.cons_append, skipLine, if_pos (h x (by simp)), ih (fun y hy => h y (by simp [hy]))]; rfl
  have h1 : c ≠ NL := by unfold NL; omega
  have h2 : c ≠ EOF := by unfold EOF; omega
  have e : getKey (openStm (c :: line ++ NL :: rest) textProp g1 g2) =
      (.code c, { openStm (c :: line ++ NL :: rest) textProp g1 g2 with pos := 1 + skipLine (line ++ NL :: rest), charCount := 1, linePos := 1 }) := by
    simp [getKey, beforeReading, openStm, pbEmpty, callGetc, updateCounters, h1, h2]
  intro s
  have hs : getKey s = _ := e
  rw [hs, hsk line hl]
  refine ⟨rfl, rfl, ?_⟩
  show 1 + (line.length + 1) = _
  omega

/-- C36: a string stream (read_term_from_atom/3, open_input_codes_stream/2 and their like) gives the bytes of the string in order, those above 127 also,
and then the end of file.  Atoms, chars and codes have no NUL (Is_Valid_Code, atom.h:85). -/
theorem C36_string_answers (bytes : List Nat) (p : Props) (g1 g2 : Nat → Int) (ops : List Op) (hb : ∀ b ∈ bytes, b ≠ 0)
    (hl : Spec.LegalRun (bytes.map Int.ofNat) p (Spec.at_ (bytes.map Int.ofNat) 0) ops) :
    (run (openStm (strSrc bytes) p g1 g2) ops).map Prod.fst = some (Spec.run (bytes.map Int.ofNat) p (Spec.at_ (bytes.map Int.ofNat) 0) ops).1 := by
  have e : strSrc bytes = bytes.map Int.ofNat := by
    unfold strSrc
    congr 1
    clear hl
    induction bytes with
    | nil => rfl
    | cons b l ih =>
      rw [List.takeWhile_cons, if_pos (by simpa using hb b (by simp)), ih fun x hx => hb x (by simp [hx])]
  rw [e]
  refine C36_answers _ p g1 g2 ops ?_ hl
  intro c hc
  obtain ⟨b, _, rfl⟩ := List.mem_map.1 hc
  unfold EOF
  show (b : Int) ≠ -1
  omega

/-- A text with several lines, look ahead, put back over newlines, a position set again, an end of file read. -/
def exFile : List Int := [97, 10, 98, 99, 10, 10, 100]
def exOps : List Op := [.get, .get, .peek, .get, .get, .get, .get, .unget 10, .unget 10, .eos, .unget 99, .get, .setLC 3 1, .get, .get, .setPos 1 1 0 1, .peek]

/-- `C36_answers`, `C36_positions_partial`: a legal history. -/
example : Spec.LegalRun exFile textProp (Spec.at_ exFile 0) exOps := by
  refine ⟨trivial, trivial, trivial, trivial, trivial, trivial, trivial, ?_, ?_, trivial, ?_, trivial, ⟨rfl, rfl⟩, trivial, trivial, ?_, trivial, trivial⟩
  · exact ⟨by decide +kernel, by decide +kernel, by decide, by decide +kernel⟩
  · exact ⟨by decide +kernel, by decide +kernel, by decide, by decide +kernel⟩
  · exact ⟨by decide +kernel, by decide +kernel, by decide, by decide +kernel⟩
  · exact ⟨rfl, 1, by decide, rfl, rfl, fun _ => by decide +kernel⟩

example : (run (openStm exFile textProp (fun _ => 5) (fun _ => 7)) exOps).map (fun r => (r.1, getPosition r.2)) =
    some ([.code 97, .code 10, .code 98, .code 98, .code 99, .code 10, .code 10, .ok, .ok, .eosNot, .ok, .code 99, .ok, .code 10, .code 100, .ok, .code 10],
      (1, 1, 0, 1)) := by decide +kernel

/-- The column after each put back: 0 after the empty line, 2 and 1 in the line `bc`. -/
example : (run (openStm exFile textProp (fun _ => 5) (fun _ => 7)) (exOps.take 9)).map (fun r => (getPosition r.2).2) = some (4, 1, 2) := by decide +kernel

/-- `C36_peek_consumes_nothing`, `C36_unget_restores`, `C36_set_position`: a reachable stream that is not past its end. -/
example : ∃ s, Reach exFile textProp s (rd exFile exFile.length) ∧ (rd exFile exFile.length).past = false :=
  (reach_end exFile textProp (by decide)).imp fun _ h => ⟨h, rfl⟩

/-- `C36_string_answers`: a string `a`, 255, `b`. -/
example : (run (openStm (strSrc [97, 255, 98]) textProp (fun _ => 5) (fun _ => 7)) [.get, .get, .get, .get]).map Prod.fst =
    some [.code 97, .code 255, .code 98, .code EOF] := by decide +kernel

end Gp.Stream
