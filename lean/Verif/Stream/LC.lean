import Verif.Stream.Sim
namespace Gp.Stream
open Spec (lines col)

/-- The stream of a program that has read `k` codes from the beginning. -/
def rd (file : List Int) (k : Nat) : Spec.S := ⟨(file.take k).reverse, file.drop k, 0, k, false, false, 0⟩

theorem rd_get {file : List Int} {k : Nat} (h : k < file.length) : Spec.getBody (rd file k) = (file[k], rd file (k + 1)) := by
  unfold Spec.getBody rd
  rw [List.drop_eq_getElem_cons h]
  have e : (file.take (k + 1)).reverse = file[k] :: (file.take k).reverse := by
    rw [List.take_add_one, List.getElem?_eq_getElem h, List.reverse_append]; rfl
  dsimp only
  rw [e, ite_self]

theorem rd_eof {file : List Int} {k : Nat} (h : file.length ≤ k) : (Spec.getBody (rd file k)).1 = EOF := by
  unfold Spec.getBody rd
  rw [List.drop_eq_nil_of_le h]

theorem lines_succ {file : List Int} {k : Nat} (h : k < file.length) : lines (file.take (k + 1)) = lines (file.take k) + if file[k] = NL then 1 else 0 := by
  rw [List.take_add_one, List.getElem?_eq_getElem h, lines_append]
  simp only [Option.toList_some, lines_cons]
  simp [lines]

theorem col_succ {file : List Int} {k : Nat} (h : k < file.length) :
    col (file.take (k + 1)).reverse = if file[k] = NL then 0 else col (file.take k).reverse + 1 := by
  rw [List.take_add_one, List.getElem?_eq_getElem h, List.reverse_append]
  simp only [Option.toList_some, List.reverse_cons, List.reverse_nil, List.nil_append, List.singleton_append, col_cons]

theorem lines_mono {file : List Int} {i j : Nat} (h : i ≤ j) : lines (file.take i) ≤ lines (file.take j) := by
  obtain ⟨d, rfl⟩ : ∃ d, j = i + d := ⟨j - i, by omega⟩
  rw [List.take_add, lines_append]; omega

/-- A getc in the loops: the push-back stack is empty and the end has not been read. -/
theorem getc_rd {file p s} {k : Nat} (h : R file p s (rd file k)) :
    (getc s).1 = .code (Spec.getBody (rd file k)).1 ∧ (k < file.length → R file p (getc s).2 (rd file (k + 1))) ∧
    (getc s).2.pbChar = s.pbChar ∧ (getc s).2.src = file ∧ (getc s).2.prop = p ∧ PbOk (getc s).2.pbLine := by
  have hb : beforeReading s = .inr s := by
    unfold beforeReading
    rw [h.past, if_neg (by simp [rd])]
  have hg := getcBody_sim h
  have e : getc s = (.code (getcBody s).1, (getcBody s).2) := by unfold getc; rw [hb]
  rw [e]
  refine ⟨congrArg _ hg.1, ?_, ?_, hg.2.src, hg.2.prop, hg.2.okl⟩
  · intro hlt
    have := hg.2
    rwa [rd_get hlt] at this
  · have hc : contents s.pbChar = [] := by rw [h.pbc]; rfl
    have hpe : pbEmpty s.pbChar = true := (pbEmpty_iff _).2 hc
    have hfe : fetch s = callGetc s := by unfold fetch; rw [if_neg (by rw [hpe]; simp)]
    rw [getcBody_eq, hfe]
    unfold callGetc
    cases s.src[s.pos]? <;> simp only [updateCounters] <;> (repeat' split) <;> rfl

theorem loopLines_spec {file p} (ht : p.text = true) (hf : ∀ c ∈ file, c ≠ EOF) (n : Int) : ∀ (fuel k : Nat) (s : Stm), R file p s (rd file k) → k ≤ file.length →
    file.length + 2 ≤ fuel + k →
    (∃ j s', loopLines n fuel s = some (true, s') ∧ k ≤ j ∧ j ≤ file.length ∧ n ≤ lines (file.take j) ∧ (∀ i, k ≤ i → i < j → (lines (file.take i) : Int) < n) ∧
      R file p s' (rd file j) ∧ s'.pbChar = s.pbChar) ∨
    (∃ s', loopLines n fuel s = some (false, s') ∧ (∀ i, k ≤ i → i ≤ file.length → (lines (file.take i) : Int) < n) ∧ s'.pbChar = s.pbChar ∧ s'.src = file ∧
      s'.prop = p ∧ PbOk s'.pbLine)
  | 0, k, s, h, hk, hfu => by omega
  | fuel + 1, k, s, h, hk, hfu => by
    have hlc : s.lineCount = lines (file.take k) := by rw [h.lc ht]; simp [rd, lines_reverse]
    unfold loopLines
    by_cases hn : s.lineCount < n
    · rw [if_pos hn]
      have hg := getc_rd h
      dsimp only
      by_cases hlt : k < file.length
      · have hne : (getc s).1 ≠ .code EOF := by
          rw [hg.1, rd_get hlt]
          intro e; injection e with e
          exact hf _ (List.getElem_mem hlt) e
        rw [if_neg hne]
        have hext : ∀ i, k ≤ i → k + 1 ≤ i ∨ i = k := by omega
        rcases loopLines_spec ht hf n fuel (k + 1) _ (hg.2.1 hlt) (by omega) (by omega) with ⟨j, s', e, h1, h2, h3, h4, h5, h6⟩ | ⟨s', e, h1, h2, h3⟩
        · refine .inl ⟨j, s', e, by omega, h2, h3, ?_, h5, h6.trans hg.2.2.1⟩
          intro i hi hij
          rcases hext i hi with h | h
          · exact h4 i h hij
          · subst h; omega
        · refine .inr ⟨s', e, ?_, h2.trans hg.2.2.1, h3⟩
          intro i hi hil
          rcases hext i hi with h | h
          · exact h1 i h hil
          · subst h; omega
      · rw [if_pos (by rw [hg.1, rd_eof (by omega)])]
        refine .inr ⟨_, rfl, ?_, hg.2.2⟩
        intro i hi hil
        have : i = k := by omega
        subst this; omega
    · rw [if_neg hn]
      exact .inl ⟨k, s, rfl, by omega, hk, by omega, fun i _ _ => by omega, h, rfl⟩

theorem loopCols_spec {file p} (ht : p.text = true) (hf : ∀ c ∈ file, c ≠ EOF) (n : Int) : ∀ (fuel k : Nat) (s : Stm), R file p s (rd file k) → k ≤ file.length →
    file.length + 2 ≤ fuel + k →
    (∃ j s', loopCols n fuel s = some (true, s') ∧ k ≤ j ∧ j ≤ file.length ∧ n ≤ col (file.take j).reverse ∧
      (∀ i, k ≤ i → i < j → (col (file.take i).reverse : Int) < n) ∧ lines (file.take j) = lines (file.take k) ∧
      R file p s' (rd file j) ∧ s'.pbChar = s.pbChar) ∨
    (∃ j s', loopCols n fuel s = some (false, s') ∧ k ≤ j ∧ j ≤ file.length ∧ (∀ i, k ≤ i → i ≤ j → (col (file.take i).reverse : Int) < n) ∧
      lines (file.take j) = lines (file.take k) ∧ (∀ i, j < i → i ≤ file.length → lines (file.take j) < lines (file.take i)) ∧
      s'.pbChar = s.pbChar ∧ s'.src = file ∧ s'.prop = p ∧ PbOk s'.pbLine)
  | 0, k, s, h, hk, hfu => by omega
  | fuel + 1, k, s, h, hk, hfu => by
    have hlp : s.linePos = col (file.take k).reverse := by rw [h.lp ht]; simp [rd]
    unfold loopCols
    by_cases hn : s.linePos < n
    · rw [if_pos hn]
      have hg := getc_rd h
      dsimp only
      by_cases hlt : k < file.length
      · have hne : (getc s).1 ≠ .code EOF := by
          rw [hg.1, rd_get hlt]
          intro e; injection e with e
          exact hf _ (List.getElem_mem hlt) e
        rw [if_neg hne]
        by_cases hnl : file[k] = NL
        · rw [if_pos (by rw [hg.1, rd_get hlt, hnl])]
          refine .inr ⟨k, _, rfl, by omega, hk, ?_, rfl, ?_, hg.2.2⟩
          · intro i h1 h2
            have : i = k := by omega
            subst this; omega
          · intro i h1 h2
            have h3 := lines_succ hlt
            rw [if_pos hnl] at h3
            have h4 := lines_mono (file := file) (i := k + 1) (j := i) (by omega)
            omega
        · have hne' : (getc s).1 ≠ .code NL := by
            rw [hg.1, rd_get hlt]
            intro e; injection e with e
            exact hnl e
          rw [if_neg hne']
          have hl : lines (file.take (k + 1)) = lines (file.take k) := by rw [lines_succ hlt, if_neg hnl]; omega
          have hext : ∀ i, k ≤ i → k + 1 ≤ i ∨ i = k := by omega
          rcases loopCols_spec ht hf n fuel (k + 1) _ (hg.2.1 hlt) (by omega) (by omega) with
            ⟨j, s', e, h1, h2, h3, h4, h5, h6, h7⟩ | ⟨j, s', e, h1, h2, h3, h4, h5, h6, h7⟩
          · refine .inl ⟨j, s', e, by omega, h2, h3, ?_, by omega, h6, h7.trans hg.2.2.1⟩
            intro i hi hij
            rcases hext i hi with h | h
            · exact h4 i h hij
            · subst h; omega
          · refine .inr ⟨j, s', e, by omega, h2, ?_, by omega, h5, h6.trans hg.2.2.1, h7⟩
            intro i hi hij
            rcases hext i hi with h | h
            · exact h3 i h hij
            · subst h; omega
      · rw [if_pos (by rw [hg.1, rd_eof (by omega)])]
        refine .inr ⟨k, _, rfl, by omega, hk, ?_, rfl, fun i h1 h2 => by omega, hg.2.2⟩
        intro i hi hil
        have : i = k := by omega
        subst this; omega
    · rw [if_neg hn]
      exact .inl ⟨k, s, rfl, by omega, hk, by omega, fun i _ _ => by omega, rfl, h, rfl⟩

/-- The first prefix with `n` lines has exactly `n` lines and ends a line. -/
theorem first_line {file : List Int} {n : Int} (hn : 0 ≤ n) : ∀ {j : Nat}, j ≤ file.length → n ≤ lines (file.take j) →
    (∀ i, i < j → (lines (file.take i) : Int) < n) → (lines (file.take j) : Int) = n ∧ col (file.take j).reverse = 0
  | 0, _, h, _ => by simp [lines, col] at h ⊢; omega
  | j + 1, hj, h, hl => by
    have h1 := hl j (by omega)
    have h2 := lines_succ (show j < file.length by omega)
    have h3 := col_succ (show j < file.length by omega)
    split at h2
    · next hc => rw [if_pos hc] at h3; exact ⟨by omega, h3⟩
    · omega

/-- From the start of a line the first prefix with column `n` has exactly that column. -/
theorem first_col {file : List Int} {n : Int} {k : Nat} (hk : col (file.take k).reverse = 0) (hn : 0 ≤ n) : ∀ {j : Nat}, k ≤ j → j ≤ file.length →
    n ≤ col (file.take j).reverse → (∀ i, k ≤ i → i < j → (col (file.take i).reverse : Int) < n) → (col (file.take j).reverse : Int) = n := by
  intro j h1 h2 h3 h4
  rcases Nat.lt_or_ge k j with hlt | hge
  · obtain ⟨i, rfl⟩ : ∃ i, j = i + 1 := ⟨j - 1, by omega⟩
    have h5 := h4 i (by omega) (by omega)
    have h6 := col_succ (show i < file.length by omega)
    split at h6 <;> omega
  · have : j = k := by omega
    subst this; omega

theorem findLC_some {file : List Int} {l c : Int} {n : Nat} (hn : n ≤ file.length) (h1 : (lines (file.take n) : Int) + 1 = l)
    (h2 : (col (file.take n).reverse : Int) + 1 = c)
    (h3 : ∀ i, i < n → ¬ ((lines (file.take i) : Int) + 1 = l ∧ (col (file.take i).reverse : Int) + 1 = c)) : Spec.findLC file l c = some n := by
  unfold Spec.findLC
  rw [List.find?_range_eq_some]
  refine ⟨by simp [h1, h2], by simp; omega, ?_⟩
  intro j hj
  rw [decide_eq_false (h3 j hj)]; rfl

theorem findLC_none {file : List Int} {l c : Int}
    (h3 : ∀ i, i ≤ file.length → ¬ ((lines (file.take i) : Int) + 1 = l ∧ (col (file.take i).reverse : Int) + 1 = c)) : Spec.findLC file l c = none := by
  unfold Spec.findLC
  rw [List.find?_range_eq_none]
  intro j hj
  rw [decide_eq_false (h3 j (by omega))]; rfl

theorem setLC_sim {file p s a} {l c : Int} (hf : ∀ c ∈ file, c ≠ EOF) (h : R file p s a) (hl : Spec.Legal file p a (.setLC l c)) :
    ∃ r s', step s (.setLC l c) = some (r, s') ∧ r = (Spec.step file p a (.setLC l c)).1 ∧ R file p s' (Spec.step file p a (.setLC l c)).2 := by
  obtain ⟨_, ht⟩ := hl
  -- a state that differs by the stack of the line positions
  have hback : ∀ s' : Stm, s'.src = file → s'.prop = p → PbOk s'.pbLine → s'.pbChar = { s.pbChar with nb := 0 } →
      R file p { s' with eofReached := s.eofReached, charCount := s.charCount, lineCount := s.lineCount, linePos := s.linePos,
                         pbChar := { s'.pbChar with nb := s.pbChar.nb }, pos := s.pos } { a with since := 0 } := by
    intro s' h1 h2 h3 h4
    exact { src := h1, prop := h2, past := h.past, okc := by rw [h4]; exact h.okc, okl := h3, pbc := by rw [h4]; exact h.pbc, look := h.look, pos := h.pos,
            rest := h.rest, len := h.len, seen := h.seen, eoft := h.eoft, cc := h.cc, lc := h.lc, lp := h.lp, eofs := h.eofs, shape := h.shape, since := by simp,
            hist := fun _ => by simp [lines] }
  have hsame : R file p s { a with since := 0 } :=
    { src := h.src, prop := h.prop, past := h.past, okc := h.okc, okl := h.okl, pbc := h.pbc, look := h.look, pos := h.pos,
      rest := h.rest, len := h.len, seen := h.seen, eoft := h.eoft, cc := h.cc, lc := h.lc, lp := h.lp, eofs := h.eofs, shape := h.shape, since := by simp,
      hist := fun _ => by simp [lines] }
  simp only [step, setLineColumn, Spec.step]
  by_cases hg : l - 1 ≥ 0 ∧ c - 1 ≥ 0
  · rw [if_pos hg]
    unfold setPositionLC
    have hstart : ∀ b : Bool, R file p
        (if b then { s with pos := 0, charCount := 0, lineCount := 0, linePos := 0, pbChar := { s.pbChar with nb := 0 }, eofReached := false }
         else { s with pos := 0, charCount := 0, lineCount := 0, linePos := 0, pbChar := { s.pbChar with nb := 0 }, eofReached := false }) (rd file 0) := by
      intro b
      have := at_R (s := { s with pos := 0, charCount := 0, lineCount := 0, linePos := 0, pbChar := { s.pbChar with nb := 0 }, eofReached := false })
        (n := 0) hf (Nat.zero_le _) h.src h.prop rfl ⟨h.okc.ptr, by simp⟩ h.okl rfl rfl rfl (fun _ => by simp [lines]) (fun _ => by simp [col])
      split <;> exact this
    have hs1 : (if s.eofReached then
          { s with pos := 0, charCount := 0, lineCount := 0, linePos := 0, pbChar := { s.pbChar with nb := 0 }, eofReached := false }
        else { s with pos := 0, charCount := 0, lineCount := 0, linePos := 0, pbChar := { s.pbChar with nb := 0 } } : Stm) =
        { s with pos := 0, charCount := 0, lineCount := 0, linePos := 0, pbChar := { s.pbChar with nb := 0 }, eofReached := false } := by
      cases he : s.eofReached <;> simp
    dsimp only at hs1 ⊢
    rw [hs1]
    have hR0 := hstart true
    rw [if_pos rfl] at hR0
    dsimp only
    rw [h.src]
    rcases loopLines_spec ht hf (l - 1) (file.length + 2) 0 _ hR0 (by omega) (by omega) with
      ⟨j, s1, e1, _, hj, hge, hlt, hR1, hp1⟩ | ⟨s1, e1, hlt, hp1, hs, hpr, hok⟩
    · rw [h.src] at e1
      rw [e1]
      dsimp only
      have ⟨hlj, hcj⟩ := first_line hg.1 hj hge (fun i hi => hlt i (by omega) hi)
      rw [hR1.src]
      rcases loopCols_spec ht hf (c - 1) (file.length + 2) j _ hR1 hj (by omega) with
        ⟨j2, s2, e2, h1, h2, h3, h4, h5, hR2, hp2⟩ | ⟨j2, s2, e2, h1, h2, h3, h4, h5, hp2, hs, hpr, hok⟩
      · rw [e2]
        have hc2 := first_col hcj hg.2 h1 h2 h3 h4
        have hfind : Spec.findLC file l c = some j2 := by
          refine findLC_some h2 (by omega) (by omega) ?_
          rintro i hi ⟨g1, g2⟩
          rcases Nat.lt_or_ge i j with hij | hij
          · have := hlt i (by omega) hij; omega
          · have := h4 i hij hi; omega
        rw [hfind]
        refine ⟨_, _, rfl, rfl, ?_⟩
        refine at_R hf h2 hR2.src hR2.prop (by rw [hR2.past]; rfl) (pbInit_ok _) (pbInit_ok _) (pbInit_contents _) ?_ ?_ ?_ ?_
        · rw [hR2.pos]; simp [rd]; omega
        · rw [hR2.cc]; simp [rd]; omega
        · intro _; rw [hR2.lc ht]; simp [rd, lines_reverse]
        · intro _; rw [hR2.lp ht]; simp [rd]
      · rw [e2]
        have hfind : Spec.findLC file l c = none := by
          refine findLC_none ?_
          rintro i hi ⟨g1, g2⟩
          rcases Nat.lt_or_ge i j with hij | hij
          · have := hlt i (by omega) hij; omega
          · rcases Nat.lt_or_ge j2 i with hi2 | hi2
            · have := h5 i hi2 hi; omega
            · have := h3 i hij hi2; omega
        rw [hfind]
        exact ⟨_, _, rfl, rfl, hback s2 hs hpr hok (hp2.trans hp1)⟩
    · rw [h.src] at e1
      rw [e1]
      have hfind : Spec.findLC file l c = none := by
        refine findLC_none ?_
        rintro i hi ⟨g1, g2⟩
        have := hlt i (by omega) hi; omega
      rw [hfind]
      exact ⟨_, _, rfl, rfl, hback s1 hs hpr hok hp1⟩
  · rw [if_neg hg]
    have hfind : Spec.findLC file l c = none := findLC_none (by rintro i hi ⟨g1, g2⟩; omega)
    rw [hfind]
    exact ⟨_, _, rfl, rfl, hsame⟩

theorem step_sim {file p s a op} (hf : ∀ c ∈ file, c ≠ EOF) (h : R file p s a) (hl : Spec.Legal file p a op) :
    ∃ s', step s op = some ((Spec.step file p a op).1, s') ∧ R file p s' (Spec.step file p a op).2 := by
  cases op with
  | get => exact ⟨_, by rw [step, ← (getc_sim hf h).1], (getc_sim hf h).2⟩
  | peek => exact ⟨_, by rw [step, ← (peekc_sim hf h).1], (peekc_sim hf h).2⟩
  | unget c => exact ⟨_, rfl, ungetc_sim h hl⟩
  | eos => exact ⟨_, by rw [step, ← (eos_sim hf h).1], (eos_sim hf h).2⟩
  | setPos off cc lc lp =>
    obtain ⟨_, n, hn, rfl, h1, h2⟩ := hl
    have := setPosition_sim (s := s) hf hn h.src h.prop h1 h2
    refine ⟨(setPosition s .set n cc lc lp).2, ?_, this.2⟩
    rw [step]
    simp only [this.1]
    rfl
  | setLC l c =>
    obtain ⟨r, s', e, h1, h2⟩ := setLC_sim hf h hl
    exact ⟨s', by rw [e, h1], h2⟩

theorem run_sim {file p} (hf : ∀ c ∈ file, c ≠ EOF) : ∀ {ops s a}, R file p s a → Spec.LegalRun file p a ops →
    ∃ s', run s ops = some ((Spec.run file p a ops).1, s') ∧ R file p s' (Spec.run file p a ops).2
  | [], s, a, h, _ => ⟨s, rfl, h⟩
  | op :: ops, s, a, h, hl => by
    obtain ⟨s1, e1, h1⟩ := step_sim hf h hl.1
    obtain ⟨s2, e2, h2⟩ := run_sim hf h1 hl.2
    refine ⟨s2, ?_, h2⟩
    rw [run, e1]
    dsimp only
    rw [e2]; rfl

theorem open_R (file : List Int) (p : Props) (g1 g2) (hf : ∀ c ∈ file, c ≠ EOF) : R file p (openStm file p g1 g2) (Spec.at_ file 0) :=
  at_R hf (Nat.zero_le _) rfl rfl rfl ⟨by simp [openStm], by simp [openStm]⟩ ⟨by simp [openStm], by simp [openStm]⟩ rfl rfl rfl (fun _ => rfl) (fun _ => rfl)

end Gp.Stream
