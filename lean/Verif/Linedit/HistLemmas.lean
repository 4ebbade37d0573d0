import Verif.Linedit.Lemmas
namespace Gp.Linedit

/-- The table of the history holds the lines of `d`, the line `h_no` is the one shown. -/
structure HR (cap : Nat) (h : Hist) (hno : Nat) (d : Doc) : Prop where
  tl : h.tbl.length = 64
  st : h.start < 64
  fn : h.fin = d.pushes % 64
  n : d.lines.length = min d.pushes 63
  ring : (h.start + d.lines.length) % 64 = h.fin
  good : ∀ j x, h.cell j = some x → 0 ∉ x.line ∧ x.len = x.line.length ∧ x.len ≤ x.buff ∧ x.line.length < cap
  cells : ∀ j, j ≤ d.lines.length → (j < d.lines.length ∨ d.h < d.lines.length) → ∃ x, h.cell ((h.start + j) % 64) = some x ∧ x.line = d.line j
  hh : d.h ≤ d.lines.length
  hno : hno = (h.start + d.h) % 64

theorem HR.lines_get {cap : Nat} {h : Hist} {hno : Nat} {d : Doc} (_ : HR cap h hno d) {j : Nat} (hj : j < d.lines.length) :
    d.lines[j]? = some (d.line j) := by
  simp [Doc.line, hj]

theorem cell_set {h : Hist} {no j : Nat} {y : Cell} (hno : no < h.tbl.length) :
    Hist.cell { h with tbl := h.tbl.set no (some y) } j = if j = no then some y else h.cell j := by
  simp only [Hist.cell, List.getElem?_set]
  by_cases e : no = j
  · subst e; simp [hno]
  · have : ¬ j = no := fun h => e h.symm
    simp [e, this]

theorem HR.empty_iff {cap : Nat} {h : Hist} {hno : Nat} {d : Doc} (r : HR cap h hno d) : h.empty = true ↔ d.lines = [] := by
  have h1 := r.st; have h2 := r.ring; have h3 := r.n
  simp only [Hist.empty, beq_iff_eq]
  rw [← List.length_eq_zero_iff]
  omega

theorem buffLen_ge (h : Hist) (no len : Nat) : len ≤ buffLen h no len := by
  simp only [buffLen]
  split
  · split <;> omega
  · omega

theorem update_ok {cap : Nat} {h : Hist} {hno : Nat} {d : Doc} (r : HR cap h hno d) {no j : Nat} (hj : j ≤ d.lines.length)
    (hno' : no = (h.start + j) % 64) {t : List Nat} (hz : 0 ∉ t) (hl : t.length < cap) :
    ∃ h', updateLine h t t.length no = some h' ∧ h'.start = h.start ∧ h'.fin = h.fin ∧ h'.tbl.length = 64 ∧
      (∀ j x, h'.cell j = some x → 0 ∉ x.line ∧ x.len = x.line.length ∧ x.len ≤ x.buff ∧ x.line.length < cap) ∧
      (∃ x, h'.cell no = some x ∧ x.line = t) ∧ (∀ k, k ≠ no → h'.cell k = h.cell k) := by
  have hb := buffLen_ge h no t.length
  have hlt : no < h.tbl.length := by rw [r.tl]; omega
  refine ⟨{ h with tbl := h.tbl.set no (some ⟨t, t.length, buffLen h no t.length⟩) }, ?_, rfl, rfl, ?_, ?_, ?_, ?_⟩
  · simp only [updateLine]; rw [if_neg (by omega)]
  · simp [r.tl]
  · intro k x hx
    rw [cell_set hlt] at hx
    split at hx
    · simp only [Option.some.injEq] at hx; subst hx; exact ⟨hz, rfl, hb, hl⟩
    · exact r.good k x hx
  · exact ⟨_, by rw [cell_set hlt, if_pos rfl], rfl⟩
  · intro k hk; rw [cell_set hlt, if_neg hk]

theorem save_len (d : Doc) : d.save.lines.length = d.lines.length := by
  simp only [Doc.save]; split <;> simp

theorem save_line (d : Doc) (hh : d.h ≤ d.lines.length) (j : Nat) (hj : j ≤ d.lines.length) :
    d.save.line j = if j = d.h then d.txt.all else d.line j := by
  by_cases h1 : d.h < d.lines.length
  · simp only [Doc.save, if_pos h1, Doc.line, List.length_set, List.getElem?_set]
    by_cases e : j = d.h
    · subst e; simp [h1]
    · have e' : ¬ d.h = j := fun h => e h.symm
      simp [e, e']
  · have e1 : d.h = d.lines.length := by omega
    simp only [Doc.save, if_neg h1, Doc.line]
    by_cases e : j = d.h
    · subst e; simp [h1]
    · have : j < d.lines.length := by omega
      simp [this, e]

theorem save_eqs (d : Doc) : d.save.txt = d.txt ∧ d.save.mark = d.mark ∧ d.save.clip = d.clip ∧ d.save.ins = d.ins ∧ d.save.lastEof = d.lastEof ∧
    d.save.pushes = d.pushes ∧ d.save.h = d.h := by
  simp only [Doc.save]; split <;> simp

/-- After the line shown is saved, every line is in the table. -/
structure HS (cap : Nat) (h : Hist) (d : Doc) : Prop where
  tl : h.tbl.length = 64
  st : h.start < 64
  fn : h.fin = d.pushes % 64
  n : d.lines.length = min d.pushes 63
  ring : (h.start + d.lines.length) % 64 = h.fin
  good : ∀ j x, h.cell j = some x → 0 ∉ x.line ∧ x.len = x.line.length ∧ x.len ≤ x.buff ∧ x.line.length < cap
  cells : ∀ j, j ≤ d.lines.length → ∃ x, h.cell ((h.start + j) % 64) = some x ∧ x.line = d.line j

theorem HS.toHR {cap : Nat} {h : Hist} {d d' : Doc} (r : HS cap h d) (e1 : d'.lines = d.lines) (e2 : d'.typed = d.typed)
    (e3 : d'.pushes = d.pushes) (hh : d'.h ≤ d.lines.length) : HR cap h ((h.start + d'.h) % 64) d' := by
  refine ⟨r.tl, r.st, by rw [e3]; exact r.fn, by rw [e1, e3]; exact r.n, by rw [e1]; exact r.ring, r.good, ?_, by rw [e1]; exact hh, rfl⟩
  intro j hj _
  rw [e1] at hj
  obtain ⟨x, h1, h2⟩ := r.cells j hj
  exact ⟨x, h1, by rw [h2]; simp only [Doc.line, e1, e2]⟩

theorem save_ok {cap : Nat} {h : Hist} {hno : Nat} {d : Doc} (r : HR cap h hno d) (hz : 0 ∉ d.txt.all) (hl : d.txt.all.length < cap) :
    ∃ h', updateLine h d.txt.all d.txt.all.length hno = some h' ∧ h'.start = h.start ∧ h'.fin = h.fin ∧ HS cap h' d.save := by
  obtain ⟨h', e1, e2, e3, e4, e5, ⟨y, e6, e7⟩, e8⟩ := update_ok r r.hh r.hno hz hl
  obtain ⟨q1, q2, q3, q4, q5, q6, q7⟩ := save_eqs d
  have hst := r.st; have hn := r.n; have hhh := r.hh; have hno' := r.hno
  refine ⟨h', e1, e2, e3, ⟨e4, by rw [e2]; exact r.st, by rw [e3, q6]; exact r.fn, by rw [save_len, q6]; exact r.n,
    by rw [e2, e3, save_len]; exact r.ring, e5, ?_⟩⟩
  intro j hj
  rw [save_len] at hj
  rw [save_line d r.hh j hj, e2]
  by_cases e : j = d.h
  · subst e
    rw [if_pos rfl, ← r.hno]
    exact ⟨y, e6, e7⟩
  · rw [if_neg e, e8 _ (by omega)]
    exact r.cells j hj (by omega)

theorem getLine_ok {cap : Nat} {h : Hist} {d : Doc} (r : HS cap h d) {m : List Nat} (hm : m.length = cap) {j : Nat} (hj : j ≤ d.lines.length) :
    ∃ q, getLine h m ((h.start + j) % 64) = some (d.line j ++ 0 :: q, (d.line j).length) ∧ (d.line j ++ 0 :: q).length = cap ∧
      0 ∉ d.line j ∧ (d.line j).length < cap := by
  obtain ⟨x, h1, h2⟩ := r.cells j hj
  obtain ⟨g1, g2, g3, g4⟩ := r.good _ x h1
  rw [h2] at g1 g2 g4
  refine ⟨m.drop ((d.line j).length + 1), ?_, ?_, g1, g4⟩
  · simp only [getLine, h1, h2, g2]
    rw [if_neg (by omega)]
  · simp; omega

theorem matchesAt_ok {cap : Nat} {h : Hist} {d : Doc} (r : HS cap h d) {j : Nat} (hj : j ≤ d.lines.length) (b : List Nat) :
    matchesAt h b ((h.start + j) % 64) = true ↔ b <+: d.line j := by
  obtain ⟨x, h1, h2⟩ := r.cells j hj
  simp only [matchesAt, h1, h2, beq_iff_eq]
  rw [List.prefix_iff_eq_take]
  exact ⟨fun h => h.symm, fun h => h.symm⟩

theorem histDec_ok {s j : Nat} : histDec ((s + (j + 1)) % 64) = (s + j) % 64 := by
  simp only [histDec, maxHist]
  by_cases h : (s + (j + 1)) % 64 = 0
  · rw [if_pos h]; omega
  · rw [if_neg h]; omega

theorem histInc_ok {s j : Nat} : histInc ((s + j) % 64) = (s + (j + 1)) % 64 := by
  rw [histInc]
  by_cases h : maxHist ≤ (s + j) % 64 + 1
  · rw [if_pos h]; simp only [maxHist] at h; omega
  · rw [if_neg h]; simp only [maxHist] at h; omega

theorem tryPrev_ok {cap : Nat} {h : Hist} {d : Doc} (r : HS cap h d) (b : List Nat) : ∀ j k, j ≤ d.lines.length → j < k →
    tryPrev h b k ((h.start + j) % 64) = ((h.start + (findUp d b j).getD 0) % 64, (findUp d b j).isSome) := by
  have hst := r.st; have hn := r.n
  intro j
  induction j with
  | zero =>
    intro k _ hk
    cases k with
    | zero => omega
    | succ k =>
      have : (h.start + 0) % 64 = h.start := by omega
      simp only [tryPrev, findUp, if_pos this]; rfl
  | succ j ih =>
    intro k hj hk
    cases k with
    | zero => omega
    | succ k =>
      have e : ¬ (h.start + (j + 1)) % 64 = h.start := by omega
      simp only [tryPrev, if_neg e, histDec_ok, findUp]
      by_cases hm : b <+: d.line j
      · rw [if_pos ((matchesAt_ok r (by omega) b).mpr hm), if_pos hm]; rfl
      · rw [if_neg (fun h => hm ((matchesAt_ok r (by omega) b).mp h)), if_neg hm]
        exact ih k (by omega) (by omega)

theorem tryNext_ok {cap : Nat} {h : Hist} {d : Doc} (r : HS cap h d) (b : List Nat) (hne : d.lines ≠ []) : ∀ i j k, j + i = d.lines.length → i < k →
    tryNext h b k ((h.start + j) % 64) = ((h.start + (findDown d b i j).getD d.lines.length) % 64, (findDown d b i j).isSome) := by
  have hst := r.st; have hn := r.n; have hring := r.ring
  have hpos : 0 < d.lines.length := List.length_pos_iff.mpr hne
  intro i
  induction i with
  | zero =>
    intro j k hj hk
    cases k with
    | zero => omega
    | succ k =>
      have e : h.start = h.fin ∨ (h.start + j) % 64 = h.fin := by right; rw [← hring]; congr 2
      simp only [tryNext, if_pos e, findDown]
      simp; omega
  | succ i ih =>
    intro j k hj hk
    cases k with
    | zero => omega
    | succ k =>
      have e : ¬ (h.start = h.fin ∨ (h.start + j) % 64 = h.fin) := by omega
      simp only [tryNext, if_neg e, histInc_ok, findDown]
      by_cases hm : b <+: d.line (j + 1)
      · rw [if_pos ((matchesAt_ok r (by omega) b).mpr hm), if_pos hm]; rfl
      · rw [if_neg (fun h => hm ((matchesAt_ok r (by omega) b).mp h)), if_neg hm]
        exact ih (j + 1) k (by omega) (by omega)

theorem findUp_lt (d : Doc) (b : List Nat) : ∀ j i, findUp d b j = some i → i < j ∧ b <+: d.line i := by
  intro j
  induction j with
  | zero => intro i h; simp [findUp] at h
  | succ j ih =>
    intro i h
    simp only [findUp] at h
    split at h
    · rename_i hp
      simp only [Option.some.injEq] at h; subst h; exact ⟨by omega, hp⟩
    · have := ih i h; exact ⟨by omega, this.2⟩

theorem findDown_le (d : Doc) (b : List Nat) : ∀ k j i, findDown d b k j = some i → j < i ∧ i ≤ j + k ∧ b <+: d.line i := by
  intro k
  induction k with
  | zero => intro j i h; simp [findDown] at h
  | succ k ih =>
    intro j i h
    simp only [findDown] at h
    split at h
    · rename_i hp
      simp only [Option.some.injEq] at h; subst h; exact ⟨by omega, by omega, hp⟩
    · have := ih (j + 1) i h; exact ⟨by omega, by omega, this.2.2⟩

theorem blank_iff (t : List Nat) : t.dropWhile (· == 32) = [] ↔ t.all (· == 32) = true := by
  induction t with
  | nil => simp
  | cons x t ih =>
    by_cases h : x = 32
    · simp [h] at ih ⊢; exact ih
    · simp [h]

theorem isDup_ok {cap : Nat} {h : Hist} {hno : Nat} {d : Doc} (r : HR cap h hno d) (t : List Nat) :
    isDup h t = some (decide (d.pushes % 64 ≠ 0 ∧ d.lines.getLast? = some t)) := by
  have hst := r.st; have hn := r.n; have hring := r.ring; have hfn := r.fn
  by_cases h0 : h.fin = 0
  · simp only [isDup, if_pos h0]
    rw [hfn] at h0
    simp [h0]
  · have h1 : 0 < d.lines.length := by omega
    obtain ⟨x, e1, e2⟩ := r.cells (d.lines.length - 1) (by omega) (Or.inl (by omega))
    have e3 : (h.start + (d.lines.length - 1)) % 64 = h.fin - 1 := by omega
    rw [e3] at e1
    have e4 : d.lines.getLast? = some x.line := by
      rw [List.getLast?_eq_getElem?, r.lines_get (by omega), e2]
    simp only [isDup, if_neg h0, e1, e4]
    rw [hfn] at h0
    simp only [Option.some.injEq, ne_eq, h0, not_false_iff, true_and]
    by_cases e : x.line = t <;> simp [e]

set_option maxHeartbeats 1600000 in
theorem add_ok {cap : Nat} {h : Hist} {hno : Nat} {d : Doc} (r : HR cap h hno d) (hz : 0 ∉ d.txt.all) (hl : d.txt.all.length < cap) :
    ∃ h', addLine h d.txt.all d.txt.all.length = some h' ∧ HR cap h' h'.fin d.add.fresh := by
  have hst := r.st; have hn := r.n; have hring := r.ring; have hfn := r.fn
  have same : HR cap h h.fin d.fresh := by
    refine ⟨r.tl, r.st, r.fn, r.n, r.ring, r.good, ?_, by simp [Doc.fresh], by simp [Doc.fresh, r.ring]⟩
    intro j hj hj2
    simp only [Doc.fresh] at hj hj2 ⊢
    exact r.cells j hj (by omega)
  by_cases hb : d.txt.all.all (· == 32) = true
  · refine ⟨h, ?_, ?_⟩
    · simp only [addLine, if_pos ((blank_iff _).mpr hb)]
    · simp only [Doc.add, if_pos hb]; exact same
  · have hb' : ¬ d.txt.all.dropWhile (· == 32) = [] := fun h => hb ((blank_iff _).mp h)
    by_cases hd : d.pushes % 64 ≠ 0 ∧ d.lines.getLast? = some d.txt.all
    · refine ⟨h, ?_, ?_⟩
      · simp only [addLine, if_neg hb', isDup_ok r, Option.bind_some]
        simp [hd]
      · simp only [Doc.add, if_neg hb, if_pos hd]; exact same
    · obtain ⟨h', e1, e2, e3, e4, e5, ⟨y, e6, e7⟩, e8⟩ := update_ok r (Nat.le_refl _) r.ring.symm hz hl
      have ei : histInc h'.fin = (h.start + (d.lines.length + 1)) % 64 := by
        rw [e3, ← hring]; exact histInc_ok
      have ei2 : histInc h'.start = (h.start + 1) % 64 := by
        rw [e2]; have := @histInc_ok h.start 0; rw [show (h.start + 0) % 64 = h.start by omega] at this; exact this
      have push : ∃ h2, pushLine h d.txt.all d.txt.all.length = some h2 ∧ h2.tbl = h'.tbl ∧
          h2.fin = (h.start + (d.lines.length + 1)) % 64 ∧ h2.start = if d.lines.length = 63 then (h.start + 1) % 64 else h.start := by
        simp only [pushLine, e1, Option.map_some, ei, ei2]
        rw [e2]
        by_cases q : d.lines.length = 63
        · have : (h.start + (d.lines.length + 1)) % 64 = h.start := by omega
          rw [if_pos this, if_pos q]; exact ⟨_, rfl, rfl, rfl, rfl⟩
        · have : ¬ (h.start + (d.lines.length + 1)) % 64 = h.start := by omega
          rw [if_neg this, if_neg q]; exact ⟨_, rfl, rfl, rfl, rfl⟩
      obtain ⟨h2, p1, p2, p3, p4⟩ := push
      refine ⟨h2, ?_, ?_⟩
      · simp only [addLine, if_neg hb', isDup_ok r, Option.bind_some]
        rw [if_neg (by simpa using hd)]; exact p1
      · have ec : ∀ k, h2.cell k = h'.cell k := by intro k; simp only [Hist.cell, p2]
        have elen : ((d.lines ++ [d.txt.all]).drop (d.lines.length + 1 - 63)).length = min (d.pushes + 1) 63 := by
          simp; omega
        simp only [Doc.add, if_neg hb, if_neg hd]
        refine ⟨by rw [p2]; exact e4, (by
          rw [p4]
          by_cases q : d.lines.length = 63
          · rw [if_pos q]; omega
          · rw [if_neg q]; omega), ?_, elen, ?_, ?_, ?_, by simp [Doc.fresh], ?_⟩
        · simp only [Doc.fresh]; rw [p3]; clear p1 p2 p3 p4 ec e8 e6 e5 hd hb hb'; omega
        · simp only [Doc.fresh]; rw [elen, p3, p4]
          by_cases q : d.lines.length = 63
          · rw [if_pos q]; omega
          · rw [if_neg q]; omega
        · intro j x hx; rw [ec] at hx; exact e5 j x hx
        · intro j hj hj2
          simp only [Doc.fresh] at hj hj2
          rw [elen] at hj hj2
          have hj3 : j < min (d.pushes + 1) 63 := by omega
          rw [ec]
          have key : ∀ i, i ≤ d.lines.length → ∃ x, h'.cell ((h.start + i) % 64) = some x ∧ (d.lines ++ [d.txt.all])[i]? = some x.line := by
            intro i hi
            by_cases ie : i = d.lines.length
            · subst ie
              rw [hring]
              exact ⟨y, e6, by simp [e7]⟩
            · obtain ⟨x, f1, f2⟩ := r.cells i hi (Or.inl (by omega))
              refine ⟨x, ?_, ?_⟩
              · rw [e8 _ (by omega)]; exact f1
              · rw [List.getElem?_append_left (by omega), r.lines_get (by omega), f2]
          obtain ⟨x, f1, f2⟩ := key (j + (d.lines.length + 1 - 63)) (by omega)
          refine ⟨x, ?_, ?_⟩
          · rw [← f1, p4]; congr 1
            by_cases q : d.lines.length = 63
            · rw [if_pos q]; omega
            · rw [if_neg q]; omega
          · simp only [Doc.line, Doc.fresh, elen, if_pos hj3, List.getElem?_drop]
            rw [Nat.add_comm, f2]; rfl
        · simp only [Doc.fresh]; rw [elen, p3, p4]
          by_cases q : d.lines.length = 63
          · rw [if_pos q]; omega
          · rw [if_neg q]; omega

end Gp.Linedit
