import Verif.Linedit.Act2
namespace Gp.Linedit

section
variable {c : Cfg} {s : St} {d : Doc}

theorem save_step (r : R c s d) : ∃ m h, save s = some { s with mem := m, hist := h } ∧ TR c.cap m s.pos s.fin d.txt ∧ HS c.cap h d.save ∧
    h.start = s.hist.start ∧ h.fin = s.hist.fin := by
  obtain ⟨q, h1, h2⟩ := r.t.set_fin 0
  obtain ⟨h', e1, e2, e3, e4⟩ := save_ok r.hist r.t.nz r.t.room_all
  have e5 : d.txt.all ++ 0 :: q = d.txt.before ++ (d.txt.after ++ 0 :: q) := by simp [Txt.all]
  have e6 : str0 (d.txt.before ++ (d.txt.after ++ 0 :: q)) = some d.txt.all := by rw [← e5]; exact str0_ok r.t.nz
  have e7 : s.fin.toNat = d.txt.all.length := by rw [r.t.fin_all]; simp
  refine ⟨d.txt.before ++ (d.txt.after ++ 0 :: q), h', ?_, h2, e4, e2, e3⟩
  simp only [save, h1, Option.bind_some, e6, e7, e1, Option.map_some]

theorem R.ofSave (r : R c s d) {m : List Nat} {h : Hist} (hs : HS c.cap h d.save) {j : Nat} (hj : j ≤ d.lines.length) {t : Txt} {p e : Int}
    (ht : TR c.cap m p e t) {no : Nat} (hno : no = (h.start + j) % 64) :
    R c { s with mem := m, hist := h, fin := e, pos := p, hno := no } { d.save with h := j, txt := t } := by
  obtain ⟨q1, q2, q3, q4, q5, q6, q7⟩ := save_eqs d
  refine ⟨ht, by simp only [q2]; exact r.mark, by simp only [q3]; exact r.clip, by simp only [q3]; exact r.clipz, by simp only [q4]; exact r.ins,
    by simp only [q5]; exact r.eof, ?_⟩
  subst hno
  exact hs.toHR (d' := { d.save with h := j, txt := t }) rfl rfl rfl (by simp only [save_len]; exact hj)

theorem show_ok (r : R c s d) {m : List Nat} {h : Hist} (hm : m.length = c.cap) (hs : HS c.cap h d.save) {j : Nat} (hj : j ≤ d.lines.length)
    {no : Nat} (hno : no = (h.start + j) % 64) : Ok c (showLine { s with mem := m, hist := h } no) (some (d.goTo j, .go)) := by
  obtain ⟨q, g1, g2, g3, g4⟩ := getLine_ok hs hm (j := j) (by rw [save_len]; exact hj)
  rw [← hno] at g1
  simp only [showLine, g1, Option.map_some, Doc.goTo]
  refine Ok.mk (r.ofSave hs hj (t := ⟨d.save.line j, []⟩) ⟨g2, ⟨0 :: q, by simp⟩, rfl, by simp, by simpa using g4, g3, by simp⟩ hno)

theorem empty_iff (r : R c s d) : s.hist.empty = true ↔ d.lines = [] := r.hist.empty_iff

theorem hno_start (r : R c s d) : s.hno = s.hist.start ↔ d.h = 0 := by
  have h1 := r.hist.st; have h2 := r.hist.hno; have h3 := r.hist.hh; have h4 := r.hist.n
  omega

theorem hno_fin (r : R c s d) : s.hno = s.hist.fin ↔ d.h = d.lines.length := by
  have h1 := r.hist.st; have h2 := r.hist.hno; have h3 := r.hist.hh; have h4 := r.hist.n; have h5 := r.hist.ring
  omega

theorem ok_up (r : R c s d) : Ok c (act c s .up) (specAct c d .up) := by
  simp only [act, specAct, empty_iff r, hno_start r]
  by_cases h : d.lines = [] ∨ d.h = 0
  · rw [if_pos h, if_pos h]; exact Ok.mk r
  · rw [if_neg h, if_neg h]
    obtain ⟨m, h', e1, e2, e3, e4, e5⟩ := save_step r
    rw [e1, Option.bind_some]
    have hh := r.hist.hh
    refine show_ok r e2.len e3 (j := d.h - 1) (by omega) ?_
    have := @histDec_ok s.hist.start (d.h - 1)
    rw [show d.h - 1 + 1 = d.h by omega] at this
    simp only [r.hist.hno, e4, this]

theorem ok_down (r : R c s d) : Ok c (act c s .down) (specAct c d .down) := by
  simp only [act, specAct, empty_iff r, hno_fin r]
  by_cases h : d.lines = [] ∨ d.h = d.lines.length
  · rw [if_pos h, if_pos h]; exact Ok.mk r
  · rw [if_neg h, if_neg h]
    obtain ⟨m, h', e1, e2, e3, e4, e5⟩ := save_step r
    rw [e1, Option.bind_some]
    have hh := r.hist.hh
    refine show_ok r e2.len e3 (j := d.h + 1) (by omega) ?_
    simp only [r.hist.hno, e4, histInc_ok]

theorem ok_first (r : R c s d) : Ok c (act c s .first) (specAct c d .first) := by
  simp only [act, specAct, empty_iff r, hno_start r]
  by_cases h : d.lines = [] ∨ d.h = 0
  · rw [if_pos h, if_pos h]; exact Ok.mk r
  · rw [if_neg h, if_neg h]
    obtain ⟨m, h', e1, e2, e3, e4, e5⟩ := save_step r
    rw [e1, Option.bind_some]
    have h1 := r.hist.st
    exact show_ok r e2.len e3 (j := 0) (by omega) (by simp only [e4]; omega)

theorem ok_last (r : R c s d) : Ok c (act c s .last) (specAct c d .last) := by
  simp only [act, specAct, empty_iff r, hno_fin r]
  by_cases h : d.lines = [] ∨ d.h = d.lines.length
  · rw [if_pos h, if_pos h]; exact Ok.mk r
  · rw [if_neg h, if_neg h]
    obtain ⟨m, h', e1, e2, e3, e4, e5⟩ := save_step r
    rw [e1, Option.bind_some]
    exact show_ok r e2.len e3 (j := d.lines.length) (by omega) (by simp only [e4, e5, r.hist.ring])

theorem found_ok (r : R c s d) {m : List Nat} {h : Hist} (ht : TR c.cap m s.pos s.fin d.txt) (hs : HS c.cap h d.save) {dflt : Nat}
    (hd : dflt ≤ d.lines.length) {f : Option Nat} (hf : ∀ i, f = some i → i ≤ d.lines.length ∧ d.txt.before <+: d.save.line i) :
    Ok c (afterTry { s with mem := m, hist := h } ((h.start + f.getD dflt) % 64, f.isSome)) (some (d.save.found dflt f)) := by
  obtain ⟨q1, q2, q3, q4, q5, q6, q7⟩ := save_eqs d
  cases f with
  | none =>
    simp only [afterTry, Doc.found, Option.isSome_none, Option.getD_none]
    have := r.ofSave hs hd ht (no := (h.start + dflt) % 64) rfl
    have e : ({ d.save with h := dflt, txt := d.txt } : Doc) = { d.save with h := dflt } := by rw [← q1]
    rw [e] at this
    exact Ok.mk this
  | some i =>
    obtain ⟨h1, h2⟩ := hf i rfl
    obtain ⟨q, g1, g2, g3, g4⟩ := getLine_ok hs ht.len (j := i) (by rw [save_len]; exact h1)
    simp only [afterTry, Doc.found, Option.isSome_some, Option.getD_some, if_true, showMatch, g1, Option.map_some, q1]
    have hle : d.txt.before.length ≤ (d.save.line i).length := h2.length_le
    have ht2 : TR c.cap (d.save.line i ++ 0 :: q) s.pos ((d.save.line i).length : Nat) (at_ (d.save.line i) d.txt.before.length) := by
      refine TR.ofText (r := 0 :: q) (n := d.txt.before.length) g2 (by rw [Txt.at_all]) (by simp [at_]; omega) ht.pos ?_ ?_ ?_
      · rw [Txt.at_all]
      · rw [Txt.at_all]; exact g4
      · rw [Txt.at_all]; exact g3
    exact Ok.mk (r.ofSave hs h1 ht2 rfl)

theorem before_take (ht : TR c.cap s.mem s.pos s.fin d.txt) : s.mem.take s.pos.toNat = d.txt.before := by
  obtain ⟨q, hq⟩ := ht.text
  rw [ht.pos, hq]; simp

theorem ok_upMatch (r : R c s d) : Ok c (act c s .upMatch) (specAct c d .upMatch) := by
  simp only [act, specAct, empty_iff r, before_nil r]
  by_cases h : d.lines = [] ∨ d.txt.before = []
  · rw [if_pos h, if_pos h]; exact Ok.mk r
  · rw [if_neg h, if_neg h]
    obtain ⟨m, h', e1, e2, e3, e4, e5⟩ := save_step r
    rw [e1, Option.bind_some]
    have e6 := @before_take c { s with mem := m, hist := h' } d e2
    have hn := r.hist.n; have hh := r.hist.hh
    have e7 := tryPrev_ok e3 d.txt.before d.h maxHist (by rw [save_len]; exact hh) (by simp only [maxHist]; omega)
    simp only at e6
    have e8 : s.hno = (h'.start + d.h) % 64 := by rw [r.hist.hno, e4]
    simp only [e6, e8, e7]
    exact found_ok r e2 e3 (by omega) (fun i hi => by
      have := findUp_lt _ _ _ _ hi
      exact ⟨by omega, this.2⟩)

theorem ok_downMatch (r : R c s d) : Ok c (act c s .downMatch) (specAct c d .downMatch) := by
  simp only [act, specAct, empty_iff r, before_nil r]
  by_cases h : d.lines = [] ∨ d.txt.before = []
  · rw [if_pos h, if_pos h]; exact Ok.mk r
  · rw [if_neg h, if_neg h]
    obtain ⟨m, h', e1, e2, e3, e4, e5⟩ := save_step r
    rw [e1, Option.bind_some]
    have e6 := @before_take c { s with mem := m, hist := h' } d e2
    have hn := r.hist.n; have hh := r.hist.hh
    have hne : d.save.lines ≠ [] := by
      intro e
      have := congrArg List.length e
      rw [save_len] at this
      exact h (Or.inl (List.length_eq_zero_iff.mp (by simpa using this)))
    have e7 := tryNext_ok e3 d.txt.before hne (d.lines.length - d.h) d.h maxHist (by rw [save_len]; omega) (by simp only [maxHist]; omega)
    rw [save_len] at e7
    simp only at e6
    have e8 : s.hno = (h'.start + d.h) % 64 := by rw [r.hist.hno, e4]
    simp only [e6, e8, e7]
    exact found_ok r e2 e3 (by omega) (fun i hi => by
      have := findDown_le _ _ _ _ _ hi
      exact ⟨by omega, this.2.2⟩)

theorem TR.nil {cap : Nat} {m : List Nat} (hm : m.length = cap) (hc : 0 < cap) : TR cap m 0 0 ⟨[], []⟩ :=
  ⟨hm, ⟨m, rfl⟩, rfl, rfl, by simpa using hc, by simp, by simp⟩

theorem add_eqs (d : Doc) : d.add.txt = d.txt ∧ d.add.clip = d.clip ∧ d.add.ins = d.ins := by
  simp only [Doc.add]
  split
  · simp
  · split <;> simp

theorem ok_ret (r : R c s d) : Ok c (act c s .ret) (specAct c d .ret) := by
  obtain ⟨q, h1, h2⟩ := r.t.set_fin 0
  obtain ⟨h', a1, a2⟩ := add_ok r.hist r.t.nz r.t.room_all
  have hz := r.t.nz
  have e5 : d.txt.before ++ (d.txt.after ++ 0 :: q) = d.txt.all ++ 0 :: q := by simp [Txt.all]
  rw [e5] at h1 h2
  have e6 : str0 (d.txt.all ++ 0 :: q) = some d.txt.all := str0_ok hz
  have e7 : s.fin.toNat = d.txt.all.length := by rw [r.t.fin_all]; simp
  have hf := r.t.fin_all
  have hroom := r.t.room_all
  have hlen := h2.len
  simp only [List.length_append, List.length_cons] at hlen
  obtain ⟨b1, b2, b3⟩ := add_eqs d
  have fin : ∀ m2, m2.length = c.cap → R c (begin { s with mem := m2, hist := h' }) d.add.fresh := by
    intro m2 hm2
    exact ⟨TR.nil hm2 (by omega), rfl, by simp only [begin, Doc.fresh, b2]; exact r.clip, by simp only [Doc.fresh, b2]; exact r.clipz,
      by simp only [begin, Doc.fresh, b3]; exact r.ins, rfl, a2⟩
  simp only [act, ret, specAct, h1, Option.bind_some, e6, e7, a1]
  by_cases hs : d.txt.all.length + 1 < c.cap
  · have e8 : s.fin < c.size := by simp only [Cfg.size]; omega
    cases q with
    | nil => simp at hlen; omega
    | cons y q =>
      have w1 : wr (d.txt.all ++ 0 :: y :: q) s.fin 10 = some (d.txt.all ++ 10 :: y :: q) := wr_at 10 hf
      have w2 : wr (d.txt.all ++ 10 :: y :: q) (s.fin + 1) 0 = some (d.txt.all ++ [10] ++ 0 :: q) := by
        have := @wr_at (d.txt.all ++ [10]) q y 0 (s.fin + 1) (by rw [hf]; simp)
        simpa using this
      have w3 : str0 (d.txt.all ++ [10] ++ 0 :: q) = some (d.txt.all ++ [10]) := str0_ok (by simp [hz])
      simp only [retMem, if_pos e8, w1, Option.bind_some, w2, w3, Option.map_some, if_pos hs]
      exact Ok.mk (fin _ (by simp at hlen ⊢; omega))
  · have e8 : ¬ s.fin < c.size := by simp only [Cfg.size]; omega
    have w1 : wr (d.txt.all ++ 0 :: q) s.fin 0 = some (d.txt.all ++ 0 :: q) := wr_at 0 hf
    simp only [retMem, if_neg e8, w1, Option.bind_some, e6, Option.map_some, if_neg hs]
    exact Ok.mk (fin _ (by simp; omega))

theorem act_ok (G : Good c) (r : R c s d) (h32 : rd s.mem s.fin = some 32) (k : Key) : Ok c (act c s k) (specAct c d k) := by
  cases k with
  | home => exact ok_home r
  | fin => exact ok_fin r
  | left => exact ok_left r
  | right => exact ok_right r
  | back => exact ok_back r
  | del => exact ok_delete r
  | ctrlD => exact ok_delete r
  | killBeg => exact ok_killBeg r
  | killEnd => exact ok_killEnd r
  | yank => exact ok_yank r
  | mark => exact ok_mark r
  | copy => exact ok_copy r
  | cut => exact ok_cut r
  | prevWord => exact ok_prevWord r
  | nextWord => exact ok_nextWord r
  | capit => exact ok_capit G r h32
  | lower => exact ok_lower G r
  | upper => exact ok_upper G r
  | complete w more => exact ok_complete r w more
  | tab => exact ok_tab r
  | insert => exact ok_insert r
  | swap => exact ok_swap r
  | ret => exact ok_ret r
  | up => exact ok_up r
  | down => exact ok_down r
  | upMatch => exact ok_upMatch r
  | downMatch => exact ok_downMatch r
  | first => exact ok_first r
  | last => exact ok_last r
  | char x => exact ok_char G r x

theorem set_space (r : R c s d) : ∃ m, wr s.mem s.fin 32 = some m ∧ TR c.cap m s.pos s.fin d.txt ∧ rd m s.fin = some 32 := by
  obtain ⟨q, h1, h2⟩ := r.t.set_fin 32
  refine ⟨_, h1, h2, ?_⟩
  have e : d.txt.before ++ (d.txt.after ++ 32 :: q) = (d.txt.before ++ d.txt.after) ++ 32 :: q := by simp
  rw [e]; exact rd_at (by rw [r.t.fin]; simp)

theorem step_ok (G : Good c) (r : R c s d) (k : Key) : Ok c (step c s k) (specStep c d k) := by
  obtain ⟨m, h1, h2, h3⟩ := set_space r
  simp only [step, specStep, h1, Option.bind_some]
  have e : s.fin = 0 ↔ d.txt.all = [] := by rw [r.t.fin_all, ← List.length_eq_zero_iff]; omega
  by_cases hk : k = .ctrlD ∧ d.txt.all = []
  · rw [if_pos hk, if_pos (⟨hk.1, e.mpr hk.2⟩ : k = .ctrlD ∧ s.fin = 0)]
    by_cases he : d.lastEof = true
    · rw [if_pos he, if_pos (r.eof.trans he)]
      exact Ok.mk ⟨h2, r.mark, r.clip, r.clipz, r.ins, r.eof, r.hist⟩
    · rw [if_neg he, if_neg (fun h => he (r.eof.symm.trans h))]
      have hroom := r.t.room
      refine Ok.mk ⟨TR.nil h2.len (by omega), rfl, r.clip, r.clipz, r.ins, rfl, ?_⟩
      have hr := r.hist
      refine ⟨hr.tl, hr.st, hr.fn, hr.n, hr.ring, hr.good, ?_, by simp [Doc.fresh], by simp [begin, Doc.fresh, hr.ring]⟩
      intro j hj hj2
      simp only [Doc.fresh] at hj hj2 ⊢
      exact hr.cells j hj (by omega)
  · rw [if_neg hk, if_neg (fun h => hk ⟨h.1, e.mp h.2⟩)]
    exact act_ok (s := { s with mem := m, lastEof := decide (k = .ctrlD) }) (d := { d with lastEof := decide (k = .ctrlD) }) G
      ⟨h2, r.mark, r.clip, r.clipz, r.ins, rfl, r.hist.congr rfl rfl rfl rfl⟩ h3 k

end

theorem run_ok {c : Cfg} (G : Good c) (ks : List Key) : ∀ (s : St) (d : Doc), R c s d → ∀ d' os, specRun c d ks = some (d', os) →
    ∃ s', run c s ks = some (s', os) ∧ R c s' d' := by
  induction ks with
  | nil =>
    intro s d r d' os h
    simp only [specRun, Option.some.injEq, Prod.mk.injEq] at h
    obtain ⟨rfl, rfl⟩ := h
    exact ⟨s, rfl, r⟩
  | cons k ks ih =>
    intro s d r d' os h
    simp only [specRun] at h
    cases h1 : specStep c d k with
    | none => rw [h1] at h; cases h
    | some q =>
      rw [h1, Option.bind_some] at h
      obtain ⟨s1, e1, r1⟩ := step_ok G r k q.1 q.2 h1
      cases h2 : specRun c q.1 ks with
      | none => rw [h2] at h; cases h
      | some p =>
        rw [h2, Option.map_some] at h
        simp only [Option.some.injEq, Prod.mk.injEq] at h
        obtain ⟨rfl, rfl⟩ := h
        obtain ⟨s2, e2, r2⟩ := ih s1 q.1 r1 p.1 p.2 h2
        exact ⟨s2, by simp only [run, e1, Option.bind_some, e2, Option.map_some], r2⟩

theorem init_ok {c : Cfg} (m : List Nat) (hm : m.length = c.cap) (hc : 0 < c.cap) : R c (init m) start := by
  refine ⟨TR.nil hm hc, rfl, rfl, by simp [start], rfl, rfl, ?_⟩
  have hcell : ∀ j, (init m).hist.cell j = none := by
    intro j
    simp only [init, Hist.cell, List.getElem?_replicate]
    split <;> rfl
  refine ⟨by simp [init, maxHist], by simp [init], by simp [init, start], by simp [start], by simp [start, init], ?_, ?_, by simp [start], by simp [init, start]⟩
  · intro j x h; rw [hcell] at h; cases h
  · intro j hj h; simp [start] at h

end Gp.Linedit
