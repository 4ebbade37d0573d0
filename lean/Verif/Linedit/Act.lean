import Verif.Linedit.HistLemmas
namespace Gp.Linedit

/-- What is assumed of the classes of characters: `'\0'` is not printable, the changes of case do not give `'\0'`, a space is not a letter. -/
structure Good (c : Cfg) : Prop where
  print0 : c.print 0 = false
  low0 : ∀ x, x ≠ 0 → c.toLow x ≠ 0
  up0 : ∀ x, x ≠ 0 → c.toUp x ≠ 0
  space : c.lower 32 = false
  cap0 : ∀ x, c.lower x = true → (x + 224) % 256 ≠ 0

/-- The state of the editor holds the document. -/
structure R (c : Cfg) (s : St) (d : Doc) : Prop where
  t : TR c.cap s.mem s.pos s.fin d.txt
  mark : s.mark = d.mark.map (fun k : Nat => (k : Int))
  clip : s.clip = d.clip
  clipz : 0 ∉ d.clip
  ins : s.ins = d.ins
  eof : s.lastEof = d.lastEof
  hist : HR c.cap s.hist s.hno d

theorem HR.congr {cap : Nat} {h : Hist} {hno : Nat} {d d' : Doc} (r : HR cap h hno d) (e1 : d'.lines = d.lines) (e2 : d'.typed = d.typed)
    (e3 : d'.pushes = d.pushes) (e4 : d'.h = d.h) : HR cap h hno d' := by
  obtain ⟨tx, mk, cl, i, li, ty, pu, hh, le⟩ := d
  obtain ⟨tx', mk', cl', i', li', ty', pu', hh', le'⟩ := d'
  simp only at e1 e2 e3 e4
  subst e1 e2 e3 e4
  exact ⟨r.tl, r.st, r.fn, r.n, r.ring, r.good, r.cells, r.hh, r.hno⟩

theorem R.edit {c : Cfg} {s : St} {d : Doc} (r : R c s d) {m : List Nat} {p e : Int} {t : Txt} (h : TR c.cap m p e t) :
    R c { s with mem := m, pos := p, fin := e } { d with txt := t } :=
  ⟨h, r.mark, r.clip, r.clipz, r.ins, r.eof, r.hist.congr rfl rfl rfl rfl⟩

theorem R.editClip {c : Cfg} {s : St} {d : Doc} (r : R c s d) {m : List Nat} {p e : Int} {t : Txt} (h : TR c.cap m p e t)
    {cl : List Nat} (hc : 0 ∉ cl) : R c { s with mem := m, pos := p, fin := e, clip := cl } { d with txt := t, clip := cl } :=
  ⟨h, r.mark, rfl, hc, r.ins, r.eof, r.hist.congr rfl rfl rfl rfl⟩

theorem snoc {l : List Nat} (h : l ≠ []) : ∃ b x, l = b ++ [x] := by
  rcases List.eq_nil_or_concat l with h1 | ⟨l', x, h1⟩
  · exact absurd h1 h
  · exact ⟨l', x, by simpa using h1⟩

theorem delLast_ok {cap : Nat} {s : St} {b a : List Nat} {x : Nat} (h : TR cap s.mem s.pos s.fin ⟨b ++ [x], a⟩) :
    ∃ m, delLast s = some ({ s with mem := m, pos := s.pos - 1, fin := s.fin - 1 }, .go) ∧ TR cap m (s.pos - 1) (s.fin - 1) ⟨b, a⟩ := by
  obtain ⟨r, hr⟩ := h.text
  have hp := h.pos; have hf := h.fin; have hl := h.len; have hroom := h.room; have hnb := h.nb; have hna := h.na
  simp only [List.length_append, List.length_cons, List.length_nil, List.mem_append, not_or] at hr hp hf hroom hnb hna
  obtain ⟨g, h1, h2⟩ := moveDown_ok a b [x] r s.pos 1 (by rw [hp]; simp) (by simp)
  have e : (s.fin - s.pos).toNat = a.length := by omega
  have e2 : s.mem = b ++ ([x] ++ (a ++ r)) := by rw [hr]; simp
  refine ⟨b ++ (a ++ (g ++ r)), ?_, ⟨?_, ⟨g ++ r, by simp⟩, by simp only []; omega, by simp only []; omega, by simp only []; omega, hnb.1, hna⟩⟩
  · simp only [delLast, e, e2, h2, Option.map_some]
  · rw [e2] at hl
    simp at hl h1 ⊢; omega

theorem cutOut_ok {cap : Nat} {s : St} {t : Txt} (h : TR cap s.mem s.pos s.fin t) {a g l cl : List Nat} (ht : t.all = a ++ (g ++ l))
    {start stop : Int} (h1 : start = a.length) (h2 : stop = a.length + g.length) :
    ∃ m, cutOut s cl start stop = some ({ s with mem := m, pos := start, fin := s.fin - (stop - start), clip := cl }, .go) ∧
      TR cap m start (s.fin - (stop - start)) ⟨a, l⟩ := by
  obtain ⟨r, hr⟩ := h.text
  have hf := h.fin; have hl := h.len; have hroom := h.room; have hnb := h.nb; have hna := h.na
  have hlen : t.before.length + t.after.length = a.length + (g.length + l.length) := by
    have := congrArg List.length ht; simpa [Txt.all] using this
  have hz : 0 ∉ a ++ (g ++ l) := by rw [← ht]; simp [Txt.all, hnb, hna]
  simp only [List.mem_append, not_or] at hz
  have e2 : s.mem = a ++ (g ++ (l ++ r)) := by
    have : s.mem = t.all ++ r := by rw [hr]; simp [Txt.all]
    rw [this, ht]; simp
  obtain ⟨g', q1, q2⟩ := moveDown_ok l a g r stop (stop - start) h2 (by omega)
  have e : (s.fin - stop).toNat = l.length := by omega
  refine ⟨a ++ (l ++ (g' ++ r)), ?_, ⟨?_, ⟨g' ++ r, by simp⟩, h1, by simp only []; omega, by simp only []; omega, hz.1, hz.2.2⟩⟩
  · simp only [cutOut, e, e2, q2, Option.map_some]
  · rw [e2] at hl; simp at hl ⊢; omega

theorem TR.mem_all {cap : Nat} {m : List Nat} {p e : Int} {t : Txt} (h : TR cap m p e t) : ∃ r, m = t.all ++ r := by
  obtain ⟨r, hr⟩ := h.text
  exact ⟨r, by rw [hr]; simp [Txt.all]⟩

theorem TR.nz {cap : Nat} {m : List Nat} {p e : Int} {t : Txt} (h : TR cap m p e t) : 0 ∉ t.all := by simp [Txt.all, h.nb, h.na]

theorem TR.fin_all {cap : Nat} {m : List Nat} {p e : Int} {t : Txt} (h : TR cap m p e t) : e = t.all.length := by rw [h.fin]; simp [Txt.all]

theorem TR.room_all {cap : Nat} {m : List Nat} {p e : Int} {t : Txt} (h : TR cap m p e t) : t.all.length < cap := by
  have := h.room; simpa [Txt.all] using this

/-- A change of the text which keeps its length. -/
theorem TR.change {cap : Nat} {m : List Nat} {p e : Int} {t : Txt} (h : TR cap m p e t) {t' : Txt} {m' r' : List Nat} {q : Int}
    (hm : m'.length = cap) (h1 : m' = t'.before ++ (t'.after ++ r')) (h2 : t'.all.length = t.all.length) (hq : q = t'.before.length)
    (hz : 0 ∉ t'.all) : TR cap m' q e t' := by
  have hr := h.room_all; have hf := h.fin_all
  simp only [Txt.all, List.length_append, List.mem_append, not_or] at *
  exact ⟨hm, ⟨r', h1⟩, hq, by omega, by omega, hz.1, hz.2⟩

/-- The result of the key is the one of the document. -/
def Ok (c : Cfg) (o : Option (St × Out)) (r : Option (Doc × Out)) : Prop :=
  ∀ d' x, r = some (d', x) → ∃ s', o = some (s', x) ∧ R c s' d'

theorem Ok.mk {c : Cfg} {s' : St} {d' : Doc} {x : Out} (h : R c s' d') : Ok c (some (s', x)) (some (d', x)) := by
  intro d x e
  simp only [Option.some.injEq, Prod.mk.injEq] at e
  obtain ⟨rfl, rfl⟩ := e
  exact ⟨s', rfl, h⟩

theorem Ok.none {c : Cfg} {o : Option (St × Out)} : Ok c o none := by intro d x e; cases e

section
variable {c : Cfg} {s : St} {d : Doc}

theorem act_move (r : R c s d) {n : Nat} (hn : n ≤ d.txt.all.length) {p : Int} (hp : p = n) :
    R c { s with pos := p } { d with txt := at_ d.txt.all n } := by
  subst hp; exact r.edit (r.t.move hn)

theorem ok_home (r : R c s d) : Ok c (act c s .home) (specAct c d .home) := by
  have := act_move r (n := 0) (p := 0) (by omega) rfl
  exact Ok.mk (by simpa [at_] using this)

theorem ok_fin (r : R c s d) : Ok c (act c s .fin) (specAct c d .fin) := by
  have := act_move r (n := d.txt.all.length) (p := s.fin) (by omega) r.t.fin_all
  exact Ok.mk (by simpa [at_] using this)

theorem ok_left (r : R c s d) : Ok c (act c s .left) (specAct c d .left) := by
  have hp := r.t.pos
  by_cases h : d.txt.before = []
  · have : s.pos = 0 := by rw [hp, h]; rfl
    simp only [act, specAct, if_pos h, if_pos this]; exact Ok.mk r
  · have hl : 0 < d.txt.before.length := List.length_pos_iff.mpr h
    have : ¬ s.pos = 0 := by omega
    simp only [act, specAct, if_neg h, if_neg this]
    exact Ok.mk (act_move r (by simp [Txt.all]; omega) (by omega))

theorem after_nil (r : R c s d) : s.pos = s.fin ↔ d.txt.after = [] := by
  rw [r.t.pos, r.t.fin, ← List.length_eq_zero_iff]; omega

theorem before_nil (r : R c s d) : s.pos = 0 ↔ d.txt.before = [] := by
  rw [r.t.pos, ← List.length_eq_zero_iff]; omega

theorem ok_right (r : R c s d) : Ok c (act c s .right) (specAct c d .right) := by
  have hp := r.t.pos
  by_cases h : d.txt.after = []
  · simp only [act, specAct, if_pos h, if_pos ((after_nil r).mpr h)]; exact Ok.mk r
  · have hl : 0 < d.txt.after.length := List.length_pos_iff.mpr h
    simp only [act, specAct, if_neg h, if_neg (fun e => h ((after_nil r).mp e))]
    exact Ok.mk (act_move r (by simp [Txt.all]; omega) (by omega))

theorem ok_back (r : R c s d) : Ok c (act c s .back) (specAct c d .back) := by
  by_cases h : d.txt.before = []
  · simp only [act, specAct, if_pos h, if_pos ((before_nil r).mpr h)]; exact Ok.mk r
  · simp only [act, specAct, if_neg h, if_neg (fun e => h ((before_nil r).mp e))]
    obtain ⟨b, x, hb⟩ := snoc h
    have ht := r.t
    have e : d.txt = ⟨b ++ [x], d.txt.after⟩ := by rw [← hb]
    rw [e] at ht
    obtain ⟨m, h1, h2⟩ := delLast_ok ht
    rw [h1, hb]
    simp only [List.dropLast_concat]
    exact Ok.mk (r.edit h2)

theorem ok_delete (r : R c s d) :
    Ok c (if s.pos = s.fin then some (s, .beep) else delLast { s with pos := s.pos + 1 })
      (if d.txt.after = [] then some (d, .beep) else some ({ d with txt := ⟨d.txt.before, d.txt.after.tail⟩ }, .go)) := by
  by_cases h : d.txt.after = []
  · simp only [if_pos h, if_pos ((after_nil r).mpr h)]; exact Ok.mk r
  · simp only [if_neg h, if_neg (fun e => h ((after_nil r).mp e))]
    cases ha : d.txt.after with
    | nil => exact absurd ha h
    | cons x a =>
      have r1 : R c { s with pos := s.pos + 1 } { d with txt := ⟨d.txt.before ++ [x], a⟩ } := by
        have := act_move r (n := d.txt.before.length + 1) (p := s.pos + 1) (by simp [Txt.all, ha]) (by rw [r.t.pos]; simp)
        have e1 : List.take (d.txt.before.length + 1) d.txt.before = d.txt.before := List.take_of_length_le (by omega)
        have e2 : List.drop (d.txt.before.length + 1) d.txt.before = [] := List.drop_of_length_le (by omega)
        simpa [at_, Txt.all, ha, List.take_append, List.drop_append, Nat.add_sub_cancel_left, e1, e2] using this
      obtain ⟨m, h1, h2⟩ := delLast_ok (s := { s with pos := s.pos + 1 }) r1.t
      rw [h1]
      exact Ok.mk (r.edit h2)

theorem ok_killBeg (r : R c s d) : Ok c (act c s .killBeg) (specAct c d .killBeg) := by
  simp only [act, specAct]
  by_cases h : d.txt.before.length < 4096
  · rw [if_pos h]
    obtain ⟨q, hq⟩ := r.t.text
    have hc : toClip s.mem 0 s.pos = some d.txt.before := by
      have := @toClip_ok d.txt.before [] (d.txt.after ++ q) 0 s.pos rfl (by rw [r.t.pos]; simp) h r.t.nb
      rw [hq]; simpa using this
    obtain ⟨m, h1, h2⟩ := @cutOut_ok c.cap s d.txt r.t [] d.txt.before d.txt.after d.txt.before (by simp [Txt.all]) 0 s.pos rfl (by rw [r.t.pos]; simp)
    rw [hc, Option.bind_some, h1]
    exact Ok.mk (r.editClip h2 r.t.nb)
  · rw [if_neg h]; exact Ok.none

theorem ok_killEnd (r : R c s d) : Ok c (act c s .killEnd) (specAct c d .killEnd) := by
  simp only [act, specAct]
  by_cases h : d.txt.after.length < 4096
  · rw [if_pos h]
    obtain ⟨q, hq⟩ := r.t.text
    have hc : toClip s.mem s.pos s.fin = some d.txt.after := by
      have := @toClip_ok d.txt.after d.txt.before q s.pos s.fin r.t.pos r.t.fin h r.t.na
      rw [hq]; exact this
    rw [hc, Option.map_some]
    have ht : TR c.cap s.mem s.pos s.pos ⟨d.txt.before, []⟩ :=
      ⟨r.t.len, ⟨d.txt.after ++ q, by simpa using hq⟩, r.t.pos, by simp [r.t.pos], by have := r.t.room; simp only []; simp; omega, r.t.nb, by simp⟩
    exact Ok.mk (r.editClip ht r.t.na)
  · rw [if_neg h]; exact Ok.none

theorem ok_chars (r : R c s d) (w : List Nat) (hw : 0 ∉ w) :
    ∃ m p e, newChars c s w = some ({ s with mem := m, pos := p, fin := e }, (typeChars c.cap d.ins d.txt w).2) ∧
      R c { s with mem := m, pos := p, fin := e } { d with txt := (typeChars c.cap d.ins d.txt w).1 } := by
  obtain ⟨m, p, e, h1, h2⟩ := newChars_ok c w s d.txt r.t hw
  have e1 : typeChars c.cap s.ins d.txt w = typeChars c.cap d.ins d.txt w := by rw [r.ins]
  rw [e1] at h1 h2
  exact ⟨m, p, e, h1, r.edit h2⟩

theorem ok_yank (r : R c s d) : Ok c (act c s .yank) (specAct c d .yank) := by
  obtain ⟨m, p, e, h1, h2⟩ := ok_chars r d.clip r.clipz
  have e1 : newChars c s s.clip = newChars c s d.clip := by rw [r.clip]
  simp only [act, specAct, e1, h1, Option.map_some, outOf, okOut]
  exact Ok.mk h2

theorem ok_tab (r : R c s d) : Ok c (act c s .tab) (specAct c d .tab) := by
  have e : tabSpaces c s.pos.toNat = 8 - (d.txt.before.length + c.prompt) % 8 := by simp [tabSpaces, r.t.pos]
  obtain ⟨m, p, e', h1, h2⟩ := ok_chars r (List.replicate (8 - (d.txt.before.length + c.prompt) % 8) 32) (by simp [List.mem_replicate])
  simp only [act, specAct, e, h1, Option.map_some, outOf, okOut]
  exact Ok.mk h2

theorem ok_complete (r : R c s d) (w : List Nat) (more : Bool) : Ok c (act c s (.complete w more)) (specAct c d (.complete w more)) := by
  simp only [specAct]
  by_cases hw : 0 ∈ w
  · rw [if_pos hw]; exact Ok.none
  · rw [if_neg hw]
    obtain ⟨m, p, e', h1, h2⟩ := ok_chars r w hw
    simp only [act, h1, Option.map_some, okOut]
    have : (if (typeChars c.cap d.ins d.txt w).2 = true ∧ more = false then Out.go else Out.beep) =
        (if ((typeChars c.cap d.ins d.txt w).2 && !more) = true then Out.go else Out.beep) := by
      cases (typeChars c.cap d.ins d.txt w).2 <;> cases more <;> rfl
    rw [this]
    exact Ok.mk h2

theorem ok_char (G : Good c) (r : R c s d) (x : Nat) : Ok c (act c s (.char x)) (specAct c d (.char x)) := by
  simp only [act, specAct]
  by_cases hx : c.print x = true
  · rw [if_pos hx, if_pos hx]
    have hx0 : x ≠ 0 := by rintro rfl; rw [G.print0] at hx; cases hx
    rcases newChar_ok c r.t x hx0 with ⟨h1, h2⟩ | ⟨t', m, p, e, h1, h2, h3⟩
    · rw [r.ins] at h1
      simp only [h1, h2, Option.map_some, outOf]; exact Ok.mk r
    · rw [r.ins] at h1
      simp only [h1, h2, Option.map_some, outOf]; exact Ok.mk (r.edit h3)
  · rw [if_neg hx, if_neg hx]; exact Ok.mk r

theorem ok_mark (r : R c s d) : Ok c (act c s .mark) (specAct c d .mark) :=
  Ok.mk ⟨r.t, by simp [r.t.pos], r.clip, r.clipz, r.ins, r.eof, r.hist.congr rfl rfl rfl rfl⟩

theorem ok_insert (r : R c s d) : Ok c (act c s .insert) (specAct c d .insert) :=
  Ok.mk ⟨r.t, r.mark, r.clip, r.clipz, by simp [r.ins], r.eof, r.hist.congr rfl rfl rfl rfl⟩

theorem span_text (t : List Nat) {i j : Nat} (h : i ≤ j) : t = t.take i ++ ((t.take j).drop i ++ t.drop j) := by
  have h1 : t.take i = (t.take j).take i := by rw [List.take_take, Nat.min_eq_left h]
  rw [h1, ← List.append_assoc, List.take_append_drop, List.take_append_drop]

theorem span_facts (r : R c s d) {k : Nat} (hk : k ≤ d.txt.all.length) (h4 : (d.span k).2 - (d.span k).1 < 4096) :
    let start := if (k : Int) < s.pos then (k : Int) else s.pos
    let stop := if (k : Int) < s.pos then s.pos else (k : Int)
    toClip s.mem start stop = some ((d.txt.all.take (d.span k).2).drop (d.span k).1) ∧
    start = (d.txt.all.take (d.span k).1).length ∧
    stop = (d.txt.all.take (d.span k).1).length + ((d.txt.all.take (d.span k).2).drop (d.span k).1).length ∧
    d.txt.all = d.txt.all.take (d.span k).1 ++ ((d.txt.all.take (d.span k).2).drop (d.span k).1 ++ d.txt.all.drop (d.span k).2) := by
  intro start stop
  have hp := r.t.pos
  have hb : d.txt.before.length ≤ d.txt.all.length := by simp [Txt.all]
  have hs1 : start = ((d.span k).1 : Nat) := by
    simp only [start, Doc.span]; split <;> omega
  have hs2 : stop = ((d.span k).2 : Nat) := by
    simp only [stop, Doc.span]; split <;> omega
  have hle : (d.span k).1 ≤ (d.span k).2 := by simp only [Doc.span]; omega
  have hle2 : (d.span k).2 ≤ d.txt.all.length := by simp only [Doc.span]; omega
  have htx := span_text d.txt.all hle
  have l1 : (d.txt.all.take (d.span k).1).length = (d.span k).1 := by simp; omega
  have l2 : ((d.txt.all.take (d.span k).2).drop (d.span k).1).length = (d.span k).2 - (d.span k).1 := by simp; omega
  obtain ⟨q, hq⟩ := r.t.mem_all
  refine ⟨?_, by rw [l1]; exact hs1, by rw [l1, l2]; omega, htx⟩
  have hz := r.t.nz
  rw [htx] at hz
  simp only [List.mem_append, not_or] at hz
  have := @toClip_ok ((d.txt.all.take (d.span k).2).drop (d.span k).1) (d.txt.all.take (d.span k).1) (d.txt.all.drop (d.span k).2 ++ q) start stop
    (by rw [l1]; exact hs1) (by rw [l1, l2]; omega) (by rw [l2]; exact h4) hz.2.1
  have e : s.mem = d.txt.all.take (d.span k).1 ++ ((d.txt.all.take (d.span k).2).drop (d.span k).1 ++ (d.txt.all.drop (d.span k).2 ++ q)) := by
    rw [hq]
    conv => lhs; rw [htx]
    simp only [List.append_assoc]
  rw [e]; exact this

theorem span_nz (r : R c s d) (i j : Nat) : 0 ∉ (d.txt.all.take j).drop i := by
  intro h
  exact r.t.nz (List.mem_of_mem_take (List.mem_of_mem_drop h))

theorem ok_copy (r : R c s d) : Ok c (act c s .copy) (specAct c d .copy) := by
  have hm := r.mark
  cases hk : d.mark with
  | none =>
    rw [hk] at hm
    simp only [act, specAct, hm, hk, Option.map_none]; exact Ok.mk r
  | some k =>
    rw [hk] at hm
    simp only [act, specAct, hm, hk, Option.map_some]
    by_cases h : k ≤ d.txt.all.length ∧ (d.span k).2 - (d.span k).1 < 4096
    · rw [if_pos h]
      have hf := span_facts r h.1 h.2
      simp only at hf
      rw [hf.1, Option.map_some]
      have := r.editClip r.t (span_nz r (d.span k).1 (d.span k).2)
      rw [← hk]
      exact Ok.mk ⟨this.t, by simp [hk, hm], rfl, this.clipz, r.ins, r.eof, r.hist.congr rfl rfl rfl rfl⟩
    · rw [if_neg h]; exact Ok.none

theorem ok_cut (r : R c s d) : Ok c (act c s .cut) (specAct c d .cut) := by
  have hm := r.mark
  cases hk : d.mark with
  | none =>
    rw [hk] at hm
    simp only [act, specAct, hm, hk, Option.map_none]; exact Ok.mk r
  | some k =>
    rw [hk] at hm
    simp only [act, specAct, hm, hk, Option.map_some]
    by_cases h : k ≤ d.txt.all.length ∧ (d.span k).2 - (d.span k).1 < 4096
    · rw [if_pos h]
      have hf := span_facts r h.1 h.2
      simp only at hf
      rw [hf.1, Option.bind_some]
      obtain ⟨m, h1, h2⟩ := @cutOut_ok c.cap s d.txt r.t _ _ _ ((d.txt.all.take (d.span k).2).drop (d.span k).1) hf.2.2.2 _ _ hf.2.1 hf.2.2.1
      rw [h1, ← hk]
      have := r.editClip h2 (span_nz r (d.span k).1 (d.span k).2)
      exact Ok.mk ⟨this.t, by simp [hk, hm], rfl, this.clipz, r.ins, r.eof, r.hist.congr rfl rfl rfl rfl⟩
    · rw [if_neg h]; exact Ok.none

theorem ok_swap (r : R c s d) : Ok c (act c s .swap) (specAct c d .swap) := by
  by_cases h1 : d.txt.before = []
  · simp only [act, specAct, h1, if_pos (Or.inl ((before_nil r).mpr h1) : s.pos = 0 ∨ s.pos = s.fin)]
    exact Ok.mk r
  · obtain ⟨b, x, hb⟩ := snoc h1
    cases ha : d.txt.after with
    | nil =>
      simp only [act, specAct, hb, ha, List.getLast?_concat, if_pos (Or.inr ((after_nil r).mpr ha) : s.pos = 0 ∨ s.pos = s.fin)]
      exact Ok.mk r
    | cons y a =>
      have hn : ¬ (s.pos = 0 ∨ s.pos = s.fin) := by
        rintro (e | e)
        · exact h1 ((before_nil r).mp e)
        · rw [(after_nil r).mp e] at ha; cases ha
      obtain ⟨q, hq⟩ := r.t.text
      rw [hb, ha] at hq
      have hp := r.t.pos
      rw [hb] at hp
      simp only [List.length_append, List.length_cons, List.length_nil] at hp
      have m1 : s.mem = (b ++ [x]) ++ y :: (a ++ q) := by rw [hq]; simp
      have m2 : s.mem = b ++ x :: (y :: (a ++ q)) := by rw [hq]; simp
      have e1 : rd s.mem s.pos = some y := by rw [m1]; exact rd_at (by rw [hp]; simp)
      have e2 : rd s.mem (s.pos - 1) = some x := by rw [m2]; exact rd_at (by rw [hp]; omega)
      have e3 : wr s.mem s.pos x = some (b ++ x :: (x :: (a ++ q))) := by rw [m1, wr_at x (by rw [hp]; simp)]; simp
      have e4 : wr (b ++ x :: (x :: (a ++ q))) (s.pos - 1) y = some (b ++ y :: (x :: (a ++ q))) := wr_at y (by rw [hp]; omega)
      simp only [act, specAct, if_neg hn, e1, e2, e3, e4, Option.bind_some, Option.map_some, hb, ha, List.getLast?_concat, List.dropLast_concat]
      have hz := r.t.nz
      have hl := r.t.len
      have ht : TR c.cap (b ++ y :: (x :: (a ++ q))) (s.pos + 1) s.fin ⟨b ++ [y, x], a⟩ := by
        refine r.t.change (r' := q) (by rw [m2] at hl; simpa using hl) (by simp) (by simp [Txt.all, hb, ha]) (by simp [hp]; omega) ?_
        simp [Txt.all, hb, ha] at hz ⊢
        exact ⟨hz.1, hz.2.2.1, hz.2.1, hz.2.2.2⟩
      exact Ok.mk (r.edit ht)

end

end Gp.Linedit
