import Verif.Linedit.Act3
/-
C61: the line editor and its history.
-/
namespace Gp.Linedit

/-- What can be seen of the editor: the bytes of the line, the place of the cursor, the clipboard and the lines of the history which can be
recalled, the oldest first. -/
structure Seen (s : St) (text : List Nat) (cursor : Nat) (clip : List Nat) (lines : List (List Nat)) : Prop where
  hText : s.mem.take s.fin.toNat = text ∧ s.fin = text.length
  hCursor : s.pos = cursor ∧ cursor ≤ text.length
  hClip : s.clip = clip
  hLines : (s.hist.start + lines.length) % 64 = s.hist.fin ∧ ∀ i t, lines[i]? = some t → (s.hist.cell ((s.hist.start + i) % 64)).map Cell.line = some t

theorem seen_of {c : Cfg} {s : St} {d : Doc} (r : R c s d) : Seen s d.txt.all d.txt.before.length d.clip d.lines := by
  obtain ⟨q, hq⟩ := r.t.mem_all
  refine ⟨⟨?_, r.t.fin_all⟩, ⟨r.t.pos, by simp [Txt.all]⟩, r.clip, r.hist.ring, ?_⟩
  · rw [r.t.fin_all, hq]; simp
  · intro i t ht
    have hi : i < d.lines.length := by
      rcases Nat.lt_or_ge i d.lines.length with h | h
      · exact h
      · rw [List.getElem?_eq_none h] at ht; cases ht
    obtain ⟨x, h1, h2⟩ := r.hist.cells i (by omega) (Or.inl hi)
    rw [r.hist.lines_get hi] at ht
    rw [h1, Option.map_some, h2]; exact ht

/-- The classes of characters of the C locale and the separators of linedit.c:104. -/
def ascii (cap prompt : Nat) : Cfg where
  cap := cap
  prompt := prompt
  sep := fun x => x ∈ [32, 44, 59, 58, 45, 39, 34, 33, 64, 36, 35, 94, 38, 40, 41, 43, 42, 47, 92, 91, 93, 124, 60, 61, 62, 96, 126, 123, 125]
  lower := fun x => decide (97 ≤ x ∧ x ≤ 122)
  print := fun x => decide (32 ≤ x ∧ x ≤ 126)
  toLow := fun x => if 65 ≤ x ∧ x ≤ 90 then x + 32 else x
  toUp := fun x => if 97 ≤ x ∧ x ≤ 122 then x - 32 else x

theorem good_ascii (cap prompt : Nat) : Good (ascii cap prompt) := by
  refine ⟨by simp [ascii], ?_, ?_, by simp [ascii], ?_⟩
  · intro x hx; simp only [ascii]; split <;> omega
  · intro x hx; simp only [ascii]; split <;> omega
  · intro x hx; simp only [ascii, decide_eq_true_eq] at hx; omega

/-- For every sequence of keys, whatever was in the array: unless the sequence uses a mark which is beyond the end of the line or puts 4096
characters in the clipboard, no access is outside of the array, the clipboard or the lines of the history, each key has the result (a beep, the
line returned, the end of file) and the effect of the specification, for the text, the cursor, the clipboard and the history. -/
theorem C61_keys_partial (c : Cfg) (G : Good c) (hc : 0 < c.cap) (m : List Nat) (hm : m.length = c.cap) (ks : List Key) (d : Doc) (os : List Out)
    (h : specRun c start ks = some (d, os)) :
    ∃ s, run c (init m) ks = some (s, os) ∧ Seen s d.txt.all d.txt.before.length d.clip d.lines := by
  obtain ⟨s, h1, h2⟩ := run_ok G ks (init m) start (init_ok m hm hc) d os h
  exact ⟨s, h1, seen_of h2⟩

def keysOf (t : String) : List Key := t.toList.map (fun x => .char x.toNat)
def codes (t : String) : List Nat := t.toList.map Char.toNat

/-- Two lines, the first one is recalled and changed: the keys are `foo(X) ret bar ret up up back back home del F ret`. -/
example : ∃ d, specRun (ascii 10240 3) start (keysOf "foo(X)" ++ [.ret] ++ keysOf "bar" ++ [.ret, .up, .up, .back, .back, .home, .del] ++ keysOf "F" ++ [.ret])
    = some (d, List.replicate 6 .go ++ [.line (codes "foo(X)\n")] ++ List.replicate 3 .go ++ [.line (codes "bar\n")] ++ List.replicate 7 .go ++
        [.line (codes "Foo(\n")]) ∧ d.lines = [codes "foo(X)", codes "bar", codes "Foo("] := by
  refine ⟨_, rfl, ?_⟩
  decide +kernel

/-- Words, case, exchange, clipboard: the keys after `ab, cde f` are `prevWord prevWord upper home capit swap killBeg fin yank`. -/
example : ∃ d os, specRun (ascii 10240 3) start (keysOf "ab, cde f" ++ [.prevWord, .prevWord, .upper, .home, .capit, .swap, .killBeg, .fin, .yank])
    = some (d, os) ∧ d.txt.all = codes " CDE fA,b" ∧ d.clip = codes "A,b" := by
  refine ⟨_, _, rfl, ?_, ?_⟩ <;> decide +kernel

/-- The keys which can access memory outside of their bounds: cut and copy. The words of the completion are C strings. -/
def safeKey : Key → Bool
  | .copy => false
  | .cut => false
  | .complete w _ => !w.contains 0
  | _ => true

theorem spec_some {c : Cfg} {s : St} {d : Doc} (hc : c.cap ≤ 4096) (r : R c s d) (k : Key) (hk : safeKey k = true) :
    ∃ q, specStep c d k = some q := by
  have hroom := r.t.room
  by_cases h0 : k = .ctrlD ∧ d.txt.all = []
  · simp only [specStep, if_pos h0]; split <;> exact ⟨_, rfl⟩
  · simp only [specStep, if_neg h0]
    cases k <;> simp only [specAct]
    case complete w more =>
      have : ¬ 0 ∈ w := by simpa [safeKey] using hk
      rw [if_neg this]; exact ⟨_, rfl⟩
    case killBeg => rw [if_pos (by omega)]; exact ⟨_, rfl⟩
    case killEnd => rw [if_pos (by omega)]; exact ⟨_, rfl⟩
    case copy => simp [safeKey] at hk
    case cut => simp [safeKey] at hk
    all_goals first | exact ⟨_, rfl⟩ | (split <;> first | exact ⟨_, rfl⟩ | (split <;> exact ⟨_, rfl⟩))

/-- When the array has at most 4096 bytes, every sequence of keys without cut and copy is treated without any access outside of the array, of
the clipboard and of the lines of the history; the history has at most 63 lines, the line always fits in the array. -/
theorem C61_bounds (c : Cfg) (G : Good c) (hc : 0 < c.cap) (hc2 : c.cap ≤ 4096) (m : List Nat) (hm : m.length = c.cap) (ks : List Key)
    (hk : ∀ k ∈ ks, safeKey k = true) :
    ∃ s os d, specRun c start ks = some (d, os) ∧ run c (init m) ks = some (s, os) ∧
      Seen s d.txt.all d.txt.before.length d.clip d.lines ∧ d.lines.length ≤ 63 ∧ d.txt.all.length < c.cap := by
  have key : ∀ (ks : List Key) (s : St) (d : Doc), R c s d → (∀ k ∈ ks, safeKey k = true) → ∃ q, specRun c d ks = some q := by
    intro ks
    induction ks with
    | nil => intro s d _ _; exact ⟨_, rfl⟩
    | cons k ks ih =>
      intro s d r hk
      obtain ⟨q, hq⟩ := spec_some hc2 r k (hk k (by simp))
      obtain ⟨s1, _, r1⟩ := step_ok G r k q.1 q.2 hq
      obtain ⟨p, hp⟩ := ih s1 q.1 r1 (fun k' h => hk k' (by simp [h]))
      exact ⟨(p.1, q.2 :: p.2), by simp only [specRun, hq, Option.bind_some, hp, Option.map_some]⟩
  have r0 := init_ok m hm hc
  obtain ⟨q, hq⟩ := key ks (init m) start r0 hk
  obtain ⟨s, h1, h2⟩ := run_ok G ks (init m) start r0 q.1 q.2 hq
  have := h2.hist.n
  exact ⟨s, q.2, q.1, hq, h1, seen_of h2, by omega, h2.t.room_all⟩

example : ∃ s os, run (ascii 6 0) (init [1, 2, 3, 4, 5, 6]) (keysOf "abcdefg" ++ [.home, .swap, .tab, .killEnd, .yank, .yank, .ret, .up, .left, .upMatch]) =
    some (s, os) := by
  obtain ⟨s, os, _, _, h, _⟩ := C61_bounds (ascii 6 0) (good_ascii 6 0) (by simp [ascii]) (by simp [ascii]) [1, 2, 3, 4, 5, 6] rfl
    (keysOf "abcdefg" ++ [.home, .swap, .tab, .killEnd, .yank, .yank, .ret, .up, .left, .upMatch]) (by decide)
  exact ⟨s, os, h⟩

theorem typeChars_ins (cap : Nat) (w : List Nat) : ∀ t : Txt, t.all.length + w.length < cap → typeChars cap true t w = (⟨t.before ++ w, t.after⟩, true) := by
  induction w with
  | nil => intro t _; simp [typeChars]
  | cons x w ih =>
    intro t h
    simp only [List.length_cons] at h
    have e : typeChar cap true t x = some ⟨t.before ++ [x], t.after⟩ := by
      simp only [typeChar, if_true]; rw [if_pos (by omega)]
    simp only [typeChars, e]
    rw [ih _ (by simp [Txt.all] at h ⊢; omega)]
    simp

theorem type_run (c : Cfg) (t : List Nat) : ∀ d : Doc, d.ins = true → d.txt.after = [] → (∀ x ∈ t, c.print x = true) → d.txt.all.length + t.length < c.cap →
    specRun c d (t.map .char) = some ({ d with txt := ⟨d.txt.before ++ t, []⟩, lastEof := if t = [] then d.lastEof else false }, List.replicate t.length .go) := by
  induction t with
  | nil =>
    intro d _ ha _ _
    have : d.txt = ⟨d.txt.before, []⟩ := by rw [← ha]
    simp only [List.map_nil, specRun, List.append_nil, if_true, List.length_nil, List.replicate_zero]
    rw [← this]
  | cons x t ih =>
    intro d hi ha hp hl
    simp only [List.length_cons] at hl
    have e0 : ¬ (Key.char x = Key.ctrlD ∧ d.txt.all = []) := by simp
    have e : typeChar c.cap d.ins d.txt x = some ⟨d.txt.before ++ [x], []⟩ := by
      simp only [typeChar, hi, if_true]; rw [if_pos (by omega), ha]
    have e1 : specStep c d (.char x) = some ({ d with txt := ⟨d.txt.before ++ [x], []⟩, lastEof := false }, .go) := by
      simp only [specStep, if_neg e0, specAct, hp x (by simp), if_true, e]
      simp
    have := ih { d with txt := ⟨d.txt.before ++ [x], []⟩, lastEof := false } hi rfl (fun y hy => hp y (by simp [hy]))
      (by simp [Txt.all, ha] at hl ⊢; omega)
    simp only [List.map_cons, specRun, e1, Option.bind_some, this, Option.map_some]
    simp [List.replicate_succ]

/-- The keys which type the lines. -/
def typing (ts : List (List Nat)) : List Key := ts.flatMap (fun t => t.map .char ++ [.ret])

/-- The results of the typing of the lines. -/
def typed (ts : List (List Nat)) : List Out := ts.flatMap (fun t => List.replicate t.length .go ++ [.line (t ++ [10])])

/-- A line which can be typed and is put in the history. -/
def Plain (c : Cfg) (t : List Nat) : Prop := (∀ x ∈ t, c.print x = true) ∧ t.length + 1 < c.cap ∧ ¬ t.all (· == 32) = true

/-- No line is the same as the one before, the first one is not `p`. -/
def NoRepeat : Option (List Nat) → List (List Nat) → Prop
  | _, [] => True
  | p, t :: ts => p ≠ some t ∧ NoRepeat (some t) ts

theorem specRun_append (c : Cfg) (k1 : List Key) : ∀ (k2 : List Key) (d : Doc),
    specRun c d (k1 ++ k2) = (specRun c d k1).bind fun q => (specRun c q.1 k2).map fun p => (p.1, q.2 ++ p.2) := by
  induction k1 with
  | nil => intro k2 d; simp [specRun]
  | cons k k1 ih =>
    intro k2 d
    simp only [List.cons_append, specRun]
    cases specStep c d k with
    | none => rfl
    | some q =>
      simp only [Option.bind_some, ih k2 q.1]
      cases specRun c q.1 k1 with
      | none => rfl
      | some p =>
        simp only [Option.bind_some, Option.map_some]
        cases specRun c p.1 k2 <;> simp

theorem run_append (c : Cfg) (k1 : List Key) : ∀ (k2 : List Key) (s : St),
    run c s (k1 ++ k2) = (run c s k1).bind fun q => (run c q.1 k2).map fun p => (p.1, q.2 ++ p.2) := by
  induction k1 with
  | nil => intro k2 d; simp [run]
  | cons k k1 ih =>
    intro k2 d
    simp only [List.cons_append, run]
    cases step c d k with
    | none => rfl
    | some q =>
      simp only [Option.bind_some, ih k2 q.1]
      cases run c q.1 k1 with
      | none => rfl
      | some p =>
        simp only [Option.bind_some, Option.map_some]
        cases run c p.1 k2 <;> simp

theorem typing_run (c : Cfg) (ts : List (List Nat)) : ∀ (d : Doc) (old : List (List Nat)), d.ins = true → d.txt = ⟨[], []⟩ →
    d.lines = old.drop (old.length - 63) → NoRepeat old.getLast? ts → (∀ t ∈ ts, Plain c t) →
    ∃ d', specRun c d (typing ts) = some (d', typed ts) ∧ d'.lines = (old ++ ts).drop ((old ++ ts).length - 63) := by
  induction ts with
  | nil => intro d old _ _ hl _ _; exact ⟨d, rfl, by simpa using hl⟩
  | cons t ts ih =>
    intro d old hi ht hl hn hp
    obtain ⟨p1, p2, p3⟩ := hp t (by simp)
    have e1 := type_run c t d hi (by rw [ht]) p1 (by rw [ht]; simp [Txt.all]; omega)
    rw [ht] at e1
    simp only [List.nil_append] at e1
    generalize hd1 : ({ d with txt := ⟨t, []⟩, lastEof := if t = [] then d.lastEof else false } : Doc) = d1 at e1
    have f1 : d1.txt.all = t := by rw [← hd1]; simp [Txt.all]
    have f2 : d1.lines = d.lines := by rw [← hd1]
    have f3 : d1.ins = true := by rw [← hd1]; exact hi
    have e0 : ¬ (Key.ret = Key.ctrlD ∧ d1.txt.all = []) := by simp
    have hlast : d.lines.getLast? = old.getLast? := by
      rw [hl, List.getLast?_drop]
      split
      · rename_i h
        have : old = [] := List.length_eq_zero_iff.mp (by omega)
        subst this; rfl
      · rfl
    have hdup : ¬ (d1.pushes % 64 ≠ 0 ∧ d1.lines.getLast? = some t) := by
      rw [f2, hlast]; exact fun h => hn.1 h.2
    have e2 : specStep c d1 .ret = some (({ d1 with lastEof := false } : Doc).add.fresh, .line (t ++ [10])) := by
      simp only [specStep, if_neg e0, specAct]
      have : ({ d1 with lastEof := decide (Key.ret = Key.ctrlD) } : Doc).txt.all = t := f1
      rw [this, if_pos p2]; simp
    have hal : ({ d1 with lastEof := false } : Doc).add.fresh.lines = (old ++ [t]).drop ((old ++ [t]).length - 63) := by
      have q1 : ({ d1 with lastEof := false } : Doc).txt.all = t := f1
      simp only [Doc.fresh, Doc.add, q1, if_neg p3]
      rw [if_neg hdup]
      simp only [f2, hl]
      have : (old.drop (old.length - 63) ++ [t]) = (old ++ [t]).drop (old.length - 63) := by
        rw [List.drop_append_of_le_length (by omega)]
      have e4 : old.length - 63 + ((old.drop (old.length - 63)).length + 1 - 63) = (old ++ [t]).length - 63 := by
        rw [List.length_drop, List.length_append, List.length_singleton]; omega
      rw [this, List.drop_drop, e4]
    have hins : ({ d1 with lastEof := false } : Doc).add.fresh.ins = true := by
      simp only [Doc.fresh]; rw [(add_eqs _).2.2]; exact f3
    obtain ⟨d', g1, g2⟩ := ih _ (old ++ [t]) hins rfl hal (by simpa using hn.2) (fun t' h => hp t' (by simp [h]))
    refine ⟨d', ?_, by simpa using g2⟩
    have : typing (t :: ts) = t.map .char ++ (.ret :: typing ts) := by simp [typing]
    rw [this, specRun_append, e1, Option.bind_some]
    simp only [specRun, e2, Option.bind_some, g1, Option.map_some]
    simp [typed]

/-- Lines are typed, none of them blank or the same as the line before: each one is returned as it was typed followed by a newline, and the
history holds the last 63 of them in order. -/
theorem C61_history (c : Cfg) (G : Good c) (hc : 0 < c.cap) (m : List Nat) (hm : m.length = c.cap) (ts : List (List Nat))
    (hp : ∀ t ∈ ts, Plain c t) (hn : NoRepeat none ts) :
    ∃ s, run c (init m) (typing ts) = some (s, typed ts) ∧ Seen s [] 0 [] (ts.drop (ts.length - 63)) := by
  obtain ⟨d', h1, h2⟩ := typing_run c ts start [] rfl rfl rfl hn hp
  obtain ⟨s, h3, h4⟩ := run_ok G _ (init m) start (init_ok m hm hc) d' _ h1
  have h5 := seen_of h4
  have key : ∀ (ts : List (List Nat)) (d : Doc) os, d.txt = ⟨[], []⟩ → d.clip = [] → specRun c d (typing ts) = some (d', os) →
      (∀ t ∈ ts, Plain c t) → d.ins = true → d'.txt = ⟨[], []⟩ ∧ d'.clip = [] := by
    intro ts
    induction ts with
    | nil =>
      intro d os ha hb h _ _
      simp only [typing, List.flatMap_nil, specRun, Option.some.injEq, Prod.mk.injEq] at h
      obtain ⟨rfl, _⟩ := h
      exact ⟨ha, hb⟩
    | cons t ts ih =>
      intro d os ha hb h hp hi
      obtain ⟨p1, p2, p3⟩ := hp t (by simp)
      have e1 := type_run c t d hi (by rw [ha]) p1 (by rw [ha]; simp [Txt.all]; omega)
      have : typing (t :: ts) = t.map .char ++ (.ret :: typing ts) := by simp [typing]
      rw [this, specRun_append, e1, Option.bind_some] at h
      simp only [specRun, specStep, reduceCtorEq, false_and, if_false, specAct, Option.bind_some] at h
      generalize hD : ({ ({ d with txt := ⟨d.txt.before ++ t, []⟩, lastEof := if t = [] then d.lastEof else false } : Doc) with
        lastEof := decide False } : Doc) = D at h
      have hD2 : D.clip = [] ∧ D.ins = true := by rw [← hD]; exact ⟨hb, hi⟩
      cases hrun : specRun c D.add.fresh (typing ts) with
      | none => rw [hrun] at h; cases h
      | some q =>
        rw [hrun] at h
        simp only [Option.map_some, Option.some.injEq, Prod.mk.injEq] at h
        obtain ⟨hq, _⟩ := h
        have hq' : q = (d', q.2) := by rw [← hq]
        rw [hq'] at hrun
        refine ih D.add.fresh q.2 rfl ?_ hrun (fun t' h => hp t' (by simp [h])) ?_
        · simp only [Doc.fresh]; rw [(add_eqs _).2.1]; exact hD2.1
        · simp only [Doc.fresh]; rw [(add_eqs _).2.2]; exact hD2.2
  obtain ⟨k1, k2⟩ := key ts start _ rfl rfl h1 hp rfl
  rw [k1, k2, h2] at h5
  exact ⟨s, h3, by simpa [Txt.all] using h5⟩

example : ∃ s, run (ascii 10240 0) (init (List.replicate 10240 7)) (typing [codes "p(X).", codes "halt.", codes "p(X)."]) =
    some (s, typed [codes "p(X).", codes "halt.", codes "p(X)."]) ∧ Seen s [] 0 [] [codes "p(X).", codes "halt.", codes "p(X)."] :=
  C61_history (ascii 10240 0) (good_ascii _ _) (by simp [ascii]) _ (by rw [List.length_replicate]; rfl) [codes "p(X).", codes "halt.", codes "p(X)."]
    (by
      intro t ht
      simp only [List.mem_cons, List.not_mem_nil, or_false] at ht
      rcases ht with rfl | rfl | rfl <;> (unfold Plain; decide))
    (by simp only [NoRepeat]; decide)

/-- In the mode of insertion, what was erased before the cursor is put back by the paste: the text and the cursor are the same as before. -/
theorem C61_kill_yank (c : Cfg) (G : Good c) (s : St) (d : Doc) (r : R c s d) (hi : d.ins = true) (hl : d.txt.before.length < 4096) :
    ∃ s', run c s [.killBeg, .yank] = some (s', [.go, .go]) ∧ Seen s' d.txt.all d.txt.before.length d.txt.before d.lines := by
  have hroom := r.t.room
  have h : specRun c d [.killBeg, .yank] = some ({ d with clip := d.txt.before, lastEof := false }, [.go, .go]) := by
    have e := typeChars_ins c.cap d.txt.before ⟨[], d.txt.after⟩ (by simp [Txt.all]; omega)
    simp [specRun, specStep, specAct, if_pos hl, hi, e, okOut]
  obtain ⟨s', h1, h2⟩ := run_ok G _ s d r _ _ h
  exact ⟨s', h1, seen_of h2⟩

example : ∃ s d, R (ascii 100 0) s d ∧ d.ins = true ∧ d.txt.before = codes "ab" ∧ d.txt.after = codes "c" := by
  have h : specRun (ascii 100 0) start (keysOf "abc" ++ [.left]) = some (_, _) := rfl
  obtain ⟨s, _, h2⟩ := run_ok (good_ascii 100 0) _ (init (List.replicate 100 0)) start (init_ok _ (by rw [List.length_replicate]; rfl) (by simp [ascii])) _ _ h
  exact ⟨s, _, h2, rfl, by decide +kernel, by decide +kernel⟩

/-- The clipboard has 4096 bytes but the line of the top level has 10240 bytes (stream_supp.c:84, 1129): when 4096 characters or more are before
the cursor, the key which erases them writes outside of the clipboard. -/
theorem C61_clipboard_overflow (c : Cfg) (s : St) (d : Doc) (r : R c s d) (hl : 4096 ≤ d.txt.before.length) : step c s .killBeg = none := by
  obtain ⟨m, h1, h2, h3⟩ := set_space r
  have hp := r.t.pos
  simp only [step, h1, Option.bind_some, reduceCtorEq, false_and, if_false, act]
  rw [toClip_big (by omega)]; rfl

/-- This state is reached by typing 4096 characters in the array of the top level. -/
theorem C61_clipboard_reached (m : List Nat) (hm : m.length = 10240) :
    run (ascii 10240 3) (init m) (List.replicate 4096 (.char 97) ++ [.killBeg]) = none := by
  have e := type_run (ascii 10240 3) (List.replicate 4096 97) start rfl rfl
    (by intro x hx; rw [List.eq_of_mem_replicate hx]; decide) (by rw [List.length_replicate]; decide)
  rw [List.map_replicate] at e
  obtain ⟨s, h1, h2⟩ := run_ok (good_ascii 10240 3) _ (init m) start (init_ok m hm (by decide)) _ _ e
  rw [run_append, h1, Option.bind_some]
  have := C61_clipboard_overflow _ _ _ h2 (by simp only [start, List.nil_append]; rw [List.length_replicate]; exact Nat.le_refl _)
  simp only [run, this, Option.bind_none, Option.map_none]

/-- The mark is kept when the text is erased: `abc`, mark, start of the line, erase to the end, cut, and one more key. The end of the line is put
before the start of the array and the next key writes there. -/
theorem C61_mark_beyond : run (ascii 100 0) (init (List.replicate 100 0)) (keysOf "abc" ++ [.mark, .home, .killEnd, .cut]) ≠ none ∧
    run (ascii 100 0) (init (List.replicate 100 0)) (keysOf "abc" ++ [.mark, .home, .killEnd, .cut, .char 97]) = none := by
  refine ⟨?_, ?_⟩
  · have : (run (ascii 100 0) (init (List.replicate 100 0)) (keysOf "abc" ++ [.mark, .home, .killEnd, .cut])).isSome = true := by decide +kernel
    intro h; rw [h] at this; cases this
  · have : (run (ascii 100 0) (init (List.replicate 100 0)) (keysOf "abc" ++ [.mark, .home, .killEnd, .cut, .char 97])).isNone = true := by
      decide +kernel
    simpa using this

/-- A search which finds nothing changes the history: `foo ret bar ret zz`, search backward (a beep), next line. The oldest line `foo` is
replaced by `zz`. -/
theorem C61_search_loses_a_line : ∃ s, run (ascii 100 0) (init (List.replicate 100 0)) (typing [codes "foo", codes "bar"] ++ keysOf "zz" ++ [.upMatch, .down]) =
      some (s, typed [codes "foo", codes "bar"] ++ [.go, .go, .beep, .go]) ∧
    Seen s (codes "bar") 3 [] [codes "zz", codes "bar"] := by
  have h : specRun (ascii 100 0) start (typing [codes "foo", codes "bar"] ++ keysOf "zz" ++ [.upMatch, .down]) = some (_, _) := rfl
  obtain ⟨s, h1, h2⟩ := run_ok (good_ascii 100 0) _ (init (List.replicate 100 0)) start (init_ok _ (by rw [List.length_replicate]; rfl) (by simp [ascii])) _ _ h
  refine ⟨s, h1.trans ?_, ?_⟩
  · congr 2
  · exact seen_of h2

/-- Two lines are typed in turn 64 times; the last one typed again is kept twice: the comparison with the last line is not done when the place
of the next line is the first of the table. -/
theorem C61_repeat_kept : ∃ s os, run (ascii 8 0) (init (List.replicate 8 0)) (typing ((List.replicate 32 [[97], [98]]).flatten ++ [[98]])) = some (s, os) ∧
    ∃ l, Seen s [] 0 [] (l ++ [[98], [98]]) := by
  have hv : (specRun (ascii 8 0) start (typing ((List.replicate 32 [[97], [98]]).flatten ++ [[98]]))).map
      (fun q => (q.1.txt.all, q.1.txt.before, q.1.clip, q.1.lines)) =
      some ([], [], [], ((List.replicate 30 [[97], [98]]).flatten ++ [[97]]) ++ [[98], [98]]) := by decide +kernel
  obtain ⟨q, h, hq⟩ := Option.map_eq_some_iff.mp hv
  simp only [Prod.mk.injEq] at hq
  obtain ⟨q1, q2, q3, q4⟩ := hq
  obtain ⟨s, h1, h2⟩ := run_ok (good_ascii 8 0) _ (init (List.replicate 8 0)) start (init_ok _ (by rw [List.length_replicate]; rfl) (by simp [ascii])) _ _ h
  refine ⟨s, _, h1, ((List.replicate 30 [[97], [98]]).flatten ++ [[97]]), ?_⟩
  have := seen_of h2
  rw [q1, q2, q3, q4] at this
  exact this

/-- The key of the previous word moves the cursor forward when only separators precede it: two spaces then `ab`, the cursor at 1 goes to 2. -/
theorem C61_previous_word_forward : ∃ s os, run (ascii 100 0) (init (List.replicate 100 0)) (keysOf "  ab" ++ [.home, .right, .prevWord]) = some (s, os) ∧
    Seen s (codes "  ab") 2 [] [] := by
  have h : specRun (ascii 100 0) start (keysOf "  ab" ++ [.home, .right, .prevWord]) = some (_, _) := rfl
  obtain ⟨s, h1, h2⟩ := run_ok (good_ascii 100 0) _ (init (List.replicate 100 0)) start (init_ok _ (by rw [List.length_replicate]; rfl) (by simp [ascii])) _ _ h
  exact ⟨s, _, h1, seen_of h2⟩

/-- The keys waiting at the start of the call, without newline and tabulation: the line is what fits in the array, it is complete if some keys
are left. -/
theorem C61_buffered (c : Cfg) (hc : 0 < c.cap) (m : List Nat) (hm : m.length = c.cap) (cs : List Nat) (h : ∀ x ∈ cs, x ≠ 9 ∧ x ≠ 10 ∧ x ≠ 13) :
    ∃ m', buffered c cs m 0 = some (m', ((cs.take (c.cap - 1)).length : Int), decide (c.cap - 1 < cs.length)) ∧
      m'.take (cs.take (c.cap - 1)).length = cs.take (c.cap - 1) ∧ m'.length = c.cap := by
  have key : ∀ (cs a r : List Nat), (∀ x ∈ cs, x ≠ 9 ∧ x ≠ 10 ∧ x ≠ 13) → (a ++ r).length = c.cap → a.length < c.cap →
      ∃ r', buffered c cs (a ++ r) a.length =
          some (a ++ cs.take (c.cap - 1 - a.length) ++ r', ((a.length + (cs.take (c.cap - 1 - a.length)).length : Nat) : Int), decide (c.cap - 1 - a.length < cs.length)) ∧
        (a ++ cs.take (c.cap - 1 - a.length) ++ r').length = c.cap := by
    intro cs
    induction cs with
    | nil => intro a r _ hl _; exact ⟨r, by simp [buffered], by simpa using hl⟩
    | cons x cs ih =>
      intro a r h hl ha
      simp only [buffered]
      by_cases hs : c.size ≤ (a.length : Int)
      · have e : c.cap - 1 - a.length = 0 := by simp only [Cfg.size] at hs; omega
        rw [if_pos hs, e]
        exact ⟨r, by simp, by simpa using hl⟩
      · obtain ⟨h1, h2, h3⟩ := h x (by simp)
        rw [if_neg hs, if_neg (by omega), if_neg h1]
        simp only [Cfg.size] at hs
        cases r with
        | nil => simp at hl; omega
        | cons y r =>
          rw [wr_at x rfl, Option.bind_some]
          obtain ⟨r', g1, g2⟩ := ih (a ++ [x]) r (fun y hy => h y (by simp [hy])) (by simp at hl ⊢; omega) (by simp; omega)
          have e : c.cap - 1 - a.length = (c.cap - 1 - (a ++ [x]).length) + 1 := by simp; omega
          have e2 : ((a ++ [x]).length : Int) = a.length + 1 := by simp
          have e3 : a ++ x :: r = a ++ [x] ++ r := by simp
          refine ⟨r', ?_, ?_⟩
          · rw [e3, ← e2, g1, e]
            simp only [List.take_succ_cons, List.length_append, List.length_cons, List.length_nil, List.append_assoc, List.cons_append, List.nil_append]
            congr 2
            simp only [Prod.mk.injEq]
            refine ⟨by omega, ?_⟩
            simp
          · rw [e]; simpa using g2
  obtain ⟨r', g1, g2⟩ := key cs [] m h (by simpa using hm) (by simpa using hc)
  refine ⟨cs.take (c.cap - 1) ++ r', ?_, ?_, by simpa using g2⟩
  · simpa using g1
  · simp

example : ∃ m', buffered (ascii 5 0) (codes "p(X):-q.") [0, 0, 0, 0, 0] 0 = some (m', 4, true) ∧ m'.take 4 = codes "p(X)" := by
  obtain ⟨m', h1, h2, _⟩ := C61_buffered (ascii 5 0) (by decide) [0, 0, 0, 0, 0] rfl (codes "p(X):-q.") (by decide)
  exact ⟨m', h1, h2⟩

/-- A tabulation among the keys waiting at the start of the call is written as up to 8 spaces without a test of the size: outside of the array
when less than 8 bytes are left. -/
theorem C61_buffered_tab : buffered (ascii 10 0) (codes "aaaaaaaa" ++ [9]) (List.replicate 10 0) 0 = none := by
  have : (buffered (ascii 10 0) (codes "aaaaaaaa" ++ [9]) (List.replicate 10 0) 0).isNone = true := by decide +kernel
  simpa using this

end Gp.Linedit
