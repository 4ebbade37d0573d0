import Verif.Stream.Lemmas
namespace Gp.Stream
open Spec (lines col)

/-- The code taken from the push-back stack or from the source (stream_supp.c:1406-1415). -/
def fetch (s : Stm) : Int × Stm :=
  if !pbEmpty s.pbChar then ((pbPop s.pbChar).1, { s with pbChar := (pbPop s.pbChar).2 }) else callGetc s

theorem getcBody_eq (s : Stm) : getcBody s =
    let c := (fetch s).1
    let s := (fetch s).2
    let s := if c = EOF then { s with eofReached := true } else s
    let s := if c = NL then { s with pbLine := pbPush s.pbLine s.linePos } else s
    (c, updateCounters s c) := by
  cases h : pbEmpty s.pbChar <;> simp [getcBody, fetch, h]

theorem fetch_spec {file p s a} (h : R file p s a) :
    ∃ pb pos, fetch s = ((Spec.getBody a).1, { s with pbChar := pb, pos := pos }) ∧ PbOk pb ∧
      contents pb = (Spec.getBody a).2.todo.take (Spec.getBody a).2.look ++ (if (Spec.getBody a).2.seenEof then [EOF] else []) ∧
      pos = (Spec.getBody a).2.back.length + (Spec.getBody a).2.look ∧
      (Spec.getBody a).2.todo.drop (Spec.getBody a).2.look = file.drop pos := by
  obtain ⟨back, todo, look, since, seen, past, eofs⟩ := a
  have hpbc := h.pbc; have hl := h.look; have hpos := h.pos; have hr := h.rest; have hlen := h.len; have hse := h.seen
  dsimp only at hpbc hl hpos hr hlen hse
  cases todo with
  | nil =>
    have hl0 : look = 0 := by simpa using hl
    subst hl0
    cases seen with
    | true =>
      have hc : contents s.pbChar = [EOF] := by simpa using hpbc
      have hne : s.pbChar.nb ≠ 0 := by have := contents_length s.pbChar; rw [hc] at this; simp at this; omega
      have hpop := pbPop_contents h.okc hne
      rw [hc] at hpop
      injection hpop with h1 h2
      refine ⟨(pbPop s.pbChar).2, s.pos, ?_, pbPop_ok h.okc, by rw [← h2]; rfl, hpos, by simpa [Spec.getBody] using hr⟩
      unfold fetch
      rw [if_pos (by simp [pbEmpty, hne]), ← h1]; rfl
    | false =>
      have hc : contents s.pbChar = [] := by simpa using hpbc
      refine ⟨s.pbChar, s.pos, ?_, h.okc, by rw [hc]; rfl, hpos, by simpa [Spec.getBody] using hr⟩
      unfold fetch
      rw [if_neg (by rw [(pbEmpty_iff _).2 hc]; simp)]
      unfold callGetc
      rw [List.getElem?_eq_none (by rw [h.src, hpos]; simp at hlen; omega)]; rfl
  | cons c t =>
    cases look with
    | zero =>
      have hsf : seen = false := by cases seen with | false => rfl | true => have := hse rfl; simp at this
      subst hsf
      have hc : contents s.pbChar = [] := by simpa using hpbc
      have hg : s.src[s.pos]? = some c := by
        have : (file.drop s.pos)[0]? = some c := by rw [← hr]; rfl
        rw [List.getElem?_drop] at this
        rw [h.src]; exact this
      refine ⟨s.pbChar, s.pos + 1, ?_, h.okc, by rw [hc]; rfl, by rw [hpos]; simp [Spec.getBody], ?_⟩
      · unfold fetch
        rw [if_neg (by rw [(pbEmpty_iff _).2 hc]; simp)]
        unfold callGetc
        rw [hg]; rfl
      · simp only [Spec.getBody]
        rw [← List.drop_drop, ← hr]; simp
    | succ k =>
      have hc : contents s.pbChar = c :: (t.take k ++ if seen then [EOF] else []) := by simpa using hpbc
      have hne : s.pbChar.nb ≠ 0 := by have := contents_length s.pbChar; rw [hc] at this; simp at this; omega
      have hpop := pbPop_contents h.okc hne
      rw [hc] at hpop
      injection hpop with h1 h2
      refine ⟨(pbPop s.pbChar).2, s.pos, ?_, pbPop_ok h.okc, by rw [← h2]; rfl, by rw [hpos]; simp [Spec.getBody]; omega, ?_⟩
      · unfold fetch
        rw [if_pos (by simp [pbEmpty, hne]), ← h1]; rfl
      · simp only [Spec.getBody]; simpa using hr

theorem take_min_push {x : Int} {l m : List Int} {k j : Nat} (h1 : k ≤ l.length) (h2 : l.take k = m.take k) (hj : j ≤ k + 1) (hj8 : j ≤ 8) :
    j ≤ ((x :: l).take 8).length ∧ ((x :: l).take 8).take j = (x :: m).take j := by
  constructor
  · simp; omega
  · rw [List.take_take, Nat.min_eq_left hj8]
    cases j with
    | zero => rfl
    | succ i =>
      rw [List.take_succ_cons, List.take_succ_cons]
      have hi : i ≤ k := by omega
      have := congrArg (List.take i) h2
      rw [List.take_take, List.take_take, Nat.min_eq_left hi] at this
      rw [this]

theorem take_weaken {l m : List Int} {k j : Nat} (h1 : k ≤ l.length) (h2 : l.take k = m.take k) (hj : j ≤ k) :
    j ≤ l.length ∧ l.take j = m.take j := by
  refine ⟨by omega, ?_⟩
  have := congrArg (List.take j) h2
  rwa [List.take_take, List.take_take, Nat.min_eq_left hj] at this

theorem getcBody_sim {file p s a} (h : R file p s a) :
    (getcBody s).1 = (Spec.getBody a).1 ∧ R file p (getcBody s).2 (Spec.getBody a).2 := by
  obtain ⟨pb, pos, ef, okp, hpb, hpos, hrest⟩ := fetch_spec h
  rw [getcBody_eq, ef]
  refine ⟨rfl, ?_⟩
  obtain ⟨back, todo, look, since, seen, past, eofs⟩ := a
  have hl := h.look; have hlen := h.len; have hse := h.seen; have hsin := h.since
  have hcc := h.cc; have hlc := h.lc; have hlp := h.lp; have heo := h.eofs; have hsh := h.shape; have hhi := h.hist
  have heof := h.eoft
  dsimp only at hl hlen hse hsin hcc hlc hlp heo hsh hhi heof
  cases todo with
  | nil =>
    have hl0 : look = 0 := by simpa using hl
    subst hl0
    simp only [Spec.getBody] at *
    simp only [updateCounters, show ¬ (EOF = NL) by decide, ite_false, ite_true, ne_eq, not_true_eq_false]
    exact { src := h.src, prop := h.prop, past := rfl, okc := okp, okl := h.okl, pbc := hpb, look := by simp, pos := hpos, rest := hrest, len := hlen,
            seen := by simp, eoft := heof, cc := hcc, lc := hlc, lp := fun ht => by simp only [hlp ht]; omega, eofs := fun _ => by simp [lines],
            shape := hsh, since := hsin, hist := fun ht => hhi ht }
  | cons c t =>
    have hcE : c ≠ EOF := heof c (by simp)
    simp only [Spec.getBody] at *
    have hse' : seen = true → look - 1 = t.length := fun e => by have := hse e; simp at this; omega
    have hsh' : ((c :: back).reverse ++ t).map (· == NL) = file.map (· == NL) := by rw [← hsh]; simp
    have hn : (lines (List.take (since + 1) (c :: back))) = (if c = NL then 1 else 0) + lines (List.take since back) := by
      rw [List.take_succ_cons, lines_cons]
    have hk : lines (List.take look (c :: t)) = if look = 0 then 0 else (if c = NL then 1 else 0) + lines (List.take (look - 1) t) := by
      cases look with
      | zero => simp [lines]
      | succ k => simp [lines_cons]
    by_cases hc : c = NL
    · subst hc
      have heo0 : eofs = 0 := by
        rcases Nat.eq_zero_or_pos eofs with e | e
        · exact e
        · have := heo e; rw [lines_cons] at this; simp at this
      subst heo0
      simp only [updateCounters, hcE, ite_false, ite_true, ne_eq, not_false_eq_true]
      exact { src := h.src, prop := h.prop, past := h.past, okc := okp, okl := pbPush_ok h.okl _, pbc := hpb, look := by simp at hl ⊢; omega, pos := hpos,
              rest := hrest, len := by simp at hlen ⊢; omega, seen := hse', eoft := fun x hx => heof x (by simp [hx]),
              cc := by simp [hcc], lc := fun ht => by simp only [hlc ht, lines_cons]; simp; omega, lp := fun ht => by simp [col_cons], eofs := by simp,
              shape := hsh', since := by simp; omega
              hist := fun ht => by
                dsimp only
                have ⟨h1, h2⟩ := hhi ht
                have e : lens (NL :: back) = (s.linePos :: lens back) := by simp only [lens, ite_true, hlp ht]; simp
                rw [e, pbPush_contents h.okl]
                refine take_min_push h1 h2 ?_ (by omega)
                rw [hn, hk]
                simp only [ite_true]
                split
                · next h0 => subst h0; simp [lines]; omega
                · omega }
    · simp only [updateCounters, hcE, hc, ite_false, ite_true, ne_eq, not_false_eq_true]
      have hn : (lines (List.take (since + 1) (c :: back))) = lines (List.take since back) := by rw [hn, if_neg hc]; omega
      have hk : lines (List.take (look - 1) t) = lines (List.take look (c :: t)) := by
        rw [hk, if_neg hc]; split
        · next h0 => subst h0; simp [lines]
        · omega
      exact { src := h.src, prop := h.prop, past := h.past, okc := okp, okl := h.okl, pbc := hpb, look := by simp at hl ⊢; omega, pos := hpos,
              rest := hrest, len := by simp at hlen ⊢; omega, seen := hse', eoft := fun x hx => heof x (by simp [hx]),
              cc := by simp [hcc], lc := fun ht => by simp only [hlc ht, lines_cons, hc]; simp, lp := fun ht => by simp only [hlp ht, col_cons, hc, ite_false]; omega,
              eofs := fun e => by show lines t = 0; have := heo e; rw [lines_cons, if_neg hc] at this; omega,
              shape := hsh', since := by simp; omega
              hist := fun ht => by
                dsimp only
                have e : lens (c :: back) = lens back := by simp only [lens, if_neg hc]
                rw [e, hn, hk]; exact hhi ht }

/-- The stream at offset `n`. -/
theorem at_R {file p} {s : Stm} {n : Nat} (hf : ∀ c ∈ file, c ≠ EOF) (hn : n ≤ file.length) (hsrc : s.src = file) (hprop : s.prop = p) (hpast : s.eofReached = false)
    (hc : PbOk s.pbChar) (hl : PbOk s.pbLine) (hcc : contents s.pbChar = []) (hpos : s.pos = n) (h1 : s.charCount = n)
    (h2 : p.text = true → s.lineCount = lines (file.take n)) (h3 : p.text = true → s.linePos = col (file.take n).reverse) :
    R file p s (Spec.at_ file n) :=
  { src := hsrc, prop := hprop, past := hpast, okc := hc, okl := hl, pbc := by rw [hcc]; rfl, look := by simp [Spec.at_],
    pos := by simp [Spec.at_, hpos]; omega, rest := by simp [Spec.at_, hpos], len := by simp [Spec.at_]; omega, seen := by simp [Spec.at_],
    eoft := fun c hc => hf c (List.mem_of_mem_drop hc), cc := by simp [Spec.at_, h1]; omega, lc := fun ht => by rw [h2 ht]; simp [Spec.at_, lines_reverse],
    lp := fun ht => by rw [h3 ht]; simp [Spec.at_], eofs := by simp [Spec.at_], shape := by simp [Spec.at_], since := by simp [Spec.at_],
    hist := fun _ => by simp [Spec.at_, lines] }

theorem setPosition_sim {file p} {s : Stm} {n : Nat} {cc lc lp : Int} (hf : ∀ c ∈ file, c ≠ EOF) (hn : n ≤ file.length) (hsrc : s.src = file) (hprop : s.prop = p)
    (h1 : cc = n) (h2 : p.text = true → lc = lines (file.take n) ∧ lp = col (file.take n).reverse) :
    (setPosition s .set n cc lc lp).1 = true ∧ R file p (setPosition s .set n cc lc lp).2 (Spec.at_ file n) := by
  have e : setPosition s .set n cc lc lp = (true,
      { s with pos := n, charCount := cc, lineCount := if s.prop.text then lc else s.lineCount, linePos := if s.prop.text then lp else s.linePos,
               eofReached := false, pbChar := pbInit s.pbChar, pbLine := pbInit s.pbLine }) := by
    obtain ⟨src, pos, ⟨text, input, repo, act⟩, eof, pc, x1, x2, x3, pl⟩ := s
    unfold setPosition callSeek
    dsimp only
    rw [if_neg (by omega)]
    cases text <;> cases eof <;> rfl
  rw [e]
  refine ⟨rfl, at_R hf hn hsrc hprop rfl (pbInit_ok _) (pbInit_ok _) (pbInit_contents _) rfl h1 ?_ ?_⟩
  · intro ht
    simp only [hprop, if_pos ht]
    exact (h2 ht).1
  · intro ht
    simp only [hprop, if_pos ht]
    exact (h2 ht).2

theorem before_sim {file p s a} (hf : ∀ c ∈ file, c ≠ EOF) (h : R file p s a) :
    (∃ r, beforeReading s = .inl r ∧ Spec.before file p a = .inl r) ∨
    (∃ s' a', beforeReading s = .inr s' ∧ Spec.before file p a = .inr a' ∧ R file p s' a' ∧ a'.past = false) := by
  have hprop := h.prop
  subst hprop
  unfold beforeReading Spec.before
  rw [h.past]
  cases hp : a.past with
  | false => exact .inr ⟨s, a, rfl, rfl, h, hp⟩
  | true =>
    cases he : s.prop.eofAction with
    | error => exact .inl ⟨_, rfl, rfl⟩
    | eofCode => exact .inl ⟨_, rfl, rfl⟩
    | reset =>
      refine .inr ⟨_, _, rfl, rfl, ?_⟩
      cases hr : s.prop.reposition with
      | true =>
        have := setPosition_sim (s := { s with eofReached := false }) (p := s.prop) (n := 0) (cc := 0) (lc := 0) (lp := 0) hf (by omega) h.src h.prop rfl
          (fun _ => by simp [lines, col])
        simp only [if_true]
        exact ⟨this.2, rfl⟩
      | false =>
        exact ⟨{ src := h.src, prop := h.prop, past := rfl, okc := h.okc, okl := h.okl, pbc := h.pbc, look := h.look, pos := h.pos, rest := h.rest, len := h.len,
                 seen := h.seen, eoft := h.eoft, cc := h.cc, lc := h.lc, lp := h.lp, eofs := h.eofs, shape := h.shape, since := h.since, hist := h.hist }, rfl⟩

theorem getc_sim {file p s a} (hf : ∀ c ∈ file, c ≠ EOF) (h : R file p s a) :
    (getc s).1 = (Spec.step file p a .get).1 ∧ R file p (getc s).2 (Spec.step file p a .get).2 := by
  unfold getc
  rw [Spec.step]
  rcases before_sim hf h with ⟨r, e1, e2⟩ | ⟨s', a', e1, e2, h', _⟩
  · rw [e1, e2]; exact ⟨rfl, h⟩
  · rw [e1, e2]
    have := getcBody_sim h'
    exact ⟨congrArg Res.code this.1, this.2⟩

theorem peekBody_sim {file p s a} (h : R file p s a) :
    (if !pbEmpty s.pbChar then (Res.code (pbTop s.pbChar), s)
     else (Res.code (callGetc s).1, { (callGetc s).2 with pbChar := pbPush (callGetc s).2.pbChar (callGetc s).1 })).1 = .code (Spec.peekBody a).1 ∧
    R file p (if !pbEmpty s.pbChar then (Res.code (pbTop s.pbChar), s)
     else (Res.code (callGetc s).1, { (callGetc s).2 with pbChar := pbPush (callGetc s).2.pbChar (callGetc s).1 })).2 (Spec.peekBody a).2 := by
  obtain ⟨back, todo, look, since, seen, past, eofs⟩ := a
  have hpbc := h.pbc; have hl := h.look; have hpos := h.pos; have hr := h.rest; have hlen := h.len; have hse := h.seen; have hhi := h.hist
  dsimp only at hpbc hl hpos hr hlen hse hhi
  by_cases he : contents s.pbChar = []
  · -- nothing was seen
    rw [if_neg (by rw [(pbEmpty_iff _).2 he]; simp)]
    rw [he] at hpbc
    have hpbc := hpbc.symm
    rw [List.append_eq_nil_iff] at hpbc
    have hs0 : seen = false := by have := hpbc.2; cases seen <;> simp at this ⊢
    subst hs0
    cases todo with
    | nil =>
      have hl0 : look = 0 := by simpa using hl
      subst hl0
      have eg : callGetc s = (EOF, s) := by
        unfold callGetc
        rw [List.getElem?_eq_none (by rw [h.src, hpos]; simp at hlen; omega)]
      rw [eg]
      refine ⟨rfl, ?_⟩
      exact { src := h.src, prop := h.prop, past := h.past, okc := pbPush_ok h.okc _, okl := h.okl, pbc := by rw [pbPush_contents h.okc, he]; rfl,
              look := hl, pos := hpos, rest := hr, len := hlen, seen := fun _ => rfl, eoft := h.eoft, cc := h.cc, lc := h.lc, lp := h.lp, eofs := h.eofs,
              shape := h.shape, since := h.since, hist := h.hist }
    | cons c t =>
      have hl0 : look = 0 := by
        have := congrArg List.length hpbc.1
        simp at this; exact this
      subst hl0
      have hg : s.src[s.pos]? = some c := by
        have : (file.drop s.pos)[0]? = some c := by rw [← hr]; rfl
        rw [List.getElem?_drop] at this
        rw [h.src]; exact this
      have eg : callGetc s = (c, { s with pos := s.pos + 1 }) := by unfold callGetc; rw [hg]
      rw [eg]
      refine ⟨rfl, ?_⟩
      exact { src := h.src, prop := h.prop, past := h.past, okc := pbPush_ok h.okc _, okl := h.okl, pbc := by simp only [pbPush_contents h.okc, he]; rfl,
              look := by simp [Spec.peekBody], pos := by simp [Spec.peekBody, hpos], rest := by simp only [Spec.peekBody]; rw [← List.drop_drop, ← hr]; simp,
              len := hlen, seen := by simp [Spec.peekBody], eoft := h.eoft, cc := h.cc, lc := h.lc, lp := h.lp, eofs := h.eofs, shape := h.shape,
              since := h.since
              hist := fun ht => by
                have ⟨h1, h2⟩ := hhi ht
                exact take_weaken h1 h2 (by simp [lines, Spec.peekBody]; omega) }
  · have hne : s.pbChar.nb ≠ 0 := by
      intro e; apply he
      rw [← List.length_eq_zero_iff, contents_length]; exact e
    rw [if_pos (by simp [pbEmpty, hne])]
    have ht := pbTop_eq h.okc hne
    rw [hpbc] at ht
    cases todo with
    | nil =>
      have hl0 : look = 0 := by simpa using hl
      subst hl0
      cases seen with
      | false => exact absurd (by simpa using hpbc) he
      | true =>
        have ht : EOF = pbTop s.pbChar := by simpa using ht
        refine ⟨by rw [← ht]; rfl, h⟩
    | cons c t =>
      cases look with
      | zero =>
        have hsf : seen = false := by cases seen with | false => rfl | true => have := hse rfl; simp at this
        subst hsf
        exact absurd (by simpa using hpbc) he
      | succ k =>
        have ht : c = pbTop s.pbChar := by simpa using ht
        refine ⟨by rw [← ht]; rfl, ?_⟩
        have : max (k + 1) 1 = k + 1 := by omega
        simp only [Spec.peekBody, this]; exact h

theorem peekc_sim {file p s a} (hf : ∀ c ∈ file, c ≠ EOF) (h : R file p s a) :
    (peekc s).1 = (Spec.step file p a .peek).1 ∧ R file p (peekc s).2 (Spec.step file p a .peek).2 := by
  unfold peekc
  rw [Spec.step]
  rcases before_sim hf h with ⟨r, e1, e2⟩ | ⟨s', a', e1, e2, h', _⟩
  · rw [e1, e2]; exact ⟨rfl, h⟩
  · rw [e1, e2]
    exact peekBody_sim h'

theorem eos_sim {file p s a} (hf : ∀ c ∈ file, c ≠ EOF) (h : R file p s a) :
    (endOfStream s).1 = (Spec.step file p a .eos).1 ∧ R file p (endOfStream s).2 (Spec.step file p a .eos).2 := by
  unfold endOfStream
  rw [Spec.step, h.prop, h.past]
  split
  · exact ⟨rfl, h⟩
  · cases hp : a.past with
    | true => exact ⟨rfl, h⟩
    | false =>
      have := peekc_sim hf h
      simp only [Spec.step, Spec.before, hp] at this
      simp only [Bool.false_eq_true, if_false] at this ⊢
      rw [this.1]
      refine ⟨?_, ?_⟩
      · cases ht : a.todo with
        | nil => simp [Spec.peekBody, ht]
        | cons c t =>
          have : c ≠ EOF := h.eoft c (by simp [ht])
          simp [Spec.peekBody, ht, this]
      · split <;> exact this.2

theorem ungetc_sim {file p s a} {c : Int} (h : R file p s a) (hl : Spec.Legal file p a (.unget c)) :
    R file p (ungetc c s) (Spec.step file p a (.unget c)).2 := by
  obtain ⟨back, todo, look, since, seen, past, eofs⟩ := a
  have hpbc := h.pbc; have hlk := h.look; have hpos := h.pos; have hr := h.rest; have hlen := h.len; have hse := h.seen; have hhi := h.hist
  have hcc := h.cc; have hlc := h.lc; have hlp := h.lp; have heo := h.eofs; have hsh := h.shape; have hsin := h.since; have heof := h.eoft
  dsimp only at hpbc hlk hpos hr hlen hse hhi hcc hlc hlp heo hsh hsin heof
  obtain ⟨hs, hroom, hcE, hhead⟩ := hl
  dsimp only at hs hroom hhead
  cases back with
  | nil => simp at hsin; omega
  | cons c' back =>
    have hcc' : (c = NL ↔ c' = NL) := hhead c' (by simp)
    obtain ⟨j, rfl⟩ : ∃ j, since = j + 1 := ⟨since - 1, by omega⟩
    have hfull : contents (pbPush s.pbChar c) = (c :: todo).take (look + 1) ++ (if seen then [EOF] else []) := by
      rw [pbPush_contents h.okc, hpbc, List.take_of_length_le]
      · simp
      · simp only [List.length_cons, List.length_append, List.length_take]
        cases seen <;> simp at hroom ⊢ <;> omega
    have hshape : (back.reverse ++ c :: todo).map (· == NL) = file.map (· == NL) := by
      rw [← hsh]
      have : (c == NL) = (c' == NL) := by rw [Bool.eq_iff_iff]; simpa using hcc'
      simp [this]
    have hchar : s.charCount > 0 := by rw [hcc]; simp
    have h8 : lines (todo.take look) ≤ 7 := by
      have := lines_le (todo.take look)
      simp at this
      have : look ≤ 7 := by cases seen <;> simp at hroom <;> omega
      omega
    by_cases hc : c = NL
    · have hc' := hcc'.1 hc
      subst hc
      subst hc'
      have hk : lines (List.take (look + 1) (NL :: todo)) = 1 + lines (todo.take look) := by rw [List.take_succ_cons, lines_cons]; simp
      rw [show lines (List.take (j + 1) (NL :: back)) = 1 + lines (back.take j) by rw [List.take_succ_cons, lines_cons]; simp] at hhi
      simp only [ungetc, hchar, Spec.step, ite_true]
      cases htx : p.text with
      | false =>
        refine
          { src := ?_, prop := ?_, past := ?_, okc := ?_, okl := ?_, pbc := ?_, look := by simp; omega, pos := ?_, rest := ?_,
            len := by simp at hlen ⊢; omega, seen := fun e => by simp [hse e], eoft := fun x hx => by
              cases hx with
              | head => exact hcE
              | tail _ hx => exact heof x hx
            cc := ?_, lc := by simp [htx], lp := by simp [htx], eofs := by simp, shape := hshape, since := by simp at hsin ⊢; omega, hist := by simp [htx] }
        · split <;> split <;> exact h.src
        · split <;> split <;> exact h.prop
        · split <;> split <;> rfl
        · split <;> split <;> exact pbPush_ok h.okc _
        · split <;> split
          · exact pbPop_ok h.okl
          · exact h.okl
          · exact pbPop_ok h.okl
          · exact h.okl
        · split <;> split <;> exact hfull
        · split <;> split <;> (simp at hpos ⊢; omega)
        · split <;> split <;> simpa using hr
        · split <;> split <;> (simp only [hcc]; simp)
      | true =>
        obtain ⟨h1, h2⟩ := hhi htx
        have hne : s.pbLine.nb ≠ 0 := by rw [contents_length] at h1; omega
        have hpop := pbPop_contents h.okl hne
        have htop : (pbPop s.pbLine).1 = col back := by
          have := congrArg List.head? h2
          rw [hpop] at this
          obtain ⟨i, hi⟩ : ∃ i, min (1 + lines (back.take j)) (8 - lines (todo.take look)) = i + 1 :=
            ⟨min (1 + lines (back.take j)) (8 - lines (todo.take look)) - 1, by omega⟩
          rw [hi] at this
          simpa [lens] using this
        have hlcp : s.lineCount > 0 := by rw [hlc htx, lines_cons]; simp; omega
        rw [if_pos hlcp]
        rw [if_pos (by simp [pbEmpty, hne])]
        exact
          { src := h.src, prop := h.prop, past := rfl, okc := pbPush_ok h.okc _, okl := pbPop_ok h.okl, pbc := hfull, look := by simp; omega,
            pos := by simp at hpos ⊢; omega, rest := by simpa using hr
            len := by simp at hlen ⊢; omega, seen := fun e => by simp [hse e], eoft := fun x hx => by
              cases hx with
              | head => exact hcE
              | tail _ hx => exact heof x hx
            cc := by simp only [hcc]; simp, lc := fun _ => by simp only [hlc htx, lines_cons]; simp; omega, lp := fun _ => by simp [htop], eofs := by simp,
            shape := hshape, since := by simp at hsin ⊢; omega
            hist := fun _ => by
              simp only [List.tail_cons, Nat.add_sub_cancel, hk]
              have e : lens (NL :: back) = (col back : Int) :: lens back := by simp [lens]
              rw [e, hpop] at h2
              rw [hpop] at h1
              obtain ⟨i, hi⟩ : ∃ i, min (1 + lines (back.take j)) (8 - lines (todo.take look)) = i + 1 :=
                ⟨min (1 + lines (back.take j)) (8 - lines (todo.take look)) - 1, by omega⟩
              rw [hi] at h1 h2
              simp only [List.take_succ_cons, List.cons.injEq] at h2
              simp only [List.length_cons] at h1
              exact take_weaken (k := i) (by omega) h2.2 (by omega) }
    · have hc' : c' ≠ NL := fun e => hc (hcc'.2 e)
      have hk : lines (List.take (look + 1) (c :: todo)) = lines (todo.take look) := by rw [List.take_succ_cons, lines_cons, if_neg hc]; omega
      rw [show lines (List.take (j + 1) (c' :: back)) = lines (back.take j) by rw [List.take_succ_cons, lines_cons, if_neg hc']; omega] at hhi
      simp only [ungetc, hchar, Spec.step, hc, ite_true, ite_false]
      refine
          { src := ?_, prop := ?_, past := ?_, okc := ?_, okl := ?_, pbc := ?_, look := by simp; omega, pos := ?_, rest := ?_,
            len := by simp at hlen ⊢; omega, seen := fun e => by simp [hse e], eoft := fun x hx => by
              cases hx with
              | head => exact hcE
              | tail _ hx => exact heof x hx
            cc := ?_, lc := ?_, lp := ?_, eofs := ?_, shape := hshape, since := by simp at hsin ⊢; omega, hist := ?_ }
      · split <;> exact h.src
      · split <;> exact h.prop
      · split <;> rfl
      · split <;> exact pbPush_ok h.okc _
      · split <;> exact h.okl
      · split <;> exact hfull
      · split <;> (simp at hpos ⊢; omega)
      · split <;> simpa using hr
      · split <;> (simp only [hcc]; simp)
      · intro ht
        have : s.lineCount = lines back := by rw [hlc ht, lines_cons, if_neg hc']; simp
        split <;> exact this
      · intro ht
        have hl : s.linePos = (col back : Int) + 1 + eofs := by rw [hlp ht, col_cons, if_neg hc']; omega
        rw [if_pos (by omega)]
        simp only [hl, List.tail_cons]; omega
      · intro e; rw [lines_cons, if_neg hc, heo e]
      · intro ht
        have ⟨h1, h2⟩ := hhi ht
        have e : lens (c' :: back) = lens back := by simp only [lens, if_neg hc']
        rw [e] at h2
        have : ∀ x : Stm, x.pbLine = s.pbLine → (min (lines (back.take j)) (8 - lines (List.take (look + 1) (c :: todo))) ≤ (contents x.pbLine).length ∧
            (contents x.pbLine).take (min (lines (back.take j)) (8 - lines (List.take (look + 1) (c :: todo)))) =
              (lens back).take (min (lines (back.take j)) (8 - lines (List.take (look + 1) (c :: todo))))) := by
          intro x hx
          rw [hx, hk]; exact ⟨h1, h2⟩
        split <;> exact this _ rfl

end Gp.Stream
