import Verif.Format.Lemmas
namespace Gp.Format
open Spec

/-- A string stream which was rewound. -/
def Empty (p : Option Str) : Prop := ∀ s, p = some s → s.buf = [] ∧ s.lineCount = 0 ∧ s.linePos = 0 ∧ 1024 ≤ s.alloc

/-- The variables of Format and the text being laid out. -/
inductive R (o : Stm) : F → Page → Mode → Prop
  | idle {f : F} {S : Page} : f.onPad = false → f.pads = [] → Empty f.pad → S.pieces = [] → f.orig = o.puts S.out →
      S.col = f.orig.linePos → f.last ≤ f.orig.lineCount → S.bound = (if f.last = f.orig.lineCount then f.tab else 0) →
      R o f S .idle
  | pend {f : F} {S : Page} {s : Str} {m k : Nat} : f.onPad = true → f.pad = some s → 1024 ≤ s.alloc → f.last = 0 →
      s.lineCount = 0 → s.linePos = k → s.buf.length = k → Match s.gen 0 f.pads S.pieces → S.pieces ≠ [] →
      S.pieces.length = m → s.buf = S.rest → (∀ p ∈ S.pieces, p.1 ≠ 10) → 10 ∉ s.buf → f.orig = o.puts S.out → S.col = f.orig.linePos →
      S.bound = f.tab → R o f S (.pend m k)
  | broken {f : F} {S : Page} {s : Str} {P : List (Nat × List Nat)} {m k : Nat} : f.onPad = true → f.pad = some s →
      1024 ≤ s.alloc → f.last = 0 → 0 < s.lineCount → S.pieces = [] → s.buf.length ≤ k → Match s.gen 0 f.pads P → P ≠ [] →
      s.buf = P.flatMap (·.2) → o.puts S.out = f.orig.puts s.buf → S.col = s.linePos → S.bound = 0 →
      S.col = (o.puts S.out).linePos → R o f S (.broken m k)

theorem puts_linePos (o : Stm) (c : Nat) (t : List Nat) :
    (o.puts (t ++ [c])).linePos = if c = 10 then 0 else (o.puts t).linePos + 1 := by
  rw [Stm.puts_append, Stm.puts_single, Stm.put, counters]
  split <;> rfl

theorem puts_lineCount (o : Stm) (c : Nat) (t : List Nat) :
    (o.puts (t ++ [c])).lineCount = if c = 10 then (o.puts t).lineCount + 1 else (o.puts t).lineCount := by
  rw [Stm.puts_append, Stm.puts_single, Stm.put, counters]
  split <;> rfl

theorem R.char {o : Stm} {f : F} {S : Page} {m : Mode} (h : R o f S m) (c : Nat) (hf : (m.text [c]).fits) :
    R o (f.put c) (S.char c) (m.text [c]) := by
  cases h with
  | idle h1 h2 h3 h4 h5 h6 h7 h8 =>
    have e : f.put c = { f with orig := f.orig.puts [c] } := F.puts_orig f [c] h1
    rw [e]
    by_cases hc : c = 10
    · subst hc
      have hr : S.rest = [] := by simp [Page.rest, h4]
      refine .idle h1 h2 h3 ?_ ?_ ?_ ?_ ?_
      · simp [Page.char]
      · simp [Page.char, hr, h5, Stm.puts_append]
      · simp [Page.char, Stm.puts_single, Stm.put, counters]
      · simp only [Stm.puts_single, Stm.put, counters, if_true]; omega
      · simp only [Page.char, if_true, Stm.puts_single, Stm.put, counters]
        rw [if_neg (by omega)]
    · refine .idle h1 h2 h3 ?_ ?_ ?_ ?_ ?_
      · simp [Page.char, hc, h4]
      · simp [Page.char, hc, h4, h5, Stm.puts_append]
      · simp [Page.char, hc, h4, h6, Stm.puts_single, Stm.put, counters]
      · simp only [Stm.puts_single, Stm.put, counters, if_neg hc]; exact h7
      · simp only [Page.char, if_neg hc, h4, Stm.puts_single, Stm.put, counters, if_true]
        exact h8
  | @pend s m k h1 h2 h3 h4 h5 h6 h7 h8 h9 h10 h11 h15 h15' h12 h13 h14 =>
    have hk : k + 1 ≤ 1023 := by
      simp only [Mode.text] at hf
      split at hf <;> simpa [Mode.fits] using hf
    have e : f.put c = { f with pad := some (s.put c) } := by simp [F.put, h1, h2]
    rw [e, s.put_fits c h3 (by omega)]
    by_cases hc : c = 10
    · subst hc
      have hne : addLast 10 S.pieces ≠ [] := addLast_ne h9
      simp only [Mode.text, List.mem_singleton, if_true, List.length_singleton]
      refine .broken (P := addLast 10 S.pieces) h1 rfl h3 h4 ?_ ?_ ?_ h8.addLast hne ?_ ?_ ?_ ?_ ?_
      · simp [counters]
      · simp [Page.char]
      · simp [h7]
      · rw [addLast_flat h9]; simp [h11, Page.rest]
      · simp [Page.char, h12, Stm.puts_append, h11]
      · simp [Page.char, counters]
      · simp [Page.char]
      · simp [Page.char, puts_linePos, Stm.puts_append, Stm.puts_single, Stm.put, counters]
    · simp only [Mode.text, List.mem_singleton, Ne.symm hc, if_false, List.length_singleton]
      have ep : (S.char c).pieces = addLast c S.pieces := by simp [Page.char, hc, h9]
      refine .pend h1 rfl h3 h4 ?_ ?_ ?_ ?_ ?_ ?_ ?_ ?_ ?_ ?_ ?_ ?_
      · simp [counters, hc, h5]
      · simp [counters, hc, h6]
      · simp [h7]
      · rw [ep]; exact h8.addLast
      · rw [ep]; exact addLast_ne h9
      · rw [ep, addLast_length]; exact h10
      · rw [Page.rest, ep, addLast_flat h9]; simp [h11, Page.rest]
      · rw [ep]
        have : ∀ ps : List (Nat × List Nat), (∀ p ∈ ps, p.1 ≠ 10) → ∀ p ∈ addLast c ps, p.1 ≠ 10 := by
          intro ps
          fun_induction addLast c ps with
          | case1 => intro _ p hp; cases hp
          | case2 q => intro h p hp; rw [List.mem_singleton] at hp; subst hp; exact h q (by simp)
          | case3 q r ps ih =>
            intro h p hp
            rcases List.mem_cons.1 hp with rfl | hp
            · exact h _ (by simp)
            · exact ih (fun p hp => h p (by simp [List.mem_cons.1 hp])) p hp
        exact this _ h15
      · simp only [List.mem_append, List.mem_singleton, not_or]
        exact ⟨h15', Ne.symm hc⟩
      · simp [Page.char, hc, h9, h12]
      · simp [Page.char, hc, h9, h13]
      · simp [Page.char, hc, h9, h14]
  | @broken s P m k h1 h2 h3 h4 h5 h6 h7 h8 h9 h10 h11 h12 h13 h14 =>
    have hk : k + 1 ≤ 1023 := by simpa [Mode.text, Mode.fits] using hf
    have e : f.put c = { f with pad := some (s.put c) } := by simp [F.put, h1, h2]
    rw [e, s.put_fits c h3 (by omega)]
    have hr : S.rest = [] := by simp [Page.rest, h6]
    have eo : (S.char c).out = S.out ++ [c] := by
      by_cases hc : c = 10
      · simp [Page.char, hc, hr]
      · simp [Page.char, hc, h6]
    refine .broken (P := addLast c P) h1 rfl h3 h4 ?_ ?_ ?_ h8.addLast (addLast_ne h9) ?_ ?_ ?_ ?_ ?_
    · simp only [counters]; split <;> omega
    · by_cases hc : c = 10 <;> simp [Page.char, hc, h6]
    · simp; omega
    · rw [addLast_flat h9]; simp [h10]
    · rw [eo, Stm.puts_append, h11]
      simp [Stm.puts_append]
    · by_cases hc : c = 10 <;> simp [Page.char, hc, h6, counters, h12]
    · by_cases hc : c = 10 <;> simp [Page.char, hc, h6, h13]
    · rw [eo, puts_linePos]
      by_cases hc : c = 10 <;> simp [Page.char, hc, h6, h14]

theorem Mode.text_cons (m : Mode) (c : Nat) (t : List Nat) : m.text (c :: t) = (m.text [c]).text t := by
  cases m with
  | idle => rfl
  | broken m k => simp only [Mode.text, List.length_cons, List.length_nil]; congr 1; omega
  | pend m k =>
    by_cases hc : c = 10
    · simp only [Mode.text, hc, List.mem_cons, true_or, if_true, List.length_cons, List.length_nil]
      congr 1; omega
    · have h1 : (10 ∈ c :: t) ↔ 10 ∈ t := by simp [Ne.symm hc]
      have h2 : ¬ (10 ∈ [c]) := by simp [Ne.symm hc]
      simp only [Mode.text, if_neg h2, List.length_cons, List.length_nil]
      by_cases ht : 10 ∈ t
      · rw [if_pos (h1.2 ht), if_pos ht]; congr 1; omega
      · rw [if_neg (fun h => ht (h1.1 h)), if_neg ht]; congr 1; omega

theorem Mode.text_nil (m : Mode) : m.text [] = m := by cases m <;> simp [Mode.text]

theorem Mode.fits_of_text {m : Mode} {t : List Nat} (h : (m.text t).fits) : m.fits := by
  cases m with
  | idle => trivial
  | broken m k => simp only [Mode.text, Mode.fits] at *; omega
  | pend m k =>
    simp only [Mode.text] at h
    simp only [Mode.fits]
    split at h <;> simp only [Mode.fits] at h <;> omega

theorem R.text {o : Stm} (t : List Nat) : ∀ {f : F} {S : Page} {m : Mode}, R o f S m → (m.text t).fits →
    R o (f.puts t) (t.foldl Page.char S) (m.text t) := by
  induction t with
  | nil => intro f S m h _; rw [Mode.text_nil]; exact h
  | cons c t ih =>
    intro f S m h hf
    rw [Mode.text_cons] at hf ⊢
    exact ih (h.char c (Mode.fits_of_text hf)) hf

theorem rewind_empty {s : Str} (h : 1024 ≤ s.alloc) : Empty (some s.rewind) := by
  intro s' e
  cases e
  exact ⟨rfl, rfl, rfl, h⟩

/-- `~t`. -/
theorem R.fill {o : Stm} {f : F} {S : Page} {m : Mode} {alloc : Nat} {n : Option Int} {is : List Item} (h : R o f S m)
    (ha : 1024 ≤ alloc) (ht : tame m (.fill ((n.getD 32) % 256).toNat :: is)) :
    ∃ f' m', dirT alloc n f = .ok f' ∧ R o f' (S.item (.fill ((n.getD 32) % 256).toNat)) m' ∧ tame m' is := by
  have hMAX : MAX_PAD = 1024 := rfl
  cases h with
  | idle h1 h2 h3 h4 h5 h6 h7 h8 =>
    have hlc : f.lineCount = f.orig.lineCount := by simp [F.lineCount, h1]
    -- the state when the padding point is added
    have key : ∀ t : Int, S.bound = t → ∃ f' m', addPad alloc ((n.getD 32) % 256).toNat { f with tab := t, last := f.orig.lineCount } =
          Res.ok f' ∧ R o f' (S.item (.fill ((n.getD 32) % 256).toNat)) m' ∧ tame m' is := by
      intro t ht'
      have hs : (f.pad.getD (newStr alloc)).buf = [] ∧ (f.pad.getD (newStr alloc)).lineCount = 0 ∧
          (f.pad.getD (newStr alloc)).linePos = 0 ∧ 1024 ≤ (f.pad.getD (newStr alloc)).alloc := by
        cases hp : f.pad with
        | none => exact ⟨rfl, rfl, rfl, ha⟩
        | some s => exact h3 s hp
      obtain ⟨a, b, c, d⟩ := hs
      have h0 : f.pads.length = 0 := by simp [h2]
      refine ⟨{ f with
          tab := t, pad := some (f.pad.getD (newStr alloc)), onPad := true, last := (f.pad.getD (newStr alloc)).lineCount
          pads := f.pads ++ [{ gen := (f.pad.getD (newStr alloc)).gen, off := (f.pad.getD (newStr alloc)).buf.length,
                               fill := ((n.getD 32) % 256).toNat }] }, _, ?_, ?_, ht.2⟩
      · simp only [addPad, h0, if_true]
        rw [if_neg (by omega)]
      · refine .pend (s := f.pad.getD (newStr alloc)) rfl rfl d b b c (by simp [a]) ?_ ?_ ?_ ?_ ?_ ?_ h5 h6 ht'
        · have e : (S.item (.fill ((n.getD 32) % 256).toNat)).pieces = [((n.getD 32 % 256).toNat, [])] := by simp [Page.item, h4]
          rw [e]
          simp only [h2, a, List.nil_append]
          exact ⟨rfl, rfl, rfl, trivial⟩
        · simp [Page.item]
        · simp [Page.item, h4]
        · simp [Page.item, h4, a, Page.rest]
        · simp only [Page.item, h4, List.nil_append, List.mem_singleton, forall_eq]
          exact ht.1
        · rw [a]; simp
    by_cases hl : f.last = f.orig.lineCount
    · have := key f.tab (by rw [h8, if_pos hl])
      have e : ({ f with tab := f.tab, last := f.orig.lineCount } : F) = f := by rw [← hl]
      rw [e] at this
      rw [dirT, if_neg (by rw [hlc]; simpa using hl)]
      exact this
    · have := key 0 (by rw [h8, if_neg hl])
      rw [dirT, if_pos (by rw [hlc]; exact hl)]
      have e : (flush f 0).map (fun f => { f with pads := [], tab := 0, last := F.lineCount { f with pads := [], tab := 0 } }) =
          some { f with tab := 0, last := f.orig.lineCount } := by
        have h0 : f.pads.length = 0 := by simp [h2]
        rw [flush, if_pos h0, Option.map_some]
        simp [F.lineCount, h1, h2]
      rw [e]
      exact this
  | @pend s m k h1 h2 h3 h4 h5 h6 h7 h8 h9 h10 h11 h15 h15' h12 h13 h14 =>
    have hlc : f.lineCount = 0 := by simp [F.lineCount, h1, h2, h5]
    have hl := h8.len
    have h0 : f.pads.length ≠ 0 := by rw [hl]; cases hp : S.pieces with | nil => exact (h9 hp).elim | cons _ _ => simp
    obtain ⟨t1, t2, t3⟩ := ht
    refine ⟨{ f with pads := f.pads ++ [{ gen := s.gen, off := s.buf.length, fill := ((n.getD 32) % 256).toNat }] }, _, ?_, ?_, t3⟩
    · rw [dirT, if_neg (by rw [hlc, h4]; simp)]
      simp only [addPad]
      rw [if_neg h0, if_neg (by omega)]
      simp only [h2]
    · refine .pend (s := s) h1 h2 h3 h4 h5 h6 h7 (Match.snoc (g := s.gen) (c := ((n.getD 32) % 256).toNat)
        (x := { gen := s.gen, off := s.buf.length, fill := ((n.getD 32) % 256).toNat }) rfl rfl h8 ?_) ?_ ?_ ?_ ?_ h15' h12 h13 h14
      · rw [h11, Page.rest]; simp
      · simp [Page.item]
      · simp [Page.item, h10]
      · rw [h11]; simp [Page.item, Page.rest]
      · intro p hp
        simp only [Page.item, List.mem_append, List.mem_singleton] at hp
        rcases hp with hp | rfl
        · exact h15 p hp
        · exact t1
  | @broken s P m k h1 h2 h3 h4 h5 h6 h7 h8 h9 h10 h11 h12 h13 h14 =>
    have hlc : f.lineCount = s.lineCount := by simp [F.lineCount, h1, h2]
    obtain ⟨t1, t2⟩ := ht
    have e : (flush f 0).map (fun f => { f with pads := [], tab := 0, last := F.lineCount { f with pads := [], tab := 0 } }) =
        some { f with orig := f.orig.puts s.buf, pad := some s.rewind, pads := [], tab := 0, last := 0 } := by
      rw [flush_eq h2 h8 h9 h10, Option.map_some]
      have : layout (0 : Int).toNat P = s.buf := by rw [h10]; exact layout_zero P
      rw [this]
      simp [F.lineCount, h1, Str.rewind]
    refine ⟨{ f with
        orig := f.orig.puts s.buf, pad := some s.rewind, tab := 0, last := 0, onPad := true
        pads := [{ gen := s.gen, off := 0, fill := ((n.getD 32) % 256).toNat }] }, _, ?_, ?_, t2⟩
    · rw [dirT, if_pos (by rw [hlc, h4]; omega), e]
      simp only [addPad, List.length_nil, if_true]
      rw [if_neg (by omega)]
      rfl
    · refine .pend (s := s.rewind) rfl rfl h3 rfl rfl rfl rfl ?_ ?_ ?_ ?_ ?_ ?_ h11.symm ?_ h13
      · have e : (S.item (.fill ((n.getD 32) % 256).toNat)).pieces = [((n.getD 32 % 256).toNat, [])] := by simp [Page.item, h6]
        rw [e]
        exact ⟨rfl, rfl, rfl, trivial⟩
      · simp [Page.item]
      · simp [Page.item, h6]
      · simp [Page.item, h6, Page.rest, Str.rewind]
      · simp only [Page.item, h6, List.nil_append, List.mem_singleton, forall_eq]
        exact t1
      · simp [Str.rewind]
      · show S.col = (f.orig.puts s.buf).linePos
        rw [h14, h11]

theorem share_plain {free : Nat} {ps : List (Nat × List Nat)} (h1 : ∀ p ∈ ps, p.1 ≠ 10) (h2 : 10 ∉ ps.flatMap (·.2)) :
    10 ∉ layout free ps := by
  simp only [layout, List.mem_flatMap, not_exists, not_and]
  rintro ⟨p, n⟩ hp hm
  have hp' := (List.of_mem_zip hp).1
  simp only [List.mem_append, List.mem_replicate] at hm
  rcases hm with ⟨_, e⟩ | hm
  · exact h1 p hp' e.symm
  · exact h2 (List.mem_flatMap.2 ⟨p, hp', hm⟩)

/-- `~|` and `~+`. -/
theorem R.stop {o : Stm} {f : F} {S : Page} {m : Mode} {rel : Bool} {n : Option Int} {is : List Item} (h : R o f S m)
    (ht : tame m (.stop rel n :: is)) :
    ∃ f', dirStop rel n f = .ok f' ∧ R o f' (S.item (.stop rel n)) .idle ∧ tame .idle is := by
  cases h with
  | idle h1 h2 h3 h4 h5 h6 h7 h8 =>
    have hlc : f.lineCount = f.orig.lineCount := by simp [F.lineCount, h1]
    have h0 : f.pads.length = 0 := by simp [h2]
    have hpos : S.pos = S.col := by simp [Page.pos, Page.rest, h4]
    have e1 : (if f.last ≠ f.lineCount then (flush f 0).map fun f => { f with pads := [], tab := 0 } else some f) =
        some { f with tab := S.bound } := by
      by_cases hl : f.last = f.orig.lineCount
      · rw [if_neg (by rw [hlc]; simpa using hl), h8, if_pos hl]
      · rw [if_pos (by rw [hlc]; exact hl), flush, if_pos h0, h8, if_neg hl]
        simp [h2]
    let b : Int := if rel then S.bound + n.getD 8 else n.getD S.pos
    refine ⟨{ f with tab := b, orig := f.orig.puts (List.replicate (b - S.pos).toNat 32)
                     last := (f.orig.puts (List.replicate (b - S.pos).toNat 32)).lineCount }, ?_, ?_, ht⟩
    · rw [dirStop, e1]
      simp only [h0, if_true, Nat.lt_irrefl, gt_iff_lt, if_false]
      have e2 : ((f.orig.linePos : Int) + (0 : Nat)) = S.pos := by rw [hpos, h6]; simp
      rw [e2]
      show Res.ok _ = Res.ok _
      rw [F.puts_orig { f with tab := if rel = true then S.bound + n.getD 8 else n.getD S.pos } _ h1]
      simp only [h2, h1, b]
    · have hpl := f.orig.puts_plain (List.replicate (b - S.pos).toNat 32) (by simp [List.mem_replicate])
      refine .idle h1 h2 h3 rfl ?_ ?_ (Nat.le_refl _) ?_
      · simp only [Page.item, Page.stop, h4, if_true, Stm.puts_append, h5, b]
      · simp only [Page.item, Page.stop, hpl.2, List.length_replicate]
        rw [← h6, ← hpos]
        show max S.pos b.toNat = _
        omega
      · simp only [if_true]; rfl
  | @pend s m k h1 h2 h3 h4 h5 h6 h7 h8 h9 h10 h11 h15 h15' h12 h13 h14 =>
    have hlc : f.lineCount = 0 := by simp [F.lineCount, h1, h2, h5]
    have hl := h8.len
    have hpl : 0 < S.pieces.length := by cases hp : S.pieces with | nil => exact (h9 hp).elim | cons _ _ => simp
    have hpos : ((f.orig.linePos : Int) + (s.linePos : Nat)) = S.pos := by
      rw [Page.pos, ← h11, h7, h6, h13]; simp
    let b : Int := if rel then S.bound + n.getD 8 else n.getD S.pos
    have hfl := flush_eq (f := { f with tab := b }) h2 h8 h9 h11 (b - S.pos)
    refine ⟨{ f with tab := b, orig := f.orig.puts (layout (b - S.pos).toNat S.pieces), pad := some s.rewind, pads := []
                     onPad := false, last := (f.orig.puts (layout (b - S.pos).toNat S.pieces)).lineCount }, ?_, ?_, ht⟩
    · rw [dirStop, if_neg (by rw [hlc, h4]; simp)]
      have hlp : f.linePos = s.linePos := by simp [F.linePos, h1, h2]
      simp only [hl, gt_iff_lt, hpl, if_true, hlp, hpos, ← h14]
      rw [if_neg (by omega)]
      simp only [b, h14] at hfl
      simp only [h14]
      rw [hfl]
      simp only [b, h14]
    · have hp := f.orig.puts_plain (layout (b - S.pos).toNat S.pieces)
        (share_plain h15 (by rw [← Page.rest, ← h11]; exact h15'))
      refine .idle rfl rfl (rewind_empty h3) rfl ?_ ?_ (Nat.le_refl _) ?_
      · simp only [Page.item, Page.stop, if_neg h9, Stm.puts_append, h12, b]
      · rw [hp.2, layout_length, share_sum hpl]
        simp only [Page.item, Page.stop]
        have : S.pos = f.orig.linePos + (S.pieces.flatMap (·.2)).length := by rw [Page.pos, Page.rest, h13]
        show max S.pos b.toNat = _
        omega
      · simp only [if_true]; rfl
  | broken => exact ht.elim

/-- `~N`. -/
theorem R.fresh {o : Stm} {f : F} {S : Page} {m : Mode} {is : List Item} (h : R o f S m) (ht : tame m (.fresh :: is)) :
    ∃ m', R o (if f.linePos > 0 then f.put 10 else f) (S.item .fresh) m' ∧ tame m' is := by
  have hp : (∀ k, m = .pend 0 k → False) := by intro k e; subst e; cases h with | pend _ _ _ _ _ _ _ _ h9 h10 => exact h9 (List.eq_nil_of_length_eq_zero h10)
  cases h with
  | idle h1 h2 h3 h4 h5 h6 h7 h8 =>
    refine ⟨.idle, ?_, ht⟩
    have hpos : S.pos = f.linePos := by simp [Page.pos, Page.rest, h4, F.linePos, h1, h6]
    simp only [Page.item, hpos]
    split
    · exact R.char (.idle h1 h2 h3 h4 h5 h6 h7 h8) 10 trivial
    · exact .idle h1 h2 h3 h4 h5 h6 h7 h8
  | @pend s m k h1 h2 h3 h4 h5 h6 h7 h8 h9 h10 h11 h15 h15' h12 h13 h14 =>
    obtain ⟨t1, t2, t3⟩ := ht
    have hlp : f.linePos = k := by simp [F.linePos, h1, h2, h6]
    have hpos : S.pos > 0 := by rw [Page.pos, ← h11, h7]; omega
    refine ⟨_, ?_, t3⟩
    simp only [Page.item, if_pos hpos, hlp, gt_iff_lt, if_pos t1]
    exact R.char (m := .pend m k) (.pend h1 h2 h3 h4 h5 h6 h7 h8 h9 h10 h11 h15 h15' h12 h13 h14) 10
      (by simp only [Mode.text, List.mem_singleton, if_true, List.length_singleton, Mode.fits]; omega)
  | @broken s P m k h1 h2 h3 h4 h5 h6 h7 h8 h9 h10 h11 h12 h13 h14 =>
    obtain ⟨t1, t2⟩ := ht
    have hlp : f.linePos = s.linePos := by simp [F.linePos, h1, h2]
    have hpos : S.pos = s.linePos := by simp [Page.pos, Page.rest, h6, h12]
    refine ⟨_, ?_, t2⟩
    simp only [Page.item, hpos, hlp]
    split
    · exact R.char (m := .broken m k) (.broken h1 h2 h3 h4 h5 h6 h7 h8 h9 h10 h11 h12 h13 h14) 10
        (by simp only [Mode.text, List.length_singleton, Mode.fits]; omega)
    · exact .broken h1 h2 h3 h4 h5 h6 (by omega) h8 h9 h10 h11 h12 h13 h14

/-- The end of the format. -/
theorem R.finish {o : Stm} {f : F} {S : Page} {m : Mode} (h : R o f S m) :
    ∃ f', flush f 0 = some f' ∧ f'.orig = o.puts (S.out ++ S.rest) := by
  cases h with
  | idle h1 h2 h3 h4 h5 h6 h7 h8 =>
    refine ⟨f, by rw [flush, if_pos (by simp [h2])], ?_⟩
    rw [h5]; simp [Page.rest, h4]
  | @pend s m k h1 h2 h3 h4 h5 h6 h7 h8 h9 h10 h11 h15 h15' h12 h13 h14 =>
    refine ⟨_, flush_eq h2 h8 h9 h11 0, ?_⟩
    simp only [Int.toNat_zero, layout_zero, h12, Stm.puts_append, Page.rest]
  | @broken s P m k h1 h2 h3 h4 h5 h6 h7 h8 h9 h10 h11 h12 h13 h14 =>
    refine ⟨_, flush_eq h2 h8 h9 h10 0, ?_⟩
    simp only [Int.toNat_zero, layout_zero, Page.rest, h6, List.flatMap_nil, List.append_nil, h11, h10]

end Gp.Format
