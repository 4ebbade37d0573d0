import Verif.Format.Conv
import Verif.Format.Facts
/-
C47: format/2 and format/3 write what the documentation says (Spec.lean): the texts of the directives in order, the columns
at the places asked for, the padding shared between the `~t` of the column.
-/
namespace Gp.Format
open Spec

/-! ### Witnesses -/

def bs (s : String) : List Nat := s.toList.map Char.toNat
def o0 : Stm := { out := [], lineCount := 0, linePos := 0 }
def A (s : String) : Arg := { atom := some (bs s), str := some (bs s), txt := fun _ => bs s }
def I (n : Int) : Arg := { int := some n }

/-- What is written when there is no error. -/
def Res.text : Res → Option (List Nat)
  | .ok f => some f.orig.out
  | _ => none

/-! ### The text -/

/-- A documented format writes the text asked for at the end of the stream, the position of the stream follows it, and no
string stream remains open. Missing: the formats that are not `tame` (see the violations below), `~+` followed by a digit. -/
theorem C47_format_partial {o : Stm} {alloc : Nat} (ha : 1024 ≤ alloc) {fmt : List Nat} {as : List Arg} {is : List Item}
    (hc : Compiles fmt as is) (ht : tame .idle is) (hp : noPlusDigit fmt) :
    ∃ f, format alloc o fmt as = .ok f ∧ f.pad = none ∧ f.orig.out = o.out ++ render o.linePos is ∧
      f.orig.linePos = column o.linePos (render o.linePos is) := by
  obtain ⟨f, h1, h2, h3⟩ := format_eq (o := o) ha hc ht hp
  exact ⟨f, h1, h2, by rw [h3]; simp, by rw [h3]; exact linePos_puts _ _⟩

/-- What completes is a documented format with as many arguments as it needs: anything else is an error. (With `~` before a
space or a minus sign the code does something else, see `C47_sign_violated`.) -/
theorem C47_only_documented {o : Stm} {alloc : Nat} {fmt : List Nat} {as : List Arg} {f : F} (h1 : plainTilde fmt)
    (h2 : noPlusDigit fmt) (h : format alloc o fmt as = .ok f) : ∃ is, Compiles fmt as is := loop_inv h1 h2 h

/-- A format without `~` is written as it is, with no argument. -/
theorem C47_literal {o : Stm} {alloc : Nat} (fmt : List Nat) (h : 126 ∉ fmt) :
    ∃ f, format alloc o fmt [] = .ok f ∧ f.orig.out = o.out ++ fmt := by
  have : ∀ (fmt : List Nat) (k : Nat) (f : F), 126 ∉ fmt → fmt.length < k → f.pads = [] → f.onPad = false →
      ∃ f', loop alloc k fmt [] f = .ok f' ∧ f'.orig.out = f.orig.out ++ fmt := by
    intro fmt
    induction fmt with
    | nil =>
      intro k f _ hk hp ho
      obtain ⟨k, rfl⟩ : ∃ j, k = j + 1 := ⟨k - 1, by simp at hk; omega⟩
      exact ⟨clean f, by simp [loop, flush, hp], by simp [clean]⟩
    | cons c fmt ih =>
      intro k f hm hk hp ho
      simp only [List.mem_cons, not_or] at hm
      rw [List.length_cons] at hk
      obtain ⟨k, rfl⟩ : ∃ j, k = j + 1 := ⟨k - 1, by omega⟩
      rw [loop, if_pos (fun e => hm.1 e.symm)]
      have e : f.put c = { f with orig := f.orig.put c } := by simp [F.put, ho]
      obtain ⟨f', e1, e2⟩ := ih k (f.put c) hm.2 (by omega) (by rw [e]; exact hp) (by rw [e]; exact ho)
      exact ⟨f', e1, by rw [e2, e]; simp [Stm.put]⟩
  exact this fmt _ _ h (by omega) rfl rfl

/-! ### The columns -/

/-- After `~N|` the column is `N`, or where the text was if it was further. -/
theorem C47_boundary (col : Nat) (is : List Item) (h : ∀ i ∈ is, fillOk i) (n : Int) :
    column col (render col (is ++ [.stop false (some n)])) = max (column col (render col is)) n.toNat := by
  have hg := good_page col is h
  have e : pageOf col (is ++ [.stop false (some n)]) = (pageOf col is).stop n := by simp [pageOf, List.foldl_append, Page.item]
  have h1 : render col (is ++ [.stop false (some n)]) = ((pageOf col is).stop n).out := by
    show (pageOf col _).out ++ (pageOf col _).rest = _
    rw [e]; simp [Page.rest, Page.stop]
  rw [h1, ← (hg.stop n).col]
  show max (pageOf col is).pos n.toNat = _
  rw [hg.pos]; rfl

/-- `~|` without `N` adds nothing: the boundary is where the text is. -/
theorem C47_boundary_here (col : Nat) (is : List Item) (h : ∀ i ∈ is, fillOk i) :
    render col (is ++ [.stop false none]) = render col is ∧
    (pageOf col (is ++ [.stop false none])).bound = column col (render col is) := by
  have hg := good_page col is h
  have e : pageOf col (is ++ [.stop false none]) = (pageOf col is).stop (pageOf col is).pos := by
    simp [pageOf, List.foldl_append, Page.item]
  constructor
  · show (pageOf col _).out ++ (pageOf col _).rest = (pageOf col is).out ++ (pageOf col is).rest
    rw [e]
    simp only [Page.stop, Page.rest, Int.sub_self, Int.toNat_zero, List.flatMap_nil, List.append_nil]
    split
    · next hp => rw [hp]; rfl
    · rw [layout_zero]
  · rw [e]
    show ((pageOf col is).pos : Int) = _
    rw [hg.pos]; rfl

/-- After `~N+` the column is `N` columns after the last boundary. -/
theorem C47_relative (col : Nat) (is : List Item) (h : ∀ i ∈ is, fillOk i) (n : Option Int) :
    column col (render col (is ++ [.stop true n])) =
      max (column col (render col is)) ((pageOf col is).bound + n.getD 8).toNat := by
  have hg := good_page col is h
  have e : pageOf col (is ++ [.stop true n]) = (pageOf col is).stop ((pageOf col is).bound + n.getD 8) := by
    simp [pageOf, List.foldl_append, Page.item]
  have h1 : render col (is ++ [.stop true n]) = ((pageOf col is).stop ((pageOf col is).bound + n.getD 8)).out := by
    show (pageOf col _).out ++ (pageOf col _).rest = _
    rw [e]; simp [Page.rest, Page.stop]
  rw [h1, ← (hg.stop _).col]
  show max (pageOf col is).pos _ = _
  rw [hg.pos]; rfl

/-- The last boundary is the one of the last `~N|`, as long as no new line comes. -/
theorem C47_bound (col : Nat) (is mid : List Item) (n : Int)
    (hm : ∀ i ∈ mid, (∃ c, i = .fill c) ∨ ∃ t, 10 ∉ t ∧ (i = .text t ∨ i = .printf t)) :
    (pageOf col (is ++ .stop false (some n) :: mid)).bound = n := by
  have hc : ∀ (t : List Nat) (s : Page), 10 ∉ t → (t.foldl Page.char s).bound = s.bound := by
    intro t
    induction t with
    | nil => intro s _; rfl
    | cons c t ih =>
      intro s h
      simp only [List.mem_cons, not_or] at h
      rw [List.foldl_cons, ih _ h.2, Page.char, if_neg (fun e => h.1 e.symm)]
      split <;> rfl
  have : ∀ (mid : List Item) (s : Page), (∀ i ∈ mid, (∃ c, i = .fill c) ∨ ∃ t, 10 ∉ t ∧ (i = .text t ∨ i = .printf t)) →
      (mid.foldl Page.item s).bound = s.bound := by
    intro mid
    induction mid with
    | nil => intro s _; rfl
    | cons i mid ih =>
      intro s h
      rw [List.foldl_cons, ih _ fun j hj => h j (by simp [hj])]
      rcases h i (by simp) with ⟨c, rfl⟩ | ⟨t, ht, rfl | rfl⟩
      · rfl
      · exact hc t s ht
      · exact hc t s ht
  show (List.foldl Page.item _ _).bound = n
  rw [List.foldl_append, List.foldl_cons, this mid _ hm]
  rfl

/-- The texts come in order, nothing is lost: what is added is padding and the new lines of `~N`. -/
theorem C47_text_kept (col : Nat) (is : List Item) : (is.flatMap textOf).Sublist (render col is) := by
  have := page_text is { out := [], col := col, bound := 0, pieces := [] }
  simpa [Page.rest, render] using this

/-- The padding is shared between the `~t`: all of it, evenly, the last ones having one more. -/
theorem C47_even {k : Nat} (hk : 0 < k) (free : Nat) :
    (share k free).length = k ∧ (share k free).sum = free ∧ (∀ x ∈ share k free, x = free / k ∨ x = free / k + 1) ∧
    (share k free).Pairwise (· ≤ ·) := by
  refine ⟨by simp [share], share_sum hk free, ?_, ?_⟩
  · intro x hx
    obtain ⟨i, hi, rfl⟩ := List.mem_map.1 hx
    rw [List.mem_range] at hi
    simp only [share_arith hi]
    split <;> simp
  · rw [share, List.pairwise_map]
    exact List.pairwise_lt_range.imp fun h => Nat.div_le_div_right (by omega)

/-! ### The numbers -/

/-- `~Nr`: the digits are those of the number in the base: their value is the number, each one is less than the base, the
first one is 0 for 0 only. (`dirR` is what the code puts.) -/
theorem C47_radix (big : Bool) (n x : Int) (h2 : 2 ≤ n) (h36 : n ≤ 36) :
    ∃ ds, dirR big n x = sign x ++ ds.map (digitChar (if big then 65 else 97)) ∧ evalDigits n.toNat ds = x.natAbs ∧
      (∀ d ∈ ds, (d : Int) < n) ∧ ds ≠ [] ∧ (x ≠ 0 → ds.head? ≠ some 0) := by
  obtain ⟨h1, h3, h4, h5⟩ := digits_spec n.toNat (by omega) x.natAbs
  exact ⟨_, dirR_eq big n x h2, h1, fun d hd => by have := h3 d hd; omega, h4, fun h => h5 (by omega)⟩

/-- `~Nd`: the digits before and after the point are those of the number, `N` after the point. -/
theorem C47_decimal (n x : Int) (h0 : 0 ≤ n) (hl : (shifted id n.toNat x).length < 2 ^ 31) :
    ∃ a b, dirD false n x = sign x ++ a ++ (if n = 0 then [] else 46 :: b) ∧ a ≠ [] ∧ b.length = n.toNat ∧
      (∀ c ∈ a, 48 ≤ c ∧ c ≤ 57) ∧ evalDec (a ++ b) = x.natAbs := by
  refine ⟨decimal (x.natAbs / 10 ^ n.toNat), lastDigits n.toNat x.natAbs, ?_, decimal_ne _, lastDigits_length _ _, (evalDec_decimal _).2, ?_⟩
  · have := dirD_eq false n x h0 hl
    rw [this]
    simp only [shifted, Bool.false_eq_true, if_false, id_eq]
    by_cases hn : n = 0
    · rw [if_pos hn, if_pos (by omega)]
    · rw [if_neg hn, if_neg (by omega)]
  · rw [evalDec, List.map_append, evalDigits_append, List.length_map, lastDigits_length]
    have h1 := (evalDec_decimal (x.natAbs / 10 ^ n.toNat)).1
    have h2 := evalDec_lastDigits n.toNat x.natAbs
    rw [evalDec] at h1 h2
    rw [h1, h2, Nat.mul_comm]
    exact Nat.div_add_mod _ _

/-- `~ND`: the same with a comma before each group of three digits of the integer part. -/
theorem C47_groups (n x : Int) (h0 : 0 ≤ n) (hl : (shifted group n.toNat x).length < 2 ^ 31) :
    ∃ a b g, dirD false n x = sign x ++ a ++ b ∧ dirD true n x = sign x ++ g ++ b ∧ g.filter (· ≠ 44) = a ∧
      g.length = a.length + (a.length - 1) / 3 ∧ ∀ i, i < g.length → (g.reverse[i]? = some 44 ↔ i % 4 = 3) := by
  have hg : 44 ∉ decimal (x.natAbs / 10 ^ n.toNat) := fun h => by have := (evalDec_decimal _).2 44 h; omega
  have hl' : (shifted id n.toNat x).length < 2 ^ 31 := by
    have := group_length (decimal (x.natAbs / 10 ^ n.toNat))
    simp only [shifted, List.length_append, id_eq] at hl ⊢
    omega
  refine ⟨_, _, _, dirD_eq false n x h0 hl', dirD_eq true n x h0 hl, group_erase _ hg, group_length _, fun i hi => group_commas _ hg i hi⟩

/-! ### Examples -/

/-- The examples of the manual (doc/pl-bips.tex). -/
example : (format 1024 o0 (bs "[~|~t~a~t~a~t~a~t~10+]") [A "a", A "b", A "c"]).text = some (bs "[ a  b  c  ]") := by decide +kernel

example : (format 1024 o0 (bs "~`*t~t~20|~n") []).text = some (bs "**********          \n") := by decide +kernel

example : (format 1024 o0 (bs "~2d ~D ~2D ~16r ~8R ~3c ~5a| ~2s")
    [I (-1234567), I 1234567, I 1234567, I 255, I (-8), I 65, A "ab", A "xyz"]).text =
      some (bs "-12345.67 1,234,567 12,345.67 ff -10 AAA ab   | xy") := by decide +kernel

/-- The hypotheses of `C47_format_partial`. -/
example : ∃ is, Compiles (bs "ab~t~a~10|~n") [A "x"] is ∧ tame .idle is ∧ noPlusDigit (bs "ab~t~a~10|~n") ∧
    render 0 is = bs "ab       x\n" := by
  refine ⟨[.text (bs "a"), .text (bs "b"), .fill 32, .text (bs "x"), .stop false (some 10), .text [10]], ?_, ?_, ?_, ?_⟩
  · refine .char (by decide) (.char (by decide) ?_)
    refine .dir (N := []) (d := 116) (.none _) (.t none _) ?_
    refine .dir (N := []) (d := 97) (.none _) (.a _ rfl) ?_
    refine .dir (N := [49, 48]) (d := 124) (.digits (ds := [49, 48]) _ (by decide) (by decide) (by decide)) (.bar _ _) ?_
    exact .dir (N := []) (d := 110) (.none _) (.nl none _) .nil
  · simp [tame, Mode.text, Mode.fits, bs]
  · intro pre d post h
    have h43 : 43 ∉ bs "ab~t~a~10|~n" := by decide
    exact (h43 (by rw [h]; simp)).elim
  · decide +kernel

example : plainTilde (bs "~a") := by
  intro pre c post h
  match pre, h with
  | [], h => cases h; decide
  | [_], h => cases h
  | _ :: _ :: pre, h =>
    have := congrArg List.length h
    simp [bs] at this

example : ∀ i ∈ [Item.text [65], .fill 42], fillOk i := by
  intro i hi
  simp only [List.mem_cons, List.not_mem_nil, or_false] at hi
  rcases hi with rfl | rfl
  · trivial
  · show 42 ≠ 10; decide

example : (shifted group 2 (-1234567)).length < 2 ^ 31 ∧ shifted group 2 (-1234567) = bs "-12,345.67" := by decide +kernel

/-! ### Violations -/

/-- A new line after `~t`, then a column boundary: the padding goes to the string stream and comes out with the next column
(the column 10 asked for is not there). -/
theorem C47_newline_violated :
    (format 1024 o0 (bs "~tab~nc~10|d~t~20|e") []).text = some (bs "ab\ncd                  e") ∧
    render 0 [.fill 32, .text (bs "ab"), .text [10], .text (bs "c"), .stop false (some 10), .text (bs "d"), .fill 32, .stop false (some 20),
      .text (bs "e")] = bs "ab\nc         d         e" := by decide +kernel

/-- `~N` just after a `~t`: no new line although the line is not empty. -/
theorem C47_fresh_violated :
    (format 1024 o0 (bs "abc~t~Nx") []).text = some (bs "abcx") ∧
    render 0 [.text (bs "abc"), .fill 32, .fresh, .text (bs "x")] = bs "abc\nx" := by decide +kernel

/-- More than 2^31 decimal places: the number of places is truncated to 32 bits. -/
theorem C47_places_violated : (format 1024 o0 (bs "~4294967296d") [I 12]).text = some (bs "12") ∧
    ∀ sep, (shifted sep 4294967296 12).length > 4294967296 := by
  refine ⟨by decide +kernel, fun sep => ?_⟩
  rw [shifted, if_neg (by decide), List.length_append, List.length_cons, lastDigits_length]
  omega

/-- `~+` without `N` before a digit: an error, because the sign and the digit are taken for `N`. -/
theorem C47_plus_digit_violated : (format 1024 o0 (bs "~+1") []).text = none ∧
    Compiles (bs "~+1") [] [.stop true none, .text (bs "1")] ∧ render 0 [.stop true none, .text (bs "1")] = bs "        1" := by
  refine ⟨by decide +kernel, ?_, by decide +kernel⟩
  exact .dir (N := []) (d := 43) (.none _) (.plus none _) (.char (by decide) .nil)

/-- A space or a sign is accepted before `N`: `N` is not "a sequence of decimal digits". -/
theorem C47_sign_violated : (format 1024 o0 (bs "~ 2d") [I 123]).text = some (bs "1.23") ∧
    (format 1024 o0 (bs "~-3c.") [I 65]).text = some (bs ".") ∧ ¬ ∃ is, Compiles (bs "~ 2d") [I 123] is := by
  refine ⟨by decide +kernel, by decide +kernel, ?_⟩
  rintro ⟨is, h⟩
  have key : ∀ {N : List Nat} {as : List Arg} {n : Option Int} {as1 : List Arg} {d : Nat} {rest : List Nat}, Num N as n as1 →
      bs "~ 2d" = 126 :: N ++ d :: rest → d = 32 := by
    intro N as n as1 d rest hN e
    rw [List.cons_append, show bs "~ 2d" = 126 :: 32 :: bs "2d" from rfl, List.cons.injEq] at e
    cases hN with
    | none => exact (List.cons.inj e.2).1.symm
    | digits _ h1 h2 h3 =>
      cases N with
      | nil => exact (h1 rfl).elim
      | cons c N => have := h2 c (by simp); have := (List.cons.inj e.2).1; omega
    | star => have := (List.cons.inj e.2).1; omega
    | char c => have := (List.cons.inj e.2).1; omega
  generalize hf : bs "~ 2d" = fmt at h
  cases h with
  | char hc _ => exact hc (List.cons.inj hf).1.symm
  | dir hN hD _ =>
    have := key hN hf
    subst this
    have := (dir_letter hD).1.2.1
    exact absurd this (by decide)
  | percent hN _ => exact absurd (key hN hf) (by decide)
  | conv hN _ _ _ _ _ _ _ _ =>
    rw [List.append_assoc] at hf
    exact absurd (key hN hf) (by decide)

theorem Str.gen_mono (t : List Nat) : ∀ s : Str, s.gen ≤ (t.foldl Str.put s).gen := by
  induction t with
  | nil => intro s; exact Nat.le_refl _
  | cons c t ih =>
    intro s
    refine Nat.le_trans ?_ (ih (s.put c))
    simp only [Str.put, Str.store]
    split <;> simp

theorem Str.moved (t : List Nat) : ∀ s : Str, s.gen = 0 → s.alloc = 1024 → s.buf.length ≤ 1023 → 1023 < s.buf.length + t.length →
    0 < (t.foldl Str.put s).gen := by
  induction t with
  | nil => intro s _ _ _ h; simp at h; omega
  | cons c t ih =>
    intro s h1 h2 h3 h4
    rw [List.length_cons] at h4
    by_cases h : s.buf.length = 1023
    · refine Nat.lt_of_lt_of_le ?_ (gen_mono t (s.put c))
      simp only [Str.put, Str.store]
      rw [if_pos (by omega)]
      simp
    · rw [List.foldl_cons, Str.put_fits s c (by omega) (by omega)]
      refine ih _ h1 h2 ?_ ?_
      · show (s.buf ++ [c]).length ≤ 1023
        rw [List.length_append, List.length_singleton]; omega
      · show 1023 < (s.buf ++ [c]).length + t.length
        rw [List.length_append, List.length_singleton]; omega

theorem F.puts_pad (t : List Nat) : ∀ (f : F) (s : Str), f.onPad = true → f.pad = some s →
    f.puts t = { f with pad := some (t.foldl Str.put s) } := by
  induction t with
  | nil => intro f s _ h; cases f; simp only at h; subst h; rfl
  | cons c t ih =>
    intro f s h1 h2
    have e : f.put c = { f with pad := some (s.put c) } := by simp [F.put, h1, h2]
    show (f.put c).puts t = _
    rw [e, ih { f with pad := some (s.put c) } (s.put c) h1 rfl]
    rfl

/-- Two `~t` and more than 1023 characters: the table of the padding points has pointers into the block that was
reallocated. -/
theorem C47_realloc_violated (o : Stm) (p : List Nat) (h : 1024 ≤ p.length) :
    format 1024 o (bs "~t~t~a~|") [{ atom := some p }] = .ub := by
  let f0 : F := { orig := o, pad := some (newStr 1024), onPad := true, last := 0, pads := [⟨0, 0, 32⟩, ⟨0, 0, 32⟩], tab := 0 }
  have hgen : 0 < (p.foldl Str.put (newStr 1024)).gen := Str.moved p _ rfl rfl (by decide) (by show 1023 < 0 + p.length; omega)
  have hput := F.puts_pad p f0 (newStr 1024) rfl rfl
  have hfl : ∀ (tab : Int) (last : Nat) (free : Int), flush { f0 with pad := some (p.foldl Str.put (newStr 1024)), tab := tab, last := last } free = none := by
    intro tab last free
    simp only [flush, f0, List.length_cons, List.length_nil, flushLoop]
    rw [if_neg (by omega), if_pos (by omega)]
    rfl
  let f1 : F := { orig := o, pad := none, onPad := false, last := o.lineCount, pads := [], tab := 0 }
  have e1 : dirT 1024 none f1 = .ok { f0 with pads := [⟨0, 0, 32⟩] } := by
    unfold dirT
    rw [if_neg (by simp [F.lineCount, f1])]
    rfl
  show (match dirT 1024 none f1 with
    | .ok f => loop 1024 8 (bs "~t~a~|") [{ atom := some p }] f
    | r => r) = .ub
  rw [e1]
  show (match dirStop false none (f0.puts p) with
    | .ok f => loop 1024 5 [] [] f
    | r => r) = .ub
  have : dirStop false none (f0.puts p) = .ub := by
    rw [hput]
    unfold dirStop
    by_cases hl : f0.last ≠ F.lineCount { f0 with pad := some (p.foldl Str.put (newStr 1024)) }
    · rw [if_pos hl, hfl 0 0 0]; rfl
    · rw [if_neg hl]
      simp only
      rw [if_neg (by simp [f0]), hfl]
  rw [this]

/-- `~%` at the end of the format, with a number: the end of the string is taken for a conversion, and the format is read
after its end. -/
theorem C47_percent_end_violated (o : Stm) (alloc : Nat) (g : Nat → Option Int → List Nat) (x : Int) :
    format alloc o (bs "~%") [{ flt := some g, int := some x }] = .ub := rfl

/-- A string of 65535 characters or more: the buffer of Pl_Stream_Printf is overrun. -/
theorem C47_buffer_violated (o : Stm) (alloc : Nat) (p : List Nat) (h : 65535 ≤ p.length) :
    format alloc o (bs "~s") [{ str := some p }] = .ub := by
  have hB : BIG = 65535 := rfl
  have e : (F.mk o none false o.lineCount [] 0).txt (.printf p) = none := by
    simp only [F.txt]
    rw [if_neg (by omega)]
  show (match (F.mk o none false o.lineCount [] 0).txt (.printf p) with
    | none => Res.ub
    | some f => loop alloc 2 [] [] f) = .ub
  rw [e]

/-- An argument error after `~t`: the string stream remains open (a domain error closes it). -/
theorem C47_leak_violated : (∃ f, format 1024 o0 (bs "~ta~d") [A "x"] = .err f ∧ f.pad.isSome) ∧
    ∃ f, format 1024 o0 (bs "~ta~z") [A "x"] = .err f ∧ f.pad.isNone := ⟨⟨_, rfl, rfl⟩, ⟨_, rfl, rfl⟩⟩

end Gp.Format
