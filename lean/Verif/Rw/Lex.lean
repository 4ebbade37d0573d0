import Verif.Rw.Parse
import Verif.Quote.Props
/-
The text written, cut into tokens: the invariant `Lexed` of the writer's state and its preservation by the
elementary actions.
-/
namespace Gp.Rw

open Gp.Quote

/-- The tokenizer, called repeatedly, reads the tokens and leaves the rest. -/
inductive LexTo (l : Loc) (fl : Flags) (vo : Bool) : List Nat → List Tok → List Nat → Prop where
  | nil (inp : List Nat) : LexTo l fl vo inp [] inp
  | cons {inp r rest : List Nat} {t : Tok} {ts : List Tok} (h : lexToken l fl vo false inp = .tok t r)
      (he : t ≠ .eof) (hl : r.length < inp.length) (hs : LexTo l fl vo r ts rest) :
      LexTo l fl vo inp (t :: ts) rest

theorem LexTo.append {l : Loc} {fl : Flags} {vo : Bool} {a b c : List Nat} {ts us : List Tok}
    (h1 : LexTo l fl vo a ts b) (h2 : LexTo l fl vo b us c) : LexTo l fl vo a (ts ++ us) c := by
  induction h1 with
  | nil => exact h2
  | cons h he hl _ ih => exact .cons h he hl (ih h2)

theorem LexTo.one {l : Loc} {fl : Flags} {vo : Bool} {inp r : List Nat} {t : Tok}
    (h : lexToken l fl vo false inp = .tok t r) (he : t ≠ .eof) (hl : r.length < inp.length) :
    LexTo l fl vo inp [t] r := .cons h he hl (.nil _)

/-- The rest does not continue the last item written. -/
def NoGlue (l : Loc) (last : LW) (rest : List Nat) : Prop :=
  ∀ c, rest.head? = some c → (needSpace l last c = false ∨
    ((last = .number ∨ last = .number0) ∧ ∃ r, rest = 46 :: 10 :: r)) ∧ c ≠ 0

theorem NoGlue.ns {l : Loc} {last : LW} {rest : List Nat} (h : NoGlue l last rest)
    (hk : last ≠ .number ∧ last ≠ .number0) :
    ∀ c, rest.head? = some c → needSpace l last c = false ∧ c ≠ 0 := by
  intro c hc
  obtain ⟨h1 | ⟨h1 | h1, _⟩, h2⟩ := h c hc
  · exact ⟨h1, h2⟩
  · exact absurd h1 hk.1
  · exact absurd h1 hk.2

theorem NoGlue.of {l : Loc} {last : LW} {rest : List Nat}
    (h : ∀ c, rest.head? = some c → needSpace l last c = false ∧ c ≠ 0) : NoGlue l last rest :=
  fun c hc => ⟨Or.inl (h c hc).1, (h c hc).2⟩

/-- The text written so far, followed by anything the writer may put next, is read as the tokens. -/
def Lexed (l : Loc) (fl : Flags) (vo : Bool) (w : W) (its : List Tok) : Prop :=
  (w.sp = true → w.last = .nothing ∧ ∃ o, w.out = o ++ [32] ∧
    ∀ rest, LexTo l fl vo (o ++ 32 :: rest) its (32 :: rest)) ∧
  (w.sp = false → ∀ rest, NoGlue l w.last rest → LexTo l fl vo (w.out ++ rest) its rest)

/-- A text written in one go, followed by anything that does not continue it, is read as the tokens; `ts true`
are the tokens when a space precedes. -/
def TxtToks (l : Loc) (fl : Flags) (vo : Bool) (s : List Nat) (ts : Bool → List Tok) (k : LW) : Prop :=
  ∀ rest, NoGlue l k rest →
    LexTo l fl vo (s ++ rest) (ts false) rest ∧ LexTo l fl vo (32 :: (s ++ rest)) (ts true) rest

theorem needSpace_32 (l : Loc) (k : LW) : needSpace l k 32 = false := by
  cases k <;> simp [needSpace, type_32, CT.alnum] <;> decide

theorem needSpace_40 (l : Loc) (k : LW) : needSpace l k 40 = false := by
  cases k <;> simp [needSpace, type_40, CT.alnum] <;> decide

theorem needSpace_nothing (l : Loc) (c : Nat) : needSpace l .nothing c = false := rfl

theorem noGlue_space (l : Loc) (k : LW) (rest : List Nat) : NoGlue l k (32 :: rest) := by
  intro c hc
  simp only [List.head?_cons, Option.some.injEq] at hc
  subst hc
  exact ⟨Or.inl (needSpace_32 l k), by decide⟩

theorem outSpace_lexed {l : Loc} {fl : Flags} {vo : Bool} {w : W} {its : List Tok} (h : Lexed l fl vo w its) :
    Lexed l fl vo (outSpace w) its := by
  refine ⟨fun _ => ⟨rfl, ?_⟩, by simp [outSpace]⟩
  cases hs : w.sp with
  | true =>
    obtain ⟨_, o, ho, hr⟩ := h.1 hs
    exact ⟨o, by simp [outSpace, hs, ho], hr⟩
  | false => exact ⟨w.out, by simp [outSpace, hs], fun rest => h.2 hs _ (noGlue_space l _ rest)⟩

/-- Writing a text and setting the kind of the last item. -/
def put (l : Loc) (w : W) (s : List Nat) (k : LW) : W :=
  let v := emit l w (s.headD 0)
  { v with out := v.out ++ s, sp := false, last := k }

theorem outChar_eq (l : Loc) (w : W) (c : Nat) : outChar l w c = put l w [c] .nothing := rfl

theorem outString_eq (l : Loc) (w : W) (s : List Nat) : outString l w s = put l w s .nothing := rfl

theorem run_str_last (l : Loc) (w : W) (s : List Nat) (k : LW) :
    run l w [.str s, .last k] = put l w s k := rfl

theorem run_append (l : Loc) (w : W) (a b : List Act) : run l w (a ++ b) = run l (run l w a) b := by
  unfold run; rw [List.foldl_append]

theorem run_cons (l : Loc) (w : W) (a : Act) (b : List Act) : run l w (a :: b) = run l (act l w a) b := rfl

theorem run_nil (l : Loc) (w : W) : run l w [] = w := rfl

/-- The tokens written are those of the text. -/
theorem put_lexed {l : Loc} {fl : Flags} {vo : Bool} {w : W} {its : List Tok} (h : Lexed l fl vo w its)
    {c : Nat} {s : List Nat} {ts : Bool → List Tok} {k : LW} (ht : TxtToks l fl vo (c :: s) ts k) (h0 : c ≠ 0)
    (hd : w.pfx = .minus → charType l c ≠ .DI) :
    ∃ lay, Lexed l fl vo (put l w (c :: s) k) (its ++ ts lay) ∧ (put l w (c :: s) k).pfx = .no ∧
      (put l w (c :: s) k).brs = w.brs ∧ (put l w (c :: s) k).sp = false ∧ (put l w (c :: s) k).last = k ∧
      (c = 40 → w.pfx ≠ .no → lay = true) ∧ (c = 40 → w.pfx = .no → w.sp = false → lay = false) := by
  by_cases hsp : (needSpace l w.last c || (c == 40 && w.pfx != .no)) = true
  · have h1 := outSpace_lexed h
    have he : emit l w c = { outSpace w with pfx := .no, last := .nothing } := by
      unfold emit; rw [if_pos hsp]
    refine ⟨true, ⟨by simp [put], fun _ rest hr => ?_⟩, by simp [put, he], by simp [put, he, outSpace], rfl, rfl,
      by simp, ?_⟩
    · obtain ⟨_, o, ho, hr'⟩ := h1.1 rfl
      have : (put l w (c :: s) k).out = o ++ 32 :: (c :: s) := by
        simp only [put, List.headD_cons, he]
        rw [ho]; simp
      rw [this]
      have h2 := (ht rest hr).2
      have h3 := hr' (c :: s ++ rest)
      simp only [List.append_assoc, List.cons_append] at h2 h3 ⊢
      exact h3.append h2
    · intro h40 hp hs
      subst h40
      rw [needSpace_40, hp] at hsp
      simp at hsp
  · have he : emit l w c = { w with pfx := .no, last := .nothing } := by
      unfold emit
      rw [if_neg hsp, if_neg]
      intro hh
      simp only [Bool.and_eq_true, beq_iff_eq] at hh
      exact hd hh.2 hh.1
    simp only [Bool.not_eq_true, Bool.or_eq_false_iff, Bool.and_eq_false_iff] at hsp
    cases hs : w.sp with
    | true =>
      obtain ⟨hl, o, ho, hr'⟩ := h.1 hs
      refine ⟨true, ⟨by simp [put], fun _ rest hr => ?_⟩, by simp [put, he], by simp [put, he], rfl, rfl,
        by simp, by simp⟩
      have : (put l w (c :: s) k).out = o ++ 32 :: (c :: s) := by
        simp only [put, List.headD_cons, he]
        rw [ho]; simp
      rw [this]
      have h2 := (ht rest hr).2
      have h3 := hr' (c :: s ++ rest)
      simp only [List.append_assoc, List.cons_append] at h2 h3 ⊢
      exact h3.append h2
    | false =>
      refine ⟨false, ⟨by simp [put], fun _ rest hr => ?_⟩, by simp [put, he], by simp [put, he], rfl, rfl, ?_,
        by simp⟩
      · have : (put l w (c :: s) k).out = w.out ++ (c :: s) := by simp only [put, List.headD_cons, he]
        rw [this]
        have h2 := (ht rest hr).1
        have h3 := h.2 hs (c :: s ++ rest) (by
          intro d hd'
          simp only [List.cons_append, List.head?_cons, Option.some.injEq] at hd'
          subst hd'
          exact ⟨Or.inl hsp.1, h0⟩)
        simp only [List.append_assoc, List.cons_append] at h2 h3 ⊢
        exact h3.append h2
      · intro h40 hp
        exfalso
        rcases hsp.2 with h | h
        · subst h40; simp at h
        · simp at h; exact hp h

/-! ## Texts -/

/-- A text read as one token by the tokenizer, with or without a space before. -/
theorem txt_of_lexTok {l : Loc} {fl : Flags} {vo : Bool} {c : Nat} {s : List Nat} {ts : Bool → Tok} {k : LW}
    (he : ∀ b, ts b ≠ .eof)
    (h : ∀ rest, NoGlue l k rest → ∀ f lay,
      lexTok l fl vo false (f + 1) lay (c :: s ++ rest) = .tok (ts lay) rest) :
    TxtToks l fl vo (c :: s) (fun b => [ts b]) k := by
  intro rest hr
  refine ⟨LexTo.one (h rest hr _ _) (he _) (by simp; omega), LexTo.one ?_ (he true) (by simp; omega)⟩
  unfold lexToken
  rw [lexTok, type_32]
  dsimp only
  exact h rest hr _ _

theorem txt_append {l : Loc} {fl : Flags} {vo : Bool} {c d : Nat} {s s' : List Nat} {ts ts' : Bool → List Tok}
    {k k' : LW} (h : TxtToks l fl vo (c :: s) ts k) (h' : TxtToks l fl vo (d :: s') ts' k')
    (hd : needSpace l k d = false) (h0 : d ≠ 0) :
    TxtToks l fl vo (c :: s ++ d :: s') (fun b => ts b ++ ts' false) k' := by
  intro rest hr
  have h2 := (h' rest hr).1
  have h1 := h (d :: s' ++ rest) (by
    intro e he
    simp only [List.cons_append, List.head?_cons, Option.some.injEq] at he
    subst he
    exact ⟨Or.inl hd, h0⟩)
  simp only [List.append_assoc, List.cons_append] at h1 h2 ⊢
  exact ⟨h1.1.append h2, h1.2.append h2⟩

theorem lexTok_punct (l : Loc) (fl : Flags) (vo : Bool) (c : Nat) (hc : charType l c = .PC) (f : Nat)
    (lay : Bool) (rest : List Nat) :
    lexTok l fl vo false (f + 1) lay (c :: rest) =
      .tok (if c = 40 ∧ lay = false then .openCt else .punct c) rest := by
  rw [lexTok, hc]
  dsimp only
  split <;> rfl

/-- A punctuation character. -/
theorem txt_punct (l : Loc) (fl : Flags) (vo : Bool) (c : Nat) (hc : charType l c = .PC) (h40 : c ≠ 40) :
    TxtToks l fl vo [c] (fun _ => [.punct c]) .nothing := by
  refine txt_of_lexTok (ts := fun _ => .punct c) (by simp) (fun rest _ f lay => ?_)
  have := lexTok_punct l fl vo c hc f lay rest
  rw [if_neg (fun h => h40 h.1)] at this
  exact this

/-- The opening parenthesis. -/
theorem txt_open (l : Loc) (fl : Flags) (vo : Bool) :
    TxtToks l fl vo [40] (fun b => [if b then .punct 40 else .openCt]) .nothing := by
  refine txt_of_lexTok (ts := fun b => if b then .punct 40 else .openCt) (by intro b; cases b <;> simp)
    (fun rest _ f lay => ?_)
  have := lexTok_punct l fl vo 40 type_40 f lay rest
  cases lay <;> simpa using this

/-- The comma. -/
theorem txt_comma (l : Loc) (fl : Flags) (vo : Bool) :
    TxtToks l fl vo [44] (fun _ => [.name [44] false]) .nothing := by
  refine txt_of_lexTok (ts := fun _ => .name [44] false) (by simp) (fun rest _ f lay => ?_)
  simp only [List.cons_append, List.nil_append]
  rw [lexTok, type_44]
  dsimp only
  rw [if_neg (by simp)]

/-! ### Numbers and variables -/

theorem natText_digits (n : Nat) : ∀ c ∈ natText n, 48 ≤ c ∧ c ≤ 57 := by
  fun_induction natText n with
  | case1 n h => intro c hc; simp at hc; omega
  | case2 n h ih =>
    intro c hc
    rw [List.mem_append] at hc
    rcases hc with hc | hc
    · exact ih c hc
    · simp at hc; omega

theorem natText_ne_nil (n : Nat) : natText n ≠ [] := by
  unfold natText; split <;> simp

theorem natText_val (n : Nat) : (natText n).foldl (fun x c => x * 10 + (c - 48)) 0 = n := by
  fun_induction natText n with
  | case1 n h => simp
  | case2 n h ih => rw [List.foldl_append, ih]; simp; omega

theorem natText_zero {n : Nat} (h : natText n = [48]) : n = 0 := by
  have := natText_val n
  rw [h] at this
  simpa using this.symm

theorem natText_decVal {n : Nat} (h : n ≤ 2 ^ 63 - 1) : decVal (natText n) = n := by
  unfold decVal; rw [natText_val]; omega

theorem digit_table : ∀ c < 128, asciiTable.getD c .EX = .DI ↔ 48 ≤ c ∧ c ≤ 57 := by decide +kernel

theorem type_digit {l : Loc} {c : Nat} (h : 48 ≤ c ∧ c ≤ 57) : charType l c = .DI := by
  rw [ascii_eq (by omega)]
  exact (digit_table c (by omega)).2 h

theorem type_95 {l : Loc} : charType l 95 = .UL := by rw [ascii_eq (by decide)]; rfl
theorem type_45 {l : Loc} : charType l 45 = .GR := by rw [ascii_eq (by decide)]; rfl

/-- Digits followed by something else. -/
theorem takeCT_digits (l : Loc) (s rest : List Nat) (hs : ∀ c ∈ s, 48 ≤ c ∧ c ≤ 57)
    (hr : ∀ c, rest.head? = some c → charType l c ≠ .DI) : takeCT l isDI (s ++ rest) = (s, rest) := by
  apply takeCT_append
  · intro c hc; rw [type_digit (hs c hc)]; rfl
  · intro c hc
    have := hr c hc
    unfold isDI
    cases h : charType l c <;> simp_all

theorem alnum_false {t : CT} (h : t.alnum = false) : t ≠ .DI ∧ t ≠ .SL ∧ t ≠ .CL ∧ t ≠ .UL := by
  cases t <;> simp [CT.alnum] at h ⊢

/-- The kind set after a number. -/
def numLast (s : List Nat) : LW := if s = [48] then .number0 else .number

theorem noGlue_num {l : Loc} {s rest : List Nat} (h : NoGlue l (numLast s) rest) :
    ∀ c, rest.head? = some c → (charType l c).alnum = false ∧ (c = 46 → ∃ r, rest = 46 :: 10 :: r) ∧ c ≠ 0 ∧
      (s = [48] → c ≠ 39) := by
  intro c hc
  obtain ⟨h1 | ⟨_, r, rfl⟩, h0⟩ := h c hc
  rotate_left
  · simp only [List.head?_cons, Option.some.injEq] at hc
    subst hc
    exact ⟨by rw [type_46]; rfl, fun _ => ⟨r, rfl⟩, by decide, fun _ => by decide⟩
  by_cases hs : s = [48]
  · simp only [numLast, if_pos hs, needSpace, Bool.or_eq_false_iff, beq_eq_false_iff_ne] at h1
    refine ⟨h1.1.2, fun h => absurd h h1.2, h0, fun _ h39 => ?_⟩
    subst h39
    rw [type_39] at h1
    exact absurd rfl h1.1.1
  · simp only [numLast, if_neg hs, needSpace, Bool.or_eq_false_iff, beq_eq_false_iff_ne] at h1
    exact ⟨h1.1, fun h => absurd h h1.2, h0, fun h => absurd h hs⟩

theorem lexNumber_nat (l : Loc) (fl : Flags) (vo : Bool) (n : Nat) (hn : n ≤ 2 ^ 63 - 1) (rest : List Nat)
    (hr : NoGlue l (numLast (natText n)) rest) :
    lexNumber l fl vo (natText n ++ rest) = .tok (.int n) rest := by
  have hr' := noGlue_num hr
  have ht := takeCT_digits l (natText n) rest (natText_digits n) (fun c hc => (alnum_false (hr' c hc).1).1)
  unfold lexNumber
  rw [ht]
  dsimp only
  cases rest with
  | nil => simp [natText_decVal hn]
  | cons c r =>
    obtain ⟨h1, h2, h3, h4⟩ := hr' c rfl
    dsimp only
    rw [if_neg (fun h => by
      obtain ⟨r', hr'⟩ := h2 h.1
      simp only [List.cons.injEq] at hr'
      rw [hr'.2] at h
      simp [type_10] at h)]
    by_cases hz : natText n = [48]
    · rw [if_pos hz, if_neg (h4 hz), if_neg, if_neg h3, natText_zero hz]
      · rfl
      · intro hh
        rcases hh with rfl | rfl | rfl <;> rw [ascii_eq (by decide)] at h1 <;> exact absurd h1 (by decide)
    · rw [if_neg hz, natText_decVal hn]

theorem natText_cons (n : Nat) : ∃ c s, natText n = c :: s ∧ 48 ≤ c ∧ c ≤ 57 := by
  cases h : natText n with
  | nil => exact absurd h (natText_ne_nil n)
  | cons c s => exact ⟨c, s, rfl, natText_digits n c (by rw [h]; simp)⟩

/-- An unsigned integer. -/
theorem txt_nat (l : Loc) (fl : Flags) (vo : Bool) (n : Nat) (hn : n ≤ 2 ^ 63 - 1) :
    TxtToks l fl vo (natText n) (fun _ => [.int n]) (numLast (natText n)) := by
  obtain ⟨c, s, hcs, hc⟩ := natText_cons n
  have h := lexNumber_nat l fl vo n hn
  rw [hcs] at h ⊢
  refine txt_of_lexTok (ts := fun _ => .int n) (by simp) (fun rest hr f lay => ?_)
  have := h rest hr
  simp only [List.cons_append] at this ⊢
  rw [lexTok, type_digit hc]
  exact this

/-- The minus sign of a number. -/
theorem txt_minus (l : Loc) (fl : Flags) (vo : Bool) :
    TxtToks l fl vo [45] (fun _ => [.name [45] false]) .graphic := by
  refine txt_of_lexTok (ts := fun _ => .name [45] false) (by simp) (fun rest hr f lay => ?_)
  simp only [List.cons_append, List.nil_append]
  have ht : takeCT l (· == .GR) rest = ([], rest) := by
    have := takeCT_append l (· == .GR) [] rest (by simp) (by
      intro c hc
      have := (hr c hc).1
      simpa [needSpace] using this)
    simpa using this
  rw [lexTok, type_45]
  dsimp only
  rw [if_neg (by simp), if_neg (by simp), ht]

theorem txt_negNat (l : Loc) (fl : Flags) (vo : Bool) (n : Nat) (hn : n ≤ 2 ^ 63 - 1) (k : LW)
    (hk : k = .number) (hz : n ≠ 0) :
    TxtToks l fl vo (45 :: natText n) (fun _ => [.name [45] false, .int n]) k := by
  obtain ⟨c, s, hcs, hc⟩ := natText_cons n
  have h2 := txt_nat l fl vo n hn
  have : numLast (natText n) = k := by
    unfold numLast; rw [if_neg (fun h => hz (natText_zero h)), hk]
  rw [this, hcs] at h2
  rw [hcs]
  exact txt_append (txt_minus l fl vo) h2 (by simp [needSpace, type_digit hc]) (by omega)

/-- A variable. -/
theorem txt_var (l : Loc) (fl : Flags) (vo : Bool) (n : Nat) :
    TxtToks l fl vo (95 :: natText n) (fun _ => [.var (95 :: natText n)]) .ident := by
  refine txt_of_lexTok (ts := fun _ => .var (95 :: natText n)) (by simp) (fun rest hr f lay => ?_)
  have ht : takeCT l CT.alnum ((95 :: natText n) ++ rest) = (95 :: natText n, rest) := by
    apply takeCT_append
    · intro c hc
      simp only [List.mem_cons] at hc
      rcases hc with rfl | hc
      · rw [type_95]; rfl
      · rw [type_digit (natText_digits n c hc)]; rfl
    · intro c hc
      have := (hr.ns (by simp) c hc).1
      simp only [needSpace, Bool.or_eq_false_iff] at this
      exact this.1.1
  simp only [List.cons_append] at ht ⊢
  rw [lexTok, type_95]
  dsimp only
  rw [ht]

/-- The texts `Pl_Float_To_String` makes of a finite non negative double: digits, a point, digits, and possibly
an exponent. -/
def FloatText (s : List Nat) : Prop :=
  ∃ ip fp ex, s = ip ++ [46] ++ fp ++ ex ∧ ip ≠ [] ∧ fp ≠ [] ∧ (∀ c ∈ ip, 48 ≤ c ∧ c ≤ 57) ∧
    (∀ c ∈ fp, 48 ≤ c ∧ c ≤ 57) ∧
    (ex = [] ∨ ∃ sg ds, ex = [101, sg] ++ ds ∧ (sg = 43 ∨ sg = 45) ∧ ds ≠ [] ∧ ∀ c ∈ ds, 48 ≤ c ∧ c ≤ 57)

theorem type_101 {l : Loc} : charType l 101 = .SL := by rw [ascii_eq (by decide)]; rfl
theorem type_43 {l : Loc} : charType l 43 = .GR := by rw [ascii_eq (by decide)]; rfl

theorem lexFloat_text (l : Loc) (ip fp ex rest : List Nat) (hfp : ∀ c ∈ fp, 48 ≤ c ∧ c ≤ 57)
    (hex : ex = [] ∨ ∃ sg ds, ex = [101, sg] ++ ds ∧ (sg = 43 ∨ sg = 45) ∧ ds ≠ [] ∧ ∀ c ∈ ds, 48 ≤ c ∧ c ≤ 57)
    (hr : ∀ c, rest.head? = some c → (charType l c).alnum = false) :
    lexFloat l ip (fp ++ ex ++ rest) = .tok (.float (ip ++ [46] ++ fp ++ ex)) rest := by
  unfold lexFloat
  rcases hex with rfl | ⟨sg, ds, rfl, hsg, hds, hd⟩
  · have ht := takeCT_digits l fp rest hfp (fun c hc => (alnum_false (hr c hc)).1)
    rw [List.append_nil, ht]
    dsimp only
    cases rest with
    | nil => simp
    | cons c r =>
      have := hr c rfl
      dsimp only
      rw [if_neg]
      · simp
      · intro h
        rcases h with rfl | rfl <;> rw [ascii_eq (by decide)] at this <;> exact absurd this (by decide)
  · have ht := takeCT_digits l fp ([101, sg] ++ ds ++ rest) hfp (by
      intro c hc
      simp only [List.cons_append, List.head?_cons, Option.some.injEq] at hc
      subst hc
      rw [type_101]; simp)
    have ht2 := takeCT_digits l ds rest hd (fun c hc => (alnum_false (hr c hc)).1)
    rw [List.append_assoc, ht]
    simp only [List.cons_append, List.nil_append, List.append_assoc]
    cases ds with
    | nil => exact absurd rfl hds
    | cons d ds =>
      have hsgt : charType l sg = .GR := by rcases hsg with rfl | rfl; exact type_43; exact type_45
      simp only [List.cons_append] at ht2 ⊢
      rw [if_pos (Or.inl trivial), if_neg (by rw [hsgt]; simp), if_pos ⟨hsg, by
        simp [type_digit (hd d (by simp))]⟩, ht2]

/-- An unsigned float. -/
theorem txt_float (l : Loc) (fl : Flags) (vo : Bool) (s : List Nat) (h : FloatText s) :
    TxtToks l fl vo s (fun _ => [.float s]) .number ∧ ∃ c s', s = c :: s' ∧ 48 ≤ c ∧ c ≤ 57 := by
  obtain ⟨ip, fp, ex, rfl, hip, hfp0, hipd, hfpd, hex⟩ := h
  cases ip with
  | nil => exact absurd rfl hip
  | cons c ip =>
    have hc := hipd c (by simp)
    refine ⟨?_, c, ip ++ [46] ++ fp ++ ex, by simp, hc⟩
    have hco : c :: ip ++ [46] ++ fp ++ ex = c :: (ip ++ [46] ++ fp ++ ex) := by simp
    rw [hco]
    refine txt_of_lexTok (ts := fun _ => .float _) (by simp) (fun rest hr f lay => ?_)
    have hr' : ∀ c, rest.head? = some c → (charType l c).alnum = false := by
      intro d hd
      rcases (hr d hd).1 with this | ⟨_, r, rfl⟩
      · simp only [needSpace, Bool.or_eq_false_iff] at this
        exact this.1
      · simp only [List.head?_cons, Option.some.injEq] at hd
        subst hd
        rw [type_46]; rfl
    have ht := takeCT_digits l (c :: ip) ([46] ++ fp ++ ex ++ rest) hipd (by
      intro d hd
      simp only [List.cons_append, List.head?_cons, Option.some.injEq] at hd
      subst hd
      rw [type_46]; simp)
    have h2 := lexFloat_text l (c :: ip) fp ex rest hfpd hex hr'
    simp only [List.cons_append, List.append_assoc, List.nil_append] at ht h2 ⊢
    rw [lexTok, type_digit hc]
    dsimp only
    unfold lexNumber
    rw [ht]
    dsimp only
    rw [if_pos, h2]
    refine ⟨rfl, ?_⟩
    cases fp with
    | nil => exact absurd rfl hfp0
    | cons d fp => simp [type_digit (hfpd d (by simp))]

theorem txt_negFloat (l : Loc) (fl : Flags) (vo : Bool) (s : List Nat) (h : FloatText s) :
    TxtToks l fl vo (45 :: s) (fun _ => [.name [45] false, .float s]) .number := by
  obtain ⟨h2, c, s', rfl, hc⟩ := txt_float l fl vo s h
  exact txt_append (txt_minus l fl vo) h2 (by simp [needSpace, type_digit hc]) (by omega)

/-! ### Atoms -/

/-- The kind set after an atom written with quotes if needed. -/
def atomLast (l : Loc) (s : Name) : LW := if (atomProp l s).2 = false then lastOfAtom l s else .quoted

theorem showAtom_cons (l : Loc) (s : Name) (hs : Bytes s) : ∃ c t, showAtom l s = c :: t ∧ c ≠ 0 := by
  cases hq : (atomProp l s).2 with
  | true => exact ⟨39, (if needsScan l s then s.flatMap (showChar l) else s) ++ [39],
      by unfold showAtom; rw [hq]; simp, by decide⟩
  | false =>
    have : showAtom l s = s := by unfold showAtom; rw [hq]; simp
    rw [this]
    cases s with
    | nil =>
      exfalso
      rcases atomProp_cases l [] hq with h | ⟨h, _⟩ | ⟨c, h, _⟩ | h | h
      · simp [isIdent] at h
      · simp [isGraphic] at h
      · simp at h
      · simp at h
      · simp at h
    | cons c t => exact ⟨c, t, rfl, by have := hs c (by simp); omega⟩

theorem lastOfAtom_cases (l : Loc) (s : Name) (h : (atomProp l s).2 = false) :
    (isIdent l s = true ∧ lastOfAtom l s = .ident) ∨ (isGraphic l s = true ∧ lastOfAtom l s = .graphic) ∨
    (∃ c, s = [c] ∧ charType l c = .SC ∧ lastOfAtom l s = .nothing) ∨ (brackets s ∧ lastOfAtom l s = .nothing) := by
  by_cases h1 : isIdent l s = true
  · refine Or.inl ⟨h1, ?_⟩
    have : (atomProp l s).1 = .ident := by unfold atomProp; rw [if_pos h1]
    unfold lastOfAtom; rw [this]
  by_cases h2 : isGraphic l s = true
  · refine Or.inr (Or.inl ⟨h2, ?_⟩)
    have : (atomProp l s).1 = .graphic := by unfold atomProp; rw [if_neg h1, if_pos h2]
    unfold lastOfAtom; rw [this]
  rcases atomProp_cases l s h with h' | ⟨h', _⟩ | ⟨c, rfl, hc, h44⟩ | h'
  · exact absurd h' h1
  · exact absurd h' h2
  · refine Or.inr (Or.inr (Or.inl ⟨c, rfl, hc, ?_⟩))
    have : (atomProp l [c]).1 = .solo := by
      unfold atomProp; rw [if_neg h1, if_neg h2]; dsimp only; rw [if_pos hc]
    unfold lastOfAtom; rw [this]
  · refine Or.inr (Or.inr (Or.inr ⟨h', ?_⟩))
    have h91 : isGraphic l s = false := by simpa using h2
    have : (atomProp l s).1 = .other := by
      unfold atomProp; rw [if_neg h1, if_neg h2]
      rcases h' with rfl | rfl <;> rfl
    unfold lastOfAtom; rw [this]
    dsimp only
    rcases h' with rfl | rfl
    · simp [type_93, CT.alnum]
    · simp [type_125, CT.alnum]

theorem noGlue_atom {l : Loc} (hl : l.Ok) {s : Name} (hb : ¬ brackets s) {rest : List Nat}
    (hr : NoGlue l (atomLast l s) rest) : ∀ c, rest.head? = some c → ¬ glued l (showAtom l s) c := by
  intro c hc hg
  have h1 := (hr c hc).1
  cases hq : (atomProp l s).2 with
  | true =>
    have ht : showAtom l s = 39 :: ((if needsScan l s then s.flatMap (showChar l) else s) ++ [39]) := by
      unfold showAtom; rw [hq]; simp
    rw [ht] at hg
    simp only [glued, type_39] at hg
    have h39 : c = 39 := by
      rcases hg with h | h | h
      · simp at h
      · simp at h
      · exact h.2
    subst h39
    simp [atomLast, hq, needSpace, type_39] at h1
  | false =>
    have ht : showAtom l s = s := by unfold showAtom; rw [hq]; simp
    rw [ht] at hg
    simp only [atomLast, hq, if_true] at h1
    rcases lastOfAtom_cases l s hq with ⟨h, hk⟩ | ⟨h, hk⟩ | ⟨d, rfl, h, hk⟩ | ⟨h, hk⟩
    · rw [hk] at h1
      cases s with
      | nil => simp [isIdent] at h
      | cons d s =>
        simp only [isIdent, Bool.and_eq_true, beq_iff_eq] at h
        simp only [glued, h.2] at hg
        simp [needSpace, Bool.or_eq_false_iff] at h1
        rcases hg with hg | hg | hg
        · rw [h1.1.1] at hg; simp at hg
        · simp at hg
        · rw [hg.1, type_39] at h; simp at h
    · rw [hk] at h1
      cases s with
      | nil => simp [isGraphic] at h
      | cons d s =>
        simp only [isGraphic, List.all_cons, Bool.and_eq_true, beq_iff_eq] at h
        simp only [glued, h.2.1] at hg
        simp [needSpace, beq_eq_false_iff_ne] at h1
        rcases hg with hg | hg | hg
        · simp at hg
        · exact h1 hg.2
        · rw [hg.1, type_39] at h; simp at h
    · simp only [glued, h] at hg
      rcases hg with hg | hg | hg
      · simp at hg
      · simp at hg
      · rw [hg.1, type_39] at h; simp at h
    · exact hb h

/-- An atom other than `[]` and `{}`. -/
theorem txt_name (l : Loc) (hl : l.Ok) (fl : Flags) (vo : Bool) (s : Name) (hs : Bytes s) (hb : ¬ brackets s) :
    TxtToks l fl vo (showAtom l s) (fun _ => [.name s (atomProp l s).2]) (atomLast l s) := by
  obtain ⟨c, t, hct, _⟩ := showAtom_cons l s hs
  have h : ∀ rest, NoGlue l (atomLast l s) rest → ∀ f lay,
      lexTok l fl vo false (f + 1) lay (showAtom l s ++ rest) = .tok (.name s (atomProp l s).2) rest :=
    fun rest hr f lay => lexTok_showAtom l hl fl vo false s hs hb rest (noGlue_atom hl hb hr) f lay
  rw [hct] at h ⊢
  exact txt_of_lexTok (ts := fun _ => .name s (atomProp l s).2) (by simp) h

theorem comma_quoted (l : Loc) : (atomProp l [44]).2 = true := by
  simp [atomProp, isIdent, isGraphic, type_44, CT.alnum]

/-- The tokens of an atom. -/
theorem txt_atom (l : Loc) (hl : l.Ok) (fl : Flags) (vo : Bool) (s : Name) (hs : Bytes s) :
    ∃ ts, AtomToks s ts ∧ TxtToks l fl vo (showAtom l s) (fun _ => ts) (atomLast l s) := by
  by_cases hb : brackets s
  · have hk : atomLast l s = .nothing := by
      unfold atomLast
      have hq : (atomProp l s).2 = false := by
        rcases hb with rfl | rfl
        · simp [atomProp, isIdent, isGraphic, needsScan, scanChar, type_91, type_93, CT.alnum]
        · simp [atomProp, isIdent, isGraphic, needsScan, scanChar, type_123, type_125, CT.alnum]
      rw [if_pos hq]
      rcases lastOfAtom_cases l s hq with ⟨h, _⟩ | ⟨h, _⟩ | ⟨d, rfl, h, _⟩ | ⟨_, h⟩
      · rcases hb with rfl | rfl
        · simp [isIdent, type_91, CT.alnum] at h
        · simp [isIdent, type_123, CT.alnum] at h
      · rcases hb with rfl | rfl
        · simp [isGraphic, type_91] at h
        · simp [isGraphic, type_123] at h
      · rcases hb with h | h <;> simp at h
      · exact h
    have hbr := C33_brackets l fl vo false []
    rw [hk]
    rcases hb with rfl | rfl
    · refine ⟨_, .nil, ?_⟩
      rw [hbr.1]
      exact txt_append (txt_punct l fl vo 91 type_91 (by decide)) (txt_punct l fl vo 93 type_93 (by decide)) rfl
        (by decide)
    · refine ⟨_, .curly, ?_⟩
      rw [hbr.2.1]
      exact txt_append (txt_punct l fl vo 123 type_123 (by decide)) (txt_punct l fl vo 125 type_125 (by decide)) rfl
        (by decide)
  · refine ⟨_, .name s (atomProp l s).2 ?_, txt_name l hl fl vo s hs hb⟩
    rintro ⟨rfl, h⟩
    rw [comma_quoted] at h
    cases h

/-- The text `'.'(` of a list written without brackets. -/
theorem txt_dot (l : Loc) (hl : l.Ok) (fl : Flags) (vo : Bool) :
    TxtToks l fl vo [39, 46, 39, 40] (fun _ => [.name [46] true, .openCt]) .nothing := by
  have h46 : (atomProp l [46]).2 = true := by
    simp [atomProp, isIdent, isGraphic, type_46, CT.alnum]
  have h := txt_name l hl fl vo [46] (by intro c hc; simp at hc; omega) (by simp [brackets])
  have hs : showAtom l [46] = [39, 46, 39] := by
    unfold showAtom
    rw [if_neg (by simp [h46])]
    split
    · have : escSymbol 46 = none := by decide
      have hp : isPrint l 46 = true := by
        unfold isPrint; simp
      simp [showChar, this, hp]
    · rfl
  rw [hs, h46] at h
  exact txt_append h (txt_open l fl vo) (needSpace_40 l _) (by decide)

/-! ## The actions of the writer as texts -/

/-- Nothing pending: a character is written as it is. -/
theorem act_quiet {l : Loc} {w : W} (h1 : w.pfx = .no) (h2 : w.last = .nothing) (c : Nat) :
    emit l w c = w := by
  unfold emit
  simp only [h1, h2, needSpace]
  simp
  cases w
  simp_all

theorem run_chars {l : Loc} (s : List Nat) : ∀ w : W, w.pfx = .no → w.last = .nothing →
    run l w (s.flatMap (showCharActs l)) =
      { w with out := w.out ++ s.flatMap (showChar l), sp := if s = [] then w.sp else false } := by
  induction s with
  | nil => intro w _ _; cases w; simp [run]
  | cons c s ih =>
    intro w h1 h2
    have hstep : ∃ sp', run l w (showCharActs l c) = { w with out := w.out ++ showChar l c, sp := false } ∧ sp' = false := by
      refine ⟨false, ?_, rfl⟩
      unfold showCharActs showChar
      cases escSymbol c with
      | some d =>
        simp only [run, List.foldl_cons, List.foldl_nil, act, outChar]
        rw [act_quiet h1 h2, act_quiet (by exact h1) (by exact h2)]
        simp
      | none =>
        dsimp only
        by_cases h3 : c = 39 ∨ c = 92
        · rw [if_pos h3, if_pos h3]
          simp only [run, List.foldl_cons, List.foldl_nil, act, outChar]
          rw [act_quiet h1 h2, act_quiet (by exact h1) (by exact h2)]
          simp
        · rw [if_neg h3, if_neg h3]
          by_cases h4 : isPrint l c = false
          · rw [if_pos h4, if_pos h4]
            simp only [run, List.foldl_cons, List.foldl_nil, act, outString]
            rw [act_quiet h1 h2]
          · rw [if_neg h4, if_neg h4]
            simp only [run, List.foldl_cons, List.foldl_nil, act, outChar]
            rw [act_quiet h1 h2]
    obtain ⟨_, hstep, _⟩ := hstep
    simp only [List.flatMap_cons]
    rw [run_append, hstep, ih _ (by exact h1) (by exact h2)]
    simp

theorem emit_pfx (l : Loc) (w : W) (c : Nat) : (emit l w c).pfx = .no ∧ (emit l w c).last = .nothing := ⟨rfl, rfl⟩

/-- `Show_Atom` writes the text of the atom. -/
theorem run_atomActs (l : Loc) (w : W) (s : Name) :
    run l w (atomActs l true s) = put l w (showAtom l s) (atomLast l s) := by
  unfold atomActs atomLast showAtom
  by_cases hq : (atomProp l s).2 = false
  · rw [if_pos (Or.inr hq), if_pos hq, if_pos hq]
    rfl
  · rw [if_neg (by simpa using hq), if_neg hq, if_neg hq]
    by_cases hn : needsScan l s = true
    · rw [if_pos hn, if_pos hn, run_append, run_append]
      rw [run_chars s (run l w [.chr 39]) rfl rfl]
      simp only [run, List.foldl_cons, List.foldl_nil, act, outChar, put]
      rw [act_quiet rfl rfl]
      simp
    · rw [if_neg hn, if_neg hn]
      simp only [List.cons_append, List.nil_append, run, List.foldl_cons, List.foldl_nil, act, outChar, outString,
        put]
      rw [act_quiet rfl rfl, act_quiet rfl rfl]
      simp

end Gp.Rw
