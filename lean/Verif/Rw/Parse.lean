import Verif.Rw.Model
/-
The parser on the tokens of a written term: `PS t p ctx ts` says that the tokens `ts` are parsed as `t` in every
situation where the writer puts a term of priority at most `p` in the context `ctx`.
-/
namespace Gp.Rw

open Gp.Quote

/-- The operator tables op/3 can build (oper_c.c / oper.pl guards): priorities between 1 and 1200 and
argument priorities according to a type, no atom both infix and postfix, `[]` and `{}` never operators, `|` at
most infix above 1000, `,` at most infix at 1000. -/
structure Ops.Ok (O : Ops) : Prop where
  pre : ∀ s op, O.pre s = some op → 1 ≤ op.prec ∧ op.prec ≤ 1200 ∧ (op.right = op.prec ∨ op.right + 1 = op.prec)
  inf : ∀ s op, O.inf s = some op → 1 ≤ op.prec ∧ op.prec ≤ 1200 ∧
    ((op.left + 1 = op.prec ∧ op.right + 1 = op.prec) ∨ (op.left + 1 = op.prec ∧ op.right = op.prec) ∨
      (op.left = op.prec ∧ op.right + 1 = op.prec))
  post : ∀ s op, O.post s = some op → 1 ≤ op.prec ∧ op.prec ≤ 1200 ∧ (op.left = op.prec ∨ op.left + 1 = op.prec)
  excl : ∀ s op, O.inf s = some op → O.post s = none
  nil : O.any [91, 93] = false
  curly : O.any [123, 125] = false
  bar : O.pre [124] = none ∧ O.post [124] = none ∧ ∀ op, O.inf [124] = some op → 1000 < op.prec
  comma : O.pre [44] = none ∧ O.post [44] = none ∧ ∀ op, O.inf [44] = some op → op.prec = 1000

/-- Tokens for the parser. -/
abbrev tk (ts : List Tok) : List (Option Tok) := ts.map some

/-- A token after which no term can start. -/
def closes (t : Tok) : Prop := (∃ c, t = .punct c ∧ c ≠ 40 ∧ c ≠ 123 ∧ c ≠ 91) ∨ t = .eof ∨ t = .fullStop

/-- What may follow a term: a closing token, or an operator which does not take the end of the term as its
left operand. -/
def Follow (E : Env) (comma : Bool) (r : Nat) (rest : List (Option Tok)) : Prop :=
  ∃ t r', nextTok comma rest = .ok t r' ∧ (closes t ∨ ∃ s q, t = .name s q) ∧
    ∀ cp s op b, loopOp E cp t = some (s, op, b) → r < op.prec

/-- The next token closes. -/
def Closer (comma : Bool) (rest : List (Option Tok)) : Prop := ∃ t r', nextTok comma rest = .ok t r' ∧ closes t

/-- The tokens are parsed as the term wherever the writer puts them. -/
def PS (E : Env) (t : Tm) (p : Nat) (ctx : Ctx) (ts : List Tok) : Prop :=
  ∃ cl r lop, cl ≤ p ∧ r ≤ p ∧ (ctx = .leftAssoc → r = 0 ∨ r < p) ∧ (lop = true → ctx = .general) ∧
    ∀ cp, p ≤ cp → ∀ pctx, (ctx = .general → pctx = .general) → ∀ comma, (comma = true → p ≤ 999) →
      ∀ rest, Follow E comma r rest → (lop = true → Closer comma rest) →
        parseTerm E cp pctx comma (tk ts ++ rest) = parseLoop E cp comma t cl lop rest

theorem Follow.mono {E : Env} {comma : Bool} {r r' : Nat} {rest : List (Option Tok)} (h : Follow E comma r rest)
    (hr : r' ≤ r) : Follow E comma r' rest := by
  obtain ⟨t, r0, h1, h2, h3⟩ := h
  exact ⟨t, r0, h1, h2, fun cp s op b hl => Nat.lt_of_le_of_lt hr (h3 cp s op b hl)⟩

theorem nextTok_cons_ok {comma : Bool} {rest : List (Option Tok)} {t : Tok} {r : List (Option Tok)}
    (h : nextTok comma rest = .ok t r) : ∃ t0 r0, rest = some t0 :: r0 ∧ t = adj comma t0 := by
  cases rest with
  | nil => simp [nextTok] at h
  | cons x r0 =>
    cases x with
    | none => simp [nextTok] at h
    | some t0 =>
      refine ⟨t0, r0, rfl, ?_⟩
      cases t0 <;> simp [nextTok, adj] at h ⊢ <;> exact h.1.symm

theorem Follow.peek {E : Env} {comma : Bool} {r : Nat} {rest : List (Option Tok)} (h : Follow E comma r rest) :
    peekOpen rest = false := by
  obtain ⟨t, r0, h1, h2, _⟩ := h
  obtain ⟨t0, r1, rfl, ht⟩ := nextTok_cons_ok h1
  cases t0 <;> simp only [peekOpen]
  exfalso
  simp only [adj] at ht
  subst ht
  rcases h2 with h2 | ⟨s, q, h2⟩
  · simp [closes] at h2
  · simp at h2

/-- The next token, whatever the flag for the comma, is not a number. -/
theorem Follow.noNum {E : Env} {comma : Bool} {r : Nat} {rest : List (Option Tok)} (h : Follow E comma r rest) :
    ∃ t r', nextTok false rest = .ok t r' ∧ (∀ n, t ≠ .int n) ∧ (∀ s, t ≠ .float s) := by
  obtain ⟨t, r0, h1, h2, _⟩ := h
  obtain ⟨t0, r1, rfl, ht⟩ := nextTok_cons_ok h1
  cases t0 with
  | eof => exact ⟨_, _, rfl, by simp, by simp⟩
  | name s q => exact ⟨_, _, rfl, by simp [adj], by simp [adj]⟩
  | punct c =>
    refine ⟨_, _, rfl, ?_, ?_⟩ <;> simp only [adj] <;> split <;> simp
  | fullStop => exact ⟨_, _, rfl, by simp [adj], by simp [adj]⟩
  | _ =>
    exfalso
    simp only [adj] at ht
    subst ht
    rcases h2 with h2 | ⟨s, q, h2⟩
    · simp [closes] at h2
    · simp at h2

/-- The loop stops. -/
theorem parseLoop_stop {E : Env} {cp : Nat} {comma : Bool} {x : Tm} {cl : Nat} {rest : List (Option Tok)}
    (h : Follow E comma cp rest) : parseLoop E cp comma x cl false rest = some (.ok (some x) rest) := by
  obtain ⟨t, r0, h1, _, h3⟩ := h
  rw [parseLoop.eq_def, h1]
  dsimp only
  cases hl : loopOp E cp t with
  | none => rfl
  | some v =>
    obtain ⟨s, op, b⟩ := v
    have := h3 _ _ _ _ hl
    dsimp only
    rw [if_neg (by simp), if_pos (Or.inl this)]

theorem loopOp_closes {E : Env} {cp : Nat} {t : Tok} (h : closes t) (h124 : t ≠ .punct 124) :
    loopOp E cp t = none := by
  rcases h with ⟨c, rfl, _⟩ | rfl | rfl
  · simp only [loopOp]
    rw [if_neg (fun hc => h124 (by rw [hc]))]
  · rfl
  · rfl

theorem parseLoop_close {E : Env} {cp : Nat} {comma : Bool} {x : Tm} {cl : Nat} {lop : Bool}
    {rest r : List (Option Tok)} {t : Tok} (h1 : nextTok comma rest = .ok t r) (h : loopOp E cp t = none) :
    parseLoop E cp comma x cl lop rest = some (.ok (some x) rest) := by
  rw [parseLoop.eq_def, h1]
  dsimp only
  rw [h]

/-- When the left operand is an operator, its priority is not used. -/
theorem parseLoop_lop {E : Env} {cp : Nat} {comma : Bool} {x : Tm} (cl cl' : Nat) {rest : List (Option Tok)} :
    parseLoop E cp comma x cl true rest = parseLoop E cp comma x cl' true rest := by
  rw [parseLoop.eq_def]
  conv => rhs; rw [parseLoop.eq_def]
  cases nextTok comma rest with
  | err => rfl
  | ok t r =>
    dsimp only
    cases loopOp E cp t with
    | none => rfl
    | some v => rfl

theorem Follow.close {E : Env} {comma : Bool} {r : Nat} {t : Tok} {rest : List (Option Tok)}
    (h1 : nextTok comma (some t :: rest) = .ok t rest) (h : closes t) (h124 : t ≠ .punct 124) :
    Follow E comma r (some t :: rest) :=
  ⟨t, rest, h1, Or.inl h, fun cp s op b hl => by rw [loopOp_closes h h124] at hl; cases hl⟩

/-! ## Simple terms -/

theorem PS_var (E : Env) (s : Name) (p : Nat) (ctx : Ctx) : PS E (.var s) p ctx [.var s] := by
  refine ⟨0, 0, false, Nat.zero_le _, Nat.zero_le _, fun _ => Or.inl rfl, by simp, ?_⟩
  intro cp _ pctx _ comma _ rest _ _
  rw [parseTerm.eq_def]
  rfl

theorem PS_int (E : Env) (n : Int) (h : inBounds n = true) (p : Nat) (ctx : Ctx) :
    PS E (.int n) p ctx [.int n] := by
  refine ⟨0, 0, false, Nat.zero_le _, Nat.zero_le _, fun _ => Or.inl rfl, by simp, ?_⟩
  intro cp _ pctx _ comma _ rest _ _
  rw [parseTerm.eq_def]
  simp only [tk, List.map_cons, List.map_nil, List.cons_append, List.nil_append, nextTok, adj]
  rw [if_pos h]

theorem PS_flt (E : Env) (s : Name) (p : Nat) (ctx : Ctx) : PS E (.flt false s) p ctx [.float s] := by
  refine ⟨0, 0, false, Nat.zero_le _, Nat.zero_le _, fun _ => Or.inl rfl, by simp, ?_⟩
  intro cp _ pctx _ comma _ rest _ _
  rw [parseTerm.eq_def]
  rfl

theorem adj_name {comma : Bool} {s : Name} {q : Bool} (h : ¬ (s = [44] ∧ q = false ∧ comma = true)) :
    adj comma (.name s q) = .name s q := by
  simp only [adj]; rw [if_neg h]

theorem parseTerm_name (E : Env) (cp : Nat) (pctx : PCtx) (comma : Bool) (s : Name) (q : Bool)
    (rest : List (Option Tok)) (h : ¬ (s = [44] ∧ q = false)) :
    parseTerm E cp pctx comma (some (.name s q) :: rest) = parseName E cp pctx comma s q rest := by
  rw [parseTerm.eq_def]
  simp only [nextTok]
  rw [adj_name (fun hc => h ⟨hc.1, hc.2.1⟩)]

theorem PS_negInt (E : Env) (n : Int) (h : inBounds (-n) = true) (p : Nat) (ctx : Ctx) :
    PS E (.int (-n)) p ctx [.name [45] false, .int n] := by
  refine ⟨0, 0, false, Nat.zero_le _, Nat.zero_le _, fun _ => Or.inl rfl, by simp, ?_⟩
  intro cp _ pctx _ comma _ rest _ _
  simp only [tk, List.map_cons, List.map_nil, List.cons_append, List.nil_append]
  rw [parseTerm_name _ _ _ _ _ _ _ (by simp), parseName.eq_def, if_neg (by simp [peekOpen]), if_pos rfl]
  simp only [nextTok, adj]
  rw [if_pos h]

theorem PS_negFlt (E : Env) (s : Name) (p : Nat) (ctx : Ctx) :
    PS E (.flt true s) p ctx [.name [45] false, .float s] := by
  refine ⟨0, 0, false, Nat.zero_le _, Nat.zero_le _, fun _ => Or.inl rfl, by simp, ?_⟩
  intro cp _ pctx _ comma _ rest _ _
  simp only [tk, List.map_cons, List.map_nil, List.cons_append, List.nil_append]
  rw [parseTerm_name _ _ _ _ _ _ _ (by simp), parseName.eq_def, if_neg (by simp [peekOpen]), if_pos rfl]
  simp only [nextTok, adj]

/-! ## Atoms -/

/-- The tokens of an atom: `[]` and `{}` are two brackets. -/
inductive AtomToks : Name → List Tok → Prop where
  | nil : AtomToks [91, 93] [.punct 91, .punct 93]
  | curly : AtomToks [123, 125] [.punct 123, .punct 125]
  | name (s : Name) (q : Bool) (h : ¬ (s = [44] ∧ q = false)) : AtomToks s [.name s q]

/-- A closing token gives no term. -/
theorem parseTerm_close (E : Env) (cp : Nat) (pctx : PCtx) (comma : Bool) (rest r : List (Option Tok)) (t : Tok)
    (h1 : nextTok (pctx != .tryPrefix || comma) rest = .ok t r) (h : closes t) :
    parseTerm E cp pctx comma rest = some (.ok none rest) := by
  rw [parseTerm.eq_def, h1]
  rcases h with ⟨c, rfl, h40, h123, h91⟩ | rfl | rfl
  · dsimp only
    rw [if_neg h40, if_neg h123, if_neg h91]
  · rfl
  · rfl

/-- The tokens of an atom lead to the label `a_name`. -/
theorem parseTerm_atom (E : Env) (cp : Nat) (pctx : PCtx) (comma : Bool) (s : Name) (ts : List Tok)
    (h : AtomToks s ts) (rest : List (Option Tok)) :
    ∃ q, ¬ (s = [44] ∧ q = false) ∧
      parseTerm E cp pctx comma (tk ts ++ rest) = parseName E cp pctx comma s q rest := by
  cases h with
  | nil =>
    refine ⟨false, by simp, ?_⟩
    rw [parseTerm.eq_def]
    simp only [tk, List.map_cons, List.map_nil, List.cons_append, List.nil_append, nextTok, adj]
    rw [if_neg (by simp)]
    dsimp only
    rw [if_neg (by decide), if_neg (by decide), if_pos rfl, parseList.eq_def,
      parseTerm_close E 999 .general true _ rest (.punct 93) (by simp [nextTok, adj]) (Or.inl ⟨93, rfl, by decide⟩)]
    simp [nextTok, adj]
  | curly =>
    refine ⟨false, by simp, ?_⟩
    rw [parseTerm.eq_def]
    simp only [tk, List.map_cons, List.map_nil, List.cons_append, List.nil_append, nextTok, adj]
    rw [if_neg (by simp)]
    dsimp only
    rw [if_neg (by decide), if_pos rfl,
      parseTerm_close E 1200 .general false _ rest (.punct 125) (by simp [nextTok, adj])
        (Or.inl ⟨125, rfl, by decide⟩)]
    simp [nextTok, adj]
  | name s q hq =>
    refine ⟨q, hq, ?_⟩
    exact parseTerm_name _ _ _ _ _ _ _ hq

theorem any_pre {O : Ops} {s : Name} (h : O.any s = false) : O.pre s = none ∧ O.inf s = none ∧ O.post s = none := by
  unfold Ops.any at h
  simpa [and_assoc] using h

/-- An atom which is not an operator, anywhere; an atom which is one, in a general context. -/
theorem PS_atom (E : Env) (s : Name) (ts : List Tok) (h : AtomToks s ts) (p : Nat) (ctx : Ctx)
    (hc : ctx = .general ∨ E.O.any s = false) : PS E (.atom s) p ctx ts := by
  cases ha : E.O.any s with
  | false =>
    refine ⟨0, 0, false, Nat.zero_le _, Nat.zero_le _, fun _ => Or.inl rfl, by simp, ?_⟩
    intro cp _ pctx _ comma _ rest hf _
    obtain ⟨q, hq, he⟩ := parseTerm_atom E cp pctx comma s ts h rest
    have hp : parsePrefix E cp pctx comma s rest = parseLoop E cp comma (.atom s) 0 false rest := by
      rw [parsePrefix.eq_def, (any_pre ha).1]
      dsimp only
      rw [parseAtom.eq_def, if_neg (by simp [ha]), ha]
    rw [he, parseName.eq_def, if_neg (by simp [hf.peek])]
    by_cases h45 : s = [45]
    · rw [if_pos h45]
      obtain ⟨t, r', h1, h2, h3⟩ := hf.noNum
      rw [h1]
      cases t with
      | int n => exact absurd rfl (h2 n)
      | float x => exact absurd rfl (h3 x)
      | _ => exact hp
    · rw [if_neg h45]; exact hp
  | true =>
    have hg : ctx = .general := by
      rcases hc with hc | hc
      · exact hc
      · rw [ha] at hc; cases hc
    refine ⟨0, 0, true, Nat.zero_le _, Nat.zero_le _, fun _ => Or.inl rfl, fun _ => hg, ?_⟩
    intro cp _ pctx hpc comma _ rest hf hcl
    have hpg := hpc hg
    subst hpg
    obtain ⟨q, hq, he⟩ := parseTerm_atom E cp .general comma s ts h rest
    have hat : ∀ cl, parseAtom E cp .general comma s cl rest = parseLoop E cp comma (.atom s) 0 true rest := by
      intro cl
      rw [parseAtom.eq_def, if_neg (by simp), ha]
      exact parseLoop_lop _ _
    have hp : parsePrefix E cp .general comma s rest = parseLoop E cp comma (.atom s) 0 true rest := by
      rw [parsePrefix.eq_def]
      cases E.O.pre s with
      | none => exact hat 0
      | some op =>
        dsimp only
        by_cases hle : op.prec ≤ cp
        · rw [if_pos hle]
          obtain ⟨t, r', h1, h2⟩ := hcl rfl
          rw [parseTerm_close E op.right .tryPrefix comma rest r' t (by simpa using h1) h2]
          simp only [Option.bind_eq_bind, Option.bind_some]
          rw [if_neg (by simp)]
          exact hat _
        · rw [if_neg hle]; exact hat _
    rw [he, parseName.eq_def, if_neg (by simp [hf.peek])]
    by_cases h45 : s = [45]
    · rw [if_pos h45]
      obtain ⟨t, r', h1, h2, h3⟩ := hf.noNum
      rw [h1]
      cases t with
      | int n => exact absurd rfl (h2 n)
      | float x => exact absurd rfl (h3 x)
      | _ => exact hp
    · rw [if_neg h45]; exact hp

/-! ## Brackets -/

/-- The two tokens for an opening parenthesis. -/
def IsOpen (t : Tok) : Prop := t = .openCt ∨ t = .punct 40

theorem closes_41 : closes (.punct 41) := Or.inl ⟨41, rfl, by decide⟩

theorem nextTok_punct (comma : Bool) (c : Nat) (h : c ≠ 44) (r : List (Option Tok)) :
    nextTok comma (some (.punct c) :: r) = .ok (.punct c) r := by
  simp [nextTok, adj, h]

/-- A term in a general position followed by a closing token. -/
theorem PS.general {E : Env} {t : Tm} {p : Nat} {ctx : Ctx} {ts : List Tok} (h : PS E t p ctx ts) {cp : Nat}
    (hp : p ≤ cp) {comma : Bool} (hc : comma = true → p ≤ 999) {rest r : List (Option Tok)} {x : Tok}
    (h1 : nextTok comma rest = .ok x r) (hcl : closes x) (hb : x = .punct 124 → cp ≤ 999) :
    parseTerm E cp .general comma (tk ts ++ rest) = some (.ok (some t) rest) := by
  obtain ⟨cl, ro, lop, h2, h3, h4, h5, h6⟩ := h
  have hbar : ∀ cp' s op b, loopOp E cp' x = some (s, op, b) → x = .punct 124 ∧ 1000 < op.prec := by
    intro cp' s op b hl
    by_cases h124 : x = .punct 124
    · refine ⟨h124, ?_⟩
      subst h124
      simp only [loopOp] at hl
      rw [if_pos trivial] at hl
      cases hi : E.O.inf [124] with
      | none => rw [hi] at hl; simp at hl
      | some op' =>
        rw [hi] at hl
        dsimp only at hl
        by_cases hh : op'.prec > 1000 ∧ op'.prec ≤ cp'
        · rw [if_pos hh] at hl
          simp only [Option.some.injEq, Prod.mk.injEq] at hl
          rw [← hl.2.1]; exact hh.1
        · rw [if_neg hh] at hl; cases hl
    · rw [loopOp_closes hcl h124] at hl; cases hl
  have hl : loopOp E cp x = none := by
    cases hl : loopOp E cp x with
    | none => rfl
    | some v =>
      obtain ⟨s, op, b⟩ := v
      obtain ⟨h124, hgt⟩ := hbar _ _ _ _ hl
      exfalso
      have := hb h124
      subst h124
      simp only [loopOp] at hl
      rw [if_pos trivial] at hl
      cases hi : E.O.inf [124] with
      | none => rw [hi] at hl; simp at hl
      | some op' =>
        rw [hi] at hl
        dsimp only at hl
        rw [if_neg (by omega)] at hl
        cases hl
  have hf : Follow E comma ro rest := by
    refine ⟨x, r, h1, Or.inl hcl, fun cp' s op b hl' => ?_⟩
    obtain ⟨h124, hgt⟩ := hbar _ _ _ _ hl'
    have := hb h124
    omega
  rw [h6 cp hp .general (fun _ => rfl) comma hc rest hf (fun _ => ⟨x, r, h1, hcl⟩)]
  exact parseLoop_close h1 hl

theorem PS_brack {E : Env} {t : Tm} {p p' : Nat} {ctx ctx' : Ctx} {ts : List Tok} {o : Tok} (ho : IsOpen o)
    (h : PS E t p' ctx' ts) (hp : p' ≤ 1200) : PS E t p ctx (o :: ts ++ [.punct 41]) := by
  refine ⟨0, 0, false, Nat.zero_le _, Nat.zero_le _, fun _ => Or.inl rfl, by simp, ?_⟩
  intro cp _ pctx _ comma _ rest _ _
  have hpar : parseParen E (tk (ts ++ [.punct 41]) ++ rest) = some (.ok t rest) := by
    rw [parseParen.eq_def]
    have := h.general (comma := false) hp (by simp)
      (rest := some (.punct 41) :: rest) (nextTok_punct _ 41 (by decide) _) closes_41 (by simp)
    simp only [tk, List.map_append, List.map_cons, List.map_nil, List.append_assoc, List.cons_append,
      List.nil_append] at this ⊢
    rw [this]
    simp [nextTok, adj]
  rw [parseTerm.eq_def]
  rcases ho with rfl | rfl
  · simp only [tk, List.map_cons, List.cons_append, nextTok, adj] at hpar ⊢
    rw [hpar]; rfl
  · simp only [tk, List.map_cons, List.cons_append, nextTok, adj] at hpar ⊢
    rw [if_neg (by simp)]
    dsimp only
    rw [if_pos rfl, hpar]; rfl

theorem PS_curly {E : Env} {t : Tm} {p p' : Nat} {ctx ctx' : Ctx} {ts : List Tok}
    (h : PS E t p' ctx' ts) (hp : p' ≤ 1200) :
    PS E (.str [123, 125] [t]) p ctx (.punct 123 :: ts ++ [.punct 125]) := by
  refine ⟨0, 0, false, Nat.zero_le _, Nat.zero_le _, fun _ => Or.inl rfl, by simp, ?_⟩
  intro cp _ pctx _ comma _ rest _ _
  have := h.general (comma := false) hp (by simp)
    (rest := some (.punct 125) :: rest) (nextTok_punct _ 125 (by decide) _) (Or.inl ⟨125, rfl, by decide⟩)
    (by simp)
  rw [parseTerm.eq_def]
  simp only [tk, List.map_append, List.map_cons, List.map_nil, List.append_assoc, List.cons_append,
    List.nil_append, nextTok, adj] at this ⊢
  rw [if_neg (by simp)]
  dsimp only
  rw [if_neg (by decide), if_pos rfl, this]
  simp [nextTok, adj, mkStruct]

/-! ## Arguments -/

/-- The tokens of the arguments of a structure. -/
def PA (E : Env) (as : List Tm) (ts : List Tok) : Prop :=
  ∀ n, as.length ≤ n → ∀ rest, parseArgsN E n (tk ts ++ some (.punct 41) :: rest) = some (.ok as rest)

theorem PA_one {E : Env} {a : Tm} {ts : List Tok} (h : PS E a 999 .general ts) : PA E [a] ts := by
  intro n hn rest
  have := h.general (cp := 999) (comma := true) (by decide) (by simp)
    (rest := some (.punct 41) :: rest) (nextTok_punct _ 41 (by decide) _) closes_41 (by simp)
  rw [parseArgsN.eq_def, if_neg (by simp at hn; omega), this]
  simp [nextTok, adj]

theorem PA_cons {E : Env} {a : Tm} {as : List Tm} {ts ts' : List Tok} (h : PS E a 999 .general ts)
    (h' : PA E as ts') : PA E (a :: as) (ts ++ .name [44] false :: ts') := by
  intro n hn rest
  simp only [List.length_cons] at hn
  have := h.general (cp := 999) (comma := true) (by decide) (by simp)
    (rest := some (.name [44] false) :: (tk ts' ++ some (.punct 41) :: rest)) (x := .punct 44)
    (by simp [nextTok, adj]; rfl) (Or.inl ⟨44, rfl, by decide⟩) (by simp)
  have h2 := h' (n - 1) (by omega) rest
  rw [parseArgsN.eq_def, if_neg (by omega)]
  simp only [tk, List.map_append, List.map_cons, List.append_assoc, List.cons_append] at this h2 ⊢
  rw [this]
  simp [nextTok, adj, h2]

theorem PS_fun {E : Env} {f : Name} {as : List Tm} {fs ts : List Tok} {p : Nat} {ctx : Ctx}
    (hf : AtomToks f fs) (h : PA E as ts) (hn : as.length ≤ 255) :
    PS E (mkStruct f as) p ctx (fs ++ .openCt :: ts ++ [.punct 41]) := by
  refine ⟨0, 0, false, Nat.zero_le _, Nat.zero_le _, fun _ => Or.inl rfl, by simp, ?_⟩
  intro cp _ pctx _ comma _ rest _ _
  obtain ⟨q, hq, he⟩ := parseTerm_atom E cp pctx comma f fs hf (some .openCt :: (tk ts ++ some (.punct 41) :: rest))
  have h2 := h 255 hn rest
  simp only [tk, List.map_append, List.map_cons, List.map_nil, List.append_assoc, List.cons_append,
    List.nil_append] at he h2 ⊢
  rw [he, parseName.eq_def, if_pos ⟨rfl, hq⟩]
  simp only [List.tail_cons]
  rw [parseArgs.eq_def, h2]
  rfl

/-! ## Lists -/

/-- The tokens after the first element of a list, up to the closing bracket. -/
def PTail (E : Env) (t : Tm) (tl : List Tok) : Prop :=
  ∀ h ts, PS E h 999 .general ts → ∀ b rest,
    parseList E b (tk ts ++ (tk tl ++ some (.punct 93) :: rest)) = some (.ok (some (.lst h t)) rest)

theorem PTail_nil (E : Env) : PTail E (.atom [91, 93]) [] := by
  intro h ts hs b rest
  have := hs.general (cp := 999) (comma := true) (by decide) (by simp)
    (rest := some (.punct 93) :: rest) (nextTok_punct _ 93 (by decide) _) (Or.inl ⟨93, rfl, by decide⟩) (by simp)
  rw [parseList.eq_def]
  simp only [tk, List.map_nil, List.nil_append] at this ⊢
  rw [this]
  simp [nextTok, adj]

theorem PTail_cons {E : Env} {h' t' : Tm} {ts' tl' : List Tok} (hs' : PS E h' 999 .general ts')
    (ht' : PTail E t' tl') : PTail E (.lst h' t') (.name [44] false :: ts' ++ tl') := by
  intro h ts hs b rest
  have := hs.general (cp := 999) (comma := true) (by decide) (by simp)
    (rest := some (.name [44] false) :: (tk ts' ++ (tk tl' ++ some (.punct 93) :: rest))) (x := .punct 44)
    (by simp [nextTok, adj]; rfl) (Or.inl ⟨44, rfl, by decide⟩) (by simp)
  have h2 := ht' h' ts' hs' false rest
  rw [parseList.eq_def]
  simp only [tk, List.map_append, List.map_cons, List.append_assoc, List.cons_append] at this h2 ⊢
  rw [this]
  simp [nextTok, adj, h2]

theorem PTail_bar {E : Env} {t : Tm} {ts' : List Tok} (hs' : PS E t 999 .general ts') :
    PTail E t (.punct 124 :: ts') := by
  intro h ts hs b rest
  have := hs.general (cp := 999) (comma := true) (by decide) (by simp)
    (rest := some (.punct 124) :: (tk ts' ++ some (.punct 93) :: rest)) (nextTok_punct _ 124 (by decide) _)
    (Or.inl ⟨124, rfl, by decide⟩) (by simp)
  have h2 := hs'.general (cp := 999) (comma := false) (by decide) (by simp)
    (rest := some (.punct 93) :: rest) (nextTok_punct _ 93 (by decide) _) (Or.inl ⟨93, rfl, by decide⟩) (by simp)
  rw [parseList.eq_def]
  simp only [tk, List.map_append, List.map_cons, List.append_assoc, List.cons_append] at this h2 ⊢
  rw [this]
  simp [nextTok, adj, h2]

theorem PS_list {E : Env} {h t : Tm} {ts tl : List Tok} {p : Nat} {ctx : Ctx} (hs : PS E h 999 .general ts)
    (ht : PTail E t tl) : PS E (.lst h t) p ctx (.punct 91 :: ts ++ tl ++ [.punct 93]) := by
  refine ⟨0, 0, false, Nat.zero_le _, Nat.zero_le _, fun _ => Or.inl rfl, by simp, ?_⟩
  intro cp _ pctx _ comma _ rest _ _
  have h2 := ht h ts hs true rest
  rw [parseTerm.eq_def]
  simp only [tk, List.map_append, List.map_cons, List.map_nil, List.append_assoc, List.cons_append,
    List.nil_append, nextTok, adj] at h2 ⊢
  rw [if_neg (by simp)]
  dsimp only
  rw [if_neg (by decide), if_neg (by decide), if_pos rfl, h2]
  rfl

/-! ## Operators -/

/-- The first token is a number. -/
def numHead : List Tok → Bool
  | .int _ :: _ => true
  | .float _ :: _ => true
  | _ => false

theorem PS_prefix {E : Env} {f : Name} {q : Bool} {op : OpInf} {a : Tm} {ts : List Tok} {p : Nat}
    {ctx : Ctx} (hop : E.O.pre f = some op) (hr : op.right ≤ op.prec) (hp : op.prec ≤ p)
    (hb : ctx = .leftAssoc → ¬ (op.prec = op.right ∧ op.prec = p)) (hf : f ≠ [44])
    (ha : PS E a op.right .anyOp ts) (hne : ts ≠ []) (hop1 : ts.head? ≠ some .openCt)
    (hnum : f = [45] → numHead ts = false) :
    PS E (.str f [a]) p ctx (.name f q :: ts) := by
  refine ⟨op.prec, op.right, false, hp, Nat.le_trans hr hp, ?_, by simp, ?_⟩
  · intro hc
    have := hb hc
    omega
  intro cp hcp pctx _ comma hcm rest hfl _
  obtain ⟨cl, r, lop, h1, h2, h3, h4, h5⟩ := ha
  have hlop : lop = false := by
    cases lop
    · rfl
    · exact absurd (h4 rfl) (by simp)
  subst hlop
  have hterm : parseTerm E op.right .tryPrefix comma (tk ts ++ rest) = some (.ok (some a) rest) := by
    rw [h5 op.right (Nat.le_refl _) .tryPrefix (by simp) comma (fun h => by have := hcm h; omega) rest
      (hfl.mono h2) (by simp)]
    exact parseLoop_stop hfl
  have hpre : parsePrefix E cp pctx comma f (tk ts ++ rest) =
      parseLoop E cp comma (.str f [a]) op.prec false rest := by
    rw [parsePrefix.eq_def, hop]
    dsimp only
    rw [if_pos (by omega), hterm]
    simp only [Option.bind_eq_bind, Option.bind_some]
    have : mkStruct f [a] = .str f [a] := by unfold mkStruct; split <;> rfl
    rw [this]
  simp only [tk, List.map_cons, List.cons_append]
  rw [parseTerm_name _ _ _ _ _ _ _ (fun h => hf h.1), parseName.eq_def]
  cases ts with
  | nil => exact absurd rfl hne
  | cons t0 ts =>
    rw [if_neg (by
      rintro ⟨h, _⟩
      simp only [List.map_cons, List.cons_append] at h
      cases t0 <;> simp [peekOpen] at h hop1)]
    by_cases h45 : f = [45]
    · rw [if_pos h45]
      have := hnum h45
      cases t0 with
      | int n => simp [numHead] at this
      | float x => simp [numHead] at this
      | name s q =>
        simp only [List.map_cons, List.cons_append, nextTok, adj] at hpre ⊢
        rw [if_neg (by simp)]; exact hpre
      | punct c =>
        simp only [List.map_cons, List.cons_append, nextTok, adj] at hpre ⊢
        by_cases hc : c = 44 ∧ True
        · rw [if_pos hc]; exact hpre
        · rw [if_neg hc]; exact hpre
      | _ =>
        simp only [List.map_cons, List.cons_append, nextTok, adj] at hpre ⊢
        exact hpre
    · rw [if_neg h45]; exact hpre

theorem PS_postfix {E : Env} {f : Name} {q : Bool} {op : OpInf} {a : Tm} {ts : List Tok} {p : Nat}
    {ctx : Ctx} (hop : E.O.post f = some op) (hinf : E.O.inf f = none) (hl : op.left ≤ op.prec)
    (h1p : 1 ≤ op.prec) (hp : op.prec ≤ p) (hf : f ≠ [44])
    (ha : PS E a op.left (leftCtx op) ts) :
    PS E (.str f [a]) p ctx (ts ++ [.name f q]) := by
  refine ⟨op.prec, 0, false, hp, Nat.zero_le _, fun _ => Or.inl rfl, by simp, ?_⟩
  intro cp hcp pctx _ comma hcm rest hfl _
  obtain ⟨cl, r, lop, h1, h2, h3, h4, h5⟩ := ha
  have hctx : leftCtx op ≠ .general := by unfold leftCtx; split <;> simp
  have hlop : lop = false := by
    cases lop
    · rfl
    · exact absurd (h4 rfl) hctx
  subst hlop
  have hnx : nextTok comma (some (.name f q) :: rest) = .ok (.name f q) rest := by
    simp only [nextTok]; rw [adj_name (fun h => hf h.1)]
  have hlo : ∀ cp', loopOp E cp' (.name f q) = some (f, op, false) := by
    intro cp'; simp [loopOp, hinf, hop]
  have hr : r < op.prec := by
    by_cases he : op.left = op.prec
    · rcases h3 (by unfold leftCtx; rw [if_pos he]) with h | h <;> omega
    · omega
  have hfol : Follow E comma r (some (.name f q) :: rest) := by
    refine ⟨_, _, hnx, Or.inr ⟨f, q, rfl⟩, fun cp' s op' b h => ?_⟩
    rw [hlo] at h
    simp only [Option.some.injEq, Prod.mk.injEq] at h
    rw [← h.2.1]; exact hr
  have := h5 cp (by omega) pctx (fun h => absurd h hctx) comma (fun h => by have := hcm h; omega) _ hfol (by simp)
  simp only [tk, List.map_append, List.map_cons, List.map_nil, List.append_assoc, List.cons_append,
    List.nil_append] at this ⊢
  rw [this, parseLoop.eq_def, hnx]
  dsimp only
  rw [hlo]
  dsimp only
  rw [if_neg (by simp), if_neg (by omega), if_neg (by simp)]
  have : mkStruct f [a] = .str f [a] := by unfold mkStruct; split <;> rfl
  rw [this]

/-- The token of an infix operator. -/
inductive InfTok : Name → Tok → Prop where
  | bar : InfTok [124] (.punct 124)
  | comma : InfTok [44] (.name [44] false)
  | name (f : Name) (q : Bool) (h1 : f ≠ [124]) (h2 : f ≠ [44]) : InfTok f (.name f q)

theorem PS_infix {E : Env} (hO : E.O.Ok) {f : Name} {op : OpInf} {a b : Tm} {ts1 ts2 : List Tok} {t0 : Tok}
    {p : Nat} {ctx : Ctx} (hop : E.O.inf f = some op) (ht0 : InfTok f t0) (hp : op.prec ≤ p)
    (hb : ctx = .leftAssoc → ¬ (op.prec = op.right ∧ op.prec = p)) (hdot : f ≠ [46])
    (ha : PS E a op.left (leftCtx op) ts1) (hb2 : PS E b op.right .anyOp ts2) :
    PS E (.str f [a, b]) p ctx (ts1 ++ t0 :: ts2) := by
  obtain ⟨h1p, hmax, hty⟩ := hO.inf f op hop
  have hlr : op.left ≤ op.prec ∧ op.right ≤ op.prec := by omega
  refine ⟨op.prec, op.right, false, hp, Nat.le_trans hlr.2 hp, ?_, by simp, ?_⟩
  · intro hc
    have := hb hc
    omega
  intro cp hcp pctx _ comma hcm rest hfl _
  obtain ⟨cl, r, lop, h1, h2, h3, h4, h5⟩ := ha
  obtain ⟨cl', r', lop', h1', h2', h3', h4', h5'⟩ := hb2
  have hctx : leftCtx op ≠ .general := by unfold leftCtx; split <;> simp
  have hlop : lop = false := by
    cases lop
    · rfl
    · exact absurd (h4 rfl) hctx
  have hlop' : lop' = false := by
    cases lop'
    · rfl
    · exact absurd (h4' rfl) (by simp)
  subst hlop
  subst hlop'
  have hnx : ∀ rest, nextTok comma (some t0 :: rest) = .ok t0 rest := by
    intro rest
    cases ht0 with
    | bar => exact nextTok_punct _ 124 (by decide) _
    | comma =>
      have : comma = false := by
        cases comma
        · rfl
        · have h9 := hcm rfl
          have := hO.comma.2.2 op hop
          omega
      subst this
      rfl
    | name _ q h1 h2 => simp only [nextTok]; rw [adj_name (fun h => h2 h.1)]
  have hlo : ∀ cp', op.prec ≤ cp' → loopOp E cp' t0 = some (f, op, true) := by
    intro cp' hcp'
    cases ht0 with
    | bar =>
      simp only [loopOp]
      rw [if_pos trivial, hop]
      dsimp only
      rw [if_pos ⟨hO.bar.2.2 op hop, hcp'⟩]
    | comma => simp [loopOp, hop]
    | name _ q h1 h2 => simp [loopOp, hop]
  have hlo2 : ∀ cp' s op' b, loopOp E cp' t0 = some (s, op', b) → op' = op := by
    intro cp' s op' b h
    cases ht0 with
    | bar =>
      simp only [loopOp] at h
      rw [if_pos trivial, hop] at h
      dsimp only at h
      split at h
      · simp only [Option.some.injEq, Prod.mk.injEq] at h; exact h.2.1.symm
      · cases h
    | comma => simp only [loopOp, hop, Option.some.injEq, Prod.mk.injEq] at h; exact h.2.1.symm
    | name _ q h1 h2 => simp only [loopOp, hop, Option.some.injEq, Prod.mk.injEq] at h; exact h.2.1.symm
  have hr : r < op.prec := by
    by_cases he : op.left = op.prec
    · rcases h3 (by unfold leftCtx; rw [if_pos he]) with h | h <;> omega
    · omega
  have hfol : Follow E comma r (some t0 :: (tk ts2 ++ rest)) := by
    refine ⟨_, _, hnx _, ?_, fun cp' s op' b h => by rw [hlo2 _ _ _ _ h]; exact hr⟩
    cases ht0 with
    | bar => exact Or.inl (Or.inl ⟨124, rfl, by decide⟩)
    | comma => exact Or.inr ⟨_, _, rfl⟩
    | name _ q h1 h2 => exact Or.inr ⟨_, _, rfl⟩
  have h6 := h5 cp (by omega) pctx (fun h => absurd h hctx) comma (fun h => by have := hcm h; omega) _ hfol (by simp)
  have h7 : parseTerm E op.right .anyOp comma (tk ts2 ++ rest) = some (.ok (some b) rest) := by
    rw [h5' op.right (Nat.le_refl _) .anyOp (by simp) comma (fun h => by have := hcm h; omega) rest
      (hfl.mono h2') (by simp)]
    exact parseLoop_stop hfl
  have hm : mkStruct f [a, b] = .str f [a, b] := by unfold mkStruct; rw [if_neg hdot]
  simp only [tk, List.map_append, List.map_cons, List.append_assoc, List.cons_append] at h6 h7 ⊢
  rw [h6, parseLoop.eq_def, hnx]
  dsimp only
  rw [hlo cp (by omega)]
  dsimp only
  rw [if_neg (by simp), if_neg (by omega), if_pos rfl, h7]
  simp only [Option.bind_eq_bind, Option.bind_some]
  rw [hm]

end Gp.Rw
