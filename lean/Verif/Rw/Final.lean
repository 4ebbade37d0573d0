import Verif.Rw.Round
import Verif.Oper.Props
/-
From the tokens to the text: the end of the text, the full stop, the independence from the operators.
-/
namespace Gp.Rw

open Gp.Quote

theorem tokens_lexTo {l : Loc} {fl : Flags} {vo : Bool} {inp : List Nat} {ts : List Tok} {rest : List Nat}
    (h : LexTo l fl vo inp ts rest) : ∀ n, inp.length < n →
    ∃ m, rest.length < m ∧ tokens l fl vo n inp = tk ts ++ tokens l fl vo m rest := by
  induction h with
  | nil inp => intro n hn; exact ⟨n, hn, rfl⟩
  | cons h1 he hlen hs ih =>
    rename_i inp r rest t ts
    intro n hn
    cases n with
    | zero => omega
    | succ n =>
      obtain ⟨m, hm, hmt⟩ := ih n (by omega)
      refine ⟨m, hm, ?_⟩
      conv => lhs; unfold tokens
      rw [h1]
      cases t <;> first | exact absurd rfl he | simp [hmt]

theorem lex_nil (l : Loc) (fl : Flags) (vo : Bool) : lexToken l fl vo false [] = .tok .eof [] := by
  simp [lexToken, lexTok]

theorem lex_space (l : Loc) (fl : Flags) (vo : Bool) : lexToken l fl vo false [32] = .tok .eof [] := by
  simp [lexToken, lexTok, type_32]

theorem lex_stop (l : Loc) (fl : Flags) (vo : Bool) : lexToken l fl vo false [46, 10] = .tok .fullStop [10] := by
  simp [lexToken, lexTok, type_46, endsClause, type_10]

theorem lex_sp_stop (l : Loc) (fl : Flags) (vo : Bool) :
    lexToken l fl vo false [32, 46, 10] = .tok .fullStop [10] := by
  simp [lexToken, lexTok, type_32, type_46, endsClause, type_10]

theorem lexed_start (l : Loc) (fl : Flags) (vo : Bool) : Lexed l fl vo ⟨[], .nothing, false, .no, [], 0⟩ [] := by
  refine ⟨by simp, fun _ rest _ => ?_⟩
  exact .nil _

/-- The tokens of a text at its end. -/
theorem lexed_tokens {l : Loc} {fl : Flags} {vo : Bool} {w : W} {its : List Tok} (h : Lexed l fl vo w its) :
    tokens l fl vo (w.out.length + 1) w.out = tk its ++ [some .eof] := by
  cases hs : w.sp with
  | true =>
    obtain ⟨_, o, ho, hl⟩ := h.1 hs
    have h2 := hl []
    rw [← ho] at h2
    obtain ⟨m, hm, he⟩ := tokens_lexTo h2 (w.out.length + 1) (by omega)
    rw [he]
    cases m with
    | zero => omega
    | succ m => unfold tokens; rw [lex_space]
  | false =>
    have h2 := h.2 hs [] (by intro c hc; simp at hc)
    rw [List.append_nil] at h2
    obtain ⟨m, hm, he⟩ := tokens_lexTo h2 (w.out.length + 1) (by omega)
    rw [he]
    cases m with
    | zero => omega
    | succ m => unfold tokens; rw [lex_nil]

/-- The tokens of a text ended by a full stop. -/
theorem stop_tokens {l : Loc} {fl : Flags} {vo : Bool} {w : W} {its : List Tok} (h : Lexed l fl vo w its)
    (hp : w.pfx = .no) : ∃ r, tokens l fl vo ((fullStop l w).out.length + 1) (fullStop l w).out =
      tk its ++ some .fullStop :: r := by
  have key : ∀ rest, (rest = [46, 10] ∨ rest = [32, 46, 10]) → ∀ inp, LexTo l fl vo inp its rest →
      ∃ r, tokens l fl vo (inp.length + 1) inp = tk its ++ some .fullStop :: r := by
    intro rest hr inp hl
    obtain ⟨m, hm, he⟩ := tokens_lexTo hl (inp.length + 1) (by omega)
    rw [he]
    cases m with
    | zero => omega
    | succ m =>
      refine ⟨tokens l fl vo m [10], ?_⟩
      conv => lhs; unfold tokens
      rcases hr with rfl | rfl
      · rw [lex_stop]
      · rw [lex_sp_stop]
  have hnn : ∀ c, needSpace l .nothing c = false := fun c => by simp [needSpace]
  by_cases hn : w.last = .number0 ∨ w.last = .number
  · have hsp : w.sp = false := by
      cases hs : w.sp with
      | false => rfl
      | true => rcases hn with hn | hn <;> (have := (h.1 hs).1; rw [hn] at this; cases this)
    have hout : (fullStop l w).out = w.out ++ [46, 10] := by
      unfold fullStop
      rw [if_pos hn]
      simp [outChar, emit, needSpace, hp]
    rw [hout]
    refine key [46, 10] (Or.inl rfl) _ (h.2 hsp _ ?_)
    intro c hc
    refine ⟨Or.inr ⟨hn.symm, [], rfl⟩, ?_⟩
    simp at hc; omega
  · by_cases hns : needSpace l w.last 46 = true
    · have hout : (fullStop l w).out = (outSpace w).out ++ [46, 10] := by
        unfold fullStop
        rw [if_neg hn]
        simp [outChar, emit, hns, hnn, outSpace, type_10, hp]
      rw [hout]
      obtain ⟨_, o, ho, hl⟩ := (outSpace_lexed h).1 (by unfold outSpace; split <;> simp_all)
      rw [ho]
      refine key [32, 46, 10] (Or.inr rfl) _ ?_
      simpa using hl [46, 10]
    · have hns' : needSpace l w.last 46 = false := by simpa using hns
      have hout : (fullStop l w).out = w.out ++ [46, 10] := by
        unfold fullStop
        rw [if_neg hn]
        simp [outChar, emit, hns', hnn, hp]
      rw [hout]
      cases hs : w.sp with
      | true =>
        obtain ⟨_, o, ho, hl⟩ := h.1 hs
        rw [ho]
        refine key [32, 46, 10] (Or.inr rfl) _ ?_
        simpa using hl [46, 10]
      | false =>
        refine key [46, 10] (Or.inl rfl) _ (h.2 hs _ ?_)
        intro c hc
        simp only [List.head?_cons, Option.some.injEq] at hc
        subst hc
        exact ⟨Or.inl hns', by decide⟩

/-- Reading back. -/
theorem read_back {l : Loc} (hl : l.Ok) (fl : Flags) {E : Env} {o : Opts} (hO : o.ignoreOp = false → E.O.Ok)
    {p : Nat} (hp : p ≤ 1200) {t : Tm} (ht : TmOk o t) (hv : nbVars t ≤ 2 ^ 20) :
    readTerm l fl E .eof (writeTerm l o E.O p t) = some (.term t) ∧
    readTerm l fl E .dot (writeTermStop l o E.O p t) = some (.term t) := by
  have hb := (both (fl := fl) (vo := (E.O.inf []).isSome || (E.O.post []).isSome) hl hO t ht).1 p
    (if p ≥ 1200 then .general else .anyOp)
  obtain ⟨ts, h1, h2, h3, _⟩ := hb.2 _ _ (lexed_start l fl _) (by simp)
  rw [List.nil_append] at h2
  constructor
  · unfold readTerm writeTerm
    have ht := lexed_tokens h2
    have hpar := h1.general (cp := 1200) hp (comma := false) (by simp) (rest := [some .eof]) (x := .eof) (r := [some .eof]) rfl
      (Or.inr (Or.inl rfl)) (by simp)
    simp only [ht, hpar, Option.bind_eq_bind, Option.bind_some, nextTok]
    rw [if_neg (by omega)]
    simp
  · unfold readTerm writeTermStop
    obtain ⟨r, ht⟩ := stop_tokens h2 h3
    have hpar := h1.general (cp := 1200) hp (comma := false) (by simp) (rest := some .fullStop :: r) (x := .fullStop) (r := r) rfl
      (Or.inr (Or.inr rfl)) (by simp)
    simp only [ht, hpar, Option.bind_eq_bind, Option.bind_some, nextTok, adj]
    rw [if_neg (by omega)]
    simp

/-- With ignore_ops the operators of the writer do not matter. -/
theorem showT_ops (l : Loc) (o : Opts) (hi : o.ignoreOp = true) (O O' : Ops) : ∀ t, ∀ tail p,
    showT l o O tail p .general t = showT l o O' tail p .general t := by
  intro t
  induction t using tm_ind with
  | hv s => intro tail p; rw [showT, showT]
  | hi n => intro tail p; rw [showT, showT]
  | hf b s => intro tail p; rw [showT, showT]
  | ha s => intro tail p; rw [showT, showT, showAtomActs_general, showAtomActs_general]
  | hl h t ih1 ih2 =>
    intro tail p
    rw [showT, showT, ih1 false 999, ih2 false 999, ih2 true 999]
  | hs f args ih =>
    intro tail p
    have htl : ∀ as : List Tm, (∀ a ∈ as, a ∈ args) → showArgsTl l o O as = showArgsTl l o O' as := by
      intro as
      induction as with
      | nil => intro _; rw [showArgsTl, showArgsTl]
      | cons a as ih2 =>
        intro h
        rw [showArgsTl, showArgsTl, ih a (h a (by simp)) false 999, ih2 (fun b hb => h b (by simp [hb]))]
    have hargs : showArgs l o O args = showArgs l o O' args := by
      cases args with
      | nil => rw [showArgs, showArgs]
      | cons a as => rw [showArgs, showArgs, ih a (by simp) false 999, htl as (by intro b hb; simp [hb])]
    have hfn : functional l O f (showArgs l o O args) = functional l O' f (showArgs l o O' args) := by
      unfold functional; rw [showAtomActs_general, showAtomActs_general, hargs]
    have hform : ∀ O'' as, form o O'' f as = .functional := by
      intro O'' as; unfold form; rw [if_pos hi]
    rw [showT.eq_def, showT.eq_def]
    dsimp only
    congr 1
    cases showVarTerm l o f args with
    | some as => rfl
    | none =>
      dsimp only
      clear ih hargs htl
      match args, hfn with
      | [a], hfn => dsimp only; rw [hform, hform]; exact hfn
      | [a, b], hfn => dsimp only; rw [hform, hform]; exact hfn
      | [], hfn => exact hfn
      | _ :: _ :: _ :: _, hfn => exact hfn

theorem write_ops (l : Loc) (o : Opts) (hi : o.ignoreOp = true) (O O' : Ops) (t : Tm) :
    writeTerm l o O 1200 t = writeTerm l o O' 1200 t ∧ writeTermStop l o O 1200 t = writeTermStop l o O' 1200 t := by
  unfold writeTerm writeTermStop
  rw [if_pos (by decide), showT_ops l o hi O O']
  exact ⟨rfl, rfl⟩

end Gp.Rw
