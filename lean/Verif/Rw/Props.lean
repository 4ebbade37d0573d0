import Verif.Rw.Final
/-
C44, C45: what writeq, write_canonical and write_term(quoted(true)) write is read back as the same term.

The claim is about the terms described by `TmOk` (Verif/Rw/Write.lean) and texts produced by the writer
(`writeTerm`: the text alone, as with write_to_atom, to be read up to its end; `writeTermStop`: followed by a
full stop, as with portray_clause and listing).  Two terms with the same variable names are the same
term up to the renaming of variables: the reader makes one variable per name.
-/
namespace Gp.Rw

open Gp.Quote

/-- The options of write_canonical/1, write_c.c:174-181. -/
def canonical : Opts := { ignoreOp := true, spaceArgs := false, numVars := false, nameVars := false }
/-- The options of writeq/1, write_c.c:140-147. -/
def writeq : Opts := { ignoreOp := false, spaceArgs := false, numVars := true, nameVars := true }

/-! ## C44: ignoring operators -/

/-- **C44.**  What write_canonical writes is read back as the same term, whatever the operators defined when
it is written and whatever those defined when it is read, for every locale and every setting of the flags,
up to the end of the text or with a full stop. -/
theorem C44_canonical (l : Loc) (hl : l.Ok) (fl : Flags) (O : Ops) (E : Env) (t : Tm) (ht : TmOk canonical t)
    (hv : nbVars t ≤ 2 ^ 20) :
    readTerm l fl E .eof (writeTerm l canonical O 1200 t) = some (.term t) ∧
    readTerm l fl E .dot (writeTermStop l canonical O 1200 t) = some (.term t) := by
  rw [(write_ops l canonical rfl O E.O t).1, (write_ops l canonical rfl O E.O t).2]
  exact read_back hl fl (by intro h; cases h) (Nat.le_refl _) ht hv

/-- **C44 (any other option).**  The same for write_term with ignore_ops(true), whatever the other options. -/
theorem C44_ignore_ops (l : Loc) (hl : l.Ok) (fl : Flags) (o : Opts) (hi : o.ignoreOp = true) (O : Ops) (E : Env)
    (t : Tm) (ht : TmOk o t) (hv : nbVars t ≤ 2 ^ 20) :
    readTerm l fl E .eof (writeTerm l o O 1200 t) = some (.term t) ∧
    readTerm l fl E .dot (writeTermStop l o O 1200 t) = some (.term t) := by
  rw [(write_ops l o hi O E.O t).1, (write_ops l o hi O E.O t).2]
  exact read_back hl fl (by intro h; rw [hi] at h; cases h) (Nat.le_refl _) ht hv

/-- **C44 (no confusion).**  Two different terms are never written the same way by write_canonical, even with
different operators. -/
theorem C44_injective (l : Loc) (hl : l.Ok) (O O' : Ops) (t t' : Tm) (ht : TmOk canonical t)
    (ht' : TmOk canonical t') (hv : nbVars t ≤ 2 ^ 20) (hv' : nbVars t' ≤ 2 ^ 20)
    (h : writeTerm l canonical O 1200 t = writeTerm l canonical O' 1200 t') : t = t' := by
  have h1 := (C44_canonical l hl {} O ⟨O, .codes, .codes⟩ t ht hv).1
  have h2 := (C44_canonical l hl {} O' ⟨O, .codes, .codes⟩ t' ht' hv').1
  rw [h, h2] at h1
  simpa using h1.symm

/-- **C33 (the whole reader).**  The text writeq writes for an atom, whatever its bytes and whatever the
operators and flags, is read by read_term as this atom (also `[]`, `{}`, and atoms which are operators). -/
theorem C33_read_term (l : Loc) (hl : l.Ok) (fl : Flags) (O : Ops) (E : Env) (o : Opts) (s : Name) (hs : Bytes s) :
    readTerm l fl E .eof (writeTerm l o O 1200 (.atom s)) = some (.term (.atom s)) ∧
    readTerm l fl E .dot (writeTermStop l o O 1200 (.atom s)) = some (.term (.atom s)) := by
  have h := C44_canonical l hl fl O E (.atom s) (by simp only [TmOk]; exact hs)
    (by simp [nbVars, varNames])
  have e : showT l o O false 1200 .general (.atom s) = showT l canonical O false 1200 .general (.atom s) := by
    rw [showT, showT]
  unfold writeTerm writeTermStop at h ⊢
  rw [if_pos (by decide)] at h ⊢
  rw [e]
  exact h

/-! ## C45: with operators -/

/-- **C45.**  With the same table of operators for the writer and the reader, what writeq, or write_term with
quoted(true) and any setting of the modelled options and any priority, writes is read back as the same term. -/
theorem C45_write_read (l : Loc) (hl : l.Ok) (fl : Flags) (E : Env) (hO : E.O.Ok) (o : Opts) (p : Nat)
    (hp : p ≤ 1200) (t : Tm) (ht : TmOk o t) (hv : nbVars t ≤ 2 ^ 20) :
    readTerm l fl E .eof (writeTerm l o E.O p t) = some (.term t) :=
  (read_back hl fl (fun _ => hO) hp ht hv).1

/-- **C45 (clauses).**  The same with the full stop written after the term. -/
theorem C45_write_stop_read (l : Loc) (hl : l.Ok) (fl : Flags) (E : Env) (hO : E.O.Ok) (o : Opts) (p : Nat)
    (hp : p ≤ 1200) (t : Tm) (ht : TmOk o t) (hv : nbVars t ≤ 2 ^ 20) :
    readTerm l fl E .dot (writeTermStop l o E.O p t) = some (.term t) :=
  (read_back hl fl (fun _ => hO) hp ht hv).2

/-- **C45 (no ambiguity).**  Two different terms are never written the same way, whatever the priorities. -/
theorem C45_injective (l : Loc) (hl : l.Ok) (O : Ops) (hO : O.Ok) (o : Opts) (p p' : Nat) (hp : p ≤ 1200)
    (hp' : p' ≤ 1200) (t t' : Tm) (ht : TmOk o t) (ht' : TmOk o t') (hv : nbVars t ≤ 2 ^ 20)
    (hv' : nbVars t' ≤ 2 ^ 20) (h : writeTerm l o O p t = writeTerm l o O p' t') : t = t' := by
  have h1 := C45_write_read l hl {} ⟨O, .codes, .codes⟩ hO o p hp t ht hv
  have h2 := C45_write_read l hl {} ⟨O, .codes, .codes⟩ hO o p' hp' t' ht' hv'
  rw [h, h2] at h1
  simpa using h1.symm

/-! ### The tables of operators -/

/-- An operator definition in the table of Verif/Oper. -/
def ofInf (i : Gp.Oper.Inf) : OpInf := ⟨i.prec.toNat, i.left.toNat, i.right.toNat⟩

/-- The operators of a state of the operator table (Verif/Oper), where `nm` gives the atom of a name. -/
def opsOf (nm : Name → Nat) (s : Gp.Oper.St) : Ops where
  pre f := (Gp.Oper.lookup s (nm f) 0).map ofInf
  inf f := (Gp.Oper.lookup s (nm f) 2).map ofInf
  post f := (Gp.Oper.lookup s (nm f) 1).map ofInf

theorem opsOf_ok {A : Gp.Oper.Atoms} (hA : Gp.Oper.Hyp A) {s : Gp.Oper.St} (h : Gp.Oper.Reach A s)
    (nm : Name → Nat) (hlt : ∀ f, nm f < 2 ^ 31) (hnil : nm [91, 93] = 256) (hcurly : nm [123, 125] = A "{}")
    (hbar : nm [124] = 124) (hcomma : nm [44] = 44) : (opsOf nm s).Ok := by
  obtain ⟨r1, r2, r3, r4⟩ := Gp.Oper.C04_restrictions hA h
  have look : ∀ f (k : Gp.Oper.Kind), Gp.Oper.lookup s (nm f) k.num =
      (Gp.Oper.defs s (nm f) k).map fun d => ⟨d.1, d.2.left d.1, d.2.right d.1⟩ :=
    fun f k => (Gp.Oper.C04_lookup hA h (nm f) (hlt f)).2.1 k
  have val : ∀ f (k : Gp.Oper.Kind) p sp, Gp.Oper.defs s (nm f) k = some (p, sp) → 1 ≤ p ∧ p ≤ 1200 ∧ sp.kind = k :=
    fun f k => (Gp.Oper.C04_lookup hA h (nm f) (hlt f)).2.2.1 k
  have l0 : ∀ f, (opsOf nm s).pre f = (Gp.Oper.defs s (nm f) .pre).map
      fun d => ⟨d.1.toNat, (d.2.left d.1).toNat, (d.2.right d.1).toNat⟩ := by
    intro f; have := look f .pre; simp only [Gp.Oper.Kind.num] at this
    simp only [opsOf, this, Option.map_map]; rfl
  have l1 : ∀ f, (opsOf nm s).post f = (Gp.Oper.defs s (nm f) .post).map
      fun d => ⟨d.1.toNat, (d.2.left d.1).toNat, (d.2.right d.1).toNat⟩ := by
    intro f; have := look f .post; simp only [Gp.Oper.Kind.num] at this
    simp only [opsOf, this, Option.map_map]; rfl
  have l2 : ∀ f, (opsOf nm s).inf f = (Gp.Oper.defs s (nm f) .inf).map
      fun d => ⟨d.1.toNat, (d.2.left d.1).toNat, (d.2.right d.1).toNat⟩ := by
    intro f; have := look f .inf; simp only [Gp.Oper.Kind.num] at this
    simp only [opsOf, this, Option.map_map]; rfl
  refine ⟨?_, ?_, ?_, ?_, ?_, ?_, ?_, ?_⟩
  · intro f op hop
    rw [l0] at hop
    cases hd : Gp.Oper.defs s (nm f) .pre with
    | none => rw [hd] at hop; cases hop
    | some d =>
      obtain ⟨p, sp⟩ := d
      obtain ⟨v1, v2, v3⟩ := val f _ p sp hd
      rw [hd] at hop
      simp only [Option.map_some, Option.some.injEq] at hop
      subst hop
      cases sp <;> simp [Gp.Oper.Specif.kind] at v3 <;> simp [Gp.Oper.Specif.right] <;> omega
  · intro f op hop
    rw [l2] at hop
    cases hd : Gp.Oper.defs s (nm f) .inf with
    | none => rw [hd] at hop; cases hop
    | some d =>
      obtain ⟨p, sp⟩ := d
      obtain ⟨v1, v2, v3⟩ := val f _ p sp hd
      rw [hd] at hop
      simp only [Option.map_some, Option.some.injEq] at hop
      subst hop
      cases sp <;> simp [Gp.Oper.Specif.kind] at v3 <;> simp [Gp.Oper.Specif.right, Gp.Oper.Specif.left] <;> omega
  · intro f op hop
    rw [l1] at hop
    cases hd : Gp.Oper.defs s (nm f) .post with
    | none => rw [hd] at hop; cases hop
    | some d =>
      obtain ⟨p, sp⟩ := d
      obtain ⟨v1, v2, v3⟩ := val f _ p sp hd
      rw [hd] at hop
      simp only [Option.map_some, Option.some.injEq] at hop
      subst hop
      cases sp <;> simp [Gp.Oper.Specif.kind] at v3 <;> simp [Gp.Oper.Specif.left] <;> omega
  · intro f op hop
    rw [l2] at hop
    rw [l1]
    rcases r1 (nm f) with h | h
    · rw [h] at hop; cases hop
    · rw [h]; rfl
  · unfold Ops.any; rw [l0, l1, l2, hnil, (r3 .pre).1, (r3 .post).1, (r3 .inf).1]; rfl
  · unfold Ops.any; rw [l0, l1, l2, hcurly, (r3 .pre).2, (r3 .post).2, (r3 .inf).2]; rfl
  · refine ⟨by rw [l0, hbar, r4.1]; rfl, by rw [l1, hbar, r4.2.1]; rfl, ?_⟩
    intro op hop
    rw [l2, hbar] at hop
    cases hd : Gp.Oper.defs s 124 .inf with
    | none => rw [hd] at hop; cases hop
    | some d =>
      obtain ⟨p, sp⟩ := d
      have := r4.2.2 p sp hd
      rw [hd] at hop
      simp only [Option.map_some, Option.some.injEq] at hop
      subst hop
      show 1000 < p.toNat
      omega
  · refine ⟨by rw [l0, hcomma, r2.2.1]; rfl, by rw [l1, hcomma, r2.2.2]; rfl, ?_⟩
    intro op hop
    rw [l2, hcomma, r2.1] at hop
    simp only [Option.map_some, Option.some.injEq] at hop
    subst hop
    rfl

/-- **C45 (reachable tables).**  The round trip holds after any sequence of calls of op/3 from the initial
table, whatever these calls define, redefine or remove. -/
theorem C45_after_op {A : Gp.Oper.Atoms} (hA : Gp.Oper.Hyp A) {s : Gp.Oper.St} (h : Gp.Oper.Reach A s)
    (nm : Name → Nat) (hlt : ∀ f, nm f < 2 ^ 31) (hnil : nm [91, 93] = 256) (hcurly : nm [123, 125] = A "{}")
    (hbar : nm [124] = 124) (hcomma : nm [44] = 44)
    (l : Loc) (hl : l.Ok) (fl : Flags) (dq bq : QMode) (o : Opts) (p : Nat)
    (hp : p ≤ 1200) (t : Tm) (ht : TmOk o t) (hv : nbVars t ≤ 2 ^ 20) :
    readTerm l fl ⟨opsOf nm s, dq, bq⟩ .eof (writeTerm l o (opsOf nm s) p t) = some (.term t) ∧
    readTerm l fl ⟨opsOf nm s, dq, bq⟩ .dot (writeTermStop l o (opsOf nm s) p t) = some (.term t) :=
  read_back (E := ⟨opsOf nm s, dq, bq⟩) hl fl (fun _ => opsOf_ok hA h nm hlt hnil hcurly hbar hcomma) hp ht hv

/-! ### Non-vacuity -/

/-- Some operators: `-` prefix and infix, `,`, `:-`, `|`, `dyn` prefix, `!` postfix. -/
def exOps : Ops where
  pre f := if f = [45] then some ⟨200, 0, 200⟩ else if f = [58, 45] then some ⟨1200, 0, 1199⟩ else none
  inf f := if f = [45] then some ⟨500, 500, 499⟩ else if f = [58, 45] then some ⟨1200, 1199, 1199⟩
    else if f = [44] then some ⟨1000, 999, 1000⟩ else if f = [124] then some ⟨1105, 1104, 1105⟩
    else if f = [105, 115] then some ⟨700, 699, 699⟩ else none
  post f := if f = [33] then some ⟨100, 100, 0⟩ else none

theorem exOps_ok : exOps.Ok := by
  refine ⟨?_, ?_, ?_, ?_, by decide, by decide, by decide, by decide⟩
  · intro s op h
    simp only [exOps] at h
    repeat' split at h
    all_goals (first | (cases h; done) | (cases h; decide))
  · intro s op h
    simp only [exOps] at h
    repeat' split at h
    all_goals (first | (cases h; done) | (cases h; decide))
  · intro s op h
    simp only [exOps] at h
    repeat' split at h
    all_goals (first | (cases h; done) | (cases h; decide))
  · intro s op h
    simp only [exOps] at h ⊢
    rw [if_neg]
    rintro rfl
    simp at h

/-- `- (1) - (a :- b)`: brackets after the prefix minus before a number, and around the clause. -/
def exTm : Tm :=
  .str [45] [.str [45] [.int 1], .str [58, 45] [.atom [97], .lst (.atom [45]) (.var [95, 55])]]

theorem exTm_ok : TmOk writeq exTm := by
  simp [exTm, TmOk, TmsOk, Bytes, dollarVar, dollarVarName, writeq]
  exact ⟨7, by simp [natText]⟩

/-- The text is `- (1)-(a:-[-|_7])`. -/
example : writeTerm Loc.c writeq exOps 1200 exTm =
    "- (1)-(a:-[-|_7])".toList.map Char.toNat := by
  decide +kernel

example : readTerm Loc.c {} ⟨exOps, .codes, .codes⟩ .eof (writeTerm Loc.c writeq exOps 1200 exTm) =
    some (.term exTm) :=
  C45_write_read Loc.c Loc.c_ok {} ⟨exOps, .codes, .codes⟩ exOps_ok writeq 1200 (Nat.le_refl _) exTm exTm_ok
    (by decide +kernel)

example : readTerm Loc.latin {} ⟨exOps, .atom, .chars⟩ .dot (writeTermStop Loc.latin writeq exOps 999 exTm) =
    some (.term exTm) :=
  C45_write_stop_read Loc.latin Loc.latin_ok {} ⟨exOps, .atom, .chars⟩ exOps_ok writeq 999 (by decide) exTm exTm_ok
    (by decide +kernel)

/-- In canonical form, read with operators that were not there: `-(1)`, `'.'(a,[])`. -/
example : writeTerm Loc.c canonical exOps 1200 (.str [45] [.lst (.int 1) (.atom [91, 93])]) =
    "-('.'(1,[]))".toList.map Char.toNat := by
  decide +kernel

example : TmOk canonical (.str [45] [.lst (.int 1) (.atom [91, 93])]) := by
  simp [TmOk, TmsOk, Bytes, dollarVar, dollarVarName, canonical]

/-! ### What does not read back -/

/-- The reader on a text of one token. -/
theorem read_one {l : Loc} {fl : Flags} {E : Env} {inp : List Nat} {t : Tok} {x : Tm} {v : Bool}
    (hv : ((E.O.inf []).isSome || (E.O.post []).isSome) = v)
    (h1 : tokens l fl v (inp.length + 1) inp = [some t, some .eof])
    (h2 : parseTerm E 1200 .general false [some t, some .eof] =
      parseLoop E 1200 false x 0 false [some .eof]) (hn : nbVars x ≤ 2 ^ 20) :
    readTerm l fl E .eof inp = some (.term x) := by
  have hl : parseLoop E 1200 false x 0 false [some .eof] = some (.ok (some x) [some .eof]) := by
    rw [parseLoop.eq_def]; simp [nextTok, loopOp]
  unfold readTerm
  simp only [hv, h1, h2, hl, Option.bind_eq_bind, Option.bind_some, nextTok]
  rw [if_neg (by omega)]
  simp

/-- **C45 (the exclusion of '$VAR'(N) is needed).**  writeq writes the ground term '$VAR'(1) as `B`, which is
read as a variable. -/
theorem C45_dollar_var_witness :
    writeTerm Loc.c writeq exOps 1200 (.str dollarVar [.int 1]) = [66] ∧
    readTerm Loc.c {} ⟨exOps, .codes, .codes⟩ .eof [66] = some (.term (.var [66])) := by
  refine ⟨by decide +kernel, ?_⟩
  refine read_one (v := false) (t := .var [66]) (by decide) (by decide +kernel) ?_ (by decide +kernel)
  rw [parseTerm.eq_def]; simp [nextTok, adj]

/-- A double quoted string with a byte above 127 is read as the list of its codes. -/
example :
    readTerm Loc.c {} ⟨exOps, .codes, .codes⟩ .eof [34, 233, 34] =
      some (.term (.lst (.int 233) (.atom [91, 93]))) := by
  refine read_one (v := false) (t := .str [233]) (by decide) (by decide +kernel) ?_ (by decide +kernel)
  rw [parseTerm.eq_def]; simp [nextTok, adj, strTerm]

end Gp.Rw
