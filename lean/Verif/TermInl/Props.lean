import Verif.TermInl.Univ
import Verif.TermInl.Subsume
import Verif.TermInl.Setarg
import Verif.ListBip.Props
/-
C58. The inspection and the construction of terms: functor/3, arg/3, =../2, term_variables/2-3, subsumes_term/2 and
setarg/3-4 give the answer of their definition, whatever their arguments.

In all the theorems `N` is the end of the memory, `s` the state at the call, which is well formed (`Ok`) and where lists
are built with list cells (`NoDot`); the arguments are words of this memory, whatever they are.
-/
namespace Gp.TermInl
open Gp.Heap Gp.Unify Gp.ListBip

variable {N : Adr} {s : St} {E : Env}

/-- functor(Term, Name, Arity): a success is the most general answer of the relation, a failure means that there is no
answer. An instantiation error: the term is a variable, and the name or the arity is one. A representation error: the
arity is above 255. Any other error: there is no answer. -/
def FunctorSpec (N : Adr) (s : St) (tw fw nw : Cell) (o : Out) : Prop :=
  let P := fun ρ => FunctorRel (eval s.mem ρ tw) (eval s.mem ρ fw) (eval s.mem ρ nw)
  match o with
  | .ret true s' => Answer N s P s' ∧ NoDot s'.mem
  | .ret false _ => NoAnswer N s P
  | .err .instantiation => Unbound s.mem tw ∧ (Unbound s.mem fw ∨ Unbound s.mem nw)
  | .err .reprMaxArity => Unbound s.mem tw ∧ ∃ z : Int, 255 < z ∧ ∀ ρ, Model N s.mem ρ → eval s.mem ρ nw = .int z
  | .err _ => NoAnswer N s P

theorem C58_functor {tw fw nw : Cell} {o : Out} (hok : Ok N s) (hnd : NoDot s.mem) (ht : ValidWord N s.lssa s.mem tw)
    (hf : ValidWord N s.lssa s.mem fw) (hn : ValidWord N s.lssa s.mem nw) (h : functor3 E s tw fw nw = some o) :
    FunctorSpec N s tw fw nw o := by
  have r := functor3_res hok hnd ht hf hn h
  match o, r with
  | .ret true s', r => exact ⟨⟨r.1.ok, r.1.down, r.1.up⟩, r.2⟩
  | .ret false s', r => exact r
  | .err e, r => cases e <;> exact r

/-- arg(N, Term, Arg), where the integers are those of the machine. -/
def ArgSpec (N : Adr) (s : St) (nw tw aw : Cell) (o : Out) : Prop :=
  let P := fun ρ => ArgRel (eval s.mem ρ nw) (eval s.mem ρ tw) (eval s.mem ρ aw)
  match o with
  | .ret true s' => Answer N s P s' ∧ NoDot s'.mem
  | .ret false _ => NoAnswer N s P
  | .err .instantiation => Unbound s.mem nw ∨ Unbound s.mem tw
  | .err _ => NoAnswer N s P

/-- arg/3, when `unsigned long` (`bits` bits) can represent the integers and the addresses: all the platforms but 64 bits
Windows. -/
theorem C58_arg_partial {nw tw aw : Cell} {o : Out} {bits : Nat} (hok : Ok N s) (hnd : NoDot s.mem)
    (hn : ValidWord N s.lssa s.mem nw) (ht : ValidWord N s.lssa s.mem tw) (ha : ValidWord N s.lssa s.mem aw)
    (hsz : ∀ z, deref s.mem nw = some (.int z) → z < 2 ^ bits) (hN : N < 2 ^ bits)
    (h : arg3 bits E s nw tw aw = some o) : ArgSpec N s nw tw aw o := by
  have r := arg3_res hok hnd hn ht ha hsz hN h
  match o, r with
  | .ret true s', r => exact ⟨⟨r.1.ok, r.1.down, r.1.up⟩, r.2⟩
  | .ret false s', r => exact r
  | .err e, r => cases e <;> exact r

/-- Term =.. List. An instantiation error: the term is a variable, and the list is partial or its first element is a
variable. A representation error: more than 255 arguments. -/
def UnivSpec (N : Adr) (s : St) (tw lw : Cell) (o : Out) : Prop :=
  let P := fun ρ => UnivRel (eval s.mem ρ tw) (eval s.mem ρ lw)
  match o with
  | .ret true s' => Answer N s P s' ∧ NoDot s'.mem
  | .ret false _ => NoAnswer N s P
  | .err .instantiation =>
    Unbound s.mem tw ∧ ((∃ as v, Partial s.mem lw as v) ∨ ∃ b, deref s.mem lw = some (.lst b) ∧ Unbound s.mem (s.mem b))
  | .err .reprMaxArity =>
    Unbound s.mem tw ∧ ∀ ρ, Model N s.mem ρ → ∃ f l, eval s.mem ρ lw = listT (.atm f :: l) nil ∧ 255 < l.length
  | .err _ => NoAnswer N s P

theorem C58_univ {tw lw : Cell} {o : Out} (hok : Ok N s) (hnd : NoDot s.mem) (ht : ValidWord N s.lssa s.mem tw)
    (hl : ValidWord N s.lssa s.mem lw) (h : univ E s tw lw = some o) : UnivSpec N s tw lw o := by
  have r := univ_res hok hnd ht hl h
  match o, r with
  | .ret true s', r => exact ⟨⟨r.1.ok, r.1.down, r.1.up⟩, r.2⟩
  | .ret false s', r => exact r
  | .err e, r => cases e <;> exact r

/-- term_variables(Term, List) and term_variables(Term, List, Tail): the list is that of the variables of the (finite)
term, at their first occurrence from left to right, followed by the tail. -/
def TermVariablesSpec (N : Adr) (s : St) (t : T) (lw : Cell) (tail : Option Cell) (o : Out) : Prop :=
  let P := fun ρ => eval s.mem ρ lw = listT ((firsts (T.vars t)).map ρ) ((tail.map fun w => eval s.mem ρ w).getD nil)
  match o with
  | .ret true s' => Answer N s P s' ∧ NoDot s'.mem
  | .ret false _ => NoAnswer N s P
  | .err .reprTooManyVariables => MAX_VAR < (firsts (T.vars t)).length
  | .err .typeList => NoAnswer N s P
  | .err _ => False

/-- term_variables/2-3, for a term which is not a variable of the local stack. Missing: these variables
(`C58_term_variables_local`: the memory is then corrupted). -/
theorem C58_term_variables_partial {tw lw : Cell} {tail : Option Cell} {t : T} {o : Out} (hok : Ok N s) (hnd : NoDot s.mem)
    (hr : Reads s.mem tw t) (ht : ValidWord N s.lssa s.mem tw) (hl : ValidWord N s.lssa s.mem lw)
    (htl : ∀ w, tail = some w → ValidWord N s.lssa s.mem w)
    (hg : ∀ a, deref s.mem tw = some (.ref a) → a < s.lssa) (h : termVariables E s tw lw tail = some o) :
    TermVariablesSpec N s t lw tail o := by
  have r := termVariables_res hok hnd hr ht hl htl hg h
  match o, r with
  | .ret true s', r => exact ⟨⟨r.1.ok, r.1.down, r.1.up⟩, r.2⟩
  | .ret false s', r => exact r
  | .err e, r => cases e <;> exact r

/-- subsumes_term(General, Specific): it succeeds iff a substitution makes the general term identical to the specific one
without changing the latter; in both cases the state of the machine (memory, trail and registers) is the one of the call. The
representation error: the specific term has too many variables. `top` is the top of the local stack. -/
theorem C58_subsumes {top : Adr} {gw sw : Cell} {tg ts : T} {o : Out} (hok : Ok N s) (hfin : Unify.Finite N s.mem)
    (htop : N ≤ top) (hg : ValidWord N s.lssa s.mem gw) (hs : ValidWord N s.lssa s.mem sw) (rg : Reads s.mem gw tg)
    (rs : Reads s.mem sw ts) (h : subsumes E s top gw sw = some o) :
    (∃ b, o = .ret b s ∧ (b = true ↔ Subsumes tg ts)) ∨
      (o = .err .reprTooManyVariables ∧ MAX_VAR < (firsts (T.vars ts)).length) :=
  subsumes_res hok hfin htop hg hs rg rs h

/-- setarg/3-4 and nb_setarg/3: exactly one word of the memory changes, the argument, it becomes the value, and the memory is
still well formed; backtracking restores it when Undo is true. Missing: a value which is a variable of the local stack
(`C58_setarg_local`) or a finite domain variable (not a valid word here). -/
theorem C58_setarg_partial {nw tw vw : Cell} {undo : Bool} {o : Out} (hok : Ok N s) (ht : ValidWord N s.lssa s.mem tw)
    (hv : ValidWord N s.lssa s.mem vw) (hz : ∀ z, deref s.mem nw = some (.int z) → z < 2 ^ 64) (hN : N < 2 ^ 64)
    (hg : ∀ a, deref s.mem vw = some (.ref a) → a < s.lssa)
    (h : setarg s nw tw vw undo = some o) : SetargOut N s nw tw vw undo o :=
  setarg_res hok ht hv hz hN hg h

/-! ## The hypotheses are met -/

/-- `X` (0), `f(a, X)` (1-3), `[b]` (4, 5), `Y` (6), and a variable `Z` of the local stack (20). -/
def exM : Heap.Mem := fun a => if a = 20 then .ref 20 else
  memL [.ref 0, .fn 7 2, .atm 97, .ref 0, .atm 98, NIL_WORD, .ref 6] a

def exS : St := { mem := exM, trail := [], h := 7, hb1 := 0, b := 0, lssa := 20 }

theorem exS_ok : Ok 21 exS := by
  refine ⟨?_, ?_, by decide⟩
  · intro a ha ht
    have hle : ∀ a b, exM a = .ref b → b ≤ a := by
      intro a b h
      match a with
      | 0 | 1 | 2 | 3 | 4 | 5 | 6 => simp [exM, memL] at h <;> omega
      | a + 7 =>
        unfold exM at h
        split at h
        · injection h with h; omega
        · simp [memL] at h
    refine ⟨?_, ?_, acc_of_le hle a⟩
    · match a with
      | 0 | 1 | 2 | 3 | 4 | 5 | 6 => first | exact trivial | exact ⟨by decide, rfl⟩ | simp [exS, exM, memL, isTerm] at ht
      | a + 7 =>
        by_cases e : a + 7 = 20
        · have : a = 13 := by omega
          subst this; exact ⟨by decide, rfl⟩
        · exfalso
          have : exM (a + 7) = .fn 0 0 := by unfold exM; rw [if_neg e]; simp [memL]
          simp [exS, this, isTerm] at ht
    · intro b hb hlt
      exact Nat.lt_of_le_of_lt (hle a b hb) hlt
  · intro a h1 h2
    have h1 : 7 ≤ a := h1
    have h2 : a < 20 := h2
    show exM a = _
    unfold exM
    rw [if_neg (by omega)]
    simp [memL, List.getElem?_eq_none (show ([.ref 0, .fn 7 2, .atm 97, .ref 0, .atm 98, NIL_WORD, .ref 6] : List Cell).length ≤ a from h1)]

theorem exS_nodot : NoDot exS.mem := by
  intro a
  show exM a ≠ _
  unfold exM
  split
  · simp
  · match a with
    | 0 | 1 | 2 | 3 | 4 | 5 | 6 => simp [memL]
    | a + 7 => simp [memL]

theorem exS_stc : ValidWord 21 exS.lssa exS.mem (.stc 1) := by
  refine ⟨7, 2, rfl, by decide, by decide, by decide, ?_⟩
  intro i hi
  match i with
  | 0 | 1 => rfl
  | i + 2 => omega

theorem exS_reads : Reads exS.mem (.stc 1) (.app 7 [.atm 97, .var 0]) := by
  have := Reads.stc (m := exS.mem) (a := 1) (f := 7) (n := 2) (g := fun i => if i = 0 then .atm 97 else .var 0) rfl ?_
  · exact this
  · intro i hi
    match i with
    | 0 => exact .atm
    | 1 => exact Reads.var rfl
    | i + 2 => omega

/-- The call succeeds, and the words given are at the addresses given. -/
def gives (r : Bool) (l : List (Adr × Cell)) : Option Out → Bool
  | some (.ret b s) => b == r && l.all fun p => decide (s.mem p.1 = p.2)
  | _ => false

theorem gives_iff {r : Bool} {l : List (Adr × Cell)} {o : Option Out} (h : gives r l o = true) :
    ∃ s', o = some (.ret r s') ∧ ∀ p ∈ l, s'.mem p.1 = p.2 := by
  match o with
  | some (.ret b s) =>
    simp only [gives, Bool.and_eq_true, beq_iff_eq, List.all_eq_true, decide_eq_true_iff] at h
    exact ⟨s, by rw [h.1], h.2⟩
  | some (.err _) => simp [gives] at h
  | none => simp [gives] at h

local macro "run_ex" : tactic => `(tactic|
  simp [gives, functor3, functorNew, rdPositive, rdInteger, rdCompound, arg3, unifyOut, unAtom, unInteger, andThen, newStruct,
    succeed, pushVars, push, univ, univNew, univCons, univBody, isAtomic, unList, fillNil, fill, getList, getNil, unifyValue,
    unifyVariable, listOrPartial, termVariables, termVars3, treat, treatArgs, collect, check, varAdr, setarg, atomOrInt, subsumes,
    openChoice, closeChoice, untrail, deref_ref, deref_nonref, Item.get, exS, exM, memL, exE, unify, bindTo, unifyNonVar,
    unifyArgs, St.bindUV, St.bindOV, St.needsTrailing, Mem.set, copyWord, occurs, occursArgs, List.range_succ, DOT])

/-- `functor(Y, foo, 2)` builds a term, `functor(f(a,X), Y, 2)` gives Y = f. -/
example : ∃ s', functor3 (exE 5) exS (.ref 6) (.atm 30) (.int 2) = some (.ret true s') ∧
    FunctorSpec 21 exS (.ref 6) (.atm 30) (.int 2) (.ret true s') := by
  obtain ⟨s', h, _⟩ := gives_iff (show gives true [(6, .stc 7), (7, .fn 30 2), (8, .ref 8), (9, .ref 9)]
    (functor3 (exE 5) exS (.ref 6) (.atm 30) (.int 2)) = true by run_ex)
  exact ⟨s', h, C58_functor exS_ok exS_nodot ⟨by decide, rfl⟩ trivial trivial h⟩

example : gives true [(6, .atm 7)] (functor3 (exE 5) exS (.stc 1) (.ref 6) (.int 2)) = true := by run_ex

/-- `arg(2, f(a,X), Y)`. -/
example : ∃ s', arg3 64 (exE 5) exS (.int 2) (.stc 1) (.ref 6) = some (.ret true s') ∧
    ArgSpec 21 exS (.int 2) (.stc 1) (.ref 6) (.ret true s') := by
  obtain ⟨s', h, _⟩ := gives_iff (show gives true [(6, .ref 0)] (arg3 64 (exE 5) exS (.int 2) (.stc 1) (.ref 6)) = true by
    run_ex)
  refine ⟨s', h, C58_arg_partial exS_ok exS_nodot trivial exS_stc ⟨by decide, rfl⟩ ?_ (by decide) h⟩
  intro z hz
  have : deref exS.mem (.int 2) = some (.int 2) := deref_nonref (by simp)
  rw [this] at hz
  injection hz with hz; injection hz with hz; subst hz; decide

/-- `Y =.. [b]`, and `f(a,X) =.. Y`. -/
example : ∃ s', univ (exE 5) exS (.ref 6) (.lst 4) = some (.ret true s') ∧ s'.mem 6 = .atm 98 ∧
    UnivSpec 21 exS (.ref 6) (.lst 4) (.ret true s') := by
  obtain ⟨s', h, h6⟩ := gives_iff (show gives true [(6, .atm 98)] (univ (exE 5) exS (.ref 6) (.lst 4)) = true by run_ex)
  exact ⟨s', h, h6 (6, .atm 98) (by simp), C58_univ exS_ok exS_nodot ⟨by decide, rfl⟩ ⟨by decide, by decide, rfl, rfl⟩ h⟩

example : gives true [(6, .lst 7), (7, .atm 7), (8, .lst 9), (9, .atm 97), (10, .lst 11), (11, .ref 0), (12, NIL_WORD)]
    (univ (exE 5) exS (.stc 1) (.ref 6)) = true := by run_ex

/-- `term_variables(f(a,X), Y)`. -/
example : ∃ s', termVariables (exE 5) exS (.stc 1) (.ref 6) none = some (.ret true s') ∧ s'.mem 7 = .ref 0 ∧
    TermVariablesSpec 21 exS (.app 7 [.atm 97, .var 0]) (.ref 6) none (.ret true s') := by
  obtain ⟨s', h, h7⟩ := gives_iff (show gives true [(6, .lst 7), (7, .ref 0), (8, NIL_WORD)]
    (termVariables (exE 5) exS (.stc 1) (.ref 6) none) = true by run_ex)
  refine ⟨s', h, h7 (7, .ref 0) (by simp), C58_term_variables_partial exS_ok exS_nodot exS_reads exS_stc ⟨by decide, rfl⟩ (by simp) ?_ h⟩
  intro a ha
  have : deref exS.mem (.stc 1) = some (.stc 1) := deref_nonref (by simp)
  rw [this] at ha; simp at ha

/-- `setarg(1, f(a,X), b)`. -/
example : ∃ s', setarg exS (.int 1) (.stc 1) (.atm 98) true = some (.ret true s') ∧ s'.mem 2 = .atm 98 ∧
    SetargOut 21 exS (.int 1) (.stc 1) (.atm 98) true (.ret true s') := by
  obtain ⟨s', h, h2⟩ := gives_iff (show gives true [(2, .atm 98), (3, .ref 0)]
    (setarg exS (.int 1) (.stc 1) (.atm 98) true) = true by run_ex)
  refine ⟨s', h, h2 (2, .atm 98) (by simp), C58_setarg_partial exS_ok exS_stc trivial ?_ (by decide) ?_ h⟩
  · intro z hz
    have : deref exS.mem (.int 1) = some (.int 1) := deref_nonref (by simp)
    rw [this] at hz
    injection hz with hz; injection hz with hz; subst hz; decide
  · intro a ha
    have : deref exS.mem (.atm 98) = some (.atm 98) := deref_nonref (by simp)
    rw [this] at ha; simp at ha

theorem exS_fin : Unify.Finite 21 exS.mem := by
  intro a ha ht
  match a with
  | 0 => exact ⟨_, .var rfl⟩
  | 1 => simp [exS, exM, memL, isTerm] at ht
  | 2 => exact ⟨_, .atm⟩
  | 3 => exact ⟨_, .var rfl⟩
  | 4 => exact ⟨_, .atm⟩
  | 5 => exact ⟨_, .atm⟩
  | 6 => exact ⟨_, .var rfl⟩
  | a + 7 =>
    by_cases e : a + 7 = 20
    · have : a = 13 := by omega
      subst this; exact ⟨_, .var rfl⟩
    · exfalso
      have : exM (a + 7) = .fn 0 0 := by unfold exM; rw [if_neg e]; simp [memL]
      simp [exS, this, isTerm] at ht

/-- `subsumes_term(Y, f(a,X))` succeeds, `subsumes_term(f(a,X), Y)` fails; the memory is unchanged. -/
example : subsumes (exE 5) exS 21 (.ref 6) (.stc 1) = some (.ret true exS) ∧
    subsumes (exE 5) exS 21 (.stc 1) (.ref 6) = some (.ret false exS) := by
  obtain ⟨s', h, _⟩ := gives_iff (show gives true [] (subsumes (exE 5) exS 21 (.ref 6) (.stc 1)) = true by run_ex)
  obtain ⟨s2, h2, _⟩ := gives_iff (show gives false [] (subsumes (exE 5) exS 21 (.stc 1) (.ref 6)) = true by run_ex)
  have r1 : Reads exS.mem (.ref 6) (.var 6) := .var rfl
  have v1 : ValidWord 21 exS.lssa exS.mem (.ref 6) := ⟨by decide, rfl⟩
  constructor
  · rcases C58_subsumes exS_ok exS_fin (Nat.le_refl _) v1 exS_stc r1 exS_reads h with ⟨b, e, _⟩ | ⟨e, _⟩
    · injection e with e1 e2; rw [h, e2]
    · cases e
  · rcases C58_subsumes exS_ok exS_fin (Nat.le_refl _) exS_stc v1 exS_reads r1 h2 with ⟨b, e, _⟩ | ⟨e, _⟩
    · injection e with e1 e2; rw [h2, e2]
    · cases e

/-! ## The defects -/

/-- Finding: on 64 bits Windows `unsigned long` has 32 bits: `arg(4294967297, f(a,X), Y)` passes the test and succeeds with
the word which is 32 GB after the term, although the term has no such argument. -/
theorem C58_arg_win64 : ∃ s', arg3 32 (exE 5) exS (.int 4294967297) (.stc 1) (.ref 6) = some (.ret true s') ∧
    NoAnswer 21 exS (fun ρ : Adr → T => ArgRel (eval exS.mem ρ (.int 4294967297)) (eval exS.mem ρ (.stc 1)) (eval exS.mem ρ (.ref 6))) := by
  have h : rdPositive exS.mem (.int 4294967297) = some (.ok 4294967297) := by
    simp [rdPositive, rdInteger, deref_nonref]
  have h2 : rdCompound exS.mem (.stc 1) = some (.ok (2, 7, 2)) := by
    simp [rdCompound, deref_nonref, exS, exM, memL]
  have h3 : exS.mem (2 + (4294967297 - 1 : Int).toNat) = .fn 0 0 := by
    show exM 4294967298 = _
    unfold exM
    rw [if_neg (by omega), memL, List.getD_eq_getElem?_getD, List.getElem?_eq_none (by simp)]
    rfl
  refine ⟨exS.bindUV 6 (.fn 0 0), ?_, ?_⟩
  · unfold arg3
    rw [h, h2]
    simp only
    rw [if_pos (by decide), if_neg (by decide), h3]
    simp [unifyOut, unify, exE, deref_ref, deref_nonref, exS, exM, memL, bindTo, copyWord]
  · rintro ρ hρ ⟨f, l, i, hv, hn, hi⟩
    have e : eval exS.mem ρ (.stc 1) = .app 7 [ρ 2, ρ 3] := rfl
    rw [e] at hv
    have e2 : eval exS.mem ρ (.int 4294967297) = .int 4294967297 := rfl
    rw [e2] at hn
    injection hn with hn
    have : i = 4294967296 := by omega
    subst this
    cases hv with
    | app _ _ => simp at hi

/-- Finding: `term_variables(Z, L)`, where Z is a variable of the local stack, stores in the global stack a reference to the
local stack: the memory is no longer well formed. -/
theorem C58_term_variables_local : ∃ s', termVariables (exE 5) exS (.ref 20) (.ref 6) none = some (.ret true s') ∧
    s'.mem 7 = .ref 20 ∧ ¬ WF 21 s'.lssa s'.mem := by
  obtain ⟨s', h, h7⟩ := gives_iff (show gives true [(6, .lst 7), (7, .ref 20), (8, NIL_WORD)]
    (termVariables (exE 5) exS (.ref 20) (.ref 6) none) = true by run_ex)
  have h7 := h7 (7, .ref 20) (by simp)
  simp only at h7
  have hl : (match termVariables (exE 5) exS (.ref 20) (.ref 6) none with | some (.ret _ s) => s.lssa | _ => 0) = 20 := by
    run_ex
  rw [h] at hl
  simp only at hl
  refine ⟨s', h, h7, fun hwf => ?_⟩
  have := (hwf 7 (by omega) (by rw [h7]; rfl)).2.1 20 h7 (by omega)
  omega

/-- Finding: `setarg(1, f(a,X), Z)`, where Z is a variable of the local stack, stores in the global stack a reference to the
local stack: the memory is no longer well formed. -/
theorem C58_setarg_local : ∃ s', setarg exS (.int 1) (.stc 1) (.ref 20) true = some (.ret true s') ∧
    s'.mem 2 = .ref 20 ∧ ¬ WF 21 s'.lssa s'.mem := by
  refine ⟨exS.bindOV 2 (.ref 20), ?_, rfl, fun hwf => ?_⟩
  · simp [setarg, rdCompound, rdPositive, rdInteger, deref_ref, deref_nonref, exS, exM, memL]
  have h2 : (exS.bindOV 2 (.ref 20)).mem 2 = .ref 20 := rfl
  have := (hwf 2 (by omega) (by rw [h2]; rfl)).2.1 20 h2 (by decide)
  have h3 : (exS.bindOV 2 (.ref 20)).lssa = 20 := rfl
  omega

end Gp.TermInl
