import Verif.CodeGen.Lemmas19
import Verif.CodeGen.Props2
/-
C52, for the clauses of the source: the variables of the clause are classified (internal.pl), the code of the
head, of the arguments of the goals and of the last goal is generated and executed. `σ` gives the values of the
variables of the source.
-/
namespace Gp.CodeGen
open Gp.Heap Gp.Unify Gp.ListBip

/-- A clause of the source: the goals but the last one are given with the instances of their answers. -/
structure SClause where
  head : List Tm
  goals : List (List Tm × (List T → Prop))
  last : List Tm

/-- The body. -/
def SClause.body (c : SClause) : List (List Tm) := c.goals.map (·.1) ++ [c.last]

/-- The number of permanent variables. -/
def SClause.nY (c : SClause) : Nat := nbY c.head c.body

/-- The arguments in the internal format. -/
def SClause.args (c : SClause) (l : List Tm) : List Arg := fmtList (names c.head c.body) l

/-- The goals in the internal format. -/
def SClause.igoals (c : SClause) : List (List Arg × (List T → Prop)) := c.goals.map fun q => (c.args q.1, q.2)

/-- The terms of the clause can be written. -/
structure SClause.Good (c : SClause) : Prop where
  head : GoodList c.head
  goals : ∀ q ∈ c.goals, GoodList q.1
  last : GoodList c.last

/-- The clause is true for the values `σ` of its variables, the call being `ts` and the last goal `us`. -/
def SClause.Inst (c : SClause) (σ : Nat → T) (ts us : List T) : Prop :=
  instList σ c.head = ts ∧ (∀ q ∈ c.goals, q.2 (instList σ q.1)) ∧ instList σ c.last = us

variable {c : SClause}

theorem body_vars : varsList c.head ++ c.body.flatMap varsList =
    varsList c.head ++ (c.goals.flatMap (fun q => varsList q.1) ++ varsList c.last) := by
  rw [SClause.body, List.flatMap_append, List.flatMap_map]; simp

/-- The classification gives a clause in which the temporaries are local to a chunk. -/
theorem C52_classification (hc : c.Good) : WellFormed c.nY (c.args c.head) c.igoals (c.args c.last) where
  srcHead := fmtList_src _ hc.head fun v hv => names_src (List.mem_append_left _ hv)
  srcGoals := by
    intro q hq
    obtain ⟨p, hp, rfl⟩ := List.mem_map.mp hq
    refine fmtList_src _ (hc.goals p hp) fun v hv => names_src (List.mem_append_right _ (List.mem_flatMap.mpr ⟨p.1, ?_, hv⟩))
    exact List.mem_append_left _ (List.mem_map.mpr ⟨p, hp, rfl⟩)
  srcLast := fmtList_src _ hc.last fun v hv => names_src (List.mem_append_right _ (List.mem_flatMap.mpr ⟨c.last, by simp [SClause.body], hv⟩))
  sep := by
    have := clause_sep c.head c.body
    rw [SClause.igoals, List.map_map]
    rw [SClause.body, List.map_append, List.map_map] at this
    exact this

theorem goals_fmt {name : Nat → Arg} {β : Var → T} : (l : List (List Tm × (List T → Prop))) →
    (∀ v ∈ l.flatMap (fun q => varsList q.1), IsName name v) → Once name (l.flatMap fun q => varsList q.1) →
    Solved β (l.map fun q => (fmtList name q.1, q.2)) →
    ∃ σ : Nat → T, (∀ v ∈ l.flatMap (fun q => varsList q.1), Named name β σ v) ∧ ∀ q ∈ l, q.2 (instList σ q.1)
  | [], _, _, _ => ⟨fun _ => .atm 0, fun v hv => (by cases hv), fun q hq => (by cases hq)⟩
  | q :: l, hn, ho, h => by
    rw [List.flatMap_cons] at hn ho ⊢
    have ho' := ho.append
    obtain ⟨ts, h1, h2⟩ := h _ (List.mem_cons_self)
    obtain ⟨σ1, a1, a2⟩ := denList_fmt q.1 ts (fun v hv => hn v (List.mem_append_left _ hv)) ho'.1 h1
    obtain ⟨σ2, b1, b2⟩ := goals_fmt l (fun v hv => hn v (List.mem_append_right _ hv)) ho'.2.1 (fun p hp => h p (List.mem_cons_of_mem _ hp))
    obtain ⟨σ, d1, d2, d3⟩ := glue ho hn a1 b1
    refine ⟨σ, d3, fun p hp => ?_⟩
    rcases List.mem_cons.mp hp with rfl | hp
    · rw [instList_congr _ d1, a2]; exact h2
    · rw [instList_congr p.1 (fun v hv => d2 v (List.mem_flatMap.mpr ⟨p, hp, hv⟩))]; exact b2 p hp

theorem inst_length (σ : Nat → T) : (l : List Tm) → (instList σ l).length = l.length
  | [] => rfl
  | _ :: l => congrArg (· + 1) (inst_length σ l)

variable {N : Nat} {E : Env} {O : Opts} {reorder : Bool} {m m' m'' : M} {g' : G}

/-- When the last call of a clause of the source is reached, every valuation of the memory is an instance of
the clause. -/
theorem C52_source_sound (hc : c.Good) (hm : Start N c.nY c.head.length m)
    (h1 : Clause E O reorder N m (c.args c.head) c.igoals m' g')
    (h : exec E (lastCode O reorder (c.args c.last) g') m' = some (some m'')) :
    Ok N m''.s ∧ ∀ ρ, Model N m''.s.mem ρ → Model N m.s.mem ρ ∧
      ∃ σ, c.Inst σ (m.terms ρ c.head.length) (m''.terms ρ c.last.length) := by
  have hl : ∀ l : List Tm, (c.args l).length = l.length := fun l => fmtList_length l
  obtain ⟨a, b⟩ := C52_clause_sound (C52_classification hc) (by rw [hl]; exact hm) h1 h
  refine ⟨a, fun ρ hρ => ?_⟩
  obtain ⟨β, ⟨b1, b2⟩, b3, b4⟩ := b ρ hρ
  refine ⟨b1, ?_⟩
  have ho := names_once (head := c.head) (body := c.body)
  have hn : ∀ v ∈ varsList c.head ++ c.body.flatMap varsList, IsName (names c.head c.body) v := fun v hv => names_isName hv
  rw [body_vars] at ho hn
  have ho1 := ho.append
  have ho2 := ho1.2.1.append
  have hn2 := fun v hv => hn v (List.mem_append_right (varsList c.head) hv)
  obtain ⟨σ0, c1, c2⟩ := denList_fmt c.head _ (fun v hv => hn v (List.mem_append_left _ hv)) ho1.1 b2
  obtain ⟨σ1, d1, d2⟩ := goals_fmt c.goals (fun v hv => hn2 v (List.mem_append_left _ hv)) ho2.1 b3
  obtain ⟨σ2, e1, e2⟩ := denList_fmt c.last _ (fun v hv => hn2 v (List.mem_append_right _ hv)) ho2.2.1 b4
  obtain ⟨σ3, f1, f2, f3⟩ := glue ho1.2.1 hn2 d1 e1
  obtain ⟨σ, g1, g2, g3⟩ := glue ho hn c1 f3
  refine ⟨σ, ?_, fun q hq => ?_, ?_⟩
  · rw [instList_congr _ g1, c2, hl]; rfl
  · rw [instList_congr q.1 (σ' := σ1) (fun v hv => ?_)]
    · exact d2 q hq
    · have hv' : v ∈ c.goals.flatMap (fun q => varsList q.1) := List.mem_flatMap.mpr ⟨q, hq, hv⟩
      rw [g2 v (List.mem_append_left _ hv'), f1 v hv']
  · rw [instList_congr c.last (σ' := σ2) (fun v hv => by rw [g2 v (List.mem_append_right _ hv), f2 v hv]), e2, hl]

open Classical in
/-- The values of the variables of the internal format. -/
theorem values_of (c : SClause) (σ : Nat → T) : ∃ β : Var → T, ∀ v ∈ varsList c.head ++ (c.goals.flatMap (fun q => varsList q.1) ++ varsList c.last),
    IsName (names c.head c.body) v ∧ Named (names c.head c.body) β σ v := by
  rw [← body_vars]
  let β : Var → T := fun u => if hu : ∃ v, v ∈ varsList c.head ++ c.body.flatMap varsList ∧ names c.head c.body v = .var u then σ hu.choose else .atm 0
  refine ⟨β, fun v hv => ⟨names_isName hv, fun u hu => ?_⟩⟩
  have hex : ∃ v, v ∈ varsList c.head ++ c.body.flatMap varsList ∧ names c.head c.body v = .var u := ⟨v, hv, hu⟩
  have h2 : β u = σ hex.choose := dif_pos hex
  obtain ⟨k1, hk1⟩ := occ_of_var hv
  obtain ⟨k2, hk2⟩ := occ_of_var hex.choose_spec.1
  rw [h2, names_inj hk1 hk2 hu hex.choose_spec.2]

/-- No instance of a clause of the source is lost. -/
theorem C52_source_complete (hc : c.Good) (hm : Start N c.nY c.head.length m)
    (h1 : Clause E O reorder N m (c.args c.head) c.igoals m' g')
    (h : exec E (lastCode O reorder (c.args c.last) g') m' = some (some m''))
    (σ : Nat → T) (ρ : Adr → T) (us : List T) (hρ : Model N m.s.mem ρ) (hi : c.Inst σ (m.terms ρ c.head.length) us) :
    ∃ ρ', Model N m''.s.mem ρ' ∧ Agree m.s.mem ρ ρ' ∧ m''.terms ρ' c.last.length = us := by
  have hl : ∀ l : List Tm, (c.args l).length = l.length := fun l => fmtList_length l
  obtain ⟨i1, i2, i3⟩ := hi
  obtain ⟨β, hβ⟩ := values_of c σ
  obtain ⟨ρ', r1, r2, r3⟩ := C52_clause_complete (C52_classification hc) (by rw [hl]; exact hm) h1 h β ρ us
    ⟨hρ, by
      have := fmtList_den c.head (fun v hv => hβ v (List.mem_append_left _ hv))
      rw [i1] at this
      rw [hl]; exact this⟩
    (fun q hq => by
      obtain ⟨p, hp, rfl⟩ := List.mem_map.mp hq
      refine ⟨instList σ p.1, fmtList_den p.1 (fun v hv => hβ v ?_), i2 p hp⟩
      exact List.mem_append_right _ (List.mem_append_left _ (List.mem_flatMap.mpr ⟨p, hp, hv⟩)))
    (by
      rw [← i3]
      exact fmtList_den c.last (fun v hv => hβ v (List.mem_append_right _ (List.mem_append_right _ hv))))
  rw [hl] at r3
  exact ⟨ρ', r1, r2, r3⟩

/-- The code of a clause of the source fails only in the head or in a call; when the head fails no instance of
the clause is the call. -/
theorem C52_source_fails (hc : c.Good) (hm : Start N c.nY c.head.length m)
    (h : exec E (genHead { O with body := false } reorder (c.args c.head) (atStart c.head.length)).1 m = some none)
    (σ : Nat → T) (ρ : Adr → T) (hρ : Model N m.s.mem ρ) : instList σ c.head ≠ m.terms ρ c.head.length := by
  intro he
  have hl : ∀ l : List Tm, (c.args l).length = l.length := fun l => fmtList_length l
  obtain ⟨β, hβ⟩ := values_of c σ
  have hd := fmtList_den c.head (fun v hv => hβ v (List.mem_append_left _ hv))
  rw [he] at hd
  rw [← hl c.head] at h hm
  refine C51_head_fails hm (C52_classification hc).srcHead h β ρ ⟨hρ, ?_⟩
  rw [hl]; exact hd

/-! ## Example -/

/-- p([X|T]) :- q(X, Y), s(Y, g(T), W, W): X, W, T, Y are 0, 1, 2, 3. -/
def exC : SClause where
  head := [.stc 46 [.var 0, .var 2]]
  goals := [([.var 0, .var 3], exSol)]
  last := [.var 3, .stc 103 [.var 2], .var 1, .var 1]

theorem exC_good : exC.Good where
  head := by simp [exC, Tm.Good.GoodList, Tm.Good]
  goals := by simp [exC, Tm.Good.GoodList, Tm.Good]
  last := by simp [exC, Tm.Good.GoodList, Tm.Good]

/-- T and Y are permanent, X and W are temporaries. -/
theorem exC_args : exC.args exC.head = exHead ∧ exC.igoals = [(exGoal, exSol)] ∧ exC.args exC.last = exLast ∧ exC.nY = 2 := by
  simp [SClause.args, SClause.igoals, SClause.nY, SClause.body, exC, exHead, exGoal, exLast, fmt.fmtList, fmt, names, nbY, dico, clauseOccs,
    goalOccs, Tm.vars.varsList, Tm.vars, addVar, classif, nameOf]

/-- p(X, f(Y, X), Z) :- q(Z, U): Y and U are void, X is a temporary, Z too (the head and the first goal are one
chunk). -/
example : (fmtList (names [.var 0, .stc 102 [.var 1, .var 0], .var 2] [[.var 2, .var 3]]) [.var 0, .stc 102 [.var 1, .var 0], .var 2] =
      [.var (.x 0), .stc 102 [.void, .var (.x 0)], .var (.x 2)]) ∧
    fmtList (names [.var 0, .stc 102 [.var 1, .var 0], .var 2] [[.var 2, .var 3]]) [.var 2, .var 3] = [.var (.x 2), .void] := by
  simp [fmt.fmtList, fmt, names, dico, clauseOccs, goalOccs, Tm.vars.varsList, Tm.vars, addVar, classif, nameOf]

/-- The hypotheses of the theorems are met by this example. -/
example : ∃ m'' : M, Ok 40 m''.s ∧ ∀ ρ, Model 40 m''.s.mem ρ → Model 40 exM.s.mem ρ ∧
    ∃ σ, exC.Inst σ (exM.terms ρ 1) (m''.terms ρ 4) := by
  obtain ⟨h1, h2, h3, h4⟩ := exC_args
  obtain ⟨m'', h, _⟩ := ex_last_run
  refine ⟨m'', C52_source_sound exC_good (E := exE 9) (O := exO) (reorder := true) (m' := exM2) (g' := exG2) ?_ ?_ ?_⟩
  · rw [h4]; exact exM_start1
  · rw [h1, h2]; exact ex_clause
  · rw [h3]; exact h

end Gp.CodeGen
