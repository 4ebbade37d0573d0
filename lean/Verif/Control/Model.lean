/-
Model of the compilation of the control constructs in a clause body: `,` `;` `->` `*->` `!`.

Modelled code:
  src/Pl2Wam/syn_sugar.pl      79-85    syntactic_sugar
                               154-253  normalize_cuts, normalize_cuts1, normalize_cuts_in_if
                               292-355  normalize_alts, normalize_alts1, linearize, linearize1
  src/Pl2Wam/code_gen.pl       485-510  '$get_cut_level', '$get_current_choice', '$cut', '$soft_cut'
  src/EnginePl/wam_inst.c      1285-1347 Pl_Get_Current_Choice, Pl_Cut, Pl_Soft_Cut
  src/EnginePl/wam_inst.h      534-536  Assign_B, Delete_Last_Choice_Point

Simplifications:
  * the store (bindings and everything else) is of an abstract type `σ`; a choice point keeps the store to
    restore (that the trail restores it is C15);
  * a goal which is not a control construct (the call of a predicate, a built-in, an inline unification, the
    unification of the head, call/N, catch/3, a variable) is an `atom`; what it does is given by its answers on
    a store, in order, and how they end. It leaves at most one choice point, which stands for all its own;
  * the variables of the clause other than those of the cut levels are not in the environments of the model;
  * the indexing is not modelled here (C28, C43): all the clauses of a predicate are tried;
  * the term `Module:Goal` is not modelled.
-/
namespace Gp.Control

/-- A clause body. `(P -> Q ; R)` is `ite P Q R`, `(P *-> Q ; R)` is `softIte P Q R`; `ifThen` and `softThen` are
`->` and `*->` which are not the left argument of a `;`. -/
inductive Goal (α : Type) where
  | atom (a : α)
  | fail
  | cut
  | conj (p q : Goal α)
  | disj (p q : Goal α)
  | ite (p q r : Goal α)
  | softIte (p q r : Goal α)
  | ifThen (p q : Goal α)
  | softThen (p q : Goal α)

/-- A body after normalize_cuts: the cuts have a variable (syn_sugar.pl:88-152). -/
inductive Norm (α : Type) where
  | atom (a : α)
  | fail
  | getLevel (v : Nat)
  | getChoice (v : Nat)
  | cutTo (v : Nat)
  | softCut (v : Nat)
  | conj (p q : Norm α)
  | disj (p q : Norm α)

/-- `P1 == fail` (syn_sugar.pl:180, 201, 203). -/
def Norm.isFail {α : Type} : Norm α → Bool
  | .fail => true
  | _ => false

/-- The end of normalize_cuts and of normalize_cuts_in_if (syn_sugar.pl:156-160, 249-253): `r` is the result of
normalize_cuts1, `i` the instruction which sets the variable of the cuts. -/
def withLevel {α : Type} (i : Norm α) (r : Norm α × Bool × Nat) : Norm α :=
  if r.2.1 then .conj i r.1 else r.1

/-- normalize_cuts1 (syn_sugar.pl:165-237). `cv` is CutVar, `n` the number of the next new variable; the result is
the body, HasCut and the number of the next new variable. -/
def norm {α : Type} : Goal α → Nat → Nat → Norm α × Bool × Nat
  | .atom a, _, n => (.atom a, false, n)
  | .fail, _, n => (.fail, false, n)
  | .cut, cv, n => (.cutTo cv, true, n)
  | .conj p q, cv, n =>
    let p1 := norm p cv n
    let q1 := norm q cv p1.2.2
    (.conj p1.1 q1.1, p1.2.1 || q1.2.1, q1.2.2)
  | .disj p q, cv, n =>
    let p1 := norm p cv n
    let q1 := norm q cv p1.2.2
    (if p1.1.isFail then q1.1 else if q1.1.isFail then p1.1 else .disj p1.1 q1.1, p1.2.1 || q1.2.1, q1.2.2)
  | .ifThen p q, cv, n =>
    let p1 := norm p n (n + 1)
    let q1 := norm q cv p1.2.2
    (.conj (.getChoice n) (.conj p1.1 (.conj (.cutTo n) q1.1)), q1.2.1, q1.2.2)
  | .softThen p q, cv, n =>
    let p1 := norm p n (n + 1)
    let q1 := norm q cv p1.2.2
    (.conj (withLevel (.getChoice n) p1) q1.1, q1.2.1, q1.2.2)
  | .ite p q r, cv, n =>
    let r1 := norm r cv n
    if r1.1.isFail then
      let m := r1.2.2
      let p1 := norm p m (m + 1)
      let q1 := norm q cv p1.2.2
      (.conj (.getChoice m) (.conj p1.1 (.conj (.cutTo m) q1.1)), r1.2.1 || q1.2.1, q1.2.2)
    else
      let m := r1.2.2
      let p1 := norm p (m + 1) (m + 2)
      let q1 := norm q cv p1.2.2
      (.disj (.conj (.getLevel m) (.conj (withLevel (.getChoice (m + 1)) p1) (.conj (.cutTo m) q1.1))) r1.1,
        r1.2.1 || q1.2.1, q1.2.2)
  | .softIte p q r, cv, n =>
    let r1 := norm r cv n
    if r1.1.isFail then
      let m := r1.2.2
      let p1 := norm p m (m + 1)
      let q1 := norm q cv p1.2.2
      (.conj (withLevel (.getChoice m) p1) q1.1, r1.2.1 || q1.2.1, q1.2.2)
    else
      let m := r1.2.2
      let p1 := norm p (m + 1) (m + 2)
      let q1 := norm q cv p1.2.2
      (.disj (.conj (.getChoice m) (.conj (withLevel (.getChoice (m + 1)) p1) (.conj (.softCut m) q1.1))) r1.1,
        r1.2.1 || q1.2.1, q1.2.2)

/-- lst_var (syn_sugar.pl:360-377), for the variables of the cuts. -/
def Norm.vars {α : Type} : Norm α → List Nat
  | .atom _ | .fail => []
  | .getLevel v | .getChoice v | .cutTo v | .softCut v => [v]
  | .conj p q | .disj p q => p.vars ++ q.vars

/-- A body after normalize_alts: `aux vs cls` is the call of the auxiliary predicate with the clauses `cls`, whose
arguments are the variables `vs`. -/
inductive Code (α : Type) where
  | atom (a : α)
  | fail
  | getLevel (v : Nat)
  | getChoice (v : Nat)
  | cutTo (v : Nat)
  | softCut (v : Nat)
  | conj (p q : Code α)
  | aux (vs : List Nat) (cls : List (Code α))

mutual
/-- normalize_alts1 (syn_sugar.pl:299-321); `rest` are the variables of RestC. The clauses of the auxiliary predicate
pass through syntactic_sugar later (read_file.pl:281): there are no cuts any more in them (normalize_cuts changes
nothing), and RestC is first the head, whose variables are the arguments of the auxiliary predicate. -/
def alts {α : Type} : Norm α → List Nat → Code α
  | .atom a, _ => .atom a
  | .fail, _ => .fail
  | .getLevel v, _ => .getLevel v
  | .getChoice v, _ => .getChoice v
  | .cutTo v, _ => .cutTo v
  | .softCut v, _ => .softCut v
  | .conj p q, rest => .conj (alts p (rest ++ q.vars)) (alts q (rest ++ p.vars))
  | .disj p q, rest =>
    let vs := (p.vars ++ q.vars).filter (fun v => rest.contains v)
    .aux vs (alts p vs :: linearize q vs)
termination_by t => (sizeOf t, 0)

/-- linearize (syn_sugar.pl:341-348): the clauses of the auxiliary predicate for the right argument of a `;`. -/
def linearize {α : Type} : Norm α → List Nat → List (Code α)
  | .disj p q, vs => alts p vs :: linearize q vs
  | t, vs => [alts t vs]
termination_by t => (sizeOf t, 1)
end

/-- syntactic_sugar (syn_sugar.pl:79-85) on the body of a clause. The head has no variable of a cut. -/
def clause {α : Type} (g : Goal α) : Code α := alts (withLevel (.getLevel 0) (norm g 0 1)) []

/-- How the answers of a goal end: without any choice point after the last one, with a choice point which fails,
with an error (or the goal runs forever). -/
inductive AEnd where
  | done
  | fail
  | err
deriving DecidableEq

/-- What remains of a clause: the code, the levels in the variables, the level at the entry of the predicate
(argument n + 1 of the predicate, syn_sugar.pl:100-106) and the address of the environment. -/
structure Frame (α : Type) where
  code : List (Code α)
  env : Nat → Option Nat
  lvl : Nat
  adr : Nat

/-- The alternative of a choice point: the next clauses of a predicate, with its arguments; the next answers of
an atom. -/
inductive Alt (α σ : Type) where
  | clauses (cls : List (Code α)) (env : Nat → Option Nat) (lvl : Nat) (s : σ) (k : List (Frame α))
  | answers (l : List σ) (e : AEnd) (k : List (Frame α))

variable {α σ : Type}

/-- The environment is removed before the last call of the clause. -/
def push (f : Frame α) (k : List (Frame α)) : List (Frame α) :=
  match f.code with
  | [] => k
  | _ :: _ => f :: k

/-- The address of the last environment in use. -/
def envTop : List (Frame α) → Nat
  | [] => 0
  | f :: k => match f.code with
    | [] => envTop k
    | _ :: _ => max f.adr (envTop k)

/-- The level is put in a new variable (code_gen.pl:491-504). -/
def setVar (env : Nat → Option Nat) (v l : Nat) : Nat → Option Nat := fun u => if u = v then some l else env u

/-- The variables of the arguments of an auxiliary predicate; the others are new (copy_term, syn_sugar.pl:355). -/
def restrict (env : Nat → Option Nat) (vs : List Nat) : Nat → Option Nat := fun u => if vs.contains u then env u else none

/-! ## The memory -/

/-- A choice point in the local stack: its alternative and BB. -/
structure MCp (α σ : Type) where
  alt : Alt α σ
  prev : Nat

/-- The choice points in the local stack by their addresses, and the register B (0: no choice point). -/
structure Mem (α σ : Type) where
  cp : Nat → Option (MCp α σ)
  b : Nat

/-- Where the next choice point is put: above the last choice point and the last environment. -/
def Mem.fresh (m : Mem α σ) (k : List (Frame α)) : Nat := max m.b (envTop k) + 1

/-- The creation of a choice point (try, wam_inst.c). -/
def Mem.create (m : Mem α σ) (k : List (Frame α)) (a : Alt α σ) : Mem α σ :=
  let x := m.fresh k
  ⟨fun y => if y = x then some ⟨a, m.b⟩ else m.cp y, x⟩

/-- The update of the last choice point (retry). -/
def Mem.update (m : Mem α σ) (a : Alt α σ) (prev : Nat) : Mem α σ :=
  ⟨fun y => if y = m.b then some ⟨a, prev⟩ else m.cp y, m.b⟩

/-- The loop of Pl_Soft_Cut (wam_inst.c:1332-1346): `fuel` is more than the number of choice points. At the bottom
there is a choice point, 0 here, below all the others: the loop ends there by its second test. -/
def softLoop (kill : Nat) (cp : Nat → Option (MCp α σ)) : Nat → Nat → Option (Nat → Option (MCp α σ))
  | 0, _ => none
  | fuel + 1, cur =>
    if cur = 0 then some cp
    else match cp cur with
    | none => none
    | some c =>
      if c.prev = kill then
        match cp kill with
        | none => none
        | some d => some (fun y => if y = cur then some ⟨c.alt, d.prev⟩ else cp y)
      else if cur < kill then some cp
      else softLoop kill cp fuel c.prev

/-- Pl_Soft_Cut (wam_inst.c:1318-1347). -/
def Mem.softCut (m : Mem α σ) (kill : Nat) : Option (Mem α σ) :=
  if m.b = kill then
    match m.cp m.b with
    | none => none
    | some c => some ⟨m.cp, c.prev⟩
  else
    match softLoop kill m.cp (m.b + 1) m.b with
    | none => none
    | some cp => some ⟨cp, m.b⟩

/-- The machine runs the continuation `k`, or fails. -/
inductive Cfg (α σ : Type) where
  | run (s : σ) (k : List (Frame α)) (m : Mem α σ)
  | fail (m : Mem α σ)

/-- A step: another configuration, an answer of the query, the end, an error; or what is not defined. -/
inductive Next (α σ : Type) where
  | go (c : Cfg α σ)
  | answer (s : σ) (c : Cfg α σ)
  | stop
  | err
  | stuck

/-- The call of a predicate with the clauses `cls`. -/
def callClauses (cls : List (Code α)) (env : Nat → Option Nat) (s : σ) (k : List (Frame α)) (m : Mem α σ) : Next α σ :=
  match cls with
  | [] => .go (.fail m)
  | [c] => .go (.run s (⟨[c], env, m.b, max m.b (envTop k)⟩ :: k) m)
  | c :: cls =>
    let m1 := m.create k (.clauses cls env m.b s k)
    .go (.run s (⟨[c], env, m.b, max m1.b (envTop k)⟩ :: k) m1)

/-- The call of an atom with the answers `l` ending with `e`. -/
def callAtom (l : List σ) (e : AEnd) (k : List (Frame α)) (m : Mem α σ) : Next α σ :=
  match l, e with
  | [], .err => .err
  | [], _ => .go (.fail m)
  | [s], .done => .go (.run s k m)
  | s :: l, e => .go (.run s k (m.create k (.answers l e k)))

/-- The failure: the alternative of the last choice point. -/
def backtrack (m : Mem α σ) : Next α σ :=
  if m.b = 0 then .stop
  else match m.cp m.b with
    | none => .stuck
    | some ⟨.clauses [] _ _ _ _, prev⟩ => .go (.fail ⟨m.cp, prev⟩)
    | some ⟨.clauses [c] env lvl s k, prev⟩ => .go (.run s (⟨[c], env, lvl, max prev (envTop k)⟩ :: k) ⟨m.cp, prev⟩)
    | some ⟨.clauses (c :: cls) env lvl s k, prev⟩ =>
      .go (.run s (⟨[c], env, lvl, max m.b (envTop k)⟩ :: k) (m.update (.clauses cls env lvl s k) prev))
    | some ⟨.answers [] .err _, _⟩ => .err
    | some ⟨.answers [] _ _, prev⟩ => .go (.fail ⟨m.cp, prev⟩)
    | some ⟨.answers [s] .done k, prev⟩ => .go (.run s k ⟨m.cp, prev⟩)
    | some ⟨.answers (s :: l) e k, prev⟩ => .go (.run s k (m.update (.answers l e k) prev))

/-- A step of the machine; `I` gives the answers of the atoms. The variable of '$get_cut_level' and of
'$get_current_choice' must be new. -/
def step (I : α → σ → List σ × AEnd) : Cfg α σ → Next α σ
  | .fail m => backtrack m
  | .run s [] m => .answer s (.fail m)
  | .run s (⟨[], _, _, _⟩ :: k) m => .go (.run s k m)
  | .run s (⟨.atom a :: code, env, lvl, adr⟩ :: k) m => callAtom (I a s).1 (I a s).2 (push ⟨code, env, lvl, adr⟩ k) m
  | .run _ (⟨.fail :: _, _, _, _⟩ :: _) m => .go (.fail m)
  | .run s (⟨.getLevel v :: code, env, lvl, adr⟩ :: k) m =>
    match env v with
    | none => .go (.run s (⟨code, setVar env v lvl, lvl, adr⟩ :: k) m)
    | some _ => .stuck
  | .run s (⟨.getChoice v :: code, env, lvl, adr⟩ :: k) m =>
    match env v with
    | none => .go (.run s (⟨code, setVar env v m.b, lvl, adr⟩ :: k) m)
    | some _ => .stuck
  | .run s (⟨.cutTo v :: code, env, lvl, adr⟩ :: k) m =>
    match env v with
    | none => .stuck
    | some b => .go (.run s (⟨code, env, lvl, adr⟩ :: k) ⟨m.cp, b⟩)
  | .run s (⟨.softCut v :: code, env, lvl, adr⟩ :: k) m =>
    match env v with
    | none => .stuck
    | some b => match m.softCut b with
      | none => .stuck
      | some m1 => .go (.run s (⟨code, env, lvl, adr⟩ :: k) m1)
  | .run s (⟨.conj p q :: code, env, lvl, adr⟩ :: k) m => .go (.run s (⟨p :: q :: code, env, lvl, adr⟩ :: k) m)
  | .run s (⟨.aux vs cls :: code, env, lvl, adr⟩ :: k) m =>
    callClauses cls (restrict env vs) s (push ⟨code, env, lvl, adr⟩ k) m

/-- The answers of a query, in order; the query ends with an error or with a failure. -/
inductive Run (I : α → σ → List σ × AEnd) : Cfg α σ → List σ → Bool → Prop
  | go {c c' l e} : step I c = .go c' → Run I c' l e → Run I c l e
  | answer {c c' s l e} : step I c = .answer s c' → Run I c' l e → Run I c (s :: l) e
  | stop {c} : step I c = .stop → Run I c [] false
  | err {c} : step I c = .err → Run I c [] true

/-- The query of a predicate whose clauses have the bodies `gs` (the unification of the head is the first goal). -/
def query (gs : List (Goal α)) (s : σ) : Cfg α σ :=
  .run s [⟨[.aux [] (gs.map clause)], fun _ => none, 0, 0⟩] ⟨fun _ => none, 0⟩

end Gp.Control
