/-
Model of the exception mechanism: catch/3 and throw/1 over the stack of choice points.

Modelled code:
  src/BipsPl/catch.pl          47-140  catch/3 ('$catch_internal' and its auxiliaries)
  src/BipsPl/throw.pl          44-69   throw/1, '$unwind'
  src/BipsPl/throw_c.c         75-105  Pl_Throw_2
  src/BipsPl/flag_c.c          365-380, 459-517, 527-549   system variables 7 and 8, current B
  src/BipsPl/call.pl           206-281 the control constructs (conjunction, disjunction, -> and *->)
  src/BipsPl/foreign_supp.c    318-457 Pl_Query_Begin, Pl_Query_Call, Pl_Query_End
  src/EnginePl/wam_inst.c      1289-1347 Pl_Get_Current_Choice, Pl_Cut, Pl_Soft_Cut

The machine keeps what the mechanism is made of: the chain of choice points with their addresses in
the local stack (register B and the BB links), the continuation with its environments, the system
variable 7 (address of the choice point of the active catch/3) and the system variable 8 (the ball).
Simplifications:
  * the bindings are an abstract store of type `S`; a choice point keeps the store to restore (that the
    trail restores it is C15), a built-in is a partial function on stores, a thrown ball is a function of
    the store (that the ball is copied out of the stacks is C16), unifying the ball with the catcher is a
    partial function of the ball and of the store;
  * every choice point and every environment has size one in the local stack: a new choice point is put
    just above the last choice point and the environments still in use, as the local top of the WAM;
  * goals have no effect which survives backtracking, except on the two system variables;
  * the debugger (`CallInfo`) is not modelled.
-/
namespace Gp.Catch

/-- What the system variable 8 holds and what throw/1 throws: the marker `'$no_ball$'`, the terms
`'$catch_sync'(B)` used by abort, any other term.  catch.pl:58, 91-100. -/
inductive Ball (τ : Type) where
  | noBall
  | sync (b : Nat)
  | term (t : τ)
deriving DecidableEq, Repr

/-- Goals: the control constructs of call.pl 213-281, catch/3 and throw/1, a deterministic built-in or
unification (`act`), the call of a user predicate (`call`), and a foreign predicate which opens a query on
a goal, takes its first answer, fails if it fails and goes on with another goal if it raises an exception
(`query`, foreign_supp.c 318-457). -/
inductive Goal (S τ : Type) where
  | act (f : S → Option S)
  | throw (f : S → Ball τ)
  | conj (g₁ g₂ : Goal S τ)
  | disj (g₁ g₂ : Goal S τ)
  | once (g : Goal S τ)
  | ite (c t e : Goal S τ)
  | soft (c t e : Goal S τ)
  | call (p : Nat)
  | «catch» (g : Goal S τ) (m : Ball τ → S → Option S) (r : Goal S τ)
  | query (g x : Goal S τ)

/-- A continuation frame: a goal to call, or what remains of a clause after a call.
`exitCatch b h`: catch.pl 68-73 with `B = b` and `Handler = h`; `cutTo b`: `'$cut'(b)`; `softCut b`:
`'$soft_cut'(b)`; `endQuery q`: the return of `Pl_Query_Call` to C (query choice point at `q`). -/
inductive Frame (S τ : Type) where
  | goal (g : Goal S τ)
  | exitCatch (b h : Nat)
  | cutTo (b : Nat)
  | softCut (b : Nat)
  | endQuery (q : Nat)

/-- The alternative of a choice point, with the saved store and continuation.
`goal`: second branch of a disjunction; `«catch»`: second clause of `'$catch_internal1'` (catch.pl 82-86);
`trail b`: second clause of `'$trail_handler'` (catch.pl 119-121); `query x`: the choice point
`PL_QUERY_RECOVER_ALT` of a query, on which the failure of the query returns to C. -/
inductive Alt (S τ : Type) where
  | goal (g : Goal S τ) (s : S) (k : List (Frame S τ))
  | «catch» (m : Ball τ → S → Option S) (r : Goal S τ) (h : Nat) (s : S) (k : List (Frame S τ))
  | trail (b : Nat)
  | query (x : Goal S τ) (s : S) (k : List (Frame S τ))

/-- A choice point: its address (offset from the base of the local stack, wam_inst.h:204) and its
alternative.  The chain through the BB links is a list, last choice point first. -/
structure Cp (S τ : Type) where
  adr : Nat
  alt : Alt S τ

/-- What the machine is doing: running the continuation, failing, unwinding (`'$unwind'(Ball)`). -/
inductive Mode (τ : Type) where
  | run
  | fail
  | unwind (b : Ball τ)

/-- The machine.  `hnd` is the system variable 7, `ball` the system variable 8, `qs` the stack of queries
opened from C (foreign_supp.c:339, its top is `pl_query_top_b`), `out` the balls reported by
`system_error(cannot_catch_throw(...))` (throw_c.c:96). -/
structure St (S τ : Type) where
  mode : Mode τ
  store : S
  k : List (Frame S τ)
  cs : List (Cp S τ)
  hnd : Nat
  ball : Ball τ
  qs : List Nat
  out : List (Ball τ)

variable {S τ : Type}

/-- The environment of a frame is above the choice point it mentions. -/
def Frame.adr : Frame S τ → Nat
  | .goal _ => 0
  | .exitCatch b _ => b
  | .cutTo b => b
  | .softCut b => b
  | .endQuery q => q

/-- Address of the last environment in use. -/
def envTop : List (Frame S τ) → Nat
  | [] => 0
  | f :: k => max f.adr (envTop k)

/-- Register B, 0 for the feint choice point at the base (Pl_Get_Current_Choice, wam_inst.c:1290;
`'$get_current_B'`, flag_c.c:527). -/
def curB : List (Cp S τ) → Nat
  | [] => 0
  | c :: _ => c.adr

/-- Where the next choice point is allocated: above B and above the current environment. -/
def fresh (cs : List (Cp S τ)) (k : List (Frame S τ)) : Nat := max (curB cs) (envTop k) + 1

/-- `Pl_Cut` (wam_inst.c:1304): B becomes `b`; the choice points above are forgotten. -/
def cut (b : Nat) : List (Cp S τ) → List (Cp S τ)
  | [] => []
  | c :: cs => if b < c.adr then cut b cs else c :: cs

/-- The loop of `Pl_Soft_Cut` (wam_inst.c 1332-1346): `cur` is not the choice point to kill. -/
def softLoop (b : Nat) (cur : Cp S τ) : List (Cp S τ) → List (Cp S τ)
  | [] => [cur]
  | prev :: cs =>
    if prev.adr = b then cur :: cs
    else if cur.adr < b then cur :: prev :: cs
    else cur :: softLoop b prev cs

/-- `Pl_Soft_Cut` (wam_inst.c 1318-1347). -/
def softCut (b : Nat) : List (Cp S τ) → List (Cp S τ)
  | [] => []
  | c :: cs => if c.adr = b then cs else softLoop b c cs

/-- `'$catch_a_throw'` (catch.pl 91-112), after the second clause of `'$catch_internal1'` has restored
the handler `h` and read the ball: `cs` is the chain below the choice point of the catch. -/
def catchAThrow (b : Ball τ) (m : Ball τ → S → Option S) (r : Goal S τ) (h : Nat) (s : S)
    (k : List (Frame S τ)) (st : St S τ) : St S τ :=
  match b with
  | .sync b' =>
    if b' < h then { st with mode := .unwind (.sync b'), store := s, k := k }       -- 96-97
    else { st with mode := .fail, cs := cut b' st.cs }                              -- 98, 138-140
  | b =>
    match m b s with
    | some s' => { st with mode := .run, store := s', k := .goal r :: k, ball := .noBall }   -- 104-109
    | none => { st with mode := .unwind b, store := s, k := k }                     -- 111-112

/-- Backtracking to the last choice point. -/
def backtrack (c : Cp S τ) (cs : List (Cp S τ)) (st : St S τ) [DecidableEq τ] : St S τ :=
  match c.alt with
  | .goal g s k => { st with mode := .run, store := s, k := .goal g :: k, cs := cs }
  | .trail b => { st with mode := .fail, cs := cs, hnd := b }                       -- catch.pl 119-121
  | .catch m r h s k =>                                                             -- catch.pl 82-86
    let st := { st with cs := cs, hnd := h }
    if st.ball = .noBall then { st with mode := .fail }
    else catchAThrow st.ball m r h s k st
  | .query _ _ _ =>                              -- Call_Prolog_Fail, then Pl_Query_End(PL_RECOVER)
    { st with mode := .fail, cs := cs, qs := st.qs.tail }

/-- `'$unwind'(Ball)` (throw.pl 66-69) with Pl_Throw_2 (throw_c.c 75-105): an exception with no handler
inside the query returns to the C code which opened the query, an exception with no handler at all is
reported and the last choice point is resumed, otherwise the choice points above the one of the handler
are cut and that one is resumed. -/
def unwind (b : Ball τ) (st : St S τ) : St S τ :=
  let thrown : St S τ :=
    if st.hnd = 0 then { st with mode := .fail, out := st.out ++ [b] }
    else { st with mode := .fail, cs := cut st.hnd st.cs }
  match st.qs with
  | [] => thrown
  | q :: qs =>
    if st.hnd ≤ q then
      -- Assign_B(pl_query_top_b), the C code ends the query (PL_RECOVER) and goes on with `x`
      match cut q st.cs with
      | ⟨_, .query x s k⟩ :: cs => { st with mode := .run, store := s, k := .goal x :: k, cs := cs, qs := qs }
      | cs => { st with mode := .fail, cs := cs }       -- not reached
    else thrown

/-- Running the first frame of the continuation. -/
def exec (P : Nat → Goal S τ) (f : Frame S τ) (k : List (Frame S τ)) (st : St S τ) : St S τ :=
  match f with
  | .goal (.act f) =>
    match f st.store with
    | some s => { st with store := s, k := k }
    | none => { st with mode := .fail }
  | .goal (.throw f) =>                                                             -- throw.pl 54-61
    { st with mode := .unwind (f st.store), ball := f st.store, k := k }
  | .goal (.conj g₁ g₂) => { st with k := .goal g₁ :: .goal g₂ :: k }                 -- call.pl 213-216
  | .goal (.disj g₁ g₂) =>                                                          -- call.pl 277-281
    { st with k := .goal g₁ :: k, cs := ⟨fresh st.cs k, .goal g₂ st.store k⟩ :: st.cs }
  | .goal (.once g) =>                                                              -- call.pl 226-229
    { st with k := .goal g :: .cutTo (curB st.cs) :: k }
  | .goal (.ite c t e) =>                                                           -- call.pl 263-268
    { st with k := .goal c :: .cutTo (curB st.cs) :: .goal t :: k,
              cs := ⟨fresh st.cs k, .goal e st.store k⟩ :: st.cs }
  | .goal (.soft c t e) =>                                                          -- call.pl 270-275
    { st with k := .goal c :: .softCut (fresh st.cs k) :: .goal t :: k,
              cs := ⟨fresh st.cs k, .goal e st.store k⟩ :: st.cs }
  | .goal (.call p) => { st with k := .goal (P p) :: k }
  | .goal (.catch g m r) =>                                                         -- catch.pl 56-67
    { st with k := .goal g :: .exitCatch (fresh st.cs k) st.hnd :: k,
              cs := ⟨fresh st.cs k, .catch m r st.hnd st.store k⟩ :: st.cs,
              ball := .noBall, hnd := fresh st.cs k }
  | .goal (.query g x) =>                                                  -- foreign_supp.c 318-343
    { st with k := .goal g :: .endQuery (fresh st.cs k) :: k,
              cs := ⟨fresh st.cs k, .query x st.store k⟩ :: st.cs,
              qs := fresh st.cs k :: st.qs }
  | .exitCatch b h =>                                                               -- catch.pl 68-73
    if b < curB st.cs then { st with k := k, cs := ⟨fresh st.cs k, .trail b⟩ :: st.cs, hnd := h }
    else { st with k := k, cs := (cut b st.cs).tail, hnd := h }
  | .cutTo b => { st with k := k, cs := cut b st.cs }
  | .softCut b => { st with k := k, cs := softCut b st.cs }
  | .endQuery q =>                                               -- Pl_Query_End(PL_CUT), 425-444
    { st with k := k, cs := (cut q st.cs).tail, qs := st.qs.tail }

/-- One step; none when the machine stops, with an answer (`run`, empty continuation) or with a failure
(`fail`, no choice point). -/
def step [DecidableEq τ] (P : Nat → Goal S τ) (st : St S τ) : Option (St S τ) :=
  match st.mode with
  | .run => match st.k with
    | [] => none
    | f :: k => some (exec P f k st)
  | .fail => match st.cs with
    | [] => none
    | c :: cs => some (backtrack c cs st)
  | .unwind b => some (unwind b st)

/-- Zero, one or more steps. -/
inductive Reaches [DecidableEq τ] (P : Nat → Goal S τ) : St S τ → St S τ → Prop
  | refl (st) : Reaches P st st
  | head {a b c} : step P a = some b → Reaches P b c → Reaches P a c

/-- The machine when a goal is called, from C or from a directive, with no catch/3 active: the system
variable 7 is 0 (the base of the local stack). -/
def init (g : Goal S τ) (s : S) : St S τ :=
  { mode := .run, store := s, k := [.goal g], cs := [], hnd := 0, ball := .noBall, qs := [], out := [] }

/-- Asking the machine for the next answer. -/
def again (st : St S τ) : St S τ := { st with mode := .fail }

end Gp.Catch
