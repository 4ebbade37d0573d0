import Verif.ListBip.Model
/-
Model of the code generated for the head of a clause, for the arguments of a call and for the inline =/2
(/repo/src/Pl2Wam/code_gen.pl), and of the WAM instructions of this code (/repo/src/EnginePl/wam_inst.c, called
as in /repo/src/Wam2Ma/wam2ma.c).

Simplifications:
- the code is the one before the register allocation (part RegAlloc, C35): the temporary variables, the
  auxiliary temporaries made by the code generator and the argument registers are different registers;
- '$mt'/2 (a meta-argument qualified by its module) is not treated;
- the argument of an instruction is a value and not a text; the calls, allocate and deallocate are not part of
  the code treated here;
- an overflow of the global stack is not followed (`none`); get_structure, get_list and unify_structure,
  unify_list check at once that there is room for the arguments.
-/
namespace Gp.CodeGen
open Gp.Heap Gp.Unify Gp.ListBip
open Gp.Term (deq)

/-- A variable of the code: an argument register, a temporary x(N) or a permanent y(N) variable of the clause
(internal.pl:53-56), or an auxiliary temporary (code_gen.pl:374-380). -/
inductive Var where
  | arg (i : Nat)
  | x (n : Nat)
  | y (n : Nat)
  | tmp (n : Nat)
deriving DecidableEq, Repr

/-- The internal format of an argument (internal.pl:51-69); `void` is var(x(void), _); a term [H|T] is
'.'(H, T), the atom '.' is 46. -/
inductive Arg where
  | void
  | var (v : Var)
  | atm (i : Nat)
  | int (z : Int)
  | flt (b : BitVec 64)
  | nil
  | stc (f : Nat) (args : List Arg)

/-- `F = '.', N = 2` (code_gen.pl:276-277, 347-348, 440-441). -/
def isList (f n : Nat) : Bool := f == 46 && n == 2

/-- What is known of a variable (internal.pl:57-61). -/
inductive Info where
  | inHeap | unsafeEnv | notInCurEnv
deriving DecidableEq, Repr

/-- The instructions (code_gen.pl:251-446). -/
inductive Ins where
  | getVariable (v r : Var) | getValue (v r : Var)
  | getAtom (i : Nat) (r : Var) | getInteger (z : Int) (r : Var) | getFloat (b : BitVec 64) (r : Var) | getNil (r : Var)
  | getList (r : Var) | getStructure (f n : Nat) (r : Var)
  | putVariable (v r : Var) | putVoid (r : Var) | putValue (v r : Var) | putUnsafeValue (v r : Var)
  | putAtom (i : Nat) (r : Var) | putInteger (z : Int) (r : Var) | putFloat (b : BitVec 64) (r : Var) | putNil (r : Var)
  | putList (r : Var) | putStructure (f n : Nat) (r : Var)
  | unifyVariable (v : Var) | unifyVoid (n : Nat) | unifyValue (v : Var) | unifyLocalValue (v : Var)
  | unifyAtom (i : Nat) | unifyInteger (z : Int) | unifyNil
  | unifyList | unifyStructure (f n : Nat)
  | fail
deriving DecidableEq, Repr

/-- The state of the code generator: what is known of the variables (`none`: the Prolog variable Info is
unbound, no occurrence has been treated), the number of auxiliary temporaries. -/
structure G where
  info : Var → Option Info
  tmp : Nat

def G.setInfo (g : G) (v : Var) (i : Info) : G := { g with info := fun u => if u = v then some i else g.info u }

/-- The options and flags: opt_last_subterm, treat_body, last_pred (code_gen.pl:40-43, 82-86, 369). -/
structure Opts where
  lastSubterm : Bool
  body : Bool
  lastPred : Bool

def Var.isY : Var → Bool
  | .y _ => true
  | _ => false

def Var.isArg : Var → Bool
  | .arg _ => true
  | _ => false

/-- `flat_stc_arg_lst` (code_gen.pl:362-380) without the list of the auxiliary arguments: the arguments which
are not simple (384-390) are replaced by auxiliary temporaries, numbered from `k`; the last argument, when it
is a structure, is kept. `last` is true for the last argument of the list. The next number is returned. -/
def flatArg (O : Opts) (last : Bool) : Arg → Nat → Arg × Nat
  | .stc f as, k =>
    if last && O.lastSubterm then
      let r := flatList as k
      (.stc f r.1, r.2)
    else (.var (.tmp k), k + 1)
  | .flt _, k => (.var (.tmp k), k + 1)
  | a, k => (a, k)
where
  flatList : List Arg → Nat → List Arg × Nat
    | [], k => ([], k)
    | a :: l, k =>
      let r := flatArg O l.isEmpty a k
      let q := flatList l r.2
      (r.1 :: q.1, q.2)

abbrev flatList (O : Opts) := flatArg.flatList O

/-- The instruction unify_void(N) of the voids counted by `gen_compte_void` (code_gen.pl:405, 412-417). -/
def voids : Nat → List Ins
  | 0 => []
  | n + 1 => [.unifyVoid (n + 1)]

/-- `gen_subterm_arg` for a variable (code_gen.pl:422-431). -/
def genSubVar (v : Var) (g : G) : Ins × G :=
  match g.info v with
  | none => (.unifyVariable v, g.setInfo v .inHeap)
  | some .inHeap => (.unifyValue v, g)
  | some _ => (.unifyLocalValue v, g)

/-- `gen_subterm_arg` (code_gen.pl:422-446), on the arguments obtained by `flatList`; and
`gen_subterm_arg_lst` with `gen_compte_void` (397-417): `n` is the number of voids before the argument. A
float is not simple: it is never here. -/
def genSub : Arg → G → List Ins × G
  | .var v, g => let r := genSubVar v g; ([r.1], r.2)
  | .atm i, g => ([.unifyAtom i], g)
  | .int z, g => ([.unifyInteger z], g)
  | .nil, g => ([.unifyNil], g)
  | .stc f as, g =>
    let r := genSubList 0 as g
    ((if isList f as.length then .unifyList else .unifyStructure f as.length) :: r.1, r.2)
  | .void, g => ([.unifyVoid 1], g)
  | .flt _, g => ([.fail], g)
where
  genSubList : Nat → List Arg → G → List Ins × G
    | n, [], g => (voids n, g)
    | n, .void :: l, g => genSubList (n + 1) l g
    | n, a :: l, g =>
      let r := genSub a g
      let q := genSubList 0 l r.2
      (voids n ++ r.1 ++ q.1, q.2)

abbrev genSubList := genSub.genSubList

/-- `gen_unif_arg` for a variable (code_gen.pl:251-265). -/
def genUnifVar (O : Opts) (v r : Var) (g : G) : List Ins × G :=
  match g.info v with
  | none => ([.getVariable v r], g.setInfo v (if O.body && v.isY then .unsafeEnv else .notInCurEnv))
  | some _ => ([.getValue v r], g)

/-- `gen_unif_arg` (code_gen.pl:251-283). The auxiliary arguments (283) are unified after the arguments of the
structure, in order: `genAux k l` is `gen_unif_arg_lst` on the arguments of `l` which are not simple, the first
auxiliary temporary is `k`; it returns the next one. -/
def genUnif (O : Opts) : Arg → Var → G → List Ins × G
  | .void, _, g => ([], g)
  | .var v, r, g => genUnifVar O v r g
  | .atm i, r, g => ([.getAtom i r], g)
  | .int z, r, g => ([.getInteger z r], g)
  | .flt b, r, g => ([.getFloat b r], g)
  | .nil, r, g => ([.getNil r], g)
  | .stc f as, r, g =>
    let fl := flatList O as g.tmp
    let sub := genSubList 0 fl.1 { g with tmp := fl.2 }
    let aux := genAux as g.tmp sub.2
    ((if isList f as.length then .getList r else .getStructure f as.length r) :: sub.1 ++ aux.1, aux.2.2)
where
  genAux : List Arg → Nat → G → List Ins × Nat × G
    | [], k, g => ([], k, g)
    | .stc f as :: l, k, g =>
      if l.isEmpty && O.lastSubterm then genAux as k g
      else
        let c := genUnif O (.stc f as) (.tmp k) g
        let q := genAux l (k + 1) c.2
        (c.1 ++ q.1, q.2)
    | .flt b :: l, k, g =>
      let q := genAux l (k + 1) g
      (.getFloat b (.tmp k) :: q.1, q.2)
    | _ :: l, k, g => genAux l k g

abbrev genAux (O : Opts) := genUnif.genAux O

/-- `gen_unif_arg_lst` (code_gen.pl:240-244). -/
def genUnifList (O : Opts) : List (Arg × Var) → G → List Ins × G
  | [], g => ([], g)
  | (a, r) :: l, g =>
    let c := genUnif O a r g
    let q := genUnifList O l c.2
    (c.1 ++ q.1, q.2)

/-- `has_temporaries` (code_gen.pl:225-233). -/
def hasTemporaries : List Arg → Bool
  | [] => false
  | a :: l =>
    (match a with
      | .var v => !v.isY
      | .stc _ as => hasTemporaries as
      | _ => false) || hasTemporaries l

/-- The class of an argument for `split_arg_lst` (code_gen.pl:192-220): structure with temporaries,
temporary, known. -/
inductive Class where
  | s | t | k
deriving DecidableEq

/-- `split_arg_lst` (code_gen.pl:192-220), for one argument. -/
def classOf : Arg → Class
  | .var v => if v.isY then .k else .t
  | .stc _ as => if hasTemporaries as then .s else .k
  | _ => .k

/-- `reorder_head_arg_lst` (code_gen.pl:67-74). -/
def reorderHead (l : List (Arg × Var)) : List (Arg × Var) :=
  l.filter (fun a => classOf a.1 == .k) ++ (l.filter (fun a => classOf a.1 == .t)).reverse ++
    l.filter (fun a => classOf a.1 == .s)

/-- `reorder_body_arg_lst` (code_gen.pl:177-182). -/
def reorderBody (l : List (Arg × Var)) : List (Arg × Var) :=
  l.filter (fun a => classOf a.1 == .s) ++ l.filter (fun a => classOf a.1 == .t) ++
    l.filter (fun a => classOf a.1 == .k)

/-- The arguments and their registers (`gen_list_integers`, code_gen.pl:451-458). -/
def numbered (l : List Arg) : List (Arg × Var) := l.zipIdx.map fun p => (p.1, .arg p.2)

/-- `generate_head` (code_gen.pl:49-62): the code after allocate. -/
def genHead (O : Opts) (reorder : Bool) (args : List Arg) (g : G) : List Ins × G :=
  genUnifList O (if reorder then reorderHead (numbered args) else numbered args) g

/-- `gen_load_arg` for a variable (code_gen.pl:301-330). -/
def genLoadVar (O : Opts) (v r : Var) (g : G) : List Ins × G :=
  match g.info v with
  | none =>
    if v.isY then
      (.putVariable v r :: (if O.lastPred then [.putUnsafeValue v r] else []), g.setInfo v .unsafeEnv)
    else ([.putVariable v r], g.setInfo v .inHeap)
  | some .unsafeEnv => if O.lastPred then ([.putUnsafeValue v r], g) else ([.putValue v r], g)
  | some _ => ([.putValue v r], g)

/-- `gen_load_arg` (code_gen.pl:301-355): the auxiliary arguments are loaded before the structure (354);
`genLoadAux k l` is `gen_load_arg_lst` on the arguments of `l` which are not simple. The info in_heap of an
auxiliary temporary is given by flat_stc_arg_lst (378); here it is given when the temporary is loaded, it is
not read before. The info of an argument register does not exist in the code and is never read here: it
is kept for the proofs. -/
def genLoad (O : Opts) : Arg → Var → G → List Ins × G
  | .void, r, g => ([.putVoid r], g.setInfo r .inHeap)
  | .var v, r, g => let q := genLoadVar O v r g; (q.1, q.2.setInfo r .unsafeEnv)
  | .atm i, r, g => ([.putAtom i r], g.setInfo r .inHeap)
  | .int z, r, g => ([.putInteger z r], g.setInfo r .inHeap)
  | .flt b, r, g => ([.putFloat b r], g.setInfo r .inHeap)
  | .nil, r, g => ([.putNil r], g.setInfo r .inHeap)
  | .stc f as, r, g =>
    let fl := flatList O as g.tmp
    let aux := genLoadAux as g.tmp { g with tmp := fl.2 }
    let sub := genSubList 0 fl.1 (aux.2.2.setInfo r .inHeap)
    (aux.1 ++ (if isList f as.length then .putList r else .putStructure f as.length r) :: sub.1, sub.2)
where
  genLoadAux : List Arg → Nat → G → List Ins × Nat × G
    | [], k, g => ([], k, g)
    | .stc f as :: l, k, g =>
      if l.isEmpty && O.lastSubterm then genLoadAux as k g
      else
        let c := genLoad O (.stc f as) (.tmp k) g
        let q := genLoadAux l (k + 1) c.2
        (c.1 ++ q.1, q.2)
    | .flt b :: l, k, g =>
      let q := genLoadAux l (k + 1) (g.setInfo (.tmp k) .inHeap)
      (.putFloat b (.tmp k) :: q.1, q.2)
    | _ :: l, k, g => genLoadAux l k g

abbrev genLoadAux (O : Opts) := genLoad.genLoadAux O

/-- `gen_load_arg_lst` (code_gen.pl:290-294). -/
def genLoadList (O : Opts) : List (Arg × Var) → G → List Ins × G
  | [], g => ([], g)
  | (a, r) :: l, g =>
    let c := genLoad O a r g
    let q := genLoadList O l c.2
    (c.1 ++ q.1, q.2)

/-- The arguments of a call (code_gen.pl:143-151). -/
def genCall (O : Opts) (reorder : Bool) (args : List Arg) (g : G) : List Ins × G :=
  genLoadList O (if reorder then reorderBody (numbered args) else numbered args) g

/-- After the head: the argument registers are not known any more (`generate_body`, code_gen.pl:80-90: their
information does not exist in the code). -/
def G.toBody (g : G) : G := { g with info := fun v => if v.isArg then none else g.info v }

/-- After a call the registers are not known any more: a variable which occurs on both sides of a call is
permanent (internal.pl:249-257), so the information on a temporary is not read after the call. -/
def G.forget (g : G) : G := { g with info := fun v => if v.isY then g.info v else none }

/-! ## The instructions -/

/-- The machine: the stacks, the register S, the registers X, E and the previous environment EE(E). -/
structure M where
  s : St
  S : Sreg
  X : Var → Cell
  e : Adr
  ee : Adr

/-- `Y(E, i)` (wam_inst.h:65). -/
def yadr (e i : Nat) : Adr := e - 3 - i

/-- The word in a register or a permanent variable. -/
def M.get (m : M) : Var → Cell
  | .y i => m.s.mem (yadr m.e i)
  | v => m.X v

/-- `move` to a register or a permanent variable. -/
def M.put (m : M) (v : Var) (w : Cell) : M :=
  match v with
  | .y i => { m with s := { m.s with mem := m.s.mem.set (yadr m.e i) w } }
  | v => { m with X := fun u => if u = v then w else m.X u }

/-- There is room for `n` words in the global stack. -/
def room (s : St) (n : Nat) : Bool := decide (s.h + n ≤ s.lssa)

/-- `Pl_Get_Atom_Tagged` (wam_inst.c:208-221), `Pl_Get_Nil` (311-324). -/
def getCst (s : St) (w r : Cell) : Option (Option St) :=
  match deref s.mem r with
  | none => none
  | some (.ref a) => some (some (s.bindUV a w))
  | some v => if v = w then some (some s) else some none

/-- `Pl_Get_Integer_Tagged` (wam_inst.c:245-263). -/
def getInt (E : Env) (s : St) (z : Int) (r : Cell) : Option (Option St) :=
  match deref s.mem r with
  | none => none
  | some (.ref a) => some (some (s.bindUV a (.int z)))
  | some (.fdv a) => match E.fd.withInt s a (toInt32 z) with
    | (true, s') => some (some s')
    | (false, _) => some none
  | some v => if v = .int z then some (some s) else some none

/-- `Pl_Get_Float` (wam_inst.c:287-301), `Pl_Global_Push_Float` (1361-1372). -/
def getFlt (s : St) (b : BitVec 64) (r : Cell) : Option (Option St) :=
  match deref s.mem r with
  | none => none
  | some (.ref a) =>
    match push (s.bindUV a (.flt s.h)) (.raw b) with
    | none => none
    | some s' => some (some s')
  | some (.flt a) =>
    match s.mem a with
    | .raw x => if deq x b then some (some s) else some none
    | _ => none
  | some _ => some none

/-- `Pl_Get_List` (wam_inst.c:334-354). -/
def getLst (s : St) (r : Cell) : Option (Option (St × Sreg)) :=
  match deref s.mem r with
  | none => none
  | some (.ref a) => if room s 2 then some (some (s.bindUV a (.lst s.h), none)) else none
  | some (.lst a) => some (some (s, some a))
  | some _ => some none

/-- `Pl_Get_Structure_Tagged` (wam_inst.c:364-393). -/
def getStc (s : St) (f n : Nat) (r : Cell) : Option (Option (St × Sreg)) :=
  match deref s.mem r with
  | none => none
  | some (.ref a) =>
    if room s (n + 1) then
      match push s (.fn f n) with
      | none => none
      | some s' => some (some (s'.bindUV a (.stc s.h), none))
    else none
  | some (.stc a) => if s.mem a = .fn f n then some (some (s, some (a + 1))) else some none
  | some _ => some none

/-- `Globalize_Local_Unbound_Var` (wam_inst.h:543-553): the new word and the state. -/
def globalize (s : St) (a : Adr) : Option (Cell × St) :=
  match push s (.ref s.h) with
  | none => none
  | some s' => some (.ref s.h, s'.bindUV a (.ref s.h))

/-- `Pl_Put_Unsafe_Value` (wam_inst.c:452-470). -/
def putUnsafe (s : St) (ee : Adr) (w : Cell) : Option (Cell × St) :=
  match deref s.mem w with
  | none => none
  | some (.ref a) => if ee ≤ a then globalize s a else some (.ref a, s)
  | some v => some (copyWord v, s)

/-- `Pl_Unify_Local_Value` in write mode (wam_inst.c:795-805). -/
def pushLocal (s : St) (w : Cell) : Option St :=
  match deref s.mem w with
  | none => none
  | some (.ref a) => if s.isLocal a then (globalize s a).map (·.2) else push s (.ref a)
  | some v => push s (copyWord v)

/-- `Pl_Unify_Void` (wam_inst.c:750-757): `n` words in write mode. -/
def pushVoids : Nat → St → Option St
  | 0, s => some s
  | n + 1, s =>
    match push s (.ref s.h) with
    | none => none
    | some s' => pushVoids n s'

/-- The result of an instruction which changes the state only. -/
def M.ret (m : M) (S : Sreg) : Option (Option St) → Option (Option M)
  | none => none
  | some none => some none
  | some (some s) => some (some { m with s := s, S := S })

/-- The result of an instruction which gives a word to a register. -/
def M.retTo (m : M) (r : Var) : Option (Cell × St) → Option (Option M)
  | none => none
  | some (w, s) => some (some ({ m with s := s }.put r w))

/-- The result of an instruction which sets S. -/
def M.retS (m : M) : Option (Option (St × Sreg)) → Option (Option M)
  | none => none
  | some none => some none
  | some (some (s, S)) => some (some { m with s := s, S := S })

/-- The result of `Pl_Unify`. -/
def asRes : Option (Bool × St) → Option (Option St)
  | none => none
  | some (true, s) => some (some s)
  | some (false, _) => some none

/-- `Pl_Put_X_Variable` (wam_inst.c:417-428). -/
def putX (s : St) : Option (Cell × St) :=
  match push s (.ref s.h) with
  | none => none
  | some s' => some (.ref s.h, s')

/-- `unify_…` of a constant in write mode. -/
def pushRes (s : St) (w : Cell) : Option (Option St) := (push s w).map some

/-- The execution of an instruction: `some none` is a failure, `none` an overflow or an undefined behaviour
(or the lack of fuel of the unification). -/
def step (E : Env) (m : M) : Ins → Option (Option M)
  | .getVariable v r => some (some (m.put v (m.get r)))                          -- wam2ma.c:682-686
  | .getValue v r => m.ret m.S (asRes (unify false E.fd E.fuel m.s (m.get v) (m.get r)))  -- wam2ma.c:696-701
  | .getAtom i r => m.ret m.S (getCst m.s (.atm i) (m.get r))
  | .getNil r => m.ret m.S (getCst m.s NIL_WORD (m.get r))
  | .getInteger z r => m.ret m.S (getInt E m.s z (m.get r))
  | .getFloat b r => m.ret m.S (getFlt m.s b (m.get r))
  | .getList r => m.retS (getLst m.s (m.get r))
  | .getStructure f n r => m.retS (getStc m.s f n (m.get r))
  | .putVariable v r =>                                                          -- wam2ma.c:813-827
    match v with
    | .y i =>                                                                    -- wam_inst.c:438-442
      some (some ((m.put (.y i) (.ref (yadr m.e i))).put r (.ref (yadr m.e i))))
    | v =>
      match putX m.s with
      | none => none
      | some (w, s') => some (some (({ m with s := s' }.put r w).put v w))
  | .putVoid r => m.retTo r (putX m.s)                                           -- wam2ma.c:837-842
  | .putValue v r => some (some (m.put r (m.get v)))                             -- wam2ma.c:852-856
  | .putUnsafeValue v r => m.retTo r (putUnsafe m.s m.ee (m.get v))              -- wam2ma.c:866-871
  | .putAtom i r => some (some (m.put r (.atm i)))
  | .putInteger z r => some (some (m.put r (.int z)))
  | .putNil r => some (some (m.put r NIL_WORD))
  | .putFloat b r =>                                                             -- wam_inst.c:536-544
    m.retTo r (match push m.s (.raw b) with
      | none => none
      | some s' => some (.flt m.s.h, s'))
  | .putList r =>                                                                -- wam_inst.c:568-573
    if room m.s 2 then some (some { m.put r (.lst m.s.h) with S := none }) else none
  | .putStructure f n r =>                                                       -- wam_inst.c:583-591
    if room m.s (n + 1) then
      match push m.s (.fn f n) with
      | none => none
      | some s' => some (some { { m with s := s' }.put r (.stc m.s.h) with S := none })
    else none
  | .unifyVariable v =>
    match unifyVariable m.s m.S with
    | none => none
    | some (s', S', w) => some (some ({ m with s := s', S := S' }.put v w))
  | .unifyVoid n =>                                                              -- wam_inst.c:739-758
    match m.S with
    | some a => some (some { m with S := some (a + n) })
    | none => m.ret none ((pushVoids n m.s).map some)
  | .unifyValue v =>                                                             -- wam_inst.c:768-776
    match m.S with
    | some a => m.ret (some (a + 1)) (asRes (unify false E.fd E.fuel m.s (m.get v) (m.s.mem a)))
    | none => m.ret none (pushRes m.s (m.get v))
  | .unifyLocalValue v =>                                                        -- wam_inst.c:786-806
    match m.S with
    | some a => m.ret (some (a + 1)) (asRes (unify false E.fd E.fuel m.s (m.get v) (m.s.mem a)))
    | none => m.ret none ((pushLocal m.s (m.get v)).map some)
  | .unifyAtom i =>                                                              -- wam_inst.c:816-837
    match m.S with
    | some a => m.ret (some (a + 1)) (getCst m.s (.atm i) (m.s.mem a))
    | none => m.ret none (pushRes m.s (.atm i))
  | .unifyNil =>                                                                 -- wam_inst.c:910-930
    match m.S with
    | some a => m.ret (some (a + 1)) (getCst m.s NIL_WORD (m.s.mem a))
    | none => m.ret none (pushRes m.s NIL_WORD)
  | .unifyInteger z =>                                                           -- wam_inst.c:861-886
    match m.S with
    | some a => m.ret (some (a + 1)) (getInt E m.s z (m.s.mem a))
    | none => m.ret none (pushRes m.s (.int z))
  | .unifyList =>                                                                -- wam_inst.c:940-953
    match m.S with
    | some a => m.retS (getLst m.s (m.s.mem a))
    | none => if room m.s 3 then m.ret none (pushRes m.s (.lst (m.s.h + 1))) else none
  | .unifyStructure f n =>                                                       -- wam_inst.c:963-977
    match m.S with
    | some a => m.retS (getStc m.s f n (m.s.mem a))
    | none =>
      if room m.s (n + 2) then
        match push m.s (.stc (m.s.h + 1)) with
        | none => none
        | some s' => m.ret none (pushRes s' (.fn f n))
      else none
  | .fail => some none

/-- The execution of a sequence of instructions. -/
def exec (E : Env) : List Ins → M → Option (Option M)
  | [], m => some (some m)
  | i :: l, m =>
    match step E m i with
    | none => none
    | some none => some none
    | some (some m') => exec E l m'

end Gp.CodeGen
