/-
Model of the byte code of consulted clauses (BipsPl/bc_supp.c): the emission of
the WAM instructions of a clause (Part I) and the emulator which reads them
back (Part II).

The words of the byte code are 32 bits words, modelled by natural numbers; the
fields of a word are its digits (gcc allocates the bit fields from the least
significant bit; only the fact that a field is read where it has been written
matters).  Assigning a field keeps the value modulo the size of the field.  The
boolean `w64` tells `WORD_SIZE` (true: 64, false: 32).
-/
namespace Gp.ByteCode

/-! ### Operation codes (bc_supp.c:74-142, `BCCodOp`) -/

@[match_pattern, reducible] def GET_X_VARIABLE : Nat := 0
@[match_pattern, reducible] def GET_Y_VARIABLE : Nat := 1
@[match_pattern, reducible] def GET_X_VALUE : Nat := 2
@[match_pattern, reducible] def GET_Y_VALUE : Nat := 3
@[match_pattern, reducible] def GET_ATOM : Nat := 4
@[match_pattern, reducible] def GET_ATOM_BIG : Nat := 5
@[match_pattern, reducible] def GET_INTEGER : Nat := 6
@[match_pattern, reducible] def GET_INTEGER_BIG : Nat := 7
@[match_pattern, reducible] def GET_FLOAT : Nat := 8
@[match_pattern, reducible] def GET_NIL : Nat := 9
@[match_pattern, reducible] def GET_LIST : Nat := 10
@[match_pattern, reducible] def GET_STRUCTURE : Nat := 11
@[match_pattern, reducible] def PUT_X_VARIABLE : Nat := 12
@[match_pattern, reducible] def PUT_Y_VARIABLE : Nat := 13
@[match_pattern, reducible] def PUT_VOID : Nat := 14
@[match_pattern, reducible] def PUT_X_VALUE : Nat := 15
@[match_pattern, reducible] def PUT_Y_VALUE : Nat := 16
@[match_pattern, reducible] def PUT_Y_UNSAFE_VALUE : Nat := 17
@[match_pattern, reducible] def PUT_ATOM : Nat := 18
@[match_pattern, reducible] def PUT_ATOM_BIG : Nat := 19
@[match_pattern, reducible] def PUT_INTEGER : Nat := 20
@[match_pattern, reducible] def PUT_INTEGER_BIG : Nat := 21
@[match_pattern, reducible] def PUT_FLOAT : Nat := 22
@[match_pattern, reducible] def PUT_NIL : Nat := 23
@[match_pattern, reducible] def PUT_LIST : Nat := 24
@[match_pattern, reducible] def PUT_STRUCTURE : Nat := 25
@[match_pattern, reducible] def MATH_LOAD_X_VALUE : Nat := 26
@[match_pattern, reducible] def MATH_LOAD_Y_VALUE : Nat := 27
@[match_pattern, reducible] def UNIFY_X_VARIABLE : Nat := 28
@[match_pattern, reducible] def UNIFY_Y_VARIABLE : Nat := 29
@[match_pattern, reducible] def UNIFY_VOID : Nat := 30
@[match_pattern, reducible] def UNIFY_X_VALUE : Nat := 31
@[match_pattern, reducible] def UNIFY_Y_VALUE : Nat := 32
@[match_pattern, reducible] def UNIFY_X_LOCAL_VALUE : Nat := 33
@[match_pattern, reducible] def UNIFY_Y_LOCAL_VALUE : Nat := 34
@[match_pattern, reducible] def UNIFY_ATOM : Nat := 35
@[match_pattern, reducible] def UNIFY_ATOM_BIG : Nat := 36
@[match_pattern, reducible] def UNIFY_INTEGER : Nat := 37
@[match_pattern, reducible] def UNIFY_INTEGER_BIG : Nat := 38
@[match_pattern, reducible] def UNIFY_NIL : Nat := 39
@[match_pattern, reducible] def UNIFY_LIST : Nat := 40
@[match_pattern, reducible] def UNIFY_STRUCTURE : Nat := 41
@[match_pattern, reducible] def ALLOCATE : Nat := 42
@[match_pattern, reducible] def DEALLOCATE : Nat := 43
@[match_pattern, reducible] def CALL : Nat := 44
@[match_pattern, reducible] def CALL_NATIVE : Nat := 45
@[match_pattern, reducible] def EXECUTE : Nat := 46
@[match_pattern, reducible] def EXECUTE_NATIVE : Nat := 47
@[match_pattern, reducible] def PROCEED : Nat := 48
@[match_pattern, reducible] def FAIL : Nat := 49
@[match_pattern, reducible] def GET_CURRENT_CHOICE_X : Nat := 50
@[match_pattern, reducible] def GET_CURRENT_CHOICE_Y : Nat := 51
@[match_pattern, reducible] def CUT_X : Nat := 52
@[match_pattern, reducible] def CUT_Y : Nat := 53
@[match_pattern, reducible] def SOFT_CUT_X : Nat := 54
@[match_pattern, reducible] def SOFT_CUT_Y : Nat := 55

/-! ### Words -/

/-- `BCWord` written through `t1` (bc_supp.c:147-153): code_op:8, i8:8, i16:16. -/
def pack1 (op i8 i16 : Nat) : Nat := op % 256 + 256 * (i8 % 256) + 65536 * (i16 % 65536)

/-- `BCWord` written through `t2` (bc_supp.c:154-159): code_op:8, i24:24. -/
def pack2 (op i24 : Nat) : Nat := op % 256 + 256 * (i24 % 16777216)

/-- `BC_Op` (bc_supp.c:221). -/
def bcOp (w : Nat) : Nat := w % 256
/-- `BC1_X0` (bc_supp.c:223). -/
def bcI8 (w : Nat) : Nat := w / 256 % 256
/-- `BC1_Arity`, `BC1_XY`, `BC1_Atom`, `BC1_Int` (bc_supp.c:225-237): field `i16`. -/
def bcI16 (w : Nat) : Nat := w / 65536 % 65536
/-- `BC2_Arity`, `BC2_XY`, `BC2_Atom`, `BC2_Int` (bc_supp.c:227-239): field `i24`. -/
def bcI24 (w : Nat) : Nat := w / 256 % 16777216

/-- Storing into a `uint32_t`. -/
def u32 (n : Nat) : Nat := n % 4294967296

/-- Number of values of a `PlLong`/`PlULong`. -/
def wordVals (w64 : Bool) : Nat := if w64 then 18446744073709551616 else 4294967296

/-- The cast `(PlULong) l`. -/
def toU (w64 : Bool) (l : Int) : Nat := (l % (wordVals w64 : Int)).toNat

/-- The cast of an unsigned word to `PlLong`. -/
def toS (w64 : Bool) (n : Nat) : Int :=
  if n < wordVals w64 / 2 then (n : Int) else (n : Int) - (wordVals w64 : Int)

/-- The two halves of a 64 bits value, `C64To32` (bc_supp.c:167-176). -/
def lo32 (n : Nat) : Nat := n % 4294967296
def hi32 (n : Nat) : Nat := n / 4294967296 % 4294967296
def join32 (lo hi : Nat) : Nat := lo + 4294967296 * hi

/-- `ATOM_MAX_BITS` (EnginePl/wam_inst.h:116): 54 or 22. -/
def atomVals (w64 : Bool) : Nat := if w64 then 18014398509481984 else 4194304

/-- `Functor_Arity` (EnginePl/wam_inst.h:118). -/
def functorArity (w64 : Bool) (f n : Nat) : Nat := n * atomVals w64 + f
/-- `Functor_Of` (EnginePl/wam_inst.h:119). -/
def functorOf (w64 : Bool) (w : Nat) : Nat := w % atomVals w64
/-- `Arity_Of` (EnginePl/wam_inst.h:120). -/
def arityOf (w64 : Bool) (w : Nat) : Nat := w / atomVals w64

/-! ### Instructions -/

/-- A register of an instruction: `x(N)` or `y(N)`. -/
inductive Reg where
  | x (n : Nat)
  | y (n : Nat)
deriving DecidableEq, Repr

/-- The WAM instructions of a clause, as the terms produced by pl2wam
(Pl2Wam/code_gen.pl) and given to `'$bc_emit_inst'` (consult.pl:511); the names
are those of the table of bc_supp.c:262-304.  `f`, `n` are an atom and an arity,
floats are the 64 bits of the double. -/
inductive Inst where
  | getVariable (r : Reg) (a : Nat)
  | getValue (r : Reg) (a : Nat)
  | getAtom (f a : Nat)
  | getInteger (l : Int) (a : Nat)
  | getFloat (d a : Nat)
  | getNil (a : Nat)
  | getList (a : Nat)
  | getStructure (f n a : Nat)
  | putVariable (r : Reg) (a : Nat)
  | putVoid (a : Nat)
  | putValue (r : Reg) (a : Nat)
  | putUnsafeValue (r : Reg) (a : Nat)
  | putAtom (f a : Nat)
  | putInteger (l : Int) (a : Nat)
  | putFloat (d a : Nat)
  | putNil (a : Nat)
  | putList (a : Nat)
  | putStructure (f n a : Nat)
  | mathLoadValue (r : Reg) (a : Nat)
  | unifyVariable (r : Reg)
  | unifyVoid (n : Nat)
  | unifyValue (r : Reg)
  | unifyLocalValue (r : Reg)
  | unifyAtom (f : Nat)
  | unifyInteger (l : Int)
  | unifyNil
  | unifyList
  | unifyStructure (f n : Nat)
  | allocate (n : Nat)
  | deallocate
  | call (f n : Nat)
  | execute (f n : Nat)
  | proceed
  | fail
  | getCurrentChoice (r : Reg)
  | cut (r : Reg)
  | softCut (r : Reg)
deriving DecidableEq, Repr

/-- An entry of the table of predicates (EnginePl/pred.h): native code at an
address, or a dynamic/consulted predicate. -/
inductive Pred where
  | native (codep : Nat)
  | dyn
deriving DecidableEq, Repr

/-- What the emission depends on: the table of predicates (`Pl_Lookup_Pred`) and
the predicate of the clause (`glob_caller_func`, `glob_caller_arity`,
bc_supp.c:422). -/
structure Env where
  db : Nat → Nat → Option Pred
  callerF : Nat
  callerN : Nat

/-- `BC_Arg_X_Or_Y` (bc_supp.c:798-811): the number of the register, and one more
for the operation code when it is not an `x`. -/
def argXY (r : Reg) (op : Nat) : Nat × Nat :=
  match r with
  | .x n => (op, n)
  | .y n => (op + 1, n)

/-- bc_supp.c:570-578: one word, register in 16 bits, argument in 8 bits. -/
def emitXY1 (op : Nat) (r : Reg) (a : Nat) : List Nat :=
  [pack1 (argXY r op).1 a (argXY r op).2]

/-- bc_supp.c:650-657: one word, register in 24 bits. -/
def emitXY2 (op : Nat) (r : Reg) : List Nat :=
  [pack2 (argXY r op).1 (argXY r op).2]

/-- bc_supp.c:580-591. -/
def emitAtom1 (op f a : Nat) : List Nat :=
  if u32 f < 65536 then [pack1 op a (u32 f)] else [pack1 (op + 1) a 0, u32 f]

/-- bc_supp.c:593-612.  `(int) l` is only used when `l` fits in 16 bits. -/
def emitInt1 (w64 : Bool) (op : Nat) (l : Int) (a : Nat) : List Nat :=
  if toU w64 l < 65536 then [pack1 op a (toU w64 l)]
  else if w64 then [pack1 (op + 1) a 0, lo32 (toU w64 l), hi32 (toU w64 l)]
  else [pack1 (op + 1) a 0, u32 (toU w64 l)]

/-- bc_supp.c:614-621. -/
def emitFloat1 (op d a : Nat) : List Nat := [pack1 op a 0, lo32 d, hi32 d]

/-- bc_supp.c:630-636. -/
def emitStruct1 (op f n a : Nat) : List Nat := [pack1 op a n, u32 f]

/-- bc_supp.c:659-668. -/
def emitAtom2 (op f : Nat) : List Nat :=
  if u32 f < 16777216 then [pack2 op (u32 f)] else [pack2 (op + 1) 0, u32 f]

/-- bc_supp.c:670-687. -/
def emitInt2 (w64 : Bool) (op : Nat) (l : Int) : List Nat :=
  if toU w64 l < 16777216 then [pack2 op (toU w64 l)]
  else if w64 then [pack2 (op + 1) 0, lo32 (toU w64 l), hi32 (toU w64 l)]
  else [pack2 (op + 1) 0, u32 (toU w64 l)]

/-- bc_supp.c:701-725: the native form holds the address of the code, the other
the predicate of the clause (for the context of an existence error). -/
def emitCall (w64 : Bool) (e : Env) (op f n : Nat) : List Nat :=
  match e.db f n with
  | some (.native p) =>
    if w64 then [pack2 (op + 1) n, u32 f, lo32 p, hi32 p] else [pack2 (op + 1) n, u32 f, u32 p]
  | _ => [pack2 op n, u32 f, u32 (functorArity w64 e.callerF e.callerN)]

/-- The words written by `Pl_BC_Emit_Inst_1` (bc_supp.c:538-729) for an
instruction; the operation code is the one of the table (bc_supp.c:262-304,
`Find_Inst_Code_Op` 333-346 taken as the lookup of the name in that table). -/
def emit (w64 : Bool) (e : Env) : Inst → List Nat
  | .getVariable r a => emitXY1 GET_X_VARIABLE r a
  | .getValue r a => emitXY1 GET_X_VALUE r a
  | .getAtom f a => emitAtom1 GET_ATOM f a
  | .getInteger l a => emitInt1 w64 GET_INTEGER l a
  | .getFloat d a => emitFloat1 GET_FLOAT d a
  | .getNil a => [pack1 GET_NIL a 0]
  | .getList a => [pack1 GET_LIST a 0]
  | .getStructure f n a => emitStruct1 GET_STRUCTURE f n a
  | .putVariable r a => emitXY1 PUT_X_VARIABLE r a
  | .putVoid a => [pack1 PUT_VOID a 0]
  | .putValue r a => emitXY1 PUT_X_VALUE r a
  | .putUnsafeValue r a => emitXY1 (PUT_Y_UNSAFE_VALUE - 1) r a
  | .putAtom f a => emitAtom1 PUT_ATOM f a
  | .putInteger l a => emitInt1 w64 PUT_INTEGER l a
  | .putFloat d a => emitFloat1 PUT_FLOAT d a
  | .putNil a => [pack1 PUT_NIL a 0]
  | .putList a => [pack1 PUT_LIST a 0]
  | .putStructure f n a => emitStruct1 PUT_STRUCTURE f n a
  | .mathLoadValue r a => emitXY1 MATH_LOAD_X_VALUE r a
  | .unifyVariable r => emitXY2 UNIFY_X_VARIABLE r
  | .unifyVoid n => [pack2 UNIFY_VOID n]
  | .unifyValue r => emitXY2 UNIFY_X_VALUE r
  | .unifyLocalValue r => emitXY2 UNIFY_X_LOCAL_VALUE r
  | .unifyAtom f => emitAtom2 UNIFY_ATOM f
  | .unifyInteger l => emitInt2 w64 UNIFY_INTEGER l
  | .unifyNil => [pack2 UNIFY_NIL 0]
  | .unifyList => [pack2 UNIFY_LIST 0]
  | .unifyStructure f n => [pack2 UNIFY_STRUCTURE n, u32 f]
  | .allocate n => [pack2 ALLOCATE n]
  | .deallocate => [pack2 DEALLOCATE 0]
  | .call f n => emitCall w64 e CALL f n
  | .execute f n => emitCall w64 e EXECUTE f n
  | .proceed => [pack2 PROCEED 0]
  | .fail => [pack2 FAIL 0]
  | .getCurrentChoice r => emitXY2 GET_CURRENT_CHOICE_X r
  | .cut r => emitXY2 CUT_X r
  | .softCut r => emitXY2 SOFT_CUT_X r

/-- The buffer of the emission: `bc_buff` up to `bc_sp`, `bc_nb_block`, and the
fact that a write fell outside of the allocated block. -/
structure Buf where
  words : List Nat
  blocks : Nat
  overflow : Bool
deriving DecidableEq, Repr

/-- Initial buffer (bc_supp.c:311-312) and `Pl_BC_Start_Emit_0` (bc_supp.c:440-444). -/
def Buf.start (b : Buf) : Buf := { b with words := [] }
def Buf.init : Buf := ⟨[], 1, false⟩

/-- `BC_BLOCK_SIZE` (bc_supp.c:62). -/
def BC_BLOCK_SIZE : Nat := 1024

/-- The writes `*bc_sp++ = w` of `ASSEMBLE_INST` (bc_supp.c:509-528). -/
def Buf.push (b : Buf) (ws : List Nat) : Buf :=
  { b with
    words := b.words ++ ws
    overflow := b.overflow || decide (b.blocks * BC_BLOCK_SIZE < b.words.length + ws.length) }

/-- The growth of the buffer (bc_supp.c:557-563). -/
def Buf.grow (b : Buf) : Buf :=
  if b.words.length + 3 ≥ b.blocks * BC_BLOCK_SIZE then { b with blocks := b.blocks + 1 } else b

/-- `Pl_BC_Emit_Inst_1` (bc_supp.c:538-729). -/
def emitInst (w64 : Bool) (e : Env) (b : Buf) (i : Inst) : Buf := b.grow.push (emit w64 e i)

/-- `'$add_clause_term_and_bc'` (consult.pl:529-533) for the byte code:
`Pl_BC_Start_Emit_0`, the instructions, `Pl_BC_Stop_Emit_0` (bc_supp.c:453-476)
which copies the words; the buffer stays for the next clause. -/
def emitClause (w64 : Bool) (e : Env) (b : Buf) (is : List Inst) : Buf :=
  is.foldl (emitInst w64 e) b.start

/-! ### The emulator -/

/-- What the emulator reads: an instruction executed in place, or the transfer of
control of a call (`cont`: the word saved by `BC_BEFORE_CALL`, bc_supp.c:940-946,
as an index in the byte code; `none` for the `execute` forms). -/
inductive Act where
  | inst (i : Inst)
  | pred (cont : Option Nat) (f n : Nat) (callerF callerN : Nat)
  | native (cont : Option Nat) (f n codep : Nat)
deriving DecidableEq, Repr

/-- bc_supp.c:1269-1283 and alike: an integer in the next word(s). -/
def rdInt (w64 : Bool) (code : List Nat) (pc : Nat) : Option (Int × Nat) :=
  if w64 then
    match code[pc]?, code[pc + 1]? with
    | some a, some b => some (toS w64 (join32 a b), pc + 2)
    | _, _ => none
  else
    match code[pc]? with
    | some a => some (toS w64 a, pc + 1)
    | none => none

/-- bc_supp.c:1285-1293, 1384-1391: a float in the next two words. -/
def rdFloat (code : List Nat) (pc : Nat) : Option (Nat × Nat) :=
  match code[pc]?, code[pc + 1]? with
  | some a, some b => some (join32 a b, pc + 2)
  | _, _ => none

/-- bc_supp.c:1529-1558.  The word of the predicate of the clause is read through
an `int` (`w1`), then `Functor_Of`/`Arity_Of` cast it to `PlULong`. -/
def rdCall (w64 : Bool) (code : List Nat) (pc : Nat) (isCall : Bool) (n : Nat) :
    Option (Act × Nat) :=
  match code[pc]?, code[pc + 1]? with
  | some f, some c =>
    let cw := toU w64 (toS false c)
    some (.pred (if isCall then some (pc + 2) else none) f n (functorOf w64 cw) (arityOf w64 cw),
      pc + 2)
  | _, _ => none

/-- bc_supp.c:1560-1583. -/
def rdNative (w64 : Bool) (code : List Nat) (pc : Nat) (isCall : Bool) (n : Nat) :
    Option (Act × Nat) :=
  let cont := if isCall then some (pc + (1 + (if w64 then 2 else 1))) else none
  if w64 then
    match code[pc]?, code[pc + 1]?, code[pc + 2]? with
    | some f, some a, some b => some (.native cont f n (join32 a b), pc + 3)
    | _, _, _ => none
  else
    match code[pc]?, code[pc + 1]? with
    | some f, some a => some (.native cont f n a, pc + 2)
    | _, _ => none

/-- An operand in the next word (atoms of the `BIG` forms, functors). -/
def rdWord (code : List Nat) (pc : Nat) (k : Nat → Inst) : Option (Act × Nat) :=
  match code[pc]? with
  | some f => some (.inst (k f), pc + 1)
  | none => none

/-- One turn of `bc_loop` up to the reading of the operands (bc_supp.c:1217-1625):
`w` is the word at `bc_sp`, `pc` the index after it.  The result holds the
operation with its operands and the value of `bc_sp` after it.  The emulator of
the code as it is when no debugger is active (`pl_debug_call_code && debug_call`
false, see bc_supp.c:1166).  `int` operands read from a word: an atom is below
`2^31`.  `none`: unknown code (falls to `fail`) or reading outside of the code. -/
def decodeW (w64 : Bool) (code : List Nat) (w pc : Nat) : Option (Act × Nat) :=
  let in1 (i : Inst) : Option (Act × Nat) := some (.inst i, pc)
  match bcOp w with
  | GET_X_VARIABLE => in1 (.getVariable (.x (bcI16 w)) (bcI8 w))
  | GET_Y_VARIABLE => in1 (.getVariable (.y (bcI16 w)) (bcI8 w))
  | GET_X_VALUE => in1 (.getValue (.x (bcI16 w)) (bcI8 w))
  | GET_Y_VALUE => in1 (.getValue (.y (bcI16 w)) (bcI8 w))
  | GET_ATOM => in1 (.getAtom (bcI16 w) (bcI8 w))
  | GET_ATOM_BIG => rdWord code pc (fun f => .getAtom f (bcI8 w))
  | GET_INTEGER => in1 (.getInteger (bcI16 w) (bcI8 w))
  | GET_INTEGER_BIG =>
    (rdInt w64 code pc).map (fun (l, p) => (.inst (.getInteger l (bcI8 w)), p))
  | GET_FLOAT => (rdFloat code pc).map (fun (d, p) => (.inst (.getFloat d (bcI8 w)), p))
  | GET_NIL => in1 (.getNil (bcI8 w))
  | GET_LIST => in1 (.getList (bcI8 w))
  | GET_STRUCTURE => rdWord code pc (fun f => .getStructure f (bcI16 w) (bcI8 w))
  | PUT_X_VARIABLE => in1 (.putVariable (.x (bcI16 w)) (bcI8 w))
  | PUT_Y_VARIABLE => in1 (.putVariable (.y (bcI16 w)) (bcI8 w))
  | PUT_VOID => in1 (.putVoid (bcI8 w))
  | PUT_X_VALUE => in1 (.putValue (.x (bcI16 w)) (bcI8 w))
  | PUT_Y_VALUE => in1 (.putValue (.y (bcI16 w)) (bcI8 w))
  | PUT_Y_UNSAFE_VALUE => in1 (.putUnsafeValue (.y (bcI16 w)) (bcI8 w))
  | PUT_ATOM => in1 (.putAtom (bcI16 w) (bcI8 w))
  | PUT_ATOM_BIG => rdWord code pc (fun f => .putAtom f (bcI8 w))
  | PUT_INTEGER => in1 (.putInteger (bcI16 w) (bcI8 w))
  | PUT_INTEGER_BIG =>
    (rdInt w64 code pc).map (fun (l, p) => (.inst (.putInteger l (bcI8 w)), p))
  | PUT_FLOAT => (rdFloat code pc).map (fun (d, p) => (.inst (.putFloat d (bcI8 w)), p))
  | PUT_NIL => in1 (.putNil (bcI8 w))
  | PUT_LIST => in1 (.putList (bcI8 w))
  | PUT_STRUCTURE => rdWord code pc (fun f => .putStructure f (bcI16 w) (bcI8 w))
  | MATH_LOAD_X_VALUE => in1 (.mathLoadValue (.x (bcI16 w)) (bcI8 w))
  | MATH_LOAD_Y_VALUE => in1 (.mathLoadValue (.y (bcI16 w)) (bcI8 w))
  | UNIFY_X_VARIABLE => in1 (.unifyVariable (.x (bcI24 w)))
  | UNIFY_Y_VARIABLE => in1 (.unifyVariable (.y (bcI24 w)))
  | UNIFY_VOID => in1 (.unifyVoid (bcI24 w))
  | UNIFY_X_VALUE => in1 (.unifyValue (.x (bcI24 w)))
  | UNIFY_Y_VALUE => in1 (.unifyValue (.y (bcI24 w)))
  | UNIFY_X_LOCAL_VALUE => in1 (.unifyLocalValue (.x (bcI24 w)))
  | UNIFY_Y_LOCAL_VALUE => in1 (.unifyLocalValue (.y (bcI24 w)))
  | UNIFY_ATOM => in1 (.unifyAtom (bcI24 w))
  | UNIFY_ATOM_BIG => rdWord code pc (fun f => .unifyAtom f)
  | UNIFY_INTEGER => in1 (.unifyInteger (bcI24 w))
  | UNIFY_INTEGER_BIG => (rdInt w64 code pc).map (fun (l, p) => (.inst (.unifyInteger l), p))
  | UNIFY_NIL => in1 .unifyNil
  | UNIFY_LIST => in1 .unifyList
  | UNIFY_STRUCTURE => rdWord code pc (fun f => .unifyStructure f (bcI24 w))
  | ALLOCATE => in1 (.allocate (bcI24 w))
  | DEALLOCATE => in1 .deallocate
  | CALL => rdCall w64 code pc true (bcI24 w)
  | CALL_NATIVE => rdNative w64 code pc true (bcI24 w)
  | EXECUTE => rdCall w64 code pc false (bcI24 w)
  | EXECUTE_NATIVE => rdNative w64 code pc false (bcI24 w)
  | PROCEED => in1 .proceed
  | FAIL => in1 .fail
  | GET_CURRENT_CHOICE_X => in1 (.getCurrentChoice (.x (bcI24 w)))
  | GET_CURRENT_CHOICE_Y => in1 (.getCurrentChoice (.y (bcI24 w)))
  | CUT_X => in1 (.cut (.x (bcI24 w)))
  | CUT_Y => in1 (.cut (.y (bcI24 w)))
  | SOFT_CUT_X => in1 (.softCut (.x (bcI24 w)))
  | SOFT_CUT_Y => in1 (.softCut (.y (bcI24 w)))
  | _ => none

/-- The reading of the word at `bc_sp` (bc_supp.c:1217-1219), then `decodeW`. -/
def decode (w64 : Bool) (code : List Nat) (pc : Nat) : Option (Act × Nat) :=
  match code[pc]? with
  | some w => decodeW w64 code w (pc + 1)
  | none => none

/-- The rest of the machine, left abstract: the effect of an instruction executed
in place (`none`: failure, `goto fail`), and the writing of the saved word and of
`CP` by `BC_BEFORE_CALL` (bc_supp.c:940-946). -/
structure Mach (σ : Type) where
  exec : Inst → σ → Option σ
  save : Nat → σ → σ

/-- How `BC_Emulate_Byte_Code` ends: `goto fail`, `proceed`, native code to run, a
predicate to emulate (`return NULL`, then `Pl_BC_Emulate_Pred` of the clauses of
the predicate), the existence error of an unknown predicate with its context
`callerF/callerN`, or a read outside of the code. -/
inductive Out (σ : Type) where
  | failed
  | proceed (s : σ)
  | native (f n codep : Nat) (s : σ)
  | pred (f n : Nat) (s : σ)
  | unknown (f n callerF callerN : Nat) (s : σ)
  | outside

/-- The word saved by `BC_BEFORE_CALL` (bc_supp.c:942): the address of the next
word and the debug flag in bit 0; `base` is the address of the byte code. -/
def saved (base pc : Nat) (debug : Bool) : Nat := (base + 4 * pc) ||| debug.toNat

/-- `BC_AFTER_CALL` (bc_supp.c:948-954): address and debug flag. -/
def restored (w : Nat) : Nat × Bool := (w - w % 2, w % 2 == 1)

/-- `BC_Emulate_Byte_Code` (bc_supp.c:1196-1629), `fuel` bounds the
number of instructions (the code has no jump; it is run with the number of its
words).  `db` is the table of predicates at run time. -/
def emulate {σ : Type} (w64 : Bool) (M : Mach σ) (db : Nat → Nat → Option Pred)
    (code : List Nat) (base : Nat) (debug : Bool) : Nat → Nat → σ → Out σ
  | 0, _, _ => .outside
  | fuel + 1, pc, s =>
    match decode w64 code pc with
    | none => .outside
    | some (.inst .proceed, _) => .proceed s
    | some (.inst .fail, _) => .failed
    | some (.inst i, pc') =>
      match M.exec i s with
      | none => .failed
      | some s' => emulate w64 M db code base debug fuel pc' s'
    | some (.pred cont f n cf cn, _) =>
      let s' := match cont with
        | some c => M.save (saved base c debug) s
        | none => s
      match db f n with
      | none => .unknown f n cf cn s'
      | some _ => .pred f n s'
    | some (.native cont f n p, _) =>
      let s' := match cont with
        | some c => M.save (saved base c debug) s
        | none => s
      .native f n p s'

/-- The indices of the register bank written by `Pl_BC_Emulate_Pred` before it
selects a clause (bc_supp.c:1087-1088): the cut register and the debug flag. -/
def prepWrites (arity : Nat) : List Nat := [arity, arity + 1]

end Gp.ByteCode
