import Verif.Quote.Model
/-
Writing and reading terms (properties C44 and following): the term writer src/BipsPl/write_supp.c, the
parser src/BipsPl/parser_supp.c.  The lexical level (character classes, text of an atom, tokenizer) is in
Verif/Quote/Model.lean.

Not modelled: portray, the depth limit (depth 0 of the options, i.e. no limit), the display of finite domain
variables, streams (the output is the list of bytes written, the input the list of bytes to read), positions
and error messages (an error is the outcome `err`).
-/
namespace Gp.Rw

open Gp.Quote

/-- Atom names. -/
abbrev Name := List Nat

/-- Terms.  A variable is given by the name the writer gives it (write_supp.c:751, `_` and the offset of its
cell in the global stack); a float by its sign and the text `Pl_Float_To_String` makes of its absolute value
(write_supp.c:493-535; the conversion between this text and the double is the C library's).  `lst` is a list
cell (tag LST), `str` a structure (tag STC). -/
inductive Tm where
  | var (s : Name)
  | int (n : Int)
  | flt (neg : Bool) (s : List Nat)
  | atom (s : Name)
  | lst (h t : Tm)
  | str (f : Name) (args : List Tm)

/-- An operator definition, oper.h:72-79. -/
structure OpInf where
  prec : Nat
  left : Nat
  right : Nat

/-- The operator table as seen through `Pl_Lookup_Oper`, oper.c:220-227. -/
structure Ops where
  pre : Name → Option OpInf
  inf : Name → Option OpInf
  post : Name → Option OpInf

/-- `Check_Oper_Any_Type`, oper.h:120-121. -/
def Ops.any (O : Ops) (s : Name) : Bool := (O.pre s).isSome || (O.inf s).isSome || (O.post s).isSome

/-! ## The writer -/

/-- `pl_last_writing`, write_supp.c:122-127. -/
inductive LW where
  | nothing | number | number0 | ident | quoted | graphic
  deriving DecidableEq, Repr

/-- `last_prefix_op`, write_supp.c:132-134. -/
inductive LP where
  | no | any | minus
  deriving DecidableEq, Repr

/-- The state of the writer: the bytes written, `pl_last_writing`, `last_is_space`, `last_prefix_op`, the
variables `bracket` of the active calls of `Show_Structure` on a prefix operator (outermost first), and the
index in this list of the one `p_bracket_op_minus` points to. -/
structure W where
  out : List Nat
  last : LW
  sp : Bool
  pfx : LP
  brs : List Nat
  p : Nat

/-- The elementary actions of the writer; `Show_Term` is modelled by the list of the actions it performs,
its control flow does not depend on the state. -/
inductive Act where
  | chr (c : Nat)          -- Out_Char(c)
  | str (s : List Nat)     -- Out_String(s)
  | space                  -- Out_Space()
  | last (k : LW)          -- pl_last_writing = k
  | pfxAny                 -- last_prefix_op = W_PREFIX_OP_ANY
  | push (b : Nat)         -- bracket = b, on entry of the prefix operator case
  | minus                  -- last_prefix_op = W_PREFIX_OP_MINUS; p_bracket_op_minus = &bracket
  | close                  -- last_prefix_op = W_NO_PREFIX_OP; while (bracket--) Out_Char(')'); return

/-- `Out_Space`, write_supp.c:340-349. -/
def outSpace (w : W) : W :=
  { w with out := if w.sp then w.out else w.out ++ [32], sp := true, last := .nothing }

/-- The `switch` of `Emit_Space_If_Needed`, write_supp.c:408-435. -/
def needSpace (l : Loc) (last : LW) (c : Nat) : Bool :=
  match last with
  | .number0 => charType l c == .QT || (charType l c).alnum || c == 46
  | .number => (charType l c).alnum || c == 46
  | .ident => (charType l c).alnum || c == 91 || c == 123
  | .quoted => charType l c == .QT
  | .graphic => charType l c == .GR
  | .nothing => false

/-- `Emit_Space_If_Needed`, write_supp.c:402-451.  The recursive call `Out_Char('(')` (446) only writes the
bracket: `Out_Space` has just been called, so `pl_last_writing` is W_NOTHING and a second space is not
written. -/
def emit (l : Loc) (w : W) (c : Nat) : W :=
  let w :=
    if needSpace l w.last c || (c == 40 && w.pfx != .no) then outSpace w
    else if charType l c == .DI && w.pfx == .minus then
      let w := outSpace { w with brs := w.brs.modify w.p (· + 1) }
      { w with out := w.out ++ [40], sp := false }
    else w
  { w with pfx := .no, last := .nothing }

/-- `Out_Char`, write_supp.c:358-368. -/
def outChar (l : Loc) (w : W) (c : Nat) : W :=
  let w := emit l w c
  { w with out := w.out ++ [c], sp := false }

/-- `Out_String`, write_supp.c:377-393. -/
def outString (l : Loc) (w : W) (s : List Nat) : W :=
  let w := emit l w (s.headD 0)
  { w with out := w.out ++ s, sp := false }

/-- `while (bracket--) Out_Char(')')`, write_supp.c:1221-1222. -/
def closeN (l : Loc) : Nat → W → W
  | 0, w => w
  | n + 1, w => closeN l n (outChar l w 41)

/-- One action. -/
def act (l : Loc) (w : W) : Act → W
  | .chr c => outChar l w c
  | .str s => outString l w s
  | .space => outSpace w
  | .last k => { w with last := k }
  | .pfxAny => { w with pfx := .any }
  | .push b => { w with brs := w.brs ++ [b] }
  | .minus => { w with pfx := .minus, p := w.brs.length - 1 }
  | .close =>
    let n := w.brs.getLastD 0
    closeN l n { w with pfx := .no, brs := w.brs.dropLast }

/-- The actions in order. -/
def run (l : Loc) (w : W) (as : List Act) : W := as.foldl (act l) w

/-- The options of the writer: `ignore_op`, `space_args`, `number_vars`, `name_vars` (write_supp.c:279-284);
`quoted` is always set. -/
structure Opts where
  ignoreOp : Bool := false
  spaceArgs : Bool := false
  numVars : Bool := false
  nameVars : Bool := false

/-- `context`, write_supp.c:139-141. -/
inductive Ctx where
  | general | anyOp | leftAssoc
  deriving DecidableEq, Repr

/-- One character of an atom which needs a scan, write_supp.c:850-867. -/
def showCharActs (l : Loc) (c : Nat) : List Act :=
  match escSymbol c with
  | some s => [.chr 92, .chr s]
  | none =>
    if c = 39 ∨ c = 92 then [.chr c, .chr c]
    else if isPrint l c = false then [.str (hexEsc c)]
    else [.chr c]

/-- `pl_last_writing` after an atom written without quotes, write_supp.c:812-842. -/
def lastOfAtom (l : Loc) (s : Name) : LW :=
  match (atomProp l s).1 with
  | .ident => .ident
  | .graphic => .graphic
  | .solo => .nothing
  | .other =>
    match s.getLast? with
    | none => .nothing
    | some c =>
      if (charType l c).alnum then .ident
      else if c = 39 then .quoted
      else if charType l c = .GR then .graphic
      else .nothing

/-- `Show_Atom` without the brackets, with `quoted` set, write_supp.c:808-875; `q` is the value of
`quoted` (reset for '$VARNAME', 1122-1125). -/
def atomActs (l : Loc) (q : Bool) (s : Name) : List Act :=
  if q = false ∨ (atomProp l s).2 = false then [.str s, .last (lastOfAtom l s)]
  else [.chr 39] ++ (if needsScan l s then s.flatMap (showCharActs l) else [.str s]) ++
    [.chr 39, .last .quoted]

/-- `Show_Atom`, write_supp.c:789-879. -/
def showAtomActs (l : Loc) (O : Ops) (ctx : Ctx) (s : Name) : List Act :=
  if ctx ≠ .general ∧ O.any s = true then [.chr 40] ++ atomActs l true s ++ [.chr 41]
  else atomActs l true s

/-- The decimal text of a natural number (`sprintf` with `%d`). -/
def natText (n : Nat) : List Nat :=
  if n < 10 then [48 + n] else natText (n / 10) ++ [48 + n % 10]

/-- The decimal text of an integer, write_supp.c:892. -/
def intText (n : Int) : List Nat := if n < 0 then 45 :: natText n.natAbs else natText n.natAbs

/-- `Show_Number_Str`, write_supp.c:915-942. -/
def showNumber (s : List Nat) : List Act := [.str s, .last (if s = [48] then .number0 else .number)]

/-- `SHOW_COMMA`, write_supp.c:227. -/
def showComma (o : Opts) : List Act := [.chr 44] ++ (if o.spaceArgs then [.space] else [])

/-- The optional spaces of `space_args`. -/
def optSpace (b : Bool) : List Act := if b then [.space] else []

/-- `'$VAR'`. -/
def dollarVar : Name := [36, 86, 65, 82]
/-- `'$VARNAME'`. -/
def dollarVarName : Name := [36, 86, 65, 82, 78, 65, 77, 69]

/-- The cases '$VARNAME'(Atom) and '$VAR'(N) of `Show_Structure`, write_supp.c:627-670, 1119-1145 (the address
test always succeeds when no limit is given).  The number is cast to a C int. -/
def showVarTerm (l : Loc) (o : Opts) (f : Name) (args : List Tm) : Option (List Act) :=
  match args with
  | [.atom s] => if o.nameVars ∧ f = dollarVarName then some (atomActs l false s) else none
  | [.int n] =>
    let m := n.bmod (2 ^ 32)
    if o.numVars ∧ f = dollarVar ∧ 0 ≤ m then
      some ([.chr (65 + m.toNat % 26)] ++
        (if m.toNat / 26 ≠ 0 then [.str (natText (m.toNat / 26))] else []) ++ [.last .ident])
    else none
  | _ => none

/-- The choice between the notations for an operator term, write_supp.c:1147-1261. -/
inductive Form where
  | functional
  | curly
  | prefix (op : OpInf)
  | postfix (op : OpInf)
  | infix (op : OpInf)

/-- The tests of `Show_Structure` in order, write_supp.c:1147-1261: `{}`/1, prefix (unless a postfix definition
is preferred, 1174-1180), postfix, infix, functional notation. -/
def form (o : Opts) (O : Ops) (f : Name) (args : List Tm) : Form :=
  if o.ignoreOp then .functional
  else match args with
    | [_] =>
      if f = [123, 125] then .curly
      else match O.pre f with
        | some op =>
          match O.post f with
          | some op1 => if op.prec > op.right ∧ op1.left = op1.prec then .postfix op1 else .prefix op
          | none => .prefix op
        | none =>
          match O.post f with
          | some op => .postfix op
          | none => .functional
    | [_, _] =>
      match O.inf f with
      | some op => .infix op
      | none => .functional
    | _ => .functional

/-- Are brackets put around a prefix or infix operator term? write_supp.c:1182-1184, 1263-1265. -/
def needBr (op : OpInf) (prec : Nat) (ctx : Ctx) : Bool :=
  op.prec > prec || (ctx == .leftAssoc && op.prec == op.right && op.prec == prec)

/-- `SHOW_LIST_PIPE`, write_supp.c:223. -/
def bar (tail : Bool) : List Act := if tail then [.chr 124] else []

/-- The context of a left operand, write_supp.c:1241, 1275. -/
def leftCtx (op : OpInf) : Ctx := if op.left = op.prec then .leftAssoc else .anyOp

/-- The infix operator itself, write_supp.c:1279-1314. -/
def infixActs (l : Loc) (o : Opts) (O : Ops) (f : Name) : List Act :=
  if f = [124] then optSpace o.spaceArgs ++ [.chr 124] ++ optSpace o.spaceArgs
  else if f = [44] then showComma o
  else
    let sur := (atomProp l f).1 = .ident ∨ (atomProp l f).1 = .other ∨ o.spaceArgs = true
    (if sur then [.space] else []) ++ showAtomActs l O .general f ++ (if sur then [.space] else [])

/-- The functional notation, write_supp.c:1326-1355, given the actions for the arguments. -/
def functional (l : Loc) (O : Ops) (f : Name) (as : List Act) : List Act :=
  showAtomActs l O .general f ++ [.chr 40] ++ as ++ [.chr 41]

mutual

/-- `Show_Term`, write_supp.c:544-617, and, when `tail` is set, what `Show_List_Elements` does after an element
for the rest of the list, 981-1049: a further element, nothing at the end of the list, or `|` and the tail
(always with priority 999 in a general context). -/
def showT (l : Loc) (o : Opts) (O : Ops) (tail : Bool) (prec : Nat) (ctx : Ctx) : Tm → List Act
  | .var s => bar tail ++ [.str s, .last .ident]
  | .atom s => if tail = true ∧ s = [91, 93] then [] else bar tail ++ showAtomActs l O ctx s
  | .int n => bar tail ++ showNumber (intText n)
  | .flt neg s => bar tail ++ showNumber (if neg then 45 :: s else s)
  | .lst h t =>
    if tail then showComma o ++ showT l o O false 999 .general h ++ showT l o O true 999 .general t
    else if o.ignoreOp then
      [.str [39, 46, 39, 40]] ++ showT l o O false 999 .general h ++ showComma o ++
        showT l o O false 999 .general t ++ [.chr 41]
    else
      [.chr 91] ++ showT l o O false 999 .general h ++ showT l o O true 999 .general t ++ [.chr 93]
  | .str f args =>
    bar tail ++
    match showVarTerm l o f args with
    | some as => as
    | none =>
      match args with
      | [a] =>
        match form o O f [a] with
        | .curly =>
          [.chr 123] ++ optSpace o.spaceArgs ++ showT l o O false 1200 .general a ++
            optSpace o.spaceArgs ++ [.chr 125]
        | .prefix op =>
          -- 1182-1225
          (if needBr op prec ctx then [.chr 40] else []) ++
            [.push (if needBr op prec ctx then 1 else 0)] ++
            showAtomActs l O .general f ++ [.pfxAny] ++ optSpace o.spaceArgs ++
            (if f = [45] then [.minus] else []) ++
            showT l o O false op.right .anyOp a ++ [.close]
        | .postfix op =>
          -- 1228-1258
          (if op.prec > prec then [.chr 40] else []) ++
            showT l o O false op.left (leftCtx op) a ++ optSpace o.spaceArgs ++
            showAtomActs l O .general f ++ (if op.prec > prec then [.chr 41] else [])
        | _ => functional l O f (showArgs l o O [a])
      | [a, b] =>
        match form o O f [a, b] with
        | .infix op =>
          -- 1261-1322
          (if needBr op prec ctx then [.chr 40] else []) ++
            showT l o O false op.left (leftCtx op) a ++ infixActs l o O f ++
            showT l o O false op.right .anyOp b ++ (if needBr op prec ctx then [.chr 41] else [])
        | _ => functional l O f (showArgs l o O [a, b])
      | as => functional l O f (showArgs l o O as)

/-- The arguments in functional notation, write_supp.c:1339-1347. -/
def showArgs (l : Loc) (o : Opts) (O : Ops) : List Tm → List Act
  | [] => []
  | a :: as => showT l o O false 999 .general a ++ showArgsTl l o O as

/-- The arguments after the first, each preceded by a comma, write_supp.c:1341-1347. -/
def showArgsTl (l : Loc) (o : Opts) (O : Ops) : List Tm → List Act
  | [] => []
  | a :: as => showComma o ++ showT l o O false 999 .general a ++ showArgsTl l o O as

end

/-- `Pl_Write_Term`, write_supp.c:274-296. -/
def writeTerm (l : Loc) (o : Opts) (O : Ops) (prec : Nat) (t : Tm) : List Nat :=
  (run l ⟨[], .nothing, false, .no, [], 0⟩
    (showT l o O false prec (if prec ≥ 1200 then .general else .anyOp) t)).out

/-- `Pl_Write_A_Full_Stop`, write_supp.c:460-469. -/
def fullStop (l : Loc) (w : W) : W :=
  outChar l (outChar l (if w.last = .number0 ∨ w.last = .number then { w with last := .nothing } else w) 46) 10

/-- `Pl_Write_Term` then `Pl_Write_A_Full_Stop`, as for a fact in portray_clause and listing (pretty_c.c:217-246). -/
def writeTermStop (l : Loc) (o : Opts) (O : Ops) (prec : Nat) (t : Tm) : List Nat :=
  (fullStop l (run l ⟨[], .nothing, false, .no, [], 0⟩
    (showT l o O false prec (if prec ≥ 1200 then .general else .anyOp) t))).out

/-! ## The parser -/

/-- The tokens of a text: `Pl_Lexer_Token` is called on demand by the parser, with a flag which only decides
whether an unquoted comma is a punctuation token or a name (lexer_supp.c:314-324); here the tokens are all
computed with a name, and the flag is applied when they are read (`adj`).  A lexical error, or undefined
behaviour, ends the list with `none` (the parser fails if it gets there). -/
def tokens (l : Loc) (fl : Flags) (vo : Bool) : Nat → List Nat → List (Option Tok)
  | 0, _ => [none]
  | f + 1, inp =>
    match lexToken l fl vo false inp with
    | .tok .eof _ => [some .eof]
    | .tok t r => some t :: tokens l fl vo f r
    | .err => [none]
    | .ub => [none]

/-- The comma according to `comma_is_punct`: lexer_supp.c:314-324, and `Read_Next_Token` on a token which was
pushed back, parser_supp.c:204-217. -/
def adj (comma : Bool) : Tok → Tok
  | .name s q => if s = [44] ∧ q = false ∧ comma = true then .punct 44 else .name s q
  | .punct c => if c = 44 ∧ comma = false then .name [44] false else .punct c
  | t => t

/-- The context of the parser, parser_supp.c:61-63. -/
inductive PCtx where
  | general | tryPrefix | anyOp
  deriving DecidableEq, Repr

/-- How strings are returned, flags double_quotes and back_quotes (parser_supp.c:368-390). -/
inductive QMode where
  | codes | chars | atom
  deriving DecidableEq, Repr

/-- The environment of the parser: the operators and the two flags. -/
structure Env where
  O : Ops
  dq : QMode := .codes
  bq : QMode := .codes

/-- The outcome of a parsing function: a result and the remaining tokens, or a syntax error (the `siglongjmp`
of `Parse_Error`, parser_supp.c:768-778). -/
inductive PR (α : Type) where
  | ok (x : α) (rest : List (Option Tok))
  | err

/-- `Read_Next_Token`, parser_supp.c:193-221: pushing a token back is not consuming it.  After the last token
(end of file) the end of file is read again. -/
def nextTok (comma : Bool) : List (Option Tok) → PR Tok
  | [] => .err
  | none :: _ => .err
  | some .eof :: r => .ok .eof (some .eof :: r)
  | some t :: r => .ok (adj comma t) r

/-- `Pl_Lexer_Peek_Char(pstm_i, TRUE) == '('` (parser_supp.c:418): the next token will be
TOKEN_IMMEDIAT_OPEN. -/
def peekOpen : List (Option Tok) → Bool
  | some .openCt :: _ => true
  | _ => false

/-- A string as a list, parser_supp.c:377-389 (`pl_token.name[i]` is an unsigned char: BipsPl is compiled with
-funsigned-char, BipsPl/Makefile.in:93 and configure.in:613). -/
def strTerm (m : QMode) (s : List Nat) : Tm :=
  s.foldr (fun (c : Nat) t => .lst (if m = .codes then .int c else .atom [c]) t) (.atom [91, 93])

/-- `CHECK_INTEGER_BOUNDS`, parser_supp.c:148-165: 61-bit integers. -/
def inBounds (n : Int) : Bool := -2 ^ 60 ≤ n && n ≤ 2 ^ 60 - 1

/-- `Create_Structure`, parser_supp.c:699-718 (and 530-537). -/
def mkStruct (f : Name) (args : List Tm) : Tm :=
  if f = [46] then
    match args with
    | [a, b] => .lst a b
    | _ => .str f args
  else .str f args

/-- The operator read in the loop, parser_supp.c:498-514: the name, its definition and whether it is
infix. -/
def loopOp (E : Env) (prec : Nat) (t : Tok) : Option (Name × OpInf × Bool) :=
  match t with
  | .punct c =>
    if c = 124 then
      match E.O.inf [124] with
      | some op => if op.prec > 1000 ∧ op.prec ≤ prec then some ([124], op, true) else none
      | none => none
    else none
  | .name s _ =>
    match E.O.inf s with
    | some op => some (s, op, true)
    | none =>
      match E.O.post s with
      | some op => some (s, op, false)
      | none => none
  | _ => none

mutual

/-- `Parse_Term`, parser_supp.c:326-549, up to the loop.  A result `none` is NOT_A_WAM_WORD: no term starts
here and no token is consumed. -/
def parseTerm (E : Env) (prec : Nat) (ctx : PCtx) (comma : Bool) (ts : List (Option Tok)) :
    Option (PR (Option Tm)) :=
  match nextTok (ctx != .tryPrefix || comma) ts with
  | .err => some .err
  | .ok t r =>
    match t with
    | .var s => parseLoop E prec comma (.var s) 0 false r
    | .int n => if inBounds n then parseLoop E prec comma (.int n) 0 false r else some .err
    | .float s => parseLoop E prec comma (.flt false s) 0 false r
    | .str s =>
      if E.dq = .atom then parseName E prec ctx comma s false r
      else parseLoop E prec comma (strTerm E.dq s) 0 false r
    | .bq s =>
      if E.bq = .atom then parseName E prec ctx comma s false r
      else parseLoop E prec comma (strTerm E.bq s) 0 false r
    | .openCt => do
      match ← parseParen E r with
      | .err => some .err
      | .ok x r => parseLoop E prec comma x 0 false r
    | .punct c =>
      if c = 40 then do
        match ← parseParen E r with
        | .err => some .err
        | .ok x r => parseLoop E prec comma x 0 false r
      else if c = 123 then do
        match ← parseTerm E 1200 .general false r with
        | .err => some .err
        | .ok x r =>
          match nextTok false r with
          | .err => some .err
          | .ok t r =>
            if t = .punct 125 then
              match x with
              | some a => parseLoop E prec comma (mkStruct [123, 125] [a]) 0 false r
              | none => parseName E prec ctx comma [123, 125] false r
            else some .err
      else if c = 91 then do
        match ← parseList E true r with
        | .err => some .err
        | .ok (some x) r => parseLoop E prec comma x 0 false r
        | .ok none r => parseName E prec ctx comma [91, 93] false r
      else some (.ok none ts)
    | .name s q => parseName E prec ctx comma s q r
    | .fullStop => some (.ok none ts)
    | .eof => some (.ok none ts)
    | .ext _ => some (.ok none ts)
partial_fixpoint

/-- The part of `Parse_Term` from the label `a_name`, parser_supp.c:417-485.  `r` are the tokens after the
name, `q` is `pl_token.quoted`. -/
def parseName (E : Env) (prec : Nat) (ctx : PCtx) (comma : Bool) (s : Name) (q : Bool)
    (r : List (Option Tok)) : Option (PR (Option Tm)) :=
  if peekOpen r = true ∧ ¬ (s = [44] ∧ q = false) then do
    match ← parseArgs E r.tail with
    | .err => some .err
    | .ok args r => parseLoop E prec comma (mkStruct s args) 0 false r
  else if s = [45] then
    match nextTok false r with
    | .err => some .err
    | .ok (.int n) r' => if inBounds (-n) then parseLoop E prec comma (.int (-n)) 0 false r' else some .err
    | .ok (.float x) r' => parseLoop E prec comma (.flt true x) 0 false r'
    | .ok _ _ => parsePrefix E prec ctx comma s r
  else parsePrefix E prec ctx comma s r
partial_fixpoint

/-- "maybe a prefix operator", parser_supp.c:458-485. -/
def parsePrefix (E : Env) (prec : Nat) (ctx : PCtx) (comma : Bool) (s : Name) (r : List (Option Tok)) :
    Option (PR (Option Tm)) :=
  match E.O.pre s with
  | some op =>
    if op.prec ≤ prec then do
      match ← parseTerm E op.right .tryPrefix comma r with
      | .err => some .err
      | .ok (some a) r' => parseLoop E prec comma (mkStruct s [a]) op.prec false r'
      | .ok none _ => if ctx ≠ .general then some .err else parseAtom E prec ctx comma s op.prec r
    else parseAtom E prec ctx comma s 0 r
  | none => parseAtom E prec ctx comma s 0 r
partial_fixpoint

/-- The atom itself, parser_supp.c:474-485; `cl` is `cur_left`. -/
def parseAtom (E : Env) (prec : Nat) (ctx : PCtx) (comma : Bool) (s : Name) (cl : Nat)
    (r : List (Option Tok)) : Option (PR (Option Tm)) :=
  if E.O.any s = true ∧ ctx ≠ .general then some .err
  else parseLoop E prec comma (.atom s) cl (E.O.any s) r
partial_fixpoint

/-- The loop of `Parse_Term`, parser_supp.c:493-548; `cl` is `cur_left`, `lop` is `left_is_op`.  The term is
always present. -/
def parseLoop (E : Env) (prec : Nat) (comma : Bool) (x : Tm) (cl : Nat) (lop : Bool)
    (ts : List (Option Tok)) : Option (PR (Option Tm)) :=
  match nextTok comma ts with
  | .err => some .err
  | .ok t r =>
    match loopOp E prec t with
    | none => some (.ok (some x) ts)
    | some (s, op, isInf) =>
      if lop then some .err
      else if prec < op.prec ∨ cl > op.left then some (.ok (some x) ts)
      else if isInf then do
        match ← parseTerm E op.right .anyOp comma r with
        | .err => some .err
        | .ok none _ => some .err
        | .ok (some y) r' => parseLoop E prec comma (mkStruct s [x, y]) op.prec false r'
      else parseLoop E prec comma (mkStruct s [x]) op.prec false r
partial_fixpoint

/-- `Parse_Args_Of_Functor` after the bracket, parser_supp.c:559-584 (the limit MAX_ARITY, 255, is checked in
`parseArgsN`). -/
def parseArgs (E : Env) (ts : List (Option Tok)) : Option (PR (List Tm)) := parseArgsN E 255 ts
partial_fixpoint

/-- The loop of `Parse_Args_Of_Functor`; `n` arguments may still be read. -/
def parseArgsN (E : Env) (n : Nat) (ts : List (Option Tok)) : Option (PR (List Tm)) :=
  if n = 0 then some .err
  else do
    match ← parseTerm E 999 .general true ts with
    | .err => some .err
    | .ok none _ => some .err
    | .ok (some a) r =>
      match nextTok true r with
      | .err => some .err
      | .ok t r =>
        if t = .punct 44 then do
          match ← parseArgsN E (n - 1) r with
          | .err => some .err
          | .ok as r => some (.ok (a :: as) r)
        else if t = .punct 41 then some (.ok [a] r)
        else some .err
partial_fixpoint

/-- `Parse_Bracketed_Term` for `(`, parser_supp.c:600-608. -/
def parseParen (E : Env) (ts : List (Option Tok)) : Option (PR Tm) := do
  match ← parseTerm E 1200 .general false ts with
  | .err => some .err
  | .ok none _ => some .err
  | .ok (some a) r =>
    match nextTok false r with
    | .err => some .err
    | .ok t r => if t = .punct 41 then some (.ok a r) else some .err
partial_fixpoint

/-- `Parse_List`, parser_supp.c:638-688. -/
def parseList (E : Env) (canBeEmpty : Bool) (ts : List (Option Tok)) : Option (PR (Option Tm)) := do
  match ← parseTerm E 999 .general true ts with
  | .err => some .err
  | .ok x r =>
    match nextTok true r with
    | .err => some .err
    | .ok t r =>
      match x with
      | none => if canBeEmpty = true ∧ t = .punct 93 then some (.ok none r) else some .err
      | some a =>
        if t = .punct 44 then do
          match ← parseList E false r with
          | .err => some .err
          | .ok none _ => some .err
          | .ok (some d) r => some (.ok (some (.lst a d)) r)
        else if t = .punct 124 then do
          match ← parseTerm E 999 .general false r with
          | .err => some .err
          | .ok none _ => some .err
          | .ok (some d) r =>
            match nextTok true r with
            | .err => some .err
            | .ok t r => if t = .punct 93 then some (.ok (some (.lst a d)) r) else some .err
        else if t = .punct 93 then some (.ok (some (.lst a (.atom [91, 93]))) r)
        else some .err
partial_fixpoint

end

/-- `parse_end_of_term`, parser_supp.h:43-44. -/
inductive End where
  | dot | eof
  deriving DecidableEq, Repr

/-- The outcome of `Pl_Read_Term`. -/
inductive RdRes where
  | term (t : Tm)
  | err

mutual
/-- The occurrences of variables in a term. -/
def varNames : Tm → List Name
  | .var s => [s]
  | .lst h t => varNames h ++ varNames t
  | .str _ args => varNamesL args
  | _ => []
/-- The occurrences of variables in a list of terms. -/
def varNamesL : List Tm → List Name
  | [] => []
  | a :: as => varNames a ++ varNamesL as
end

/-- The number of entries of the dictionary of variables, parser_supp.c:728-758: one per named variable, one
per occurrence of `_`. -/
def nbVars (t : Tm) : Nat :=
  ((varNames t).filter (· ≠ [95])).eraseDups.length + ((varNames t).filter (· = [95])).length

/-- `Pl_Read_Term`, parser_supp.c:234-301.  Two occurrences of a variable with the same name are the same
variable, except `_`.  The limit on the number of variables (747-748, MAX_VAR_IN_TERM is 2^20) is checked
on the term; in the code at each new variable, with the same outcome. -/
def readTerm (l : Loc) (fl : Flags) (E : Env) (e : End) (inp : List Nat) : Option RdRes := do
  let vo := (E.O.inf []).isSome || (E.O.post []).isSome
  match ← parseTerm E 1200 .general false (tokens l fl vo (inp.length + 1) inp) with
  | .err => some .err
  | .ok x r =>
    match nextTok false r with
    | .err => some .err
    | .ok t _ =>
      match x with
      | none =>
        if t = .eof then some (.term (.atom [101, 110, 100, 95, 111, 102, 95, 102, 105, 108, 101]))
        else some .err
      | some a =>
        if nbVars a > 2 ^ 20 then some .err
        else if (e = .dot ∧ t = .fullStop) ∨ (e = .eof ∧ t = .eof) then some (.term a)
        else some .err

end Gp.Rw
