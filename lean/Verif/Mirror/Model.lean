/-
Model of the stream table, of the aliases and of the mirrors.

Modelled code: src/BipsPl/stream_supp.c 170-300 (Init_Stream_Supp), 409-446 (Init_Stream_Struct), 455-747
(Pl_Add_Stream, Pl_Delete_Stream, Find_Free_Stream, aliases, mirrors), 826-906 (Pl_Get_Stream_Or_Alias),
1275-1312 (Basic_Call_Fct_Getc, Basic_Call_Fct_Putc), 1559-1564 (Pl_Stream_Putc); src/BipsPl/stream_c.c
121-200, 210-297 (Pl_Open_3), 336-413, 498-539 (Pl_Close_1, Pl_Close_Stm), 960-1126 (current mirrors),
1424-1554 (term streams); src/BipsPl/stream.pl 110-130, 211-245, 259-330; src/BipsPl/stream_supp.h 352-365
(the current streams are read through the aliases).

Simplifications:
* The table of aliases is the list of its contents, in the order of a scan (`Verif/HashTbl`: C01 for
  insertion and search, C02_scan_with_delete for the deletions during a scan).  The pointers
  pl_alias_current_input, ... into its nodes are the search of their atom: a node is never moved (C02) and
  the predefined aliases are never deleted (proved here).
* A list of mirrors is a list of nodes with their addresses; the addresses which were given back by Free are
  in `freed`, and reading such a node is undefined.  Malloc never gives an address again (so a use after Free
  is always seen).
* The checks of the type (text or binary, Pl_Check_Stream_Type) are not modelled.
* A stream opened for reading which receives characters (only after set_stream_alias/2 made it the current
  output) is like the others here; in the code fputc on it fails.
* The counters of a stream from which characters are read are not here (C36).
* The contents written to a stream is the list of the bytes, the characters read are given by the
  environment.
-/
namespace Gp.Mirror

/-- StmLst (stream_supp.h 133-137) with its address. -/
structure Node where
  id : Nat
  stm : Nat
deriving DecidableEq, Repr

/-- StmInf (stream_supp.h 140-166): `live` is false when `file` was closed by fclose, `special` is
`prop.special_close`, which the term streams have (stream_supp.c:1895).  `out` is what fct_putc received. -/
structure Stm where
  input : Bool
  output : Bool
  special : Bool
  live : Bool
  mirror : List Node
  mirrorOf : List Node
  out : List Nat
  charCount : Nat
  lineCount : Nat
  linePos : Nat
deriving DecidableEq, Repr

/-- pl_stm_tbl, pl_stm_tbl_size, pl_stm_last_used, pl_alias_htbl, and the memory of the list nodes. -/
structure St where
  tbl : Nat → Option Stm
  size : Nat
  last : Nat
  alias : List (Nat × Nat)
  freed : List Nat
  fresh : Nat

/-! The atoms of the predefined aliases (stream_supp.c 191-202); the other atoms are the numbers from 9. -/

def userInput := 0
def userOutput := 1
def userError := 2
def currentInput := 3
def currentOutput := 4
def topInput := 5
def topOutput := 6
def debugInput := 7
def debugOutput := 8

def stdin := 0
def stdout := 1
def stderr := 2

/-- Init_Stream_Struct (stream_supp.c 409-446). -/
def newStm (input special : Bool) : Stm :=
  { input := input, output := !input, special := special, live := true, mirror := [], mirrorOf := [],
    out := [], charCount := 0, lineCount := 0, linePos := 0 }

def upd (f : Nat → Option Stm) (i : Nat) (p : Option Stm) : Nat → Option Stm :=
  fun k => if k = i then p else f k

/-- Init_Stream_Supp (stream_supp.c 170-300). -/
def init : St where
  tbl := fun i => if i = stdin then some (newStm true false)
    else if i = stdout ∨ i = stderr then some (newStm false false) else none
  size := 32
  last := 2
  alias := [(userInput, stdin), (userOutput, stdout), (userError, stderr), (currentInput, stdin),
    (currentOutput, stdout), (topInput, stdin), (topOutput, stdout), (debugInput, stdin), (debugOutput, stdout)]
  freed := []
  fresh := 0

/-- Find_Free_Stream (stream_supp.c 507-525): the search from `i`, with `n` entries left. -/
def findFree (tbl : Nat → Option Stm) : Nat → Nat → Nat
  | i, 0 => i
  | i, n + 1 => if tbl i = none then i else findFree tbl (i + 1) n

/-- Pl_Add_Stream and Pl_Add_Str_Stream (stream_supp.c 455-474, 1898-1906); Pl_Extend_Array doubles the
table (misc.c 239-252). -/
def addStream (s : St) (p : Stm) : St × Nat :=
  let i := findFree s.tbl 0 s.size
  ({ s with
      size := if i = s.size then 2 * s.size else s.size
      tbl := upd s.tbl i (some p)
      last := if i > s.last then i else s.last }, i)

/-- Pl_Find_Stream_By_Alias (stream_supp.c 534-542); none is -1. -/
def findAlias (l : List (Nat × Nat)) (a : Nat) : Option Nat :=
  match l with
  | [] => none
  | (b, i) :: l => if b = a then some i else findAlias l a

def replAlias (l : List (Nat × Nat)) (a i : Nat) : List (Nat × Nat) :=
  l.map (fun e => if e.1 = a then (e.1, i) else e)

/-- Pl_Set_Alias_To_Stream (stream_supp.c 551-580); the Boolean is `!= NULL`. -/
def setAlias (s : St) (a i : Nat) (reassign : Bool) : St × Bool :=
  match findAlias s.alias a with
  | some j =>
    if !reassign then (s, j == i)
    else ({ s with alias := replAlias s.alias a i }, true)
  | none => ({ s with alias := s.alias ++ [(a, i)] }, true)

/-- Del_Aliases_Of_Stream (stream_supp.c 589-627). -/
def delAliases (l : List (Nat × Nat)) (i : Nat) : List (Nat × Nat) :=
  l.filterMap (fun (a, j) =>
    if j ≠ i then some (a, j)
    else if a = userInput ∨ a = currentInput ∨ a = topInput ∨ a = debugInput then some (a, stdin)
    else if a = userOutput ∨ a = currentOutput ∨ a = topOutput ∨ a = debugOutput then some (a, stdout)
    else if a = userError then some (a, stderr)
    else none)

/-- The walk of stream_supp.c 646-648; none: a freed node was read. -/
def findNode (freed : List Nat) : List Node → Nat → Option Bool
  | [], _ => some false
  | n :: l, j => if n.id ∈ freed then none else if n.stm = j then some true else findNode freed l j

/-- Remove_In_Stream_List (stream_supp.c 724-747): the new list and the address which is freed. -/
def removeIn (freed : List Nat) : List Node → Nat → Option (List Node × Option Nat)
  | [], _ => some ([], none)
  | n :: l, j =>
    if n.id ∈ freed then none
    else if n.stm = j then some (l, some n.id)
    else (removeIn freed l j).map (fun r => (n :: r.1, r.2))

/-- Pl_Add_Mirror_To_Stream (stream_supp.c 636-660). -/
def addMirror (s : St) (i j : Nat) : Option St :=
  if i = j then some s
  else match s.tbl i, s.tbl j with
    | some p, some q =>
      match findNode s.freed p.mirror j with
      | none => none
      | some true => some s
      | some false =>
        some { s with
          tbl := upd (upd s.tbl i (some { p with mirror := ⟨s.fresh, j⟩ :: p.mirror })) j
            (some { q with mirrorOf := ⟨s.fresh + 1, i⟩ :: q.mirrorOf })
          fresh := s.fresh + 2 }
    | _, _ => none

/-- Free of a node. -/
def freeNode (s : St) : Option Nat → St
  | none => s
  | some a => { s with freed := a :: s.freed }

/-- Remove_In_Stream_List on the `mirror` list of a stream. -/
def removeMirrorIn (s : St) (i j : Nat) : Option (St × Bool) :=
  match s.tbl i with
  | none => none
  | some p =>
    match removeIn s.freed p.mirror j with
    | none => none
    | some (l, a) => some (freeNode { s with tbl := upd s.tbl i (some { p with mirror := l }) } a, a.isSome)

/-- Remove_In_Stream_List on the `mirror_of` list of a stream. -/
def removeMirrorOfIn (s : St) (i j : Nat) : Option St :=
  match s.tbl i with
  | none => none
  | some p =>
    match removeIn s.freed p.mirrorOf j with
    | none => none
    | some (l, a) => some (freeNode { s with tbl := upd s.tbl i (some { p with mirrorOf := l }) } a)

/-- Pl_Del_Mirror_From_Stream (stream_supp.c 669-680). -/
def delMirror (s : St) (i j : Nat) : Option (St × Bool) :=
  match removeMirrorIn s i j with
  | none => none
  | some (s, false) => some (s, false)
  | some (s, true) => (removeMirrorOfIn s j i).map (·, true)

/-- The first loop of Update_Mirrors_To_Del_Stream (stream_supp.c 696-704). -/
def updMirrors (s : St) (i : Nat) : List Node → Option St
  | [] => some s
  | n :: l =>
    if n.id ∈ s.freed then none
    else match removeMirrorOfIn (freeNode s (some n.id)) n.stm i with
      | none => none
      | some s => updMirrors s i l

/-- The second loop (stream_supp.c 706-714). -/
def updMirrorsOf (s : St) (i : Nat) : List Node → Option St
  | [] => some s
  | n :: l =>
    if n.id ∈ s.freed then none
    else match removeMirrorIn (freeNode s (some n.id)) n.stm i with
      | none => none
      | some (s, _) => updMirrorsOf s i l

/-- `while (pl_stm_tbl[pl_stm_last_used] == NULL) pl_stm_last_used--` (stream_supp.c 496-497); none: the index
becomes negative. -/
def lastUsed (tbl : Nat → Option Stm) : Nat → Option Nat
  | 0 => if tbl 0 = none then none else some 0
  | n + 1 => if tbl (n + 1) = none then lastUsed tbl n else some (n + 1)

/-- Pl_Delete_Stream (stream_supp.c 484-498). -/
def deleteStream (s : St) (i : Nat) (keep : Bool) : Option St :=
  let s := { s with alias := delAliases s.alias i }
  if keep then some s
  else match s.tbl i with
    | none => none
    | some p =>
      match updMirrors s i p.mirror with
      | none => none
      | some s =>
        match updMirrorsOf s i p.mirrorOf with
        | none => none
        | some s =>
          (lastUsed (upd s.tbl i none) s.last).map (fun n => { s with tbl := upd s.tbl i none, last := n })

/-- A stream or an alias: `'$stream'(N)`, an atom. -/
inductive Sora where
  | stream (n : Int)
  | alias (a : Nat)
deriving DecidableEq, Repr

/-- STREAM_CHECK_EXIST, INPUT, OUTPUT (stream_supp.h 72-75). -/
inductive Check where
  | exist | input | output

/-- Pl_Get_Stream_Or_Alias (stream_supp.c 826-906); none is an error.  The test
`(PlULong) stm > (PlULong) pl_stm_last_used` is true for a negative number. -/
def getStream (s : St) (x : Sora) (chk : Check) : Option Nat :=
  let stm : Int := match x with
    | .stream n => n
    | .alias a => match findAlias s.alias a with
      | none => -1
      | some i => i
  if stm < 0 ∨ stm > s.last then none
  else match s.tbl stm.toNat with
    | none => none
    | some p =>
      match chk with
      | .exist => some stm.toNat
      | .input => if p.input then some stm.toNat else none
      | .output => if p.output then some stm.toNat else none

/-- What fputc and Str_Stream_Putc store of an int. -/
def byte (c : Int) : Nat := (c % 256).toNat

/-- Update_Counters (stream_supp.c 1256-1265); EOF is -1. -/
def count (p : Stm) (c : Int) : Stm :=
  let p := if c ≠ -1 then { p with charCount := p.charCount + 1 } else p
  if c = 10 then { p with lineCount := p.lineCount + 1, linePos := 0 } else { p with linePos := p.linePos + 1 }

/-- Results: `deep` is a recursion deeper than the bound given. -/
inductive Res where
  | ok (s : St)
  | ub
  | deep

/-- The loop over the mirrors (stream_supp.c 1290-1291, 1310-1311). -/
def putAll (put : St → Nat → Res) : List Node → St → Res
  | [], s => .ok s
  | n :: l, s =>
    if n.id ∈ s.freed then .ub
    else match put s n.stm with
      | .ok s => putAll put l s
      | r => r

/-- Pl_Stream_Putc (stream_supp.c 1559-1564) with Basic_Call_Fct_Putc (1304-1312); the number bounds the
depth of the recursion. -/
def putc : Nat → St → Nat → Int → Res
  | 0, _, _, _ => .deep
  | f + 1, s, i, c =>
    match s.tbl i with
    | none => .ub
    | some p =>
      if !p.live then .ub
      else
        match putAll (fun s j => putc f s j c) p.mirror
            { s with tbl := upd s.tbl i (some { p with out := p.out ++ [byte c] }) } with
        | .ok s =>
          match s.tbl i with
          | none => .ub
          | some p => .ok { s with tbl := upd s.tbl i (some (count p c)) }
        | r => r

/-- Basic_Call_Fct_Getc (stream_supp.c 1275-1294) when fct_getc returns `c`. -/
def getc (f : Nat) (s : St) (i : Nat) (c : Int) : Res :=
  match s.tbl i with
  | none => .ub
  | some p =>
    if !p.live then .ub
    else if c = -1 then .ok s
    else putAll (fun s j => putc f s j c) p.mirror s

/-- The predicates.  `open`: the mode is read or not, the options alias and mirror, reposition(true) or not,
and whether the file can be repositioned; `close`: the option force, and whether fclose fails; `get`: the
character which is read. -/
inductive Op where
  | «open» (input : Bool) (aliases : List Nat) (mirrors : List Sora) (reposition fileReposition : Bool)
  | openTerm (input : Bool)
  | close (x : Sora) (force closeFails : Bool)
  | closeTerm (input : Bool) (x : Sora)
  | setInput (x : Sora)
  | setOutput (x : Sora)
  | setTop (x y : Sora)
  | setDebug (x y : Sora)
  | addAlias (x : Sora) (a : Nat)
  | setStreamAlias (x : Sora) (a : Nat)
  | addMirror (x y : Sora)
  | removeMirror (x y : Sora)
  | put (x : Option Sora) (c : Int)
  | get (x : Option Sora) (c : Int)

/-- How a predicate ends. -/
inductive Out where
  | ok (s : St)
  | fail (s : St)
  | err (s : St)
  | ub
  | deep

def Out.ofOpt : Option St → Out
  | none => .ub
  | some s => .ok s

def Out.ofRes : Res → Out
  | .ok s => .ok s
  | .ub => .ub
  | .deep => .deep

/-- '$add_aliases_to_stream' (stream.pl 233-237); the result of Pl_Add_Stream_Alias_2 is not tested. -/
def addAliases (s : St) (i : Nat) : List Nat → St
  | [] => s
  | a :: l => addAliases (setAlias s a i false).1 i l

/-- '$add_mirrors_to_stream' (stream.pl 241-245). -/
def addMirrors (s : St) (i : Nat) : List Sora → Out
  | [] => .ok s
  | x :: l =>
    match getStream s x .output with
    | none => .err s
    | some j =>
      match addMirror s i j with
      | none => .ub
      | some s => addMirrors s i l

/-- '$open' and Pl_Open_3 (stream.pl 120-130, 211-225; stream_c.c 210-297), after the file was opened. -/
def openOp (s : St) (input : Bool) (aliases : List Nat) (mirrors : List Sora) (repos fileRepos : Bool) : Out :=
  if aliases.any (fun a => (findAlias s.alias a).isSome) then .err s
  else if mirrors.any (fun x => (getStream s x .output).isNone) then .err s
  else
    if repos && !fileRepos then
      .err (addStream s { newStm input false with live := false }).1     -- stream_c.c 267-274
    else
      let (s, i) := addStream s (newStm input false)
      addMirrors (addAliases s i aliases) i mirrors

/-- Pl_Close_Stm (stream_c.c 510-539). -/
def closeStm (s : St) (i : Nat) (force closeFails : Bool) : Out :=
  match s.tbl i with
  | none => .ub
  | some p =>
    if p.special then .err s
    else if !p.live then .ub
    else if i = stdin ∨ i = stdout ∨ i = stderr then .ofOpt (deleteStream s i true)
    else if closeFails && !force then .err { s with tbl := upd s.tbl i (some { p with live := false }) }
    else .ofOpt (deleteStream s i false)

/-- Pl_Close_Input_Term_Stream_1, Pl_Close_Output_Term_Stream_2 (stream_c.c 1459-1485, 1512-1554), with a
sink which unifies. -/
def closeTermOp (s : St) (input : Bool) (i : Nat) : Out :=
  match s.tbl i with
  | none => .ub
  | some p =>
    if !p.special then .err s
    else if p.input ≠ input then .err s
    else .ofOpt (deleteStream s i false)

/-- A predicate; `f` bounds the depth of the recursion of Pl_Stream_Putc. -/
def step (f : Nat) (s : St) : Op → Out
  | .«open» input aliases mirrors repos fileRepos => openOp s input aliases mirrors repos fileRepos
  | .openTerm input => .ok (addStream s (newStm input true)).1
  | .close x force closeFails =>                                   -- stream_c.c 498-502
    match getStream s x .exist with
    | none => .err s
    | some i => closeStm s i force closeFails
  | .closeTerm input x =>
    match getStream s x .exist with
    | none => .err s
    | some i => closeTermOp s input i
  | .setInput x =>                                                 -- stream_c.c 148-152
    match getStream s x .input with
    | none => .err s
    | some i => .ok (setAlias s currentInput i true).1
  | .setOutput x =>                                                -- stream_c.c 162-166
    match getStream s x .output with
    | none => .err s
    | some i => .ok (setAlias s currentOutput i true).1
  | .setTop x y =>                                                 -- stream_c.c 176-183
    match getStream s x .input with
    | none => .err s
    | some i =>
      let s := (setAlias s topInput i true).1
      match getStream s y .output with
      | none => .err s
      | some j => .ok (setAlias s topOutput j true).1
  | .setDebug x y =>                                               -- stream_c.c 193-200
    match getStream s x .input with
    | none => .err s
    | some i =>
      let s := (setAlias s debugInput i true).1
      match getStream s y .output with
      | none => .err s
      | some j => .ok (setAlias s debugOutput j true).1
  | .addAlias x a =>                                               -- stream_c.c 337-344, stream.pl 306-311
    match getStream s x .exist with
    | none => .err s
    | some i => if (setAlias s a i false).2 then .ok (setAlias s a i false).1 else .err s
  | .setStreamAlias x a =>                                         -- stream_c.c 354-362
    match getStream s x .exist with
    | none => .err s
    | some i => .ok (setAlias s a i true).1
  | .addMirror x y =>                                              -- stream_c.c 385-394
    match getStream s x .exist with
    | none => .err s
    | some i =>
      match getStream s y .output with
      | none => .err s
      | some j => .ofOpt (addMirror s i j)
  | .removeMirror x y =>                                           -- stream_c.c 404-413
    match getStream s x .exist with
    | none => .err s
    | some i =>
      match getStream s y .exist with
      | none => .err s
      | some j =>
        match delMirror s i j with
        | none => .ub
        | some (s, true) => .ok s
        | some (s, false) => .fail s
  | .put x c =>                                                    -- char_io_c.c 510-606
    match (match x with | none => findAlias s.alias currentOutput | some x => getStream s x .output) with
    | none => if x.isSome then .err s else .ub
    | some i => .ofRes (putc f s i c)
  | .get x c =>                                                    -- char_io_c.c 70-500
    match (match x with | none => findAlias s.alias currentInput | some x => getStream s x .input) with
    | none => if x.isSome then .err s else .ub
    | some i => .ofRes (getc f s i c)

/-- The states of the executions of predicates which end, when all of them satisfy `P`. -/
inductive Reach (P : Op → Prop) : St → Prop
  | init : Reach P init
  | ok {s s' : St} {f : Nat} {o : Op} : Reach P s → P o → step f s o = .ok s' → Reach P s'
  | fail {s s' : St} {f : Nat} {o : Op} : Reach P s → P o → step f s o = .fail s' → Reach P s'
  | err {s s' : St} {f : Nat} {o : Op} : Reach P s → P o → step f s o = .err s' → Reach P s'

/-- Pl_Current_Mirror_2 and Pl_Current_Mirror_Alt_0 (stream_c.c 1071-1126): the choice point has the address of
the next node; the alternative reads it in the list of the stream as it is then. -/
def currentMirror (p : Stm) : Option (Nat × Option Nat) :=
  match p.mirror with
  | [] => none
  | n :: l => some (n.stm, l.head?.map (·.id))

/-- Reading the node at an address: none is undefined (it was freed), else its stream and the next address. -/
def readNode (s : St) (a : Nat) (p : Stm) : Option (Nat × Option Nat) :=
  if a ∈ s.freed then none
  else match p.mirror.dropWhile (fun n => n.id ≠ a) with
    | [] => none
    | n :: l => some (n.stm, l.head?.map (·.id))

/-- Pl_SR_Open_File_2 for the file name `user` (src_rdr_c.c 334-343): a new entry is a copy of the structure of
the current input, with the same list nodes. -/
def srOpenUser (s : St) : Option (St × Nat) :=
  match findAlias s.alias currentInput with
  | none => none
  | some i =>
    match s.tbl i with
    | none => none
    | some p => some (addStream s p)

end Gp.Mirror
