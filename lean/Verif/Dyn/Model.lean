import Verif.Dyn.Spec
/-
Model of the dynamic clauses: /repo/src/BipsPl/dynam_supp.c, dynam_supp.h (and the calls of assert_c.c).

* a clause is an address (a number, never reused); the memory of the clauses gives `none` for a freed clause, likewise for the
  information of a predicate (`DynPInf`). The outcome `none` is an access to freed or invalid memory;
* a hash table of an index is a map from keys to headers (Verif/HashTbl proves that the tables are maps); the three tables are
  one map;
* the list `first_dyn_with_erase` / `next_dyn_with_erase` is a list; the list of the erased clauses of a predicate is made of
  pointers, with the special value ALL_MUST_BE_ERASED and the mark in the bit 0;
* the local stack is the list of the choice points made by scans (`scans`) and the list of the clauses of the byte-code
  environments (`envs`), wherever they are in the stack;
* the terms of the clauses, their byte-code and the permission checks are not modelled. The C `int` counters do not overflow.
* OPTIM_FIRST_FOR_SCAN is not defined (dynam_supp.h:39-41), then `first_for_scan` is `first` (dynam_supp.c:54).
-/
namespace Gp.Dyn

/-- The key of an index (`DSwtInf`, dynam_supp.h:97-103): the table and the key in it. -/
inductive IKey where
  | atm (a : Nat)
  | int (n : Int)
  | stc (f : Nat)
deriving DecidableEq

/-- NO_INDEX .. STC_INDEX (dynam_supp.c:78-83). -/
inductive Idx where
  | no
  | var
  | lst
  | key (k : IKey)
deriving DecidableEq

/-- `Index_From_First_Arg` (dynam_supp.c:487-526), NO_INDEX when the arity is 0 (dynam_supp.c:341-342, 952-953). -/
def index : Arg → Idx
  | .none => .no
  | .var => .var
  | .int n => .key (.int n)
  | .atm a => .key (.atm a)
  | .flt => .no
  | .lst => .lst
  | .stc f => .key (.stc f)

/-- `D2ChCell` (dynam_supp.h:71-75). -/
structure Cell where
  next : Option Nat
  prev : Option Nat
deriving DecidableEq

/-- `D2ChHdr` (dynam_supp.h:61-68). -/
structure Hdr where
  first : Option Nat
  last : Option Nat
deriving DecidableEq

/-- A pointer to an erased clause without its mark: NULL, ALL_MUST_BE_ERASED (dynam_supp.c:66) or a clause. -/
inductive EP where
  | null
  | all
  | cl (c : Nat)
deriving DecidableEq

/-- A pointer to an erased clause and its bit 0 (MARK_AS_KEEP, dynam_supp.c:1277-1283). -/
structure EPtr where
  p : EP
  mark : Bool
deriving DecidableEq

/-- NULL. -/
notation "ENULL" => EPtr.mk EP.null false

/-- `struct dyncinf` (dynam_supp.h:78-94). `stamp` is `none` for DYN_STAMP_ALIVE; `arg` gives `p_ind_hdr` and `p_ind_htbl`. -/
structure Cl where
  seq : Cell
  ind : Cell
  dyn : Nat
  arg : Arg
  no : Int
  file : Int
  stamp : Option Nat
  nextErased : EPtr

/-- `struct dynpinf` (dynam_supp.h:106-125). -/
structure Dyn where
  seq : Hdr
  var : Hdr
  lst : Hdr
  tbl : IKey → Option Hdr
  countA : Int
  countZ : Int
  stamp : Nat
  erased : EPtr

/-- `DynScan` (dynam_supp.c:93-106). -/
structure Scan where
  dyn : Nat
  stop : Int
  stamp : Nat
  isSeq : Bool
  xxx : Option Nat
  var : Option Nat
  clause : Option Nat

/-- The memory of the clauses. -/
abbrev Mem := Nat → Option Cl

/-- The state. `pred` gives `pred->dyn`; `next` and `nextDyn` are the next addresses. -/
structure St where
  cl : Mem
  dyn : Nat → Option Dyn
  pred : Nat → Option Nat
  next : Nat
  nextDyn : Nat
  withErase : List Nat
  longest : Nat
  nb : Int
  scans : List Scan
  envs : List Nat

/-- MAX_CLAUSES_BEFORE_CLEAN and MAX_SKIP_BEFORE_CLEAN (dynam_supp.c:68-74): 1000 and 100. -/
structure Par where
  maxErased : Int
  maxSkip : Nat

def St.setDyn (s : St) (d : Nat) (x : Option Dyn) : St := { s with dyn := fun e => if e = d then x else s.dyn e }

def setCl (m : Mem) (c : Nat) (x : Option Cl) : Mem := fun b => if b = c then x else m b

/-! Chains -/

/-- The cell of a clause in the sequential or the indexical chain (dynam_supp.c:541, 586). -/
def getCell (C : Cl) (seq : Bool) : Cell := if seq then C.seq else C.ind

def putCell (C : Cl) (seq : Bool) (x : Cell) : Cl := if seq then { C with seq := x } else { C with ind := x }

/-- Write in the cell of a clause. -/
def updCell (m : Mem) (seq : Bool) (c : Nat) (f : Cell → Cell) : Option Mem :=
  match m c with
  | none => none
  | some C => some (setCl m c (some (putCell C seq (f (getCell C seq)))))

/-- `Add_To_2Chain` (dynam_supp.c:538-574). -/
def add2 (m : Mem) (h : Hdr) (c : Nat) (seq front : Bool) : Option (Mem × Hdr) :=
  match h.first with
  | none =>
    match updCell m seq c (fun _ => ⟨none, none⟩) with
    | none => none
    | some m1 => some (m1, ⟨some c, some c⟩)
  | some f =>
    if front then
      match updCell m seq c (fun _ => ⟨some f, none⟩) with
      | none => none
      | some m1 =>
        match updCell m1 seq f (fun x => { x with prev := some c }) with
        | none => none
        | some m2 => some (m2, { h with first := some c })
    else
      match h.last with
      | none => none
      | some e =>
        match updCell m seq e (fun x => { x with next := some c }) with
        | none => none
        | some m1 =>
          match updCell m1 seq c (fun _ => ⟨none, some e⟩) with
          | none => none
          | some m2 => some (m2, { h with last := some c })

/-- The first part of `Remove_From_2Chain` (dynam_supp.c:592-603): the link of the previous cell. -/
def remPrev (m : Mem) (h : Hdr) (x : Cell) (seq : Bool) : Option (Mem × Hdr) :=
  match x.prev with
  | none => some (m, { h with first := x.next })
  | some p =>
    match updCell m seq p (fun y => { y with next := x.next }) with
    | none => none
    | some m1 => some (m1, h)

/-- The second part of `Remove_From_2Chain` (dynam_supp.c:605-613): the link of the next cell. -/
def remNext (m : Mem) (h : Hdr) (x : Cell) (seq : Bool) : Option (Mem × Hdr) :=
  match x.next with
  | none => some (m, { h with last := x.prev })
  | some n =>
    match updCell m seq n (fun y => { y with prev := x.prev }) with
    | none => none
    | some m1 => some (m1, h)

/-- `Remove_From_2Chain` (dynam_supp.c:583-614). -/
def rem2 (m : Mem) (h : Hdr) (c : Nat) (seq : Bool) : Option (Mem × Hdr) :=
  match m c with
  | none => none
  | some C =>
    match remPrev m h (getCell C seq) seq with
    | none => none
    | some (m1, h1) => remNext m1 h1 (getCell C seq) seq

/-- The header of an index (`p_ind_hdr`); outer `none`: no header (NO_INDEX), inner `none`: there is no such key. -/
def getHdr (D : Dyn) : Idx → Option (Option Hdr)
  | .no => none
  | .var => some (some D.var)
  | .lst => some (some D.lst)
  | .key k => some (D.tbl k)

/-- Store a header (`none` removes the key). -/
def setHdr (D : Dyn) (i : Idx) (h : Option Hdr) : Dyn :=
  match i, h with
  | .no, _ => D
  | .var, some h => { D with var := h }
  | .var, none => D
  | .lst, some h => { D with lst := h }
  | .lst, none => D
  | .key k, h => { D with tbl := fun k' => if k' = k then h else D.tbl k' }

/-! Adding a clause -/

/-- `Alloc_Init_Dyn_Info` (dynam_supp.c:458-479). -/
def newDyn : Dyn := ⟨⟨none, none⟩, ⟨none, none⟩, ⟨none, none⟩, fun _ => none, -1, 0, 0, ENULL⟩

/-- The `pred->dyn` used by `Pl_Add_Dynamic_Clause`, allocated if needed (dynam_supp.c:334-336). -/
def ensureDyn (s : St) (p : Nat) : St × Nat :=
  match s.pred p with
  | some d => (s, d)
  | none => ({ (s.setDyn s.nextDyn (some newDyn)) with
                 pred := fun q => if q = p then some s.nextDyn else s.pred q, nextDyn := s.nextDyn + 1 }, s.nextDyn)

/-- The indexical chain of a new clause (dynam_supp.c:391-441). -/
def addInd (m : Mem) (D : Dyn) (c : Nat) (i : Idx) (front : Bool) : Option (Mem × Dyn) :=
  match getHdr D i with
  | none => some (m, D)
  | some h =>
    match add2 m (h.getD ⟨none, none⟩) c false front with
    | none => none
    | some (m1, h1) => some (m1, setHdr D i (some h1))

/-- `Pl_Add_Dynamic_Clause` from the allocation of the clause (dynam_supp.c:355-441). -/
def addTo (s : St) (d : Nat) (arg : Arg) (file : Int) (front : Bool) : Option (St × Nat) :=
  match s.dyn d with
  | none => none
  | some D =>
    let c := s.next
    let C : Cl := { seq := ⟨none, none⟩, ind := ⟨none, none⟩, dyn := d, arg := arg, no := if front then D.countA else D.countZ,
                    file := file, stamp := none, nextErased := ENULL }
    match add2 (setCl s.cl c (some C)) D.seq c true front with
    | none => none
    | some (m1, h1) =>
      let D1 := { D with seq := h1, countA := if front then D.countA - 1 else D.countA,
                         countZ := if front then D.countZ else D.countZ + 1 }
      match addInd m1 D1 c (index arg) front with
      | none => none
      | some (m2, D2) => some ({ s.setDyn d (some D2) with cl := m2, next := s.next + 1 }, c)

/-- `Pl_Add_Dynamic_Clause` (dynam_supp.c:287-450). -/
def addClause (s : St) (p : Nat) (arg : Arg) (file : Int) (front : Bool) : Option (St × Nat) :=
  addTo (ensureDyn s p).1 (ensureDyn s p).2 arg file front

/-! Reclamation -/

/-- The indexical part of `Unlink_And_Free_Clause` (dynam_supp.c:660-676); `C` is the content of the clause. -/
def unlinkInd (m : Mem) (D : Dyn) (c : Nat) (C : Cl) : Option (Mem × Dyn) :=
  match getHdr D (index C.arg) with
  | none => some (m, D)
  | some none => none
  | some (some h) =>
    match rem2 m h c false with
    | none => none
    | some (m1, h1) =>
      match index C.arg with
      | .key k =>
        if C.ind.prev = none ∧ C.ind.next = none then some (m1, setHdr D (.key k) none) else some (m1, setHdr D (.key k) (some h1))
      | i => some (m1, setHdr D i (some h1))

/-- `Unlink_And_Free_Clause` and `Free_Clause` (dynam_supp.c:646-682, 623-637). -/
def unlinkFree (s : St) (c : Nat) : Option St :=
  match s.cl c with
  | none => none
  | some C =>
    match s.dyn C.dyn with
    | none => none
    | some D =>
      match rem2 s.cl D.seq c true with
      | none => none
      | some (m1, h1) =>
        match unlinkInd m1 { D with seq := h1 } c C with
        | none => none
        | some (m2, D2) => some { s.setDyn C.dyn (some D2) with cl := setCl m2 c none, nb := s.nb - 1 }

/-- The loop on the erased clauses of a predicate (dynam_supp.c:1391-1395). -/
def freeErased (s : St) : Nat → EPtr → Option St
  | fuel + 1, ⟨.cl c, false⟩ =>
    match s.cl c with
    | none => none
    | some C =>
      match unlinkFree s c with
      | none => none
      | some s' => freeErased s' fuel C.nextErased
  | _, ENULL => some s
  | _, _ => none

/-- The clauses of a sequential chain from a pointer; `none` if a clause is freed (or if the chain is longer than `fuel`). -/
def walk (m : Mem) : Nat → Option Nat → Option (List Nat)
  | _, none => some []
  | 0, some _ => none
  | fuel + 1, some c =>
    match m c with
    | none => none
    | some C =>
      match walk m fuel C.seq.next with
      | none => none
      | some l => some (c :: l)

/-- A predicate without clauses is reset (dynam_supp.c:1400-1414). -/
def resetDyn (D : Dyn) : Dyn :=
  if D.seq.first = none then { D with erased := ENULL, tbl := fun _ => none, countA := -1, countZ := 0 }
  else { D with erased := ENULL }

/-- The cleaning of a predicate which is not marked (dynam_supp.c:1360-1414). -/
def cleanDyn (s : St) (d : Nat) (D : Dyn) : Option St :=
  if D.erased.p = .all then
    match walk s.cl s.next D.seq.first with
    | none => none
    | some l => some { (s.setDyn d none) with cl := fun c => if c ∈ l then none else s.cl c, nb := s.nb - l.length }
  else
    match freeErased s s.next D.erased with
    | none => none
    | some s' =>
      match s'.dyn d with
      | none => none
      | some D' => some (s'.setDyn d (some (resetDyn D')))

/-- The loop of `GC_Clause` on the predicates with erased clauses (dynam_supp.c:1346-1420); `kept` is reversed. -/
def cleanAll (s : St) : List Nat → List Nat → Option St
  | [], kept => some { s with withErase := kept.reverse }
  | d :: todo, kept =>
    match s.dyn d with
    | none => none
    | some D =>
      if D.erased.mark then cleanAll (s.setDyn d (some { D with erased := { D.erased with mark := false } })) todo (d :: kept)
      else
        match cleanDyn s d D with
        | none => none
        | some s' => cleanAll s' todo kept

/-- MARK_AS_KEEP (dynam_supp.c:1277-1278). -/
def markDyn (s : St) (d : Nat) (D : Dyn) : St := s.setDyn d (some { D with erased := { D.erased with mark := true } })

/-- The loop on the choice points (dynam_supp.c:1292-1309). -/
def markScans (s : St) : List Scan → Option St
  | [] => some s
  | sc :: l =>
    match s.dyn sc.dyn with
    | none => none
    | some D => markScans (if D.erased = ENULL then s else markDyn s sc.dyn D) l

/-- The loop on the environments (dynam_supp.c:1317-1344). -/
def markEnvs (s : St) : List Nat → Option St
  | [] => some s
  | c :: l =>
    match s.cl c with
    | none => none
    | some C =>
      match s.dyn C.dyn with
      | none => none
      | some D => markEnvs (markDyn s C.dyn D) l

/-- `GC_Clause` when it is not too early (dynam_supp.c:1288-1422). -/
def gcRun (s : St) : Option St :=
  match markScans s s.scans with
  | none => none
  | some s1 =>
    match markEnvs s1 s1.envs with
    | none => none
    | some s2 =>
      match cleanAll s2 s2.withErase [] with
      | none => none
      | some s3 => some { s3 with longest := 0 }

/-- `GC_Clause` (dynam_supp.c:1258-1428). -/
def gc (P : Par) (s : St) : Option St :=
  if s.nb < P.maxErased ∧ s.longest < P.maxSkip then some s else gcRun s

/-! Deletion -/

/-- `Pl_Delete_Dynamic_Clause` before `GC_Clause` (dynam_supp.c:690-726). -/
def eraseClause (s : St) (c : Nat) (C : Cl) (D : Dyn) : St :=
  { (s.setDyn C.dyn (some { D with erased := ⟨.cl c, false⟩ })) with
      cl := setCl s.cl c (some { C with stamp := some D.stamp, nextErased := D.erased })
      withErase := if D.erased = ENULL then C.dyn :: s.withErase else s.withErase
      nb := s.nb + 1 }

/-- `Pl_Delete_Dynamic_Clause` (dynam_supp.c:690-742). -/
def delClause (P : Par) (s : St) (c : Nat) : Option St :=
  match s.cl c with
  | none => none
  | some C =>
    if C.stamp.isSome then some s
    else
      match s.dyn C.dyn with
      | none => none
      | some D => gc P (eraseClause s c C D)

/-- The number of clauses of a list which are not erased. -/
def countAlive (m : Mem) : List Nat → Int
  | [] => 0
  | c :: l => (match m c with | some C => if C.stamp = none then 1 else 0 | none => 0) + countAlive m l

/-- `Erase_All` and `pred->dyn = NULL` (dynam_supp.c:788-820, 893-894). `GC_Clause` does not use `pred->dyn`: here it is set
before. -/
def eraseAll (P : Par) (s : St) (p : Nat) : Option St :=
  match s.pred p with
  | none => some s
  | some d =>
    match s.dyn d with
    | none => none
    | some D =>
      match walk s.cl s.next D.seq.first with
      | none => none
      | some l =>
        gc P { (s.setDyn d (some { D with erased := ⟨.all, false⟩ })) with
                 withErase := if D.erased = ENULL then d :: s.withErase else s.withErase
                 nb := s.nb + countAlive s.cl l
                 pred := fun q => if q = p then none else s.pred q }

/-- The loop of `Erase_All_Clauses_Of_File` (dynam_supp.c:765-771). -/
def eraseFileLoop (P : Par) (f : Int) : Nat → St → Option Nat → Option St
  | _, s, none => some s
  | 0, _, some _ => none
  | fuel + 1, s, some c =>
    match s.cl c with
    | none => none
    | some C =>
      if C.file = f then
        match delClause P s c with
        | none => none
        | some s' =>
          match s'.cl c with
          | none => none                                     -- 765: clause->seq_chain.next, the clause was freed
          | some C' => eraseFileLoop P f fuel s' C'.seq.next
      else eraseFileLoop P f fuel s C.seq.next

/-- `Erase_All_Clauses_Of_File` (dynam_supp.c:753-778). -/
def eraseFile (P : Par) (s : St) (p : Nat) (f : Int) : Option St :=
  match s.pred p with
  | none => some s
  | some d =>
    match s.dyn d with
    | none => none
    | some D =>
      match eraseFileLoop P f s.next s D.seq.first with
      | none => none
      | some s' => gc P s'

/-! Scans -/

/-- The next clause on a chain. -/
def chainNext (C : Cl) (seq : Bool) : Option Nat := (getCell C seq).next

/-- The selection of the clause with the least number on the two chains and the advance on its chain (dynam_supp.c:1074-1110).
`some none`: both chains are at their end. -/
def pick (m : Mem) (sc : Scan) : Option (Option (Cl × Nat × Scan)) :=
  match sc.xxx, sc.var with
  | none, none => some none
  | some x, none =>
    match m x with
    | none => none
    | some X => some (some (X, x, { sc with xxx := chainNext X sc.isSeq }))
  | none, some v =>
    match m v with
    | none => none
    | some V => some (some (V, v, { sc with var := chainNext V false }))
  | some x, some v =>
    match m x, m v with
    | some X, some V =>
      if X.no ≤ V.no then some (some (X, x, { sc with xxx := chainNext X sc.isSeq }))
      else some (some (V, v, { sc with var := chainNext V false }))
    | _, _ => none

/-- `Is_LDUV_Deleted` (dynam_supp.c:137). -/
def lduvDeleted (sc : Scan) (C : Cl) : Bool :=
  match C.stamp with
  | none => false
  | some e => e ≤ sc.stamp

/-- `Scan_Dynamic_Pred_Next` (dynam_supp.c:1047-1147): the scan with its new `clause`, and the number of skipped clauses (0 when
the scan is at its end, since it is not taken into account then). -/
def scanNext (m : Mem) : Nat → Nat → Scan → Option (Scan × Nat)
  | 0, _, _ => none
  | fuel + 1, skip, sc =>
    match pick m sc with
    | none => none
    | some none => some ({ sc with clause := none }, 0)
    | some (some (C, c, sc')) =>
      if C.no ≥ sc.stop then some ({ sc' with clause := none }, 0)
      else if lduvDeleted sc C then scanNext m fuel (skip + 1) sc'
      else some ({ sc' with clause := some c }, skip)

/-- The initial scan (dynam_supp.c:955-1013). -/
def initScan (d : Nat) (D : Dyn) (i : Idx) : Scan :=
  match i with
  | .no | .var => ⟨d, D.countZ, D.stamp, true, D.seq.first, none, none⟩
  | .lst => ⟨d, D.countZ, D.stamp, false, D.lst.first, D.var.first, none⟩
  | .key k => ⟨d, D.countZ, D.stamp, false, (match D.tbl k with | none => none | some h => h.first), D.var.first, none⟩

/-- `longest_skip_erased` (dynam_supp.c:1131-1132). -/
def upLongest (s : St) (k : Nat) : St := { s with longest := if k > s.longest then k else s.longest }

/-- `Pl_Scan_Dynamic_Pred` after `GC_Clause` (dynam_supp.c:948-1038). -/
def startOn (s : St) (d : Nat) (arg : Arg) : Option (St × Option Nat) :=
  match s.dyn d with
  | none => none
  | some D =>
    let s1 := s.setDyn d (some { D with stamp := D.stamp + 1 })
    match scanNext s1.cl (2 * s1.next + 1) 0 (initScan d D (index arg)) with
    | none => none
    | some (sc, k) =>
      match sc.clause with
      | none => some (s1, none)
      | some c =>
        match scanNext s1.cl (2 * s1.next + 1) 0 sc with
        | none => none
        | some (sc', k') =>
          let s2 := upLongest (upLongest s1 k) k'
          match sc'.clause with
          | none => some (s2, some c)
          | some _ => some ({ s2 with scans := sc' :: s2.scans }, some c)

/-- `Pl_Scan_Dynamic_Pred` (dynam_supp.c:914-1039), fails if there is no `pred->dyn` (assert_c.c:149-151, 237-239). -/
def startScan (P : Par) (s : St) (p : Nat) (arg : Arg) : Option (St × Option Nat) :=
  match s.pred p with
  | none => some (s, none)
  | some d =>
    match gc P s with
    | none => none
    | some s' => startOn s' d arg

/-- `Pl_Scan_Dynamic_Pred_Alt_0` (dynam_supp.c:1157-1187) until the call of `alt_fct`, for the last choice point. -/
def redoScan (s : St) : Option (St × Option Nat) :=
  match s.scans with
  | [] => some (s, none)
  | sc :: l =>
    match sc.clause with
    | none => none
    | some c =>
      match scanNext s.cl (2 * s.next + 1) 0 sc with
      | none => none
      | some (sc', k) =>
        let s1 := upLongest s k
        match sc'.clause with
        | none => some ({ s1 with scans := l }, some c)
        | some _ => some ({ s1 with scans := sc' :: l }, some c)

/-- What is done with the clause: it is copied (`Pl_Copy_Clause_To_Heap`, assert_c.c:162, 181), then deleted by retract/1
(assert_c.c:250-255, 271-275); or its byte-code is executed with an environment (bc_supp.c:1096). -/
def doAct (P : Par) (s : St) (c : Option Nat) (act : Act) : Option (St × Option Nat) :=
  match c with
  | none => some (s, none)
  | some c =>
    match s.cl c with
    | none => none
    | some _ =>
      match act with
      | .read => some (s, some c)
      | .retract =>
        match delClause P s c with
        | none => none
        | some s' => some (s', some c)
      | .enter => some ({ s with envs := c :: s.envs }, some c)

/-- An operation: the new state and the clause given. A cut removes the last choice points; an environment may be discarded at
any time. -/
def step (P : Par) (s : St) : Op → Option (St × Option Nat)
  | .add p arg file front =>
    match addClause s p arg file front with
    | none => none
    | some (s', c) => some (s', some c)
  | .start p arg act =>
    match startScan P s p arg with
    | none => none
    | some (s', c) => doAct P s' c act
  | .redo act =>
    match redoScan s with
    | none => none
    | some (s', c) => doAct P s' c act
  | .cut k => some ({ s with scans := s.scans.drop k }, none)
  | .leave k => some ({ s with envs := s.envs.eraseIdx k }, none)
  | .eraseAll p =>
    match eraseAll P s p with
    | none => none
    | some s' => some (s', none)
  | .eraseFile p f =>
    match eraseFile P s p f with
    | none => none
    | some s' => some (s', none)

/-- The initial state. -/
def init : St := ⟨fun _ => none, fun _ => none, fun _ => none, 0, 0, [], 0, 0, [], []⟩

end Gp.Dyn
