import Verif.Unify.Model
/-
Model of the list built-ins written in C: /repo/src/BipsPl/list_c.c, on the memory of the WAM, with the
instructions they use (/repo/src/EnginePl/wam_inst.c).

A call either leaves no choice point, or one choice point whose alternative ('$append_alt', '$member_alt',
'$length_alt', '$reverse_alt' in list.pl:50-71, 103-107, 223-228) is called on backtracking.

Simplifications: a choice point (`CP`) is the state in which it is created and the words saved in its frame
(`A(0)`, `A(1)`, `A(2)`); backtracking restores this state (part Wam, C15), so that HB1 and B, which only
decide what is trailed, are not updated. The loops and the unification are bounded by a fuel; `none` means
that the fuel is exhausted, that the global stack overflows, or that the memory is not well formed.
-/
namespace Gp.ListBip
open Gp.Heap Gp.Unify

/-- `NIL_WORD` (wam_inst.h:45), `ATOM_NIL` is 256 (atom.h:70). -/
abbrev NIL_WORD : Cell := .atm 256

/-- The fuel and the FD solver called by the unification. -/
structure Env where
  fuel : Nat
  fd : FdHooks

/-- The register S: `none` is WRITE_MODE. -/
abbrev Sreg := Option Adr

/-- `Global_Push` (wam_inst.h:183); the global stack is below the local stack, an overflow is not followed. -/
def push (s : St) (w : Cell) : Option St :=
  if s.h < s.lssa then some { s with mem := s.mem.set s.h w, h := s.h + 1 } else none

/-- `Pl_Get_Nil` (wam_inst.c:311-324). -/
def getNil (s : St) (w : Cell) : Option (Bool × St) :=
  match deref s.mem w with
  | none => none
  | some (.ref a) => some (true, s.bindUV a NIL_WORD)
  | some v => some (decide (v = NIL_WORD), s)

/-- `Pl_Get_Integer` (wam_inst.c:245-277). -/
def getInteger (E : Env) (s : St) (n : Int) (w : Cell) : Option (Bool × St) :=
  match deref s.mem w with
  | none => none
  | some (.ref a) => some (true, s.bindUV a (.int n))
  | some (.fdv a) => some (E.fd.withInt s a (toInt32 n))
  | some v => some (decide (v = .int n), s)

/-- `Pl_Get_List` (wam_inst.c:334-354): `some none` is a failure. -/
def getList (s : St) (w : Cell) : Option (Option (St × Sreg)) :=
  match deref s.mem w with
  | none => none
  | some (.ref a) => some (some (s.bindUV a (.lst s.h), none))
  | some (.lst a) => some (some (s, some a))
  | some _ => some none

/-- `Pl_Unify_Variable` (wam_inst.c:710-729). -/
def unifyVariable (s : St) : Sreg → Option (St × Sreg × Cell)
  | some a => some (s, some (a + 1), copyWord (s.mem a))
  | none =>
    match push s (.ref s.h) with
    | none => none
    | some s' => some (s', none, .ref s.h)

/-- `Pl_Unify_Void` (wam_inst.c:739-758), for one word. -/
def unifyVoid1 (s : St) : Sreg → Option (St × Sreg)
  | some a => some (s, some (a + 1))
  | none =>
    match push s (.ref s.h) with
    | none => none
    | some s' => some (s', none)

/-- `Pl_Unify_Value` (wam_inst.c:768-776). -/
def unifyValue (E : Env) (s : St) (S : Sreg) (w : Cell) : Option (Bool × St × Sreg) :=
  match S with
  | some a =>
    match unify false E.fd E.fuel s w (s.mem a) with
    | none => none
    | some (r, s') => some (r, s', some (a + 1))
  | none =>
    match push s w with
    | none => none
    | some s' => some (true, s', none)

/-- A choice point: the state at its creation and the saved argument registers. -/
structure CP where
  st : St
  a0 : Cell
  a1 : Cell
  a2 : Cell

/-- The errors raised by length/2. -/
inductive Err where
  | typeInteger | domainNotLessThanZero | typeList | resourceFiniteMemory
deriving DecidableEq

/-- The result of a call or of an alternative: success or failure with the choice point it leaves, or an error. -/
inductive Out where
  | ret (ok : Bool) (s : St) (cp : Option CP)
  | err (e : Err)

/-- `Pl_List_Length` (term_supp.c:249-271): -1 for a partial list, -2 for another term. -/
def listLength (m : Mem) : Nat → Cell → Int → Option Int
  | 0, _, _ => none
  | f + 1, w, n =>
    match deref m w with
    | none => none
    | some v =>
      if v = NIL_WORD then some n
      else
        match v with
        | .ref _ => some (-1)
        | .lst a => listLength m f (m (a + 1)) (n + 1)
        | _ => some (-2)

/-- `Pl_Blt_List_Or_Partial_List` (type_inl_c.c:291-307). -/
def listOrPartial (m : Mem) : Nat → Cell → Option Bool
  | 0, _ => none
  | f + 1, w =>
    match deref m w with
    | none => none
    | some v =>
      match v with
      | .ref _ => some true
      | .lst a => listOrPartial m f (m (a + 1))
      | v => some (decide (v = NIL_WORD))

/-- The end of a call: `Pl_Unify(u, v)` with a choice point left or not. -/
def retUnify (E : Env) (s : St) (u v : Cell) (cp : Option CP) : Option Out :=
  match unify false E.fd E.fuel s u v with
  | none => none
  | some (r, s') => some (.ret r s' cp)

/-- `Pl_Get_Nil(l)` whose result is not used, then `Pl_Unify(u, v)`. -/
def nilUnify (E : Env) (s : St) (l u v : Cell) (cp : Option CP) : Option Out :=
  match getNil s l with
  | none => none
  | some (_, s') => retUnify E s' u v cp

/-- The test of the tag before the creation of a choice point (list_c.c:133-134, 172-173, 215-217). -/
def varOrList : Cell → Bool
  | .ref _ => true
  | .lst _ => true
  | _ => false

/-- The deterministic case of `Pl_Append_3` (list_c.c:116-128): `n` is `len1`. -/
def appendPrefix (E : Env) (l2 : Cell) : Nat → St → Cell → Cell → Option Out
  | 0, s, l1, l3 => nilUnify E s l1 l2 l3 none
  | n + 1, s, l1, l3 =>
    match deref s.mem l3 with
    | some (.lst adr) =>
      match getList s l1 with
      | some (some (s1, S)) =>
        match unifyValue E s1 S (s1.mem adr) with
        | some (_, s2, S) =>
          match unifyVariable s2 S with
          | some (s3, _, l1') => appendPrefix E l2 n s3 l1' (s3.mem (adr + 1))
          | none => none
        | none => none
      | _ => none
    | _ => none

/-- `Pl_Append_3` when L1 is a variable (list_c.c:110-143). -/
def appendVar (E : Env) (s : St) (l1 l2 l3 : Cell) : Option Out :=
  match listLength s.mem E.fuel l2 0 with
  | none => none
  | some len2 =>
    match (if len2 ≥ 0 then listLength s.mem E.fuel l3 0 else some (-1)) with
    | none => none
    | some len3 =>
      if len2 ≥ 0 ∧ len3 ≥ 0 then
        if len3 - len2 < 0 then some (.ret false s none)
        else appendPrefix E l2 (len3 - len2).toNat s l1 l3
      else
        match deref s.mem l3 with
        | none => none
        | some v => nilUnify E s l1 l2 l3 (if varOrList v then some ⟨s, l1, l2, l3⟩ else none)

/-- `Pl_Append_3` (list_c.c:80-144), the loop on L1 (87-99) has `f` iterations at most. -/
def append3 (E : Env) (l2 : Cell) : Nat → St → Cell → Cell → Option Out
  | 0, _, _, _ => none
  | f + 1, s, l1, l3 =>
    match deref s.mem l1 with
    | none => none
    | some (.lst adr) =>
      match getList s l3 with
      | none => none
      | some none => some (.ret false s none)
      | some (some (s1, S)) =>
        match unifyValue E s1 S (s1.mem adr) with
        | none => none
        | some (false, s2, _) => some (.ret false s2 none)
        | some (true, s2, S) =>
          match unifyVariable s2 S with
          | none => none
          | some (s3, _, l3') => append3 E l2 f s3 (s3.mem (adr + 1)) l3'
    | some v =>
      if v = NIL_WORD then retUnify E s l2 l3 none
      else
        match v with
        | .ref _ => appendVar E s l1 l2 l3
        | _ => some (.ret false s none)

/-- `Pl_Append_Alt_0` (list_c.c:153-178). -/
def appendAlt (E : Env) (c : CP) : Option Out :=
  match getList c.st c.a2 with
  | some (some (s1, S)) =>
    match unifyVariable s1 S with
    | none => none
    | some (s2, S, x) =>
      match unifyVariable s2 S with
      | none => none
      | some (s3, _, a2) =>
        match getList s3 c.a0 with
        | some (some (s4, S)) =>
          match unifyValue E s4 S x with
          | none => none
          | some (_, s5, S) =>
            match unifyVariable s5 S with
            | none => none
            | some (s6, _, a0) =>
              match deref s6.mem a2 with
              | none => none
              | some v => nilUnify E s6 a0 c.a1 a2 (if varOrList v then some ⟨s6, a0, c.a1, a2⟩ else none)
        | _ => none
  | _ => none

/-- `Pl_Member_3` (list_c.c:203-239). The tail is dereferenced after the unification (215): `v` is computed
in the memory `s'` while the choice point restores the memory `s` (`Pl_Delete_Choice_Point`, 229). -/
def member3 (E : Env) : Nat → St → Cell → Cell → Cell → Option Out
  | 0, _, _, _, _ => none
  | f + 1, s, a0, a1, a2 =>
    match unify false E.fd E.fuel s a0 a1 with
    | none => none
    | some (ok, s') =>
      match deref s'.mem a2 with
      | none => none
      | some v =>
        if varOrList v = false then some (.ret ok s' none)
        else if ok then some (.ret true s' (some ⟨s, a0, a1, v⟩))
        else
          match getList s a2 with
          | some (some (s1, S)) =>
            match unifyVariable s1 S with
            | none => none
            | some (s2, S, a1') =>
              match unifyVariable s2 S with
              | none => none
              | some (s3, _, a2') => member3 E f s3 a0 a1' a2'
          | _ => none

/-- `Pl_Member_2` (list_c.c:191-201). -/
def member2 (E : Env) (s : St) (x l : Cell) : Option Out :=
  match getList s l with
  | none => none
  | some none => some (.ret false s none)
  | some (some (s1, S)) =>
    match unifyVariable s1 S with
    | none => none
    | some (s2, S, a1) =>
      match unifyVariable s2 S with
      | none => none
      | some (s3, _, a2) => member3 E E.fuel s3 x a1 a2

/-- `Pl_Member_Alt_0` (list_c.c:248-261). -/
def memberAlt (E : Env) (c : CP) : Option Out :=
  match getList c.st c.a2 with
  | some (some (s1, S)) =>
    match unifyVariable s1 S with
    | none => none
    | some (s2, S, a1) =>
      match unifyVariable s2 S with
      | none => none
      | some (s3, _, a2) => member3 E E.fuel s3 c.a0 a1 a2
  | _ => none

/-- `Pl_Memberchk_2` (list_c.c:270-298); `s0` is the state at `Pl_Defeasible_Open`, restored by
`Pl_Defeasible_Undo` and by `Pl_Defeasible_Close(FALSE)` (wam_inst.c:1682-1715). -/
def memberchkLoop (E : Env) (s0 : St) (x : Cell) : Nat → St → Cell → Option Out
  | 0, _, _ => none
  | f + 1, s, l =>
    match getList s l with
    | none => none
    | some none => some (.ret false s0 none)
    | some (some (s1, S)) =>
      match unifyValue E s1 S x with
      | none => none
      | some (true, s2, S) =>
        match unifyVoid1 s2 S with
        | none => none
        | some (s3, _) => some (.ret true s3 none)
      | some (false, _, S) =>
        match unifyVariable s0 S with
        | none => none
        | some (s3, _, l') => memberchkLoop E s0 x f s3 l'

/-- `Pl_Memberchk_2` (list_c.c:270-298). -/
def memberchk2 (E : Env) (s : St) (x l : Cell) : Option Out := memberchkLoop E s x E.fuel s l

/-- The nondeterministic end of `Pl_Length_2` (list_c.c:411-417) and of `Pl_Length_Alt_0` (442-448). -/
def lengthNil (E : Env) (s : St) (l n : Cell) (len : Int) : Option Out :=
  match getNil s l with
  | none => none
  | some (_, s1) =>
    match getInteger E s1 len n with
    | none => none
    | some (r, s2) => some (.ret r s2 (some ⟨s, l, n, .int len⟩))

/-- The loop of `Pl_Length_2` (list_c.c:336-408): `nw` is the dereferenced second argument, `n` its value or
-1, `iso` the flag strict_iso. The unsigned comparison of line 394 is false when `n` is -1. -/
def lengthLoop (E : Env) (iso : Bool) (nw : Cell) (n : Int) : Nat → St → Cell → Int → Option Out
  | 0, _, _, _ => none
  | f + 1, s, l, len =>
    match deref s.mem l with
    | none => none
    | some v =>
      if v = NIL_WORD then
        if n = len then some (.ret true s none)
        else
          match getInteger E s len nw with
          | none => none
          | some (r, s') => some (.ret r s' none)
      else
        match v with
        | .ref a =>
          if n < 0 then
            if .ref a = nw then some (.err .resourceFiniteMemory) else lengthNil E s l nw len
          else if n = len then
            match getNil s (.ref a) with
            | none => none
            | some (r, s') => some (.ret r s' none)
          else
            match getList s (.ref a) with
            | some (some (s1, S)) =>
              match unifyVoid1 s1 S with
              | none => none
              | some (s2, S) =>
                match unifyVariable s2 S with
                | none => none
                | some (s3, _, l') => lengthLoop E iso nw n f s3 l' (len + 1)
            | _ => none
        | .lst adr =>
          if 0 ≤ n ∧ n < len + 1 then
            if iso then some (.ret false s none)
            else
              match listOrPartial s.mem E.fuel (.lst adr) with
              | none => none
              | some true => some (.ret false s none)
              | some false => some (.err .typeList)
          else lengthLoop E iso nw n f s (s.mem (adr + 1)) (len + 1)
        | _ => if iso then some (.ret false s none) else some (.err .typeList)

/-- `Pl_Length_2` (list_c.c:307-418). -/
def length2 (E : Env) (iso : Bool) (s : St) (l nw : Cell) : Option Out :=
  match deref s.mem nw with
  | none => none
  | some (.int n) =>
    if n < 0 then some (.err .domainNotLessThanZero) else lengthLoop E iso (.int n) n E.fuel s l 0
  | some (.ref a) => lengthLoop E iso (.ref a) (-1) E.fuel s l 0
  | some _ => some (.err .typeInteger)

/-- `Pl_Length_Alt_0` (list_c.c:427-449). -/
def lengthAlt (E : Env) (c : CP) : Option Out :=
  match c.a2 with
  | .int n =>
    match getList c.st c.a0 with
    | some (some (s1, S)) =>
      match unifyVoid1 s1 S with
      | none => none
      | some (s2, S) =>
        match unifyVariable s2 S with
        | none => none
        | some (s3, _, l) => lengthNil E s3 l c.a1 (n + 1)
    | _ => none
  | _ => none

/-- `Pl_Nth0_3` (list_c.c:467-478), after the test of the sign. -/
def nthLoop (E : Env) (x : Cell) : Nat → St → Cell → Option Out
  | n, s, l =>
    match getList s l with
    | none => none
    | some none => some (.ret false s none)
    | some (some (s1, S)) =>
      match unifyVariable s1 S with
      | none => none
      | some (s2, S, e) =>
        match unifyVariable s2 S with
        | none => none
        | some (s3, _, l') =>
          match n with
          | 0 => retUnify E s3 e x none
          | n + 1 => nthLoop E x n s3 l'

/-- `Pl_Nth0_3` (list_c.c:458-479): `z` is the integer read by `Pl_Rd_Integer`. -/
def nth3 (E : Env) (s : St) (z : Int) (l x : Cell) (base : Int) : Option Out :=
  if z - base < 0 then some (.ret false s none) else nthLoop E x (z - base).toNat s l

/-- The allocation of `[x | r]` (list_c.c:503-506, 530-533, 570-573). -/
def pushList (s : St) (x r : Cell) : Option (St × Cell) :=
  match push s x with
  | none => none
  | some s1 =>
    match push s1 r with
    | none => none
    | some s2 => some (s2, .lst s.h)

/-- The deterministic case of `Pl_Reverse_2` (list_c.c:524-536, 546-547): `n` elements are missing. -/
def reverseExtend (E : Env) (l2 : Cell) : Nat → St → Cell → Cell → Option Out
  | 0, s, l1, r => nilUnify E s l1 r l2 none
  | n + 1, s, l1, r =>
    match getList s l1 with
    | some (some (s1, S)) =>
      match unifyVariable s1 S with
      | none => none
      | some (s2, S, x) =>
        match unifyVariable s2 S with
        | none => none
        | some (s3, _, l1') =>
          match pushList s3 x r with
          | none => none
          | some (s4, r') => reverseExtend E l2 n s4 l1' r'
    | _ => none

/-- `Pl_Reverse_2` (list_c.c:487-548), the loop on L1 (496-509) has `f` iterations at most; `r` is
`result_word`. -/
def reverseLoop (E : Env) (l2 : Cell) : Nat → St → Cell → Cell → Nat → Option Out
  | 0, _, _, _, _ => none
  | f + 1, s, l1, r, len1 =>
    match deref s.mem l1 with
    | none => none
    | some (.lst adr) =>
      match pushList s (s.mem adr) r with
      | none => none
      | some (s1, r') => reverseLoop E l2 f s1 (s1.mem (adr + 1)) r' (len1 + 1)
    | some v =>
      if v = NIL_WORD then retUnify E s r l2 none
      else
        match v with
        | .ref _ =>
          match listLength s.mem E.fuel l2 0 with
          | none => none
          | some len2 =>
            if len2 ≥ 0 then
              if len2 < len1 then some (.ret false s none)
              else reverseExtend E l2 (len2 - len1).toNat s l1 r
            else nilUnify E s l1 r l2 (some ⟨s, l1, l2, r⟩)
        | _ => some (.ret false s none)

/-- `Pl_Reverse_2` (list_c.c:487-548). -/
def reverse2 (E : Env) (s : St) (l1 l2 : Cell) : Option Out := reverseLoop E l2 E.fuel s l1 NIL_WORD 0

/-- `Pl_Reverse_Alt_0` (list_c.c:556-579). -/
def reverseAlt (E : Env) (c : CP) : Option Out :=
  match getList c.st c.a0 with
  | some (some (s1, S)) =>
    match unifyVariable s1 S with
    | none => none
    | some (s2, S, x) =>
      match unifyVariable s2 S with
      | none => none
      | some (s3, _, a0) =>
        match pushList s3 x c.a2 with
        | none => none
        | some (s4, r) => nilUnify E s4 a0 r c.a1 (some ⟨s4, a0, c.a1, r⟩)
  | _ => none

/-- The choice point left. -/
def Out.cp : Out → Option CP
  | .ret _ _ cp => cp
  | .err _ => none

/-- The results of the alternative as long as there is a choice point and it is retried. -/
inductive Redo (alt : CP → Option Out) : Option CP → List Out → Prop
  | stop {cp : Option CP} : Redo alt cp []
  | redo {c : CP} {o : Out} {os : List Out} : alt c = some o → Redo alt o.cp os → Redo alt (some c) (o :: os)

/-- The results of a call, followed by any number of retries. -/
def Run (first : Option Out) (alt : CP → Option Out) (os : List Out) : Prop :=
  ∃ o os', first = some o ∧ os = o :: os' ∧ Redo alt o.cp os'

end Gp.ListBip
