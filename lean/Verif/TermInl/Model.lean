import Verif.ListBip.Model
/-
Model of the inspection and the construction of terms: arg/3, functor/3, =../2, setarg/3-4, term_variables/2-3
and subsumes_term/2 (/repo/src/BipsPl/term_inl_c.c, with the traversal of term_supp.c:190-237 and the checks of
c_supp.c), on the memory of the WAM.

Simplifications: the loops, the recursions and the unification are bounded by a fuel; `none` means that the fuel is
exhausted, that the global stack overflows, or that the memory is not well formed. An error only has the
information needed to distinguish the errors (its culprit is not modelled). The registers of the predicate name
(Pl_Set_C_Bip_Name) are not modelled.
-/
namespace Gp.TermInl
open Gp.Heap Gp.Unify Gp.ListBip

/-- `ATOM_CHAR('.')` (atom.h:203). -/
abbrev DOT : Nat := 46

/-- `MAX_ARITY` (pl_params.h:48-49). -/
abbrev MAX_ARITY : Nat := 255

/-- `MAX_VAR_IN_TERM` (b_params.h:41). -/
abbrev MAX_VAR : Nat := 1024 * 1024

/-- The errors raised. -/
inductive Err where
  | instantiation
  | typeAtomic | typeAtom | typeInteger | typeCompound | typeList
  | domainNotLessThanZero | domainNonEmptyList
  | reprMaxArity | reprTooManyVariables
deriving DecidableEq

/-- The result of a built-in. -/
inductive Out where
  | ret (ok : Bool) (s : St)
  | err (e : Err)

/-- `Pl_Rd_Integer_Check` (c_supp.c:218-230). -/
def rdInteger (m : Mem) (w : Cell) : Option (Except Err Int) :=
  match deref m w with
  | none => none
  | some (.ref _) => some (.error .instantiation)
  | some (.int z) => some (.ok z)
  | some _ => some (.error .typeInteger)

/-- `Pl_Rd_Positive_Check` (c_supp.c:257-265). -/
def rdPositive (m : Mem) (w : Cell) : Option (Except Err Int) :=
  match rdInteger m w with
  | some (.ok z) => if z < 0 then some (.error .domainNotLessThanZero) else some (.ok z)
  | r => r

/-- `Pl_Rd_Compound_Check` (c_supp.c:1352-1380): the address of the first argument, the functor and the arity. -/
def rdCompound (m : Mem) (w : Cell) : Option (Except Err (Adr × Nat × Nat)) :=
  match deref m w with
  | none => none
  | some (.ref _) => some (.error .instantiation)
  | some (.lst a) => some (.ok (a, DOT, 2))
  | some (.stc a) =>
    match m a with
    | .fn f n => some (.ok (a + 1, f, n))
    | _ => none
  | some _ => some (.error .typeCompound)

/-- `Pl_Unify`, the result of a built-in. -/
def unifyOut (E : Env) (s : St) (u v : Cell) : Option Out :=
  match unify false E.fd E.fuel s u v with
  | none => none
  | some (r, s') => some (.ret r s')

/-- `Pl_Blt_Arg` (term_inl_c.c:196-212). `bits` is the size of `unsigned long`: 64, but 32 on 64 bits Windows where
`PlLong` has 64 bits (pl_long.h:49); `arg_adr[arg_no]` uses the whole `arg_no`. -/
def arg3 (bits : Nat) (E : Env) (s : St) (nw tw aw : Cell) : Option Out :=
  match rdPositive s.mem nw with
  | none => none
  | some (.error e) => some (.err e)
  | some (.ok n) =>
    match rdCompound s.mem tw with
    | none => none
    | some (.error e) => some (.err e)
    | some (.ok (a, _, k)) =>
      if (n - 1) % 2 ^ bits < k then
        (if n < 1 then none else unifyOut E s aw (s.mem (a + (n - 1).toNat)))
      else some (.ret false s)

/-- `Pl_Un_Atom_Check` (c_supp.c:1976-1981, 106-111) with `Pl_Get_Atom` (wam_inst.c:208-235). -/
def unAtom (s : St) (i : Nat) (w : Cell) : Option Out :=
  match deref s.mem w with
  | none => none
  | some (.ref a) => some (.ret true (s.bindUV a (.atm i)))
  | some (.atm j) => some (.ret (decide (j = i)) s)
  | some _ => some (.err .typeAtom)

/-- `Pl_Un_Integer_Check` (c_supp.c:1855-1860, 71-76) with `Pl_Get_Integer` (wam_inst.c:245-277). -/
def unInteger (s : St) (z : Int) (w : Cell) : Option Out :=
  match deref s.mem w with
  | none => none
  | some (.ref a) => some (.ret true (s.bindUV a (.int z)))
  | some (.int y) => some (.ret (decide (y = z)) s)
  | some _ => some (.err .typeInteger)

/-- `res1 && res2`. -/
def andThen (o : Option Out) (f : St → Option Out) : Option Out :=
  match o with
  | some (.ret true s) => f s
  | o => o

/-- `Pl_Unify_Void(n)` in write mode (wam_inst.c:739-758). -/
def pushVars : Nat → St → Option St
  | 0, s => some s
  | n + 1, s =>
    match push s (.ref s.h) with
    | none => none
    | some s' => pushVars n s'

/-- The end of a call which succeeds if there is room in the global stack. -/
def succeed (o : Option St) : Option Out :=
  match o with
  | none => none
  | some s => some (.ret true s)

/-- `Pl_Get_List` and `Pl_Unify_Void(2)` on a variable (term_inl_c.c:268, wam_inst.c:334-345). -/
def newList (s : St) (a : Adr) : Option Out := succeed (pushVars 2 (s.bindUV a (.lst s.h)))

/-- `Pl_Get_Structure` and `Pl_Unify_Void(arity)` on a variable (term_inl_c.c:274-275, wam_inst.c:364-379). -/
def newStruct (s : St) (a : Adr) (f n : Nat) : Option Out :=
  match push s (.fn f n) with
  | none => none
  | some s1 => succeed (pushVars n (s1.bindUV a (.stc s.h)))

/-- `Pl_Blt_Functor`, the term is the unbound variable `a` (term_inl_c.c:249-288); `Pl_Unify(functor_word, term_word)`
(283) binds the variable. -/
def functorNew (s : St) (a : Adr) (fw nw : Cell) : Option Out :=
  match deref s.mem fw with
  | none => none
  | some w =>
    match w with
    | .ref _ => some (.err .instantiation)
    | .atm f =>
      match rdPositive s.mem nw with
      | none => none
      | some (.error e) => some (.err e)
      | some (.ok n) =>
        if n > MAX_ARITY then some (.err .reprMaxArity)
        else if f = DOT ∧ n = 2 then newList s a
        else if n > 0 then newStruct s a f n.toNat
        else some (.ret true (s.bindUV a w))
    | .int _ | .flt _ =>
      match rdPositive s.mem nw with
      | none => none
      | some (.error e) => some (.err e)
      | some (.ok n) =>
        if n > MAX_ARITY then some (.err .reprMaxArity)
        else if n ≠ 0 then some (.err .typeAtom)
        else some (.ret true (s.bindUV a w))
    | _ => some (.err .typeAtomic)

/-- `Pl_Blt_Functor` (term_inl_c.c:221-292). -/
def functor3 (E : Env) (s : St) (tw fw nw : Cell) : Option Out :=
  match deref s.mem tw with
  | none => none
  | some (.ref a) => functorNew s a fw nw
  | some (.lst _) => andThen (unAtom s DOT fw) fun s' => unInteger s' 2 nw
  | some (.stc a) =>
    match s.mem a with
    | .fn f n => andThen (unAtom s f fw) fun s' => unInteger s' n nw
    | _ => none
  | some w => andThen (unifyOut E s w fw) fun s' => unInteger s' 0 nw

/-- An element to put in a list: a given word, or the word which is at an address when it is needed. -/
inductive Item where
  | word (w : Cell)
  | «at» (a : Adr)

/-- The word of an element. -/
def Item.get (m : Mem) : Item → Cell
  | .word w => w
  | .at a => m a

/-- The loops of =../2 (term_inl_c.c:356-368) and term_variables/2 (583-588): unify the list with the given elements,
`some (some l)` is what remains of the list. -/
def fill (E : Env) : List Item → St → Cell → Option (Option Cell × St)
  | [], s, l => some (some l, s)
  | i :: is, s, l =>
    match getList s l with
    | none => none
    | some none => some (none, s)
    | some (some (s1, S)) =>
      match unifyValue E s1 S (i.get s.mem) with
      | none => none
      | some (false, s2, _) => some (none, s2)
      | some (true, s2, S2) =>
        match unifyVariable s2 S2 with
        | none => none
        | some (s3, _, l') => fill E is s3 l'

/-- The loop, then `Pl_Get_Nil` on the rest of the list (term_inl_c.c:356-370). -/
def fillNil (E : Env) (is : List Item) (s : St) (l : Cell) : Option Out :=
  match fill E is s l with
  | none => none
  | some (none, s') => some (.ret false s')
  | some (some l', s') =>
    match getNil s' l' with
    | none => none
    | some (r, s'') => some (.ret r s'')

/-- `Pl_Check_For_Un_List` (c_supp.c:1769-1773), then the loop. -/
def unList (E : Env) (is : List Item) (s : St) (l : Cell) : Option Out :=
  match listOrPartial s.mem E.fuel l with
  | none => none
  | some false => some (.err .typeList)
  | some true => fillNil E is s l

/-- `Pl_Blt_Univ`, the loop which pushes the arguments (term_inl_c.c:420-438): `a` is the address of the list cell, `k`
the number of arguments already pushed. -/
def univLoop : Nat → St → Adr → Nat → Option (Except Err (St × Nat))
  | 0, _, _, _ => none
  | f + 1, s, a, k =>
    match deref s.mem (s.mem a) with
    | none => none
    | some w =>
      match push s (copyWord w) with
      | none => none
      | some s1 =>
        match deref s1.mem (s1.mem (a + 1)) with
        | none => none
        | some v =>
          if v = NIL_WORD then some (.ok (s1, k + 1))
          else
            match v with
            | .ref _ => some (.error .instantiation)
            | .lst b => univLoop f s1 b (k + 1)
            | _ => some (.error .typeList)

/-- `*stc_adr = Functor_Arity(functor, arity)` (term_inl_c.c:448). -/
def setFn (s : St) (a f n : Nat) : St := { s with mem := s.mem.set a (.fn f n) }

/-- `Pl_Blt_Univ`, the end of the construction (term_inl_c.c:440-457): `p` is `stc_adr`, `a` the variable. -/
def univEnd (s : St) (p a f k : Nat) : Option Out :=
  if k > MAX_ARITY then some (.err .reprMaxArity)
  else if f = DOT ∧ k = 2 then some (.ret true (s.bindUV a (.lst (p + 1))))
  else some (.ret true ((setFn s p f k).bindUV a (.stc p)))

/-- `Pl_Blt_Univ`, the list cell is at `b`, it has at least one argument (term_inl_c.c:406-449); `H++` (415) reserves
the word of the functor. -/
def univArgs (E : Env) (s : St) (a : Adr) (f : Nat) (c : Adr) : Option Out :=
  if s.h < s.lssa then
    match univLoop E.fuel { s with h := s.h + 1 } c 0 with
    | none => none
    | some (.error e) => some (.err e)
    | some (.ok (s1, k)) => univEnd s1 s.h a f k
  else none

/-- The words which are atomic for =../2 and functor/3: TAG_ATM_MASK, TAG_INT_MASK, TAG_FLT_MASK. -/
def isAtomic : Cell → Bool
  | .atm _ => true
  | .int _ => true
  | .flt _ => true
  | _ => false

/-- `Pl_Blt_Univ`, the first element of the list is `fw`, the rest `v` is neither `[]` nor a variable
(term_inl_c.c:406-411). -/
def univBody (E : Env) (s : St) (a : Adr) (fw v : Cell) : Option Out :=
  match fw with
  | .atm f =>
    match v with
    | .lst c => univArgs E s a f c
    | _ => some (.err .typeList)
  | _ => some (.err .typeAtom)

/-- `Pl_Blt_Univ`, the first element of the list is `fw` and the rest is `v` (term_inl_c.c:393-411). -/
def univCons (E : Env) (s : St) (a : Adr) (fw v : Cell) : Option Out :=
  if v = NIL_WORD then
    (if isAtomic fw then some (.ret true (s.bindUV a fw)) else some (.err .typeAtomic))
  else
    match v with
    | .ref _ => some (.err .instantiation)
    | v => univBody E s a fw v

/-- `Pl_Blt_Univ` from the list to the term, the variable is at `a` (term_inl_c.c:373-457). -/
def univNew (E : Env) (s : St) (a : Adr) (lw : Cell) : Option Out :=
  match deref s.mem lw with
  | none => none
  | some (.ref _) => some (.err .instantiation)
  | some (.lst b) =>
    match deref s.mem (s.mem b) with
    | none => none
    | some (.ref _) => some (.err .instantiation)
    | some fw =>
      match deref s.mem (s.mem (b + 1)) with
      | none => none
      | some v => univCons E s a fw v
  | some v => if v = NIL_WORD then some (.err .domainNonEmptyList) else some (.err .typeList)

/-- `Pl_Blt_Univ` (term_inl_c.c:302-458). -/
def univ (E : Env) (s : St) (tw lw : Cell) : Option Out :=
  match deref s.mem tw with
  | none => none
  | some (.ref a) => univNew E s a lw
  | some (.lst a) => unList E [.word (.atm DOT), .at a, .at (a + 1)] s lw
  | some (.stc a) =>
    match s.mem a with
    | .fn f n => unList E (.word (.atm f) :: (List.range n).map fun i => .at (a + 1 + i)) s lw
    | _ => none
  | some (.fdv a) => unList E [.word (.ref a)] s lw
  | some w => unList E [.word w] s lw

/-- The values accepted without undo (term_inl_c.c:505): an atom or an integer. -/
def atomOrInt : Cell → Bool
  | .atm _ => true
  | .int _ => true
  | _ => false

/-- `Pl_Setarg_4` (term_inl_c.c:490-518); `undo` is the boolean read. The word stored is the dereferenced word of the new
value, whatever its tag. -/
def setarg (s : St) (nw tw vw : Cell) (undo : Bool) : Option Out :=
  match rdCompound s.mem tw with
  | none => none
  | some (.error e) => some (.err e)
  | some (.ok (a, _, k)) =>
    match rdPositive s.mem nw with
    | none => none
    | some (.error e) => some (.err e)
    | some (.ok n) =>
      match deref s.mem vw with
      | none => none
      | some w =>
        if undo = false ∧ atomOrInt w = false then some (.err .typeAtomic)
        else if (n - 1) % 2 ^ 64 ≥ k then some (.ret false s)
        else if undo then some (.ret true (s.bindOV (a + (n - 1).toNat) w))
        else some (.ret true { s with mem := s.mem.set (a + (n - 1).toNat) w })

/-- What a function called on a variable by the traversal answers: continue, stop with FALSE, or raise an error. -/
inductive Tr (σ : Type) where
  | go (st : σ)
  | stop (st : σ)
  | err (e : Err)

/-- The loop on the arguments of a structure (term_supp.c:222-233); an arity of 0 would make `while (--i)` run away. -/
def treatArgs {σ : Type} (rec : σ → Cell → Option (Tr σ)) (m : Mem) : Nat → σ → Adr → Option (Tr σ)
  | 0, _, _ => none
  | 1, st, a => rec st (m a)
  | k + 2, st, a =>
    match rec st (m a) with
    | some (.go st') => treatArgs rec m (k + 1) st' (a + 1)
    | r => r

/-- `Pl_Treat_Vars_Of_Term` with `generic_var` = TRUE (term_supp.c:190-237): `fct` is called with the word of each
variable. -/
def treat {σ : Type} (fct : σ → Cell → Tr σ) (m : Mem) : Nat → σ → Cell → Option (Tr σ)
  | 0, _, _ => none
  | n + 1, st, w =>
    match deref m w with
    | none => none
    | some (.ref a) => some (fct st (.ref a))
    | some (.fdv a) => some (fct st (.fdv a))
    | some (.lst a) =>
      match treat fct m n st (m a) with
      | some (.go st') => treat fct m n st' (m (a + 1))
      | r => r
    | some (.stc a) =>
      match m a with
      | .fn _ k => treatArgs (treat fct m n) m k st (a + 1)
      | _ => none
    | some _ => some (.go st)

/-- The address of a variable. -/
def varAdr : Cell → Adr
  | .ref a => a
  | .fdv a => a
  | _ => 0

/-- `Collect_Variable` (term_inl_c.c:617-632): the list is the array `pl_glob_dico_var` up to `var_ptr`. -/
def collect (l : List Adr) (w : Cell) : Tr (List Adr) :=
  if varAdr w ∈ l then .go l
  else if l.length ≥ MAX_VAR then .err .reprTooManyVariables
  else .go (l ++ [varAdr w])

/-- `Pl_Term_Variables_3` after the check of the list (term_inl_c.c:579-593): `tail` is `none` for term_variables/2. The
words of the array are addresses, that is words with the tag REF. -/
def termVars3 (E : Env) (s : St) (tw lw : Cell) (tail : Option Cell) : Option Out :=
  match treat collect s.mem E.fuel [] tw with
  | none => none
  | some (.err e) => some (.err e)
  | some (.stop _) => none
  | some (.go l) =>
    match tail with
    | none => fillNil E (l.map fun a => .word (.ref a)) s lw
    | some t =>
      match fill E (l.map fun a => .word (.ref a)) s lw with
      | none => none
      | some (none, s') => some (.ret false s')
      | some (some l', s') => unifyOut E s' l' t

/-- `Pl_Term_Variables_2` and `Pl_Term_Variables_3` (term_inl_c.c:571-608). -/
def termVariables (E : Env) (s : St) (tw lw : Cell) (tail : Option Cell) : Option Out :=
  match tail with
  | some _ => termVars3 E s tw lw tail
  | none =>
    match listOrPartial s.mem E.fuel lw with
    | none => none
    | some false => some (.err .typeList)
    | some true => termVars3 E s tw lw none

/-- `Check_Variable` (term_inl_c.c:681-711): the state is the array up to `base_var_ptr` (already found) and from there to
`var_ptr`. -/
def check (m : Mem) (st : List Adr × List Adr) (w : Cell) : Tr (List Adr × List Adr) :=
  match w with
  | .fdv _ => .stop st
  | w =>
    if varAdr w ∈ st.1 then .go st
    else
      match st.2 with
      | [] => .stop st
      | p :: rest =>
        match deref m (.ref p) with
        | some (.ref a) => if a ≠ varAdr w then .stop st else .go (st.1 ++ [a], rest)
        | _ => .stop st

/-- `Pl_Untrail` (wam_inst.c:1725-1757) of the `n` records above the trail of the choice point; only records of bindings of
variables are made by the unification. -/
def untrail : Nat → List TrRec → Mem → Mem
  | 0, _, m => m
  | _, [], m => m
  | n + 1, .uv a :: tr, m => untrail n tr (m.set a (.ref a))
  | n + 1, .ov a w :: tr, m => untrail n tr (m.set a w)
  | n + 1, _ :: tr, m => untrail n tr m

/-- `Pl_Defeasible_Open` (wam_inst.c:1683-1686, 1404-1418): HB1 is H, B is above the local stack (`top`). -/
def openChoice (s : St) (top : Adr) : St := { s with hb1 := s.h, b := top }

/-- `Pl_Defeasible_Close(FALSE)` (wam_inst.c:1709-1715, 1443-1446): undo the bindings, restore the registers. -/
def closeChoice (s0 s : St) : St :=
  { s0 with mem := untrail (s.trail.length - s0.trail.length) s.trail s.mem }

/-- `Pl_Subsumes_Term_2` (term_inl_c.c:652-673). -/
def subsumes (E : Env) (s : St) (top : Adr) (gw sw : Cell) : Option Out :=
  match treat collect s.mem E.fuel [] sw with
  | none => none
  | some (.err e) => some (.err e)
  | some (.stop _) => none
  | some (.go l) =>
    match unify true E.fd E.fuel (openChoice s top) gw sw with
    | none => none
    | some (false, s1) => some (.ret false (closeChoice s s1))
    | some (true, s1) =>
      match treat (check s1.mem) s1.mem E.fuel ([], l) sw with
      | none => none
      | some (.err e) => some (.err e)
      | some (.stop _) => some (.ret false (closeChoice s s1))
      | some (.go st) => some (.ret (decide (st.2 = [])) (closeChoice s s1))

end Gp.TermInl
