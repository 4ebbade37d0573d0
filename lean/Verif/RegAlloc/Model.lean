/-
Model of the register allocator of the Prolog to WAM compiler:
`src/Pl2Wam/reg_alloc.pl` and the codification of the WAM instructions it works on,
`src/Pl2Wam/inst_codif.pl`.

A register is an argument register (in the Prolog source: an integer) or a temporary (in the
source: an unbound Prolog variable that the allocator instantiates to an integer).  Binding of
the temporaries is explicit: a substitution `Sub` is threaded through the functions which bind
variables, and the comparisons `X == Y` of the source compare the dereferenced registers.
-/
namespace Gp.RegAlloc

/-- A register: an argument (an integer of the source) or a temporary (a Prolog variable of the
    source, reg_alloc.pl:55-58 "Terminology"). -/
inductive Reg
  | arg (k : Nat)
  | tmp (n : Nat)
deriving DecidableEq, Repr

/-- Bindings of the Prolog variables standing for the temporaries.  `s n` is the dereferenced
    value of the variable number `n` (itself when unbound).  Modelling device. -/
abbrev Sub := Nat → Reg

/-- No variable is bound. -/
def Sub.init : Sub := fun n => .tmp n

/-- The dereferenced value of a register. -/
def ap (s : Sub) : Reg → Reg
  | .arg k => .arg k
  | .tmp n => s n

/-- Prolog binding of the unbound variable `t` to the (dereferenced) register `r`
    (unifications `Tmp = Tmp1` reg_alloc.pl:342, `[Tmp|_]` :349, `Nb` :382). -/
def bind (s : Sub) (t : Nat) (r : Reg) : Sub := fun n => if s n = .tmp t then r else s n

/-- `var(Reg)` for a dereferenced register. -/
def Reg.isVar : Reg → Bool
  | .arg _ => false
  | .tmp _ => true

/-- A WAM variable name `x(Reg)` or `y(N)`. -/
inductive VN
  | x (r : Reg)
  | y (n : Nat)
deriving DecidableEq, Repr

/-- An argument of `call_c`: `x(Reg)`, the address `&(x(Reg))`, or anything else
    (an atom, a number, `y(N)`, …; code_gen.pl:817-856). -/
inductive CArg
  | x (r : Reg)
  | adr (r : Reg)
  | other
deriving DecidableEq, Repr

/-- The WAM instructions the codification knows (inst_codif.pl:59-145); atoms, numbers and
    functors they carry are irrelevant to the registers and left out.  `other` stands for every
    instruction without register (last clause, :145). -/
inductive WInst
  | getVariable (v : VN) (a : Reg)
  | getValue (v : VN) (a : Reg)
  | getAtom (a : Reg)
  | getInteger (a : Reg)
  | getFloat (a : Reg)
  | getNil (a : Reg)
  | getList (r : Reg)
  | getStructure (r : Reg)
  | putVariable (v : VN) (a : Reg)
  | putVoid (a : Reg)
  | putValue (v : VN) (a : Reg)
  | putUnsafeValue (a : Reg)
  | putAtom (a : Reg)
  | putInteger (a : Reg)
  | putFloat (a : Reg)
  | putNil (a : Reg)
  | putList (r : Reg)
  | putStructure (r : Reg)
  | putMetaTerm (r1 r : Reg)
  | mathLoadValue (v : VN) (t : Reg)
  | mathFastLoadValue (v : VN) (t : Reg)
  | unifyVariable (v : VN)
  | unifyValue (v : VN)
  | unifyLocalValue (v : VN)
  | call (n : Nat)
  | execute (n : Nat)
  | getCurrentChoice (v : VN)
  | cut (v : VN)
  | softCut (v : VN)
  | callC (jump useXArgs : Bool) (res : Option Reg) (args : List CArg)
  | other
deriving DecidableEq, Repr

/-- Codes of an instruction: it reads, writes or copies a register (reg_alloc.pl:48-50). -/
inductive Code
  | r (x : Reg)
  | w (x : Reg)
  | c (x y : Reg)
deriving DecidableEq, Repr

/-- inst_codif.pl:41-48 `alias_stop_instruction`. -/
def aliasStop : WInst → Bool
  | .call _ => true
  | .execute _ => true
  | .callC jump useX _ _ => jump || useX
  | _ => false

/-- inst_codif.pl:150-154 `lst_r_for_call_execute(I, N, L)`: `k` is `N - I`. -/
def lstRForCall (i : Nat) : Nat → List Code
  | 0 => []
  | k + 1 => .r (.arg i) :: lstRForCall (i + 1) k

/-- inst_codif.pl:167-175 `lst_rw_for_c_call`: only the arguments `x(Reg)` count. -/
def lstRwForC : List CArg → List Code → List Code
  | [], e => e
  | .x r :: l, e => .r r :: lstRwForC l (.w r :: e)
  | _ :: l, e => lstRwForC l e

/-- inst_codif.pl:59-145 `codif` (`foreign_call_c`, :140, has the wrong arity there and is never
    met: it is one of `other`). -/
def codif : WInst → List Code
  | .getVariable (.x t) a => [.c a t]
  | .getValue (.x t) a => [.r t, .r a]
  | .getVariable (.y _) a => [.r a]
  | .getValue (.y _) a => [.r a]
  | .getAtom a => [.r a]
  | .getInteger a => [.r a]
  | .getFloat a => [.r a]
  | .getNil a => [.r a]
  | .getList r => [.r r]
  | .getStructure r => [.r r]
  | .putVariable (.x t) a => [.w t, .w a]
  | .putVoid a => [.w a]
  | .putValue (.x t) a => [.c t a]
  | .putVariable (.y _) a => [.w a]
  | .putValue (.y _) a => [.w a]
  | .putUnsafeValue a => [.w a]
  | .putAtom a => [.w a]
  | .putInteger a => [.w a]
  | .putFloat a => [.w a]
  | .putNil a => [.w a]
  | .putList r => [.w r]
  | .putStructure r => [.w r]
  | .putMetaTerm r1 r => [.r r1, .w r]
  | .mathLoadValue (.x r) t => [.r r, .w t]
  | .mathLoadValue (.y _) t => [.w t]
  | .mathFastLoadValue (.x r) t => [.r r, .w t]
  | .mathFastLoadValue (.y _) t => [.w t]
  | .unifyVariable (.x t) => [.w t]
  | .unifyValue (.x t) => [.r t]
  | .unifyLocalValue (.x t) => [.r t]
  | .call n => lstRForCall 0 n
  | .execute n => lstRForCall 0 n
  | .getCurrentChoice (.x t) => [.w t]
  | .cut (.x t) => [.r t]
  | .softCut (.x t) => [.r t]
  | .callC _ _ res args =>
      lstRwForC args (match res with | some t => [.w t] | none => [])
  | _ => []

/-! ### Sets (reg_alloc.pl:401-464) -/

/-- reg_alloc.pl:424-428 `set_elt` (`==` on dereferenced registers). -/
def setElt (s : Sub) (l : List Reg) (x : Reg) : Bool := l.any (fun y => ap s y == ap s x)

/-- reg_alloc.pl:403-409 `set_add`. -/
def setAdd (s : Sub) : List Reg → Reg → List Reg
  | [], x => [x]
  | y :: l, x => if ap s x = ap s y then y :: l else y :: setAdd s l x

/-- reg_alloc.pl:414-419 `set_delete`, `none` when it fails. -/
def setDelete (s : Sub) : List Reg → Reg → Option (List Reg)
  | [], _ => none
  | y :: l, x => if ap s x = ap s y then some l else (setDelete s l x).map (y :: ·)

/-- reg_alloc.pl:445-452 `set_union`. -/
def setUnion (s : Sub) : List Reg → List Reg → List Reg
  | [], l2 => l2
  | x :: l1, l2 => if setElt s l2 x then setUnion s l1 l2 else x :: setUnion s l1 l2

/-- reg_alloc.pl:457-464 `set_diff`. -/
def setDiff (s : Sub) : List Reg → List Reg → List Reg
  | [], _ => []
  | x :: l, l1 => if setElt s l1 x then setDiff s l l1 else x :: setDiff s l l1

/-! ### Aliases (reg_alloc.pl:114-177).  No variable is bound yet: `Sub.init`. -/

abbrev Alias := List (List Reg)

/-- reg_alloc.pl:165-177 `remove_aliases_of`. -/
def removeAliasesOf : Alias → Reg → Alias
  | [], _ => []
  | ls :: al, x =>
    match setDelete .init ls x with
    | some ls1 =>
      match ls1 with
      | [] => al
      | [_] => al
      | _ => ls1 :: al
    | none => ls :: removeAliasesOf al x

/-- reg_alloc.pl:143-151 `add_alias`. -/
def addAlias : Alias → Reg → Reg → Alias
  | [], x, y => [[x, y]]
  | ls :: al, x, y =>
    if setElt .init ls x then setAdd .init ls y :: al else ls :: addAlias al x y

/-- reg_alloc.pl:156-160 `find_aliases_of`, `none` when it fails. -/
def findAliasesOf : Alias → Reg → Option (List Reg)
  | [], _ => none
  | ls :: al, x =>
    match setDelete .init ls x with
    | some ls1 => some ls1
    | none => findAliasesOf al x

/-- reg_alloc.pl:127-138 `aliases1`. -/
def aliases1 : List Code → Alias → Alias
  | [], al => al
  | .r _ :: cs, al => aliases1 cs al
  | .w x :: cs, al => aliases1 cs (removeAliasesOf al x)
  | .c x y :: cs, al => aliases1 cs (addAlias (removeAliasesOf al y) x y)

/-- reg_alloc.pl:116-124 `aliases`: the aliases at the entry of each instruction. -/
def aliases : List WInst → Alias → List Alias
  | [], _ => []
  | i :: is, al => al :: aliases is (if aliasStop i then [] else aliases1 (codif i) al)

/-! ### Lifetimes and the dictionary of temporaries (reg_alloc.pl:182-294) -/

/-- `tmp(Tmp, Imposs, Wish)` (reg_alloc.pl:257). -/
structure Tmp where
  reg : Nat
  imposs : List Reg
  wish : List Reg
deriving DecidableEq, Repr

/-- reg_alloc.pl:257-268 `update_tmp`. -/
def updateTmp : List Tmp → Nat → List Reg → List Reg → List Tmp
  | [], x, im, wi => [⟨x, im, wi⟩]
  | t :: lt, x, im, wi =>
    if x = t.reg then ⟨x, setUnion .init im t.imposs, setUnion .init wi t.wish⟩ :: lt
    else t :: updateTmp lt x im wi

/-- reg_alloc.pl:287-294 `make_imposs`. -/
def makeImposs : List Reg → List Reg → List Tmp → List Tmp
  | [], _, lt => lt
  | .tmp n :: cs, im, lt => makeImposs cs im (updateTmp lt n im [])
  | .arg _ :: cs, im, lt => makeImposs cs im lt

/-- reg_alloc.pl:247-252 `constraints` (`opt` is the global variable `reg_opt`). -/
def constraints (opt : Nat) (x : Reg) (inLife : List Reg) (al : Alias) : List Reg :=
  if opt = 2 then
    match findAliasesOf al x with
    | some ls => setDiff .init inLife ls
    | none => inLife
  else inLife

/-- reg_alloc.pl:203-218, `handle_one_code(r(Reg), …)`. -/
def handleR (opt : Nat) (x : Reg) (al : Alias) (wish inLife : List Reg) (lt : List Tmp) :
    List Reg × List Tmp :=
  if setElt .init inLife x then
    (inLife,
      match x with
      | .tmp n => if wish = [] then lt else updateTmp lt n [] wish
      | .arg _ => lt)
  else
    let cstr := constraints opt x inLife al
    let lt1 := makeImposs cstr [x] lt
    (x :: inLife,
      match x with
      | .tmp n => updateTmp lt1 n cstr wish
      | .arg _ => lt1)

/-- reg_alloc.pl:220-238, `handle_one_code(w(Reg), …)`. -/
def handleW (opt : Nat) (x : Reg) (al : Alias) (wish inLife : List Reg) (lt : List Tmp) :
    List Reg × List Tmp :=
  match setDelete .init inLife x with
  | some inLife1 =>
    (inLife1,
      match x with
      | .tmp n => if wish = [] then lt else updateTmp lt n [] wish
      | .arg _ => lt)
  | none =>
    (inLife,
      match x with
      | .tmp n =>
        let cstr := constraints opt x inLife al
        let cstr1 := if wish = [] then cstr else setDiff .init cstr wish
        let lt1 := makeImposs cstr1 [x] lt
        updateTmp lt1 n cstr1 wish
      | .arg _ => lt)

/-- reg_alloc.pl:203-242 `handle_one_code`, called with `Wish = []` (:198). -/
def handleOneCode (opt : Nat) (c : Code) (al : Alias) (st : List Reg × List Tmp) :
    List Reg × List Tmp :=
  match c with
  | .r x => handleR opt x al [] st.1 st.2
  | .w x => handleW opt x al [] st.1 st.2
  | .c x y =>
    let st1 := handleW opt y al [x] st.1 st.2
    handleR opt x al [y] st1.1 st1.2

/-- reg_alloc.pl:194-198 `handle_lst_code`: backwards over the codes. -/
def handleLstCode (opt : Nat) : List Code → Alias → List Reg × List Tmp → List Reg × List Tmp
  | [], _, st => st
  | c :: cs, al, st => handleOneCode opt c al (handleLstCode opt cs al st)

/-- reg_alloc.pl:184-189 `create_lst_tmp`: backwards over the instructions. -/
def createLstTmp (opt : Nat) : List WInst → List Alias → List Reg × List Tmp
  | i :: is, al :: als => handleLstCode opt (codif i) al (createLstTmp opt is als)
  | _, _ => ([], [])

/-! ### Assignment (reg_alloc.pl:299-396) -/

/-- reg_alloc.pl:273-281 `remove_tmp`, `none` when it fails. -/
def removeTmp (s : Sub) : List Tmp → Reg → Option (Tmp × List Tmp)
  | [], _ => none
  | t :: lt, x =>
    if ap s x = ap s (.tmp t.reg) then some (t, lt)
    else (removeTmp s lt x).map (fun p => (p.1, t :: p.2))

/-- Total size of the wishes of a dictionary (for the termination of `collapseTmps`). -/
def wishes : List Tmp → Nat
  | [] => 0
  | t :: lt => t.wish.length + 1 + wishes lt

theorem removeTmp_wishes {s : Sub} {lt : List Tmp} {x : Reg} {t : Tmp} {lt' : List Tmp}
    (h : removeTmp s lt x = some (t, lt')) : t.wish.length + 1 + wishes lt' = wishes lt := by
  induction lt generalizing lt' with
  | nil => simp [removeTmp] at h
  | cons a l ih =>
    simp only [removeTmp] at h
    split at h
    · cases h; rfl
    · cases hr : removeTmp s l x with
      | none => simp [hr] at h
      | some p =>
        obtain ⟨t', l'⟩ := p
        simp only [hr, Option.map_some, Option.some.injEq, Prod.mk.injEq] at h
        obtain ⟨rfl, rfl⟩ := h
        have := ih hr
        simp only [wishes]; omega

theorem setUnion_length (s : Sub) (a b : List Reg) :
    (setUnion s a b).length ≤ a.length + b.length := by
  induction a with
  | nil => simp [setUnion]
  | cons x l ih =>
    simp only [setUnion]
    split
    · simp only [List.length_cons]; omega
    · simp only [List.length_cons]; omega

/-- reg_alloc.pl:326-343 `collapse_tmps`: result `(Wish1, Imposs1, LTmp1)` and the bindings;
    `none` when it fails. -/
def collapseTmps (s : Sub) (wish imposs : List Reg) (lt : List Tmp) (t : Nat) :
    Option (List Reg × List Reg × List Tmp × Sub) :=
  match wish with
  | [] => some ([], imposs, lt, s)
  | x :: wish =>
    if ap s x = ap s (.tmp t) ∨ setElt s imposs x then collapseTmps s wish imposs lt t
    else
      match ap s x with
      | .arg _ =>
        (collapseTmps s wish imposs lt t).map (fun p => (x :: p.1, p.2))
      | .tmp n =>
        match _h : removeTmp s lt x with
        | none => none
        | some (t1, lt1) =>
          collapseTmps (bind s n (ap s (.tmp t))) (setUnion s wish t1.wish)
            (setUnion s imposs t1.imposs) lt1 t
termination_by wish.length + wishes lt
decreasing_by
  · simp only [List.length_cons]; omega
  · simp only [List.length_cons]; omega
  · have h1 := removeTmp_wishes _h
    have h2 := setUnion_length s wish t1.wish
    simp only [List.length_cons]; omega

/-- reg_alloc.pl:348-351 `try_a_whish`. -/
def tryAWish (s : Sub) (t : Nat) (imposs wish : List Reg) : Sub :=
  match setDiff s wish imposs with
  | [] => s
  | x :: _ => bind s t (ap s x)

/-- reg_alloc.pl:312-321 `assign_wishes`: the remaining `tmp(Tmp, Imposs)` and the bindings.
    `fuel` bounds the recursion by the length of the dictionary (which decreases). -/
def assignWishes : Nat → Sub → List Tmp → Option (List (Nat × List Reg) × Sub)
  | _, s, [] => some ([], s)
  | 0, _, _ :: _ => none
  | fuel + 1, s, t :: lt =>
    match collapseTmps s t.wish t.imposs lt t.reg with
    | none => none
    | some (wish1, imposs1, lt1, s1) =>
      let s2 := tryAWish s1 t.reg imposs1 wish1
      match assignWishes fuel s2 lt1 with
      | none => none
      | some (out, s3) =>
        some (if (ap s2 (.tmp t.reg)).isVar then (t.reg, imposs1) :: out else out, s3)

/-- reg_alloc.pl:356-363 `no_wish`. -/
def noWish (opt : Nat) : List Tmp → List (Nat × List Reg)
  | [] => []
  | t :: lt =>
    (t.reg, if opt = 0 then setUnion .init t.imposs t.wish else t.imposs) :: noWish opt lt

/-- Standard order of two dereferenced registers: a variable precedes an integer (order of the
    variables is by address in the source, by number here). -/
def Reg.le : Reg → Reg → Bool
  | .tmp a, .tmp b => a ≤ b
  | .tmp _, .arg _ => true
  | .arg _, .tmp _ => false
  | .arg a, .arg b => a ≤ b

/-- Insertion in a sorted list, without duplicates. -/
def insReg (x : Reg) : List Reg → List Reg
  | [] => [x]
  | y :: l => if x = y then y :: l else if x.le y then x :: y :: l else y :: insReg x l

/-- `sort/2` (reg_alloc.pl:371) on dereferenced registers. -/
def sortRegs : List Reg → List Reg
  | [] => []
  | x :: l => insReg x (sortRegs l)

/-- reg_alloc.pl:382-396 `find_hole`. -/
def findHole : List Reg → Nat → Nat
  | [], nb => nb
  | .tmp _ :: l, nb => findHole l nb
  | .arg k :: l, nb => if k > nb then nb else findHole l (if k = nb then nb + 1 else nb)

/-- reg_alloc.pl:368-377 `assign_values` (the highest register used, which no caller of
    `allocate_registers/1` looks at, is left out). -/
def assignValues : Sub → List (Nat × List Reg) → Sub
  | s, [] => s
  | s, (t, im) :: l => assignValues (bind s t (.arg (findHole (sortRegs (im.map (ap s))) 0))) l

/-- reg_alloc.pl:301-307 `assign_lst_tmp`. -/
def assignLstTmp (opt : Nat) (lt : List Tmp) : Option Sub :=
  if opt = 2 then (assignWishes lt.length .init lt).map (fun p => assignValues p.2 p.1)
  else some (assignValues .init (noWish opt lt))

/-- The aliases handed to `create_lst_tmp`: when `reg_opt` is 0 they are unbound variables that
    nobody looks at (reg_alloc.pl:104-107, 248); empty lists here. -/
def aliasesOpt (opt : Nat) (p : List WInst) : List Alias :=
  if opt > 0 then aliases p [] else p.map (fun _ => [])

/-- reg_alloc.pl:98-109 `allocate_registers`: the bindings of the temporaries, `none` when the
    predicate fails. -/
def allocate (opt : Nat) (p : List WInst) : Option Sub :=
  assignLstTmp opt (createLstTmp opt p (aliasesOpt opt p)).2

/-! ### The code after the allocation: the variables are bound -/

def VN.map (f : Reg → Reg) : VN → VN
  | .x r => .x (f r)
  | .y n => .y n

def CArg.map (f : Reg → Reg) : CArg → CArg
  | .x r => .x (f r)
  | .adr r => .adr (f r)
  | .other => .other

/-- The instruction seen through the bindings of its variables. -/
def WInst.map (f : Reg → Reg) : WInst → WInst
  | .getVariable v a => .getVariable (v.map f) (f a)
  | .getValue v a => .getValue (v.map f) (f a)
  | .getAtom a => .getAtom (f a)
  | .getInteger a => .getInteger (f a)
  | .getFloat a => .getFloat (f a)
  | .getNil a => .getNil (f a)
  | .getList r => .getList (f r)
  | .getStructure r => .getStructure (f r)
  | .putVariable v a => .putVariable (v.map f) (f a)
  | .putVoid a => .putVoid (f a)
  | .putValue v a => .putValue (v.map f) (f a)
  | .putUnsafeValue a => .putUnsafeValue (f a)
  | .putAtom a => .putAtom (f a)
  | .putInteger a => .putInteger (f a)
  | .putFloat a => .putFloat (f a)
  | .putNil a => .putNil (f a)
  | .putList r => .putList (f r)
  | .putStructure r => .putStructure (f r)
  | .putMetaTerm r1 r => .putMetaTerm (f r1) (f r)
  | .mathLoadValue v t => .mathLoadValue (v.map f) (f t)
  | .mathFastLoadValue v t => .mathFastLoadValue (v.map f) (f t)
  | .unifyVariable v => .unifyVariable (v.map f)
  | .unifyValue v => .unifyValue (v.map f)
  | .unifyLocalValue v => .unifyLocalValue (v.map f)
  | .call n => .call n
  | .execute n => .execute n
  | .getCurrentChoice v => .getCurrentChoice (v.map f)
  | .cut v => .cut (v.map f)
  | .softCut v => .softCut (v.map f)
  | .callC j u res args => .callC j u (res.map f) (args.map (CArg.map f))
  | .other => .other

/-- The clause after the allocation, `none` when the allocator fails. -/
def allocated (opt : Nat) (p : List WInst) : Option (List WInst) :=
  (allocate opt p).map (fun s => p.map (WInst.map (ap s)))

end Gp.RegAlloc
