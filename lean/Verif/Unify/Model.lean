import Verif.Heap.Model
/-
Model of the unification: /repo/src/EnginePl/unify.c, included twice by wam_inst.c (Pl_Unify and
Pl_Unify_Occurs_Check).

Recursion and the `goto terminal_rec` loops are bounded by a fuel; `none` means that the fuel is exhausted
or that the behaviour is undefined (a functor word with arity 0, a badly formed heap).
The finite domain solver is a parameter.
-/
namespace Gp.Unify
open Gp.Heap
open Gp.Term (deq)

/-- `Fd_Unify_With_Integer` and `Fd_Unify_With_Fd_Var` (EnginePl/engine1.c hooks of the FD solver). -/
structure FdHooks where
  withInt : St → Adr → Int → Bool × St
  withFd : St → Adr → Adr → Bool × St

/-- The C conversion `(int)`. -/
def toInt32 (z : Int) : Int := (z + 2 ^ 31) % 2 ^ 32 - 2 ^ 31

/-- `Check_If_Var_Occurs` (unify.c:186-226), loop on the arguments (215-222). -/
def occursArgs (rec : Cell → Option Bool) (m : Mem) : Nat → Adr → Option Bool
  | 0, _ => none
  | 1, a => rec (m a)
  | k + 2, a =>
    match rec (m a) with
    | some false => occursArgs rec m (k + 1) (a + 1)
    | r => r

/-- `Check_If_Var_Occurs` (unify.c:186-226). -/
def occurs (m : Mem) (x : Adr) : Nat → Cell → Option Bool
  | 0, _ => none
  | n + 1, w =>
    match deref m w with
    | none => none
    | some (.ref a) => some (decide (a = x))
    | some (.lst a) =>
      match occurs m x n (m a) with
      | some false => occurs m x n (m (a + 1))
      | r => r
    | some (.stc a) =>
      match m a with
      | .fn _ k => occursArgs (occurs m x n) m k (a + 1)
      | _ => none
    | some _ => some false

/-- Loop on the arguments of two structures (unify.c:137-146). -/
def unifyArgs (rec : St → Cell → Cell → Option (Bool × St)) : Nat → St → Adr → Adr → Option (Bool × St)
  | 0, _, _, _ => none
  | 1, s, a, b => rec s (s.mem a) (s.mem b)
  | k + 2, s, a, b =>
    match rec s (s.mem a) (s.mem b) with
    | some (true, s') => unifyArgs rec (k + 1) s' (a + 1) (b + 1)
    | r => r

/-- Bind a variable to a word which is not a REF (unify.c:74-83 and 89-101), with the occurs check if `oc`. -/
def bindTo (oc : Bool) (n : Nat) (s : St) (x : Adr) (w : Cell) : Option (Bool × St) :=
  match (if oc = true ∧ s.isLocal x = false then occurs s.mem x n w else some false) with
  | none => none
  | some true => some (false, s)
  | some false => some (true, s.bindUV x (copyWord w))

/-- The unification of two dereferenced words which are not REF (unify.c:104-172). `rec` unifies two words. -/
def unifyNonVar (fd : FdHooks) (rec : St → Cell → Cell → Option (Bool × St)) (s : St) (u v : Cell) :
    Option (Bool × St) :=
  if u = v then some (true, s)                                   -- 104-105
  else
    match v, u with
    | .lst b, .lst a =>                                          -- 107-124
      match rec s (s.mem a) (s.mem b) with
      | some (true, s') => rec s' (s'.mem (a + 1)) (s'.mem (b + 1))
      | r => r
    | .lst _, _ => some (false, s)
    | .stc b, .stc a =>                                          -- 126-147
      if s.mem a ≠ s.mem b then some (false, s)
      else
        match s.mem a with
        | .fn _ k => unifyArgs rec k s (a + 1) (b + 1)
        | _ => none
    | .stc _, _ => some (false, s)
    | .int z, .fdv a => some (fd.withInt s a (toInt32 z))         -- 150-151
    | .fdv b, .int z => some (fd.withInt s b (toInt32 z))         -- 153-164
    | .fdv b, .fdv a => some (fd.withFd s a b)
    | .fdv _, _ => some (false, s)
    | .flt b, .flt a =>                                          -- 167-170
      match s.mem a, s.mem b with
      | .raw x, .raw y => some (deq x y, s)
      | _, _ => none
    | _, _ => some (false, s)                                    -- 172

/-- `Pl_Unify` (`oc = false`) and `Pl_Unify_Occurs_Check` (`oc = true`) (unify.c:49-173, wam_inst.c:1769-1785). -/
def unify (oc : Bool) (fd : FdHooks) : Nat → St → Cell → Cell → Option (Bool × St)
  | 0, _, _, _ => none
  | n + 1, s, uw, vw =>
    match deref s.mem uw, deref s.mem vw with
    | some (.ref a), some (.ref b) =>                             -- 62-73
      if a > b then some (true, s.bindUV a (.ref b))
      else if b > a then some (true, s.bindUV b (.ref a))
      else some (true, s)
    | some (.ref a), some v => bindTo oc n s a v                  -- 74-83
    | some u, some (.ref b) => bindTo oc n s b u                  -- 89-102
    | some u, some v => unifyNonVar fd (unify oc fd n) s u v
    | _, _ => none

end Gp.Unify
