import Verif.Term.Tree
/-
Memory of the WAM: tagged words, dereferencing, trail and binding
(/repo/src/EnginePl/wam_archi.def:84-101, wam_inst.h).

Simplifications: an address is a natural number counting words; the stacks are one memory, the local stack
lies above the global stack (wam_archi.def:120-123), it starts at `lssa`; a word is its tag and value
(the encoding in 64 bits is the subject of the Tag part), so that the equality of words is the equality of
`Cell`s; memory is unbounded.
-/
namespace Gp.Heap
open Gp.Term (deq)

notation "Adr" => Nat

/-- A word of memory: a tagged word (wam_archi.def:86-100), or, at the address given by a STC word, the
functor and arity word (wam_inst.h:118-120, `fn`), or at the address given by a FLT word, the bits of a
double (wam_inst.c:1361-1393, `raw`). -/
inductive Cell where
  | ref (a : Adr)
  | lst (a : Adr)
  | stc (a : Adr)
  | atm (i : Nat)
  | int (z : Int)
  | flt (a : Adr)
  | fdv (a : Adr)
  | fn (f n : Nat)
  | raw (bits : BitVec 64)
deriving DecidableEq, Repr

abbrev Mem := Adr → Cell

/-- `*adr = word`. -/
def Mem.set (m : Mem) (a : Adr) (w : Cell) : Mem := fun x => if x = a then w else m x

/-- A trail record (wam_inst.h:97-100, 492-529): `uv` an address, `ov` an address and its old value, `mv` an
address and its old values, `fc` a function to call and its arguments. -/
inductive TrRec where
  | uv (a : Adr)
  | ov (a : Adr) (w : Cell)
  | mv (a : Adr) (ws : List Cell)
  | fc (f : Nat) (args : List Cell)
deriving DecidableEq, Repr

/-- The registers and stacks used by the unification (wam_archi.def:58-77). The head of `trail` is its top. -/
structure St where
  mem : Mem
  trail : List TrRec
  h : Adr
  hb1 : Adr
  b : Adr
  lssa : Adr

/-- `DEREF` (wam_inst.h:426-445); `none` if the loop does not stop. -/
def deref (m : Mem) (w : Cell) : Option Cell :=
  match w with
  | .ref a => if m a = .ref a then some (.ref a) else deref m (m a)
  | w => some w
partial_fixpoint

/-- `Is_A_Local_Adr` (wam_inst.h:197). -/
def St.isLocal (s : St) (a : Adr) : Bool := decide (s.lssa ≤ a)

/-- `Word_Needs_Trailing` (wam_inst.h:451-452). -/
def St.needsTrailing (s : St) (a : Adr) : Bool := decide (a < s.hb1) || (s.isLocal a && decide (a < s.b))

/-- `Bind_UV` (wam_inst.h:456-463) with `Trail_UV` (492-493). -/
def St.bindUV (s : St) (a : Adr) (w : Cell) : St :=
  { s with mem := s.mem.set a w, trail := if s.needsTrailing a then .uv a :: s.trail else s.trail }

/-- `Bind_OV` (wam_inst.h:468-475) with `Trail_OV` (496-502). -/
def St.bindOV (s : St) (a : Adr) (w : Cell) : St :=
  { s with mem := s.mem.set a w,
           trail := if s.needsTrailing a then .ov a (s.mem a) :: s.trail else s.trail }

/-- `Do_Copy_Of_Word` (wam_inst.h:130-132). -/
def copyWord : Cell → Cell
  | .fdv a => .ref a
  | w => w

end Gp.Heap
