/-
Model of the tagged words: macros generated by /repo/src/EnginePl/pl_config.c (Generate_Tags, 880-1100)
from the tag table of /repo/src/EnginePl/wam_archi.def:91-105, for WORD_SIZE = 64
(tag_size = tag_size_low = 3, tag_size_high = 0, value_size = 61), and the functor/arity words of
/repo/src/EnginePl/wam_inst.h:112-121.
-/
namespace Gp.Tag

/-- `WamWord` (64 bits). -/
abbrev Word := BitVec 64

/-- The tags (wam_archi.def:91-105). -/
inductive Tag where
  | ref | lst | stc | atm | flt | fdv | int
deriving Repr, DecidableEq

/-- Tag masks (pl_config.c:996-999; with tag_size_high = 0 the mask is the value, 939-942). -/
def Tag.mask : Tag → Word
  | .ref => 0 | .lst => 1 | .stc => 2 | .atm => 3 | .flt => 4 | .fdv => 5 | .int => 7

/-- `TAG_MASK` (pl_config.c:964, 978). -/
def tagMask : Word := 7

/-- `VALUE_MASK` (pl_config.c:979). -/
def valueMask : Word := ~~~tagMask

/-- `Tag_Mask_Of(w)` (pl_config.c:981). -/
def tagMaskOf (w : Word) : Word := w &&& tagMask

/-- `Tag_Is_XXX(w)` (pl_config.c:1095). -/
def tagIs (t : Tag) (w : Word) : Bool := tagMaskOf w == t.mask

/-- `Tag_INT(v)` (pl_config.c:1046-1049): INT has all tag bits set, so `(v << 3) | TAG_MASK`.
`v` is a `PlLong` converted to unsigned. -/
def tagInt (v : Int) : Word := (BitVec.ofInt 64 v <<< 3) ||| tagMask

/-- `UnTag_INT(w)` (pl_config.c:1025): arithmetic shift by 3. -/
def untagInt (w : Word) : Int := (w.sshiftRight 3).toInt

/-- `Tag_ATM(v)` (pl_config.c:1016, 1055): `v` is an `int`, non-negative since it indexes the atom
table. -/
def tagAtm (v : Nat) : Word := (BitVec.ofNat 64 v <<< 3) + Tag.atm.mask

/-- `UnTag_ATM(w)` (pl_config.c:1076): `(int) (w >> 3)`, the conversion keeps the low 32 bits. -/
def untagAtm (w : Word) : Int := ((w >>> 3).truncate 32).toInt

/-- `Tag_REF/LST/STC/FLT/FDV(adr)` (pl_config.c:1022, 1059). -/
def tagAdr (t : Tag) (adr : Word) : Word := adr + t.mask

/-- `UnTag_REF(w)` is the word itself, the other address tags are masked (pl_config.c:1083-1086). -/
def untagAdr (t : Tag) (w : Word) : Word := if t = .ref then w else w &&& valueMask

/-- `ATOM_MAX_BITS` (wam_inst.h:116). -/
def atomMaxBits : Nat := 64 - 10

/-- `Functor_Arity(f, n)` (wam_inst.h:118); `f`, `n` are non-negative `int`. -/
def functorArity (f n : Nat) : Word := (BitVec.ofNat 64 n <<< atomMaxBits) ||| BitVec.ofNat 64 f

/-- `Functor_Of(word)` (wam_inst.h:119). -/
def functorOf (w : Word) : Int :=
  ((w &&& ((1#64 <<< atomMaxBits) - 1#64)).truncate 32).toInt

/-- `Arity_Of(word)` (wam_inst.h:120). -/
def arityOf (w : Word) : Int := ((w >>> atomMaxBits).truncate 32).toInt

/-- `INT_GREATEST_VALUE` (wam_inst.h:150). -/
def intGreatest : Int := 2 ^ 60 - 1

/-- `INT_LOWEST_VALUE` (wam_inst.h:151). -/
def intLowest : Int := -intGreatest - 1

/-- `TEST_INT_OVERFLOW(x)` (wam_inst.h:153). -/
def testIntOverflow (x : Int) : Bool := decide (x < intLowest) || decide (x > intGreatest)

/-- `Trail_Tag_Value`, `Trail_Tag_Of`, `Trail_Value_Of` (wam_inst.h:106-108); trail tags TUV 0,
TOV 1, TMV 2, TFC 3 (wam_inst.h:97-100). -/
def trailTagValue (t v : Word) : Word := v ||| t
def trailTagOf (w : Word) : Word := w &&& 3
def trailValueOf (w : Word) : Word := w &&& ~~~3#64

end Gp.Tag
