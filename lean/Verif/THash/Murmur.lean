import Verif.THash.Props
/-
Model of the hash function of term_hash: MurmurHash3 fed by blocks of 32 bits (/repo/src/Tools/hash_fct.c:118-122, 131-135, 143-158, 168-180, 289-294, 317-322,
331-336, 346-444, 453-458). The hypotheses of C69 on the hash function are met by this one.

Simplifications: a little-endian machine (`htole32` is the identity); the length is not bounded (it is an `int`, used modulo 2^32). For an infinite float the
exponent given by frexp is unspecified and the conversion to `int64_t` is undefined: the 64 bits obtained are the parameter `inf`.
-/
namespace Gp.THash
open Gp.Heap Gp.Unify Gp.ListBip Gp.TermInl

/-- `HashIncrInfo` (hash_fct.h). -/
structure HI where
  len : Nat
  hash : BitVec 32
deriving DecidableEq

/-- `Hash_Block` (hash_fct.c:143-158). -/
def block (k h : BitVec 32) : BitVec 32 :=
  let k := k * 0xcc9e2d51#32
  let k := k.rotateLeft 15
  let k := k * 0x1b873593#32
  let h := h ^^^ k
  let h := h.rotateLeft 13
  h * 5#32 + 0xe6546b64#32

/-- `Hash_Finalize` (hash_fct.c:168-180). -/
def finalize (h : BitVec 32) (len : Nat) : BitVec 32 :=
  let h := h ^^^ BitVec.ofNat 32 len
  let h := h ^^^ (h >>> 16)
  let h := h * 0x85ebca6b#32
  let h := h ^^^ (h >>> 13)
  let h := h * 0xc2b2ae35#32
  h ^^^ (h >>> 16)

/-- `Pl_Hash_Incr_Int32` (hash_fct.c:317-322). -/
def incr32 (hi : HI) (x : BitVec 32) : HI := ⟨hi.len + 4, block x hi.hash⟩

/-- `Pl_Hash_Incr_Int64` (hash_fct.c:331-336). -/
def incr64 (hi : HI) (x : BitVec 64) : HI := incr32 (incr32 hi (x.setWidth 32)) ((x >>> 32).setWidth 32)

/-- `frexp` (hash_fct.c:390) on a finite magnitude: the mantissa times 2^53 (0, or from 2^52 to 2^53 - 1), and the exponent. -/
def frexp (mag : Nat) : Nat × Int :=
  let e : Nat := mag / 2 ^ 52
  let f : Nat := mag % 2 ^ 52
  if mag = 0 then (0, 0)
  else if e = 0 then (f * 2 ^ (52 - f.log2), (1 : Int) - 1022 - (52 - f.log2 : Nat))
  else (2 ^ 52 + f, (e : Int) - 1022)

/-- The 64 bits hashed for a double (hash_fct.c:390-442): the mantissa times 2^63 (the one of a negative number being -(x + 0.5)) plus 2^53 times the
exponent. -/
def dblBits (inf : Bool → BitVec 64) (x : BitVec 64) : BitVec 64 :=
  if Term.fmag x = 0x7FF0000000000000 then inf (Term.fneg x)
  else
    let (man, exp) := frexp (Term.fmag x)
    let man : Int := if Term.fneg x ∧ man ≠ 0 then (man : Int) * 2 ^ 10 - 2 ^ 62 else (man : Int) * 2 ^ 10
    BitVec.ofInt 64 (man + 2 ^ 53 * exp)

/-- The hash function used by term_hash (hash_fct.c:289-294, 317-336, 346-458); the hash codes of the atoms are a parameter. -/
def murmur (inf : Bool → BitVec 64) (atomHash : Nat → Nat) : Hasher HI where
  init := ⟨0, 1688943522#32⟩
  int32 hi x := incr32 hi (BitVec.ofNat 32 x)
  int64 hi z := incr64 hi (BitVec.ofInt 64 z)
  dbl hi x := incr64 hi (dblBits inf x)
  term hi := (finalize hi.hash hi.len).toNat
  atomHash := atomHash
  dot := 46

/-- The same as `dblBits` from the value of the double. -/
def keyBits (inf : Bool → BitVec 64) (k : Int) : BitVec 64 :=
  if k.natAbs = 0x7FF0000000000000 then inf (decide (k < 0))
  else
    let (man, exp) := frexp k.natAbs
    let man : Int := if k < 0 then (man : Int) * 2 ^ 10 - 2 ^ 62 else (man : Int) * 2 ^ 10
    BitVec.ofInt 64 (man + 2 ^ 53 * exp)

theorem frexp_man {n : Nat} : (frexp n).1 = 0 ↔ n = 0 := by
  unfold frexp
  by_cases h : n = 0
  · simp [h]
  · simp only [h, if_false]
    split
    · rename_i he
      have : n % 2 ^ 52 ≠ 0 := by omega
      simp only [Nat.mul_eq_zero, iff_false, not_or]
      exact ⟨this, by have := Nat.two_pow_pos (52 - (n % 2 ^ 52).log2); omega⟩
    · simp

theorem dblBits_eq (inf : Bool → BitVec 64) (x : BitVec 64) : dblBits inf x = keyBits inf (Term.fkey x) := by
  have hk : (Term.fkey x).natAbs = Term.fmag x := by unfold Term.fkey; split <;> omega
  have hn : (Term.fneg x = true ∧ Term.fmag x ≠ 0) ↔ Term.fkey x < 0 := by
    unfold Term.fkey
    split <;> rename_i h <;> simp [h] <;> omega
  unfold dblBits keyBits
  rw [hk]
  split
  · rename_i h
    congr 1
    rw [Bool.eq_iff_iff, decide_eq_true_iff, ← hn]
    exact ⟨fun q => ⟨q, by omega⟩, fun q => q.1⟩
  · simp only [ne_eq, frexp_man]
    simp only [ne_eq] at hn
    simp only [hn]

/-- The hash function used depends on the value of a float only: the hypothesis of C69 holds, and 0.0 and -0.0 have the same hash. -/
theorem C69_murmur_by_value (inf : Bool → BitVec 64) (ah : Nat → Nat) :
    ByValue (murmur inf ah) (fun hi k => incr64 hi (keyBits inf k)) := by
  intro h x _
  show incr64 h (dblBits inf x) = _
  rw [dblBits_eq]

theorem keyBits_nat (inf : Bool → BitVec 64) {n e f : Nat} (h1 : n / 2 ^ 52 = e) (h2 : n % 2 ^ 52 = f) (he : 1 ≤ e) (he' : e < 2047) :
    keyBits inf (n : Int) = BitVec.ofInt 64 (((2 ^ 52 + f : Nat) : Int) * 2 ^ 10 + 2 ^ 53 * ((e : Int) - 1022)) := by
  have a3 : frexp n = (2 ^ 52 + f, (e : Int) - 1022) := by
    unfold frexp
    rw [h1, h2]
    rw [if_neg (by omega), if_neg (by omega)]
  have a4 : ¬ (n : Int) < 0 := by omega
  have a5 : n ≠ 0x7FF0000000000000 := by omega
  unfold keyBits
  rw [Int.natAbs_natCast, if_neg a5, a3]
  simp only [a4, if_false]

/-- The floats whose bits are `e`, `f` (exponent and fraction) and `e - 1`, `f` + 2^43 are hashed from the same 64 bits. -/
theorem keyBits_collide (inf : Bool → BitVec 64) {n n' : Nat} (h1 : 2 ≤ n / 2 ^ 52) (h2 : n / 2 ^ 52 < 2047) (h3 : n' / 2 ^ 52 + 1 = n / 2 ^ 52)
    (h4 : n' % 2 ^ 52 = n % 2 ^ 52 + 2 ^ 43) : keyBits inf (n : Int) = keyBits inf (n' : Int) := by
  rw [keyBits_nat inf rfl rfl (by omega) h2, keyBits_nat inf rfl rfl (by omega) (by omega)]
  generalize n / 2 ^ 52 = e at *
  generalize n' / 2 ^ 52 = e' at *
  generalize n % 2 ^ 52 = f at *
  generalize n' % 2 ^ 52 = f' at *
  have h : ((2 ^ 52 + f : Nat) : Int) * 2 ^ 10 + 2 ^ 53 * ((e : Int) - 1022) =
      ((2 ^ 52 + f' : Nat) : Int) * 2 ^ 10 + 2 ^ 53 * ((e' : Int) - 1022) := by omega
  rw [h]

/-- Systematic collisions of floats: a positive float and the one with the exponent below and a mantissa greater by 2^-10 have the same hash, for example
1.0 and 0.5009765625. -/
theorem C69_floats_collide {N N' : Adr} {s s' : St} (inf : Bool → BitVec 64) (ah : Nat → Nat) (hok : Ok N s) (hok' : Ok N' s') {w w' : Cell} {n n' : Nat}
    (hr : Reads s.mem w (.flt (n : Int))) (hr' : Reads s'.mem w' (.flt (n' : Int)))
    (hw : ValidWord N s.lssa s.mem w) (hw' : ValidWord N' s'.lssa s'.mem w')
    (g1 : 2 ≤ n / 2 ^ 52) (g2 : n / 2 ^ 52 < 2047) (g3 : n' / 2 ^ 52 + 1 = n / 2 ^ 52) (g4 : n' % 2 ^ 52 = n % 2 ^ 52 + 2 ^ 43) : ∃ n0, ∀ n, n0 ≤ n →
    ∃ x, termHash2 (murmur inf ah) s.mem n w = some (some x) ∧ termHash2 (murmur inf ah) s'.mem n w' = some (some x) := by
  obtain ⟨n1, h1⟩ := termHash4_eq (C69_murmur_by_value inf ah) hok hr hw .flt (-1) 0
  obtain ⟨n2, h2⟩ := termHash4_eq (C69_murmur_by_value inf ah) hok' hr' hw' .flt (-1) 0
  refine ⟨max n1 n2, fun n hn => ?_⟩
  unfold termHash2
  rw [h1 n (by omega), h2 n (by omega)]
  simp only [hashT]
  rw [keyBits_collide inf g1 g2 g3 g4]
  simp

/-- The bits of 1.0 and of 0.5009765625. -/
example : Term.fkey 0x3FF0000000000000#64 = ((0x3FF0000000000000 : Nat) : Int) ∧
    Term.fkey 0x3FE0080000000000#64 = ((0x3FE0080000000000 : Nat) : Int) ∧
    dblBits (fun _ => 0) 0x3FF0000000000000#64 = 0x4020000000000000#64 ∧ dblBits (fun _ => 0) 0x3FE0080000000000#64 = 0x4020000000000000#64 ∧
    dblBits (fun _ => 0) 0#64 = 0#64 ∧ dblBits (fun _ => 0) 0x8000000000000000#64 = 0#64 ∧
    dblBits (fun _ => 0) 1#64 = 0xb9e0000000000000#64 := by decide +kernel

/-- Both halves of an integer are hashed. -/
example : incr64 ⟨0, 0⟩ 0 ≠ incr64 ⟨0, 0⟩ (1#64 <<< 32) ∧ incr64 ⟨0, 0⟩ 0 ≠ incr64 ⟨0, 0⟩ 1#64 ∧ (incr64 ⟨0, 0⟩ 0).len = 8 := by decide +kernel

/-- 1.0 at 0 and 0.5009765625 at 1. -/
def exF : St :=
  { mem := memL [.raw 0x3FF0000000000000#64, .raw 0x3FE0080000000000#64], trail := [], h := 2, hb1 := 0, b := 0, lssa := 20 }

theorem exF_ok : Ok 20 exF := by
  refine ⟨?_, ?_, Nat.le_refl 20⟩
  · intro a ha ht
    match a with
    | 0 | 1 => simp [exF, memL, isTerm] at ht
    | a + 2 => simp [exF, memL, isTerm] at ht
  · intro a h1 h2
    have h1 : 2 ≤ a := h1
    match a, h1 with
    | a + 2, _ => simp [exF, memL]

example (inf : Bool → BitVec 64) (ah : Nat → Nat) : ∃ n0, ∀ n, n0 ≤ n →
    ∃ x, termHash2 (murmur inf ah) exF.mem n (.flt 0) = some (some x) ∧ termHash2 (murmur inf ah) exF.mem n (.flt 1) = some (some x) := by
  refine C69_floats_collide (n := 0x3FF0000000000000) (n' := 0x3FE0080000000000) inf ah exF_ok exF_ok ?_ ?_ ⟨_, rfl⟩ ⟨_, rfl⟩ (by decide)
    (by decide) (by decide) (by decide)
  · have : Reads exF.mem (.flt 0) (.flt (Term.fkey 0x3FF0000000000000#64)) := .flt rfl (by decide +kernel)
    rw [show Term.fkey 0x3FF0000000000000#64 = ((0x3FF0000000000000 : Nat) : Int) by decide +kernel] at this
    exact this
  · have : Reads exF.mem (.flt 1) (.flt (Term.fkey 0x3FE0080000000000#64)) := .flt rfl (by decide +kernel)
    rw [show Term.fkey 0x3FE0080000000000#64 = ((0x3FE0080000000000 : Nat) : Int) by decide +kernel] at this
    exact this

end Gp.THash
