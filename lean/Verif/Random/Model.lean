/-
Model of random/3 with integer bounds: `Pl_Random_3` (/repo/src/BipsPl/random_c.c:109-140) and `Pl_Random_Integer`
(/repo/src/EnginePl/machine.c:350-354).

The doubles are the integers they hold: a conversion of an integer to double and a product of doubles are the exact value rounded
to 53 significant bits, to nearest and to even in the middle (IEEE 754, default mode; no value here overflows). The division by
`RAND_MAX + 1.0` = 2^31 (glibc) is exact, and the conversion to PlLong which follows truncates. The value of `rand()` is a
parameter, below 2^31. Not modelled: bounds which are floats, the result as a float.
-/
namespace Gp.Random

/-- Rounding of a natural number to 53 significant bits, to nearest, ties to even (IEEE 754 conversion and product). -/
def roundNat (m : Nat) : Nat :=
  let e := Nat.log2 m + 1 - 53
  let q := m / 2 ^ e
  let r := m % 2 ^ e
  if 2 * r > 2 ^ e ∨ (2 * r = 2 ^ e ∧ q % 2 = 1) then (q + 1) * 2 ^ e else q * 2 ^ e

/-- `(double) UnTag_INT(word)` in `Pl_Rd_Number_Check` (BipsPl/c_supp.c:413-414). -/
def toDouble (z : Int) : Int := if z < 0 then -(roundNat z.natAbs : Int) else roundNat z.natAbs

/-- `Pl_Random_Integer` (machine.c:350-354): `(PlLong) ((double) n * rand() / (RAND_MAX + 1.0))`. -/
def randomInteger (n r : Nat) : Nat := roundNat (roundNat n * r) / 2 ^ 31

/-- `Pl_Random_3` (random_c.c:109-140) with two integers; `none` is a failure. -/
def random3 (l u : Int) (r : Nat) : Option Int :=
  if toDouble l ≥ toDouble u then none
  else some (toDouble l + randomInteger (toDouble u - toDouble l).toNat r)

end Gp.Random
