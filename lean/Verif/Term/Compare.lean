import Verif.Term.Tree
/-
Model of the comparison of terms: Pl_Term_Compare (/repo/src/BipsPl/term_supp.c:90-180) and its
callers (/repo/src/BipsPl/term_inl_c.c:81-187).

Simplification: the arguments are dereferenced trees (the heap representation is the subject of the
Unify part), so the recursion is on the tree.
-/
namespace Gp.Term

/-- C `strcmp` on the bytes of two C strings (glibc: difference of the first differing bytes,
a string ends with a byte 0). -/
def strcmp : Name → Name → Int
  | [], [] => 0
  | [], b :: _ => -(b.toNat : Int)
  | a :: _, [] => a.toNat
  | a :: s, b :: t => if a = b then strcmp s t else (a.toNat : Int) - b.toNat

mutual
/-- `Pl_Term_Compare` (term_supp.c:90-180). -/
def compare : Tree → Tree → Int
  | .var a, .var b => (a : Int) - b                          -- 113
  | .var _, _ => -1
  | .fdv _, .var _ => 1                                      -- 117-118
  | .fdv a, .fdv b => (a : Int) - b                          -- 120
  | .fdv _, _ => -1
  | .flt _, .var _ => 1                                      -- 124-129
  | .flt _, .fdv _ => 1
  | .flt d1, .flt d2 => if dlt d1 d2 then -1 else if deq d1 d2 then 0 else 1   -- 134-136
  | .flt _, _ => -1                                          -- 131-132
  | .int _, .var _ => 1                                      -- 140-145
  | .int _, .fdv _ => 1
  | .int _, .flt _ => 1
  | .int x, .int y => x - y                                  -- 147
  | .int _, _ => -1
  | .atm _, .var _ => 1                                      -- 150-155
  | .atm _, .fdv _ => 1
  | .atm _, .flt _ => 1
  | .atm _, .int _ => 1
  | .atm s, .atm t => strcmp s t                             -- 157-158
  | .atm _, .app _ _ => -1
  | .app f us, .app g vs =>
    if us.length ≠ vs.length then (us.length : Int) - vs.length   -- 169-170
    else if f ≠ g then strcmp f g                            -- 172-173 (atoms are interned)
    else compareArgs us vs
  | .app _ _, _ => 1                                         -- 163-165

/-- Loop on the arguments (term_supp.c:175-179). -/
def compareArgs : List Tree → List Tree → Int
  | u :: us, v :: vs =>
    let x := compare u v
    if x ≠ 0 then x else compareArgs us vs
  | _, _ => 0
end

/-- `Pl_Blt_Term_Eq` ... `Pl_Blt_Term_Gte` (term_inl_c.c:81-150). -/
def termEq (u v : Tree) : Bool := decide (compare u v = 0)
def termNeq (u v : Tree) : Bool := decide (compare u v ≠ 0)
def termLt (u v : Tree) : Bool := decide (compare u v < 0)
def termLte (u v : Tree) : Bool := decide (compare u v ≤ 0)
def termGt (u v : Tree) : Bool := decide (compare u v > 0)
def termGte (u v : Tree) : Bool := decide (compare u v ≥ 0)

/-- The character `c` of `Pl_Blt_Compare` (term_inl_c.c:168-169). -/
def compareChar (u v : Tree) : Char :=
  let cmp := compare u v
  if cmp < 0 then '<' else if cmp = 0 then '=' else '>'

end Gp.Term
