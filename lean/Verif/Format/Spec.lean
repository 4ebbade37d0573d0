import Verif.Format.Model
/-
What format/2 is documented to write (doc/pl-bips.tex 4650-4835), independently of the way it is done.  Only the type of
the arguments (`Arg`) is shared with the model.
-/
namespace Gp.Format.Spec

/-! ### Numbers -/

/-- The digits of a number in a base, the most significant first. -/
def digits (b x : Nat) : List Nat := if h : 2 ≤ b ∧ b ≤ x then digits b (x / b) ++ [x % b] else [x]
  termination_by x
  decreasing_by exact Nat.div_lt_self (by omega) (by omega)

def sign (x : Int) : List Nat := if x < 0 then [45] else []

/-- The character of a digit; `a`: the character of the digit ten. -/
def digitChar (a d : Nat) : Nat := if d < 10 then 48 + d else a + (d - 10)

def decimal (x : Nat) : List Nat := (digits 10 x).map (digitChar 97)

/-- The `n` last decimal digits of `y`. -/
def lastDigits (n y : Nat) : List Nat := (List.range n).map fun i => 48 + y / 10 ^ (n - 1 - i) % 10

/-- A comma before each digit whose distance to the end is a multiple of three. -/
def group : List Nat → List Nat
  | [] => []
  | c :: s => if s ≠ [] ∧ s.length % 3 = 0 then c :: 44 :: group s else c :: group s

/-- `x` shifted right `n` decimal places: "If N is 0 no decimal point is printed". -/
def shifted (sep : List Nat → List Nat) (n : Nat) (x : Int) : List Nat :=
  sign x ++ sep (decimal (x.natAbs / 10 ^ n)) ++ (if n = 0 then [] else 46 :: lastDigits n x.natAbs)

/-! ### Texts, columns -/

/-- What a format asks for: a text (`printf`: made by the C library), a new line unless at the beginning of a line, a place
for padding, a column boundary. -/
inductive Item where
  | text (t : List Nat)
  | printf (t : List Nat)
  | fresh
  | fill (c : Nat)
  | stop (rel : Bool) (n : Option Int)

/-- A text being laid out: what has its final place, the column reached by it, the last column boundary of the line, and the
padding points since this boundary, each one with the text after it. -/
structure Page where
  out : List Nat
  col : Nat
  bound : Int
  pieces : List (Nat × List Nat)

def Page.rest (s : Page) : List Nat := s.pieces.flatMap (·.2)

/-- The column of the cursor, without any padding. -/
def Page.pos (s : Page) : Nat := s.col + s.rest.length

/-- `free` distributed over `k` padding points. -/
def share (k free : Nat) : List Nat := (List.range k).map fun i => (free + i) / k

/-- The pieces with their padding. -/
def layout (free : Nat) (ps : List (Nat × List Nat)) : List Nat :=
  (ps.zip (share ps.length free)).flatMap fun (p, n) => List.replicate n p.1 ++ p.2

def addLast (c : Nat) : List (Nat × List Nat) → List (Nat × List Nat)
  | [] => []
  | [p] => [(p.1, p.2 ++ [c])]
  | p :: q :: ps => p :: addLast c (q :: ps)

/-- One character. A new line gives their place to the texts before it, without padding, and forgets the boundaries. -/
def Page.char (s : Page) (c : Nat) : Page :=
  if c = 10 then { out := s.out ++ s.rest ++ [10], col := 0, bound := 0, pieces := [] }
  else if s.pieces = [] then { s with out := s.out ++ [c], col := s.col + 1 }
  else { s with pieces := addLast c s.pieces }

/-- A column boundary. -/
def Page.stop (s : Page) (b : Int) : Page :=
  { out := s.out ++ if s.pieces = [] then List.replicate (b - s.pos).toNat 32 else layout (b - s.pos).toNat s.pieces
    col := max s.pos b.toNat, bound := b, pieces := [] }

def Page.item (s : Page) : Item → Page
  | .text t => t.foldl Page.char s
  | .printf t => t.foldl Page.char s
  | .fresh => if s.pos > 0 then s.char 10 else s
  | .fill c => { s with pieces := s.pieces ++ [(c, [])] }
  | .stop rel n => s.stop (if rel then s.bound + n.getD 8 else n.getD s.pos)

/-- What is written, on a stream at column `col`. -/
def render (col : Nat) (is : List Item) : List Nat :=
  let s := is.foldl Page.item { out := [], col := col, bound := 0, pieces := [] }
  s.out ++ s.rest

/-! ### Formats -/

/-- The value of decimal digits. -/
def value (ds : List Nat) : Int := ds.foldl (fun (v : Int) (c : Nat) => v * 10 + ((c : Int) - 48)) 0

/-- The parameter `N` of a control sequence: omitted, a sequence of decimal digits, `*`, or a back quote and a character. -/
inductive Num : List Nat → List Arg → Option Int → List Arg → Prop
  | none (as : List Arg) : Num [] as none as
  | digits {ds : List Nat} (as : List Arg) : ds ≠ [] → (∀ c ∈ ds, 48 ≤ c ∧ c ≤ 57) → value ds < 2 ^ 60 →
      Num ds as (some (value ds)) as
  | star {a : Arg} {n : Int} (as : List Arg) : a.int = some n → 0 ≤ n → Num [42] (a :: as) (some n) as
  | char (c : Nat) (as : List Arg) : Num [96, c] as (some (c : Int)) as

/-- `s` at the left of at least `n` columns. -/
def left (n : Int) (s : List Nat) : List Nat := s ++ List.replicate (n.toNat - s.length) 32

/-- The control sequences: the letter, `N`, the arguments before, what is asked for, the arguments after. -/
inductive Dir : Nat → Option Int → List Arg → Item → List Arg → Prop
  | a {x : Arg} {p : List Nat} (as : List Arg) : x.atom = some p → Dir 97 none (x :: as) (.text p) as
  | na {x : Arg} {p : List Nat} (n : Int) (as : List Arg) : x.atom = some p → Dir 97 (some n) (x :: as) (.printf (left n p)) as
  | c {x : Arg} {c : Int} (n : Option Int) (as : List Arg) : x.int = some c → 1 ≤ c → c ≤ 255 →
      Dir 99 n (x :: as) (.text (List.replicate (n.getD 1).toNat c.toNat)) as
  | f {x : Arg} {g : Nat → Option Int → List Nat} {d : Nat} (n : Option Int) (as : List Arg) :
      d ∈ [101, 69, 102, 70, 103, 71] → x.flt = some g → Dir d n (x :: as) (.printf (g d n)) as
  | d {x : Arg} {i : Int} (n : Option Int) (as : List Arg) : x.int = some i →
      Dir 100 n (x :: as) (.text (shifted id (n.getD 0).toNat i)) as
  | D {x : Arg} {i : Int} (n : Option Int) (as : List Arg) : x.int = some i →
      Dir 68 n (x :: as) (.text (shifted group (n.getD 0).toNat i)) as
  | r {x : Arg} {i : Int} (n : Option Int) (as : List Arg) : x.int = some i → 2 ≤ n.getD 8 → n.getD 8 ≤ 36 →
      Dir 114 n (x :: as) (.text (sign i ++ (digits (n.getD 8).toNat i.natAbs).map (digitChar 97))) as
  | R {x : Arg} {i : Int} (n : Option Int) (as : List Arg) : x.int = some i → 2 ≤ n.getD 8 → n.getD 8 ≤ 36 →
      Dir 82 n (x :: as) (.text (sign i ++ (digits (n.getD 8).toNat i.natAbs).map (digitChar 65))) as
  | s {x : Arg} {p : List Nat} (as : List Arg) : x.str = some p → Dir 115 none (x :: as) (.printf p) as
  | ns {x : Arg} {p : List Nat} (n : Int) (as : List Arg) : x.str = some p →
      Dir 115 (some n) (x :: as) (.printf (left n (p.take n.toNat))) as
  | i (x : Arg) (n : Option Int) (as : List Arg) : Dir 105 n (x :: as) (.text []) as
  | w {d : Nat} (x : Arg) (n : Option Int) (as : List Arg) : d ∈ [107, 113, 112, 119] → Dir d n (x :: as) (.text (x.txt d)) as
  | W {x y : Arg} {o : Nat} (n : Option Int) (as : List Arg) : y.opts = some o → Dir 87 n (x :: y :: as) (.text (x.txtW o)) as
  | tilde (n : Option Int) (as : List Arg) : Dir 126 n as (.text [126]) as
  | nl (n : Option Int) (as : List Arg) : Dir 110 n as (.text (List.replicate (n.getD 1).toNat 10)) as
  | fresh (n : Option Int) (as : List Arg) : Dir 78 n as .fresh as
  | bar (n : Option Int) (as : List Arg) : Dir 124 n as (.stop false n) as
  | plus (n : Option Int) (as : List Arg) : Dir 43 n as (.stop true n) as
  | t (n : Option Int) (as : List Arg) : Dir 116 n as (.fill ((n.getD 32) % 256).toNat) as

/-- The arguments of the stars of a C conversion. -/
inductive Stars : Nat → List Arg → List Int → List Arg → Prop
  | nil (as : List Arg) : Stars 0 as [] as
  | cons {k : Nat} {a : Arg} {x : Int} {as as' : List Arg} {l : List Int} :
      a.int = some x → Stars k as l as' → Stars (k + 1) (a :: as) (x :: l) as'

/-- A format with arguments asks for items. -/
inductive Compiles : List Nat → List Arg → List Item → Prop
  | nil : Compiles [] [] []
  | char {c : Nat} {fmt : List Nat} {as : List Arg} {is : List Item} : c ≠ 126 → Compiles fmt as is →
      Compiles (c :: fmt) as (.text [c] :: is)
  | dir {N : List Nat} {d : Nat} {fmt : List Nat} {as as1 as2 : List Arg} {n : Option Int} {i : Item} {is : List Item} :
      Num N as n as1 → Dir d n as1 i as2 → Compiles fmt as2 is → Compiles (126 :: N ++ d :: fmt) as (i :: is)
  | percent {N : List Nat} {fmt : List Nat} {as as1 : List Arg} {n : Option Int} {is : List Item} :
      Num N as n as1 → Compiles fmt as1 is → Compiles (126 :: N ++ 37 :: 37 :: fmt) as (.text [37] :: is)
  | conv {N spec : List Nat} {c : Nat} {fmt : List Nat} {as as1 as2 : List Arg} {a : Arg} {n : Option Int} {ns : List Int}
      {t : List Nat} {is : List Item} :
      Num N as n as1 → (∀ x ∈ spec, 32 ≤ x ∧ x ≤ 57) → spec.head? ≠ some 37 →
      c ∈ [100, 105, 111, 117, 120, 88, 112, 99, 115, 97, 65, 101, 69, 102, 70, 103, 71] →
      spec.count 42 ≤ 2 → spec.length < 2044 → Stars (spec.count 42) as1 ns (a :: as2) → a.prf (37 :: spec ++ [c]) ns = some t →
      Compiles fmt as2 is → Compiles (126 :: N ++ 37 :: spec ++ c :: fmt) as (.printf t :: is)

/-! ### The formats for which the code does it -/

/-- Where the layout is: no padding point since the last boundary; `m` padding points with `k` characters after the first
one; the same, with a new line among these characters. -/
inductive Mode where
  | idle
  | pend (m k : Nat)
  | broken (m k : Nat)

/-- The effect of a text. -/
def Mode.text (t : List Nat) : Mode → Mode
  | .idle => .idle
  | .pend m k => if 10 ∈ t then .broken m (k + t.length) else .pend m (k + t.length)
  | .broken m k => .broken m (k + t.length)

/-- The texts after padding points fit in the buffer. -/
def Mode.fits : Mode → Prop
  | .idle => True
  | .pend _ k => k ≤ 1023
  | .broken _ k => k ≤ 1023

/-- The formats which are laid out as documented: the texts after the first `~t` of a column have at most 1023 characters,
no new line comes between a `~t` and the next boundary (unless another `~t` comes first, or the end of the format), the
padding character is no new line, no `~N` just after a `~t`, at most 1024 `~t`. -/
def tame : Mode → List Item → Prop
  | _, [] => True
  | m, .text t :: is => t.length < 2 ^ 31 ∧ (m.text t).fits ∧ tame (m.text t) is
  | m, .printf t :: is => t.length < 65535 ∧ (m.text t).fits ∧ tame (m.text t) is
  | .idle, .fresh :: is => tame .idle is
  | .pend m k, .fresh :: is => 0 < k ∧ k < 1023 ∧ tame (.broken m (k + 1)) is
  | .broken m k, .fresh :: is => k < 1023 ∧ tame (.broken m (k + 1)) is
  | .idle, .fill c :: is => c ≠ 10 ∧ tame (.pend 1 0) is
  | .pend m k, .fill c :: is => c ≠ 10 ∧ m < 1024 ∧ tame (.pend (m + 1) k) is
  | .broken _ _, .fill c :: is => c ≠ 10 ∧ tame (.pend 1 0) is
  | .idle, .stop _ _ :: is => tame .idle is
  | .pend _ _, .stop _ _ :: is => tame .idle is
  | .broken _ _, .stop _ _ :: _ => False

/-- No `~+` followed by a digit (the code takes them for a signed number). -/
def noPlusDigit (fmt : List Nat) : Prop := ∀ pre d post, fmt = pre ++ [126, 43, d] ++ post → ¬ (48 ≤ d ∧ d ≤ 57)

end Gp.Format.Spec
