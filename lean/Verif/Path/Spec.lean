import Verif.Path.Model
/-
Specification: what a path denotes, as a list of directory names from the root.
-/
namespace Gp.Path.Spec

/-- The components of a string, between the separators. -/
def comps : List Char → List (List Char)
  | [] => [[]]
  | c :: s =>
    if c = '/' then [] :: comps s
    else match comps s with
      | x :: xs => (c :: x) :: xs
      | [] => [[c]]

/-- Walking along the components from the directory `st` (names from the root): an empty component and
`.` stay, `..` goes to the parent, which the root does not have. -/
def walk : List (List Char) → List (List Char) → Option (List (List Char))
  | [], st => some st
  | c :: cs, st =>
    if c = [] ∨ c = ['.'] then walk cs st
    else if c = ['.', '.'] then (if st = [] then none else walk cs st.dropLast)
    else walk cs (st ++ [c])

/-- What an absolute path denotes. -/
def dirs (s : List Char) : Option (List (List Char)) := walk (comps s) []

/-- A directory name which is really a name. -/
def Proper (c : List Char) : Prop := c ≠ [] ∧ c ≠ ['.'] ∧ c ≠ ['.', '.'] ∧ '/' ∉ c

/-- The canonical path: `/a/b/c`, `/` for the root. -/
def render (st : List (List Char)) : List Char := st.flatMap (fun c => '/' :: c)

def path (st : List (List Char)) : List Char := if st = [] then ['/'] else render st

/-- The characters of the name of a variable: an ASCII letter, a digit, `_`. -/
def nameChar (c : Char) : Bool :=
  (97 ≤ c.toNat && c.toNat ≤ 122) || (65 ≤ c.toNat && c.toNat ≤ 90) || (48 ≤ c.toNat && c.toNat ≤ 57) || c == '_'

/-- Textual replacement of the variables which are defined. -/
def subst (env : List Char → Option (List Char)) (src : List Char) : List Char :=
  match src with
  | [] => []
  | c :: src =>
    if c = '$' then
      (match env (src.takeWhile nameChar) with
        | some v => v
        | none => '$' :: src.takeWhile nameChar) ++ subst env (src.dropWhile nameChar)
    else c :: subst env src
termination_by src.length
decreasing_by
  all_goals
    have := dropWhile_length_le nameChar src
    simp only [List.length_cons]
    omega

end Gp.Path.Spec
