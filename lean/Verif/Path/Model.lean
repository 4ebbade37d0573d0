/-
Model of the path name functions (Unix branch).

Modelled code: src/EnginePl/os_path.c 476-678 (Pl_Absolute_Path_Name0), 835-903 (Pl_Decompose_File_Name),
914-920 (Pl_Path_Ends_With_Dir), 780-802 (Pl_Is_Absolute_File_Name); src/EnginePl/os_path.h 57-67
(Is_Dir_Sep, Find_Last_Dir_Sep); src/BipsPl/file_c.c 129-155 (Pl_Decompose_File_Name_4).

A C string is the list of its characters before the NUL.  The two static buffers have `N` bytes
(MAXPATHLEN); a write outside of them is the result `overflow`.  The environment, the home directories and
the working directory are parameters.  Not modelled: the Windows branches, the call with a path which is
itself in one of the static buffers.
-/
namespace Gp.Path

/-- What the functions read from the system: MAXPATHLEN, getenv, getpwnam (home directory of a user),
getcwd (os_path.c 434-441). -/
structure Sys where
  N : Nat
  env : List Char → Option (List Char)
  pw : List Char → Option (List Char)
  cwd : List Char

/-- Result of a function which returns a string: NULL, a string, or a write outside of a buffer. -/
inductive Res where
  | null
  | ok (s : List Char)
  | overflow
deriving DecidableEq, Repr

/-- `isalnum(c) || c == '_'` (os_path.c:501), in the C locale. -/
def isName (c : Char) : Bool := c.isAlphanum || c == '_'

theorem dropWhile_length_le (p : Char → Bool) (l : List Char) : (l.dropWhile p).length ≤ l.length := by
  induction l with
  | nil => exact Nat.le_refl _
  | cons a l ih =>
    simp only [List.dropWhile]
    split
    · exact Nat.le_succ_of_le ih
    · exact Nat.le_refl _

/-- `$VARNAME` expansion (os_path.c 490-525).  `out` is what is before `dst` in buff1, in reverse order.
At the end the NUL is written by the loop condition and a second one after it (line 525). -/
def expand (sys : Sys) (src out : List Char) : Option (List Char) :=
  match src with
  | [] => if out.length + 1 < sys.N then some out.reverse else none
  | c :: src =>
    if out.length < sys.N then
      if c = '$' then
        let name := src.takeWhile isName
        let rest := src.dropWhile isName
        if out.length + 1 + name.length < sys.N then
          match sys.env name with
          | some v => if out.length + v.length < sys.N then expand sys rest (v.reverse ++ out) else none
          | none => expand sys rest (name.reverse ++ '$' :: out)
        else none
      else expand sys src (c :: out)
    else none
termination_by src.length
decreasing_by
  all_goals
    have := dropWhile_length_le isName src
    simp only [List.length_cons]
    omega

/-- `sprintf(dst, "%s/%s", a, b)` in a buffer. -/
def joinS (sys : Sys) (a b : List Char) : Res :=
  if a.length + 1 + b.length < sys.N then .ok (a ++ '/' :: b) else .overflow

/-- `~/` and `~user/` (os_path.c 530-572). -/
def tilde (sys : Sys) (src : List Char) : Res :=
  match src with
  | '~' :: rest =>
    if rest = [] ∨ rest.head? = some '/' then
      match sys.env "HOME".toList with
      | none => .null
      | some h => joinS sys h rest
    else
      match sys.pw (rest.takeWhile (· ≠ '/')) with
      | none => .null
      | some d => joinS sys d (rest.dropWhile (· ≠ '/'))
  | _ => .ok src

/-- Pl_Path_Ends_With_Dir (os_path.c 914-920). -/
def endsWithDir (p : List Char) : Bool :=
  match p.reverse with
  | '/' :: _ :: _ => true
  | '.' :: '/' :: _ :: _ => true
  | '.' :: '.' :: '/' :: _ :: _ => true
  | _ => false

mutual
/-- The loop which removes `.`, `..` and duplicate separators (os_path.c 619-648), from the test of the
`while`.  `out` is what is before `p` in the destination, in reverse order; none is `return NULL`. -/
def clean (src out : List Char) : Option (List Char) :=
  match src with
  | [] => some out
  | c :: src => if c ≠ '/' then clean src (c :: out) else collapse src ('/' :: out)
termination_by 2 * src.length
decreasing_by
  all_goals simp only [List.length_cons]; omega

/-- The label `collapse` (os_path.c 625-647). -/
def collapse (src out : List Char) : Option (List Char) :=
  match h : src.dropWhile (· == '/') with
  | '.' :: '/' :: rest => collapse ('/' :: rest) out
  | ['.'] => collapse [] out
  | '.' :: '.' :: '/' :: rest =>
    match (out.drop 1).dropWhile (· ≠ '/') with
    | [] => none
    | _ :: out => clean ('/' :: rest) out
  | ['.', '.'] =>
    match (out.drop 1).dropWhile (· ≠ '/') with
    | [] => none
    | _ :: out => clean [] out
  | src' => clean src' out
termination_by 2 * src.length + 1
decreasing_by
  all_goals
    have := dropWhile_length_le (· == '/') src
    rw [h] at this
    try simp only [List.length_cons, List.length_nil] at this ⊢
    try omega
end

/-- Minimal prefix, last separator (os_path.c 650-672); `out` is the cleaned path in reverse order. -/
def finish (addSlash : Bool) (out : List Char) : List Char :=
  match out with
  | [] => ['/']
  | [c] => if addSlash then [c, '/'] else [c]
  | c :: d :: out =>
    let r := if c = '/' then (d :: out).reverse else (c :: d :: out).reverse
    if addSlash then r ++ ['/'] else r

/-- From an absolute path: lines 618-677. -/
def canon (addSlash : Bool) (src : List Char) : Res :=
  match clean src [] with
  | none => .null
  | some out => .ok (finish addSlash out)

/-- After the expansions: lines 574-677. -/
def resolve (sys : Sys) (del : Bool) (src : List Char) : Res :=
  if src = "user".toList then .ok src
  else if src = [] then .null
  else
    let add := !del && endsWithDir src
    if src.head? ≠ some '/' then
      match joinS sys sys.cwd src with
      | .ok s => canon add s
      | r => r
    else canon add src

/-- Pl_Absolute_Path_Name0 (os_path.c 476-678). -/
def absPath (sys : Sys) (del : Bool) (path : List Char) : Res :=
  match expand sys path [] with
  | none => .overflow
  | some s =>
    match tilde sys s with
    | .ok s => resolve sys del s
    | r => r

/-- Find_Last_Dir_Sep then the split (os_path.h 60-67, os_path.c 865-870): the directory part up to the
last separator, the rest. -/
def splitLast : List Char → List Char → List Char × List Char
  | [], acc => ([], acc.reverse)
  | c :: p, acc =>
    if c = '/' then
      let (d, b) := splitLast p []
      (acc.reverse ++ '/' :: d, b)
    else splitLast p (c :: acc)

/-- `strrchr(base, '.')` (os_path.c 872-875): prefix and suffix of the base name. -/
def splitSuffix (base : List Char) : List Char × List Char :=
  match base.reverse.dropWhile (· ≠ '.') with
  | [] => (base, [])
  | _ :: pre => (pre.reverse, '.' :: (base.reverse.takeWhile (· ≠ '.')).reverse)

/-- decompose_file_name/4 (file_c.c 129-155): Pl_Decompose_File_Name with `del_trail_slashes` FALSE. -/
def decompose (path : List Char) : List Char × List Char × List Char :=
  let (d, b) := splitLast path []
  let (p, s) := splitSuffix b
  (d, p, s)

/-- The loop of os_path.c 885-891 which deletes the last separators of `buff_dir`, whose content is `dir`:
`len` has type `size_t`, so after 0 it is the largest value and `buff_dir[len]` is the byte before the
buffer, here `before` 0, then `before` 1...; `fuel` bytes of the buffer remain.  The result is the length
of the new directory part. -/
def delTrail (before : Nat → Char) (dir : List Char) : Nat → Option Nat
  | 0 => -- len has wrapped: len = -1, -2, ...; the loop goes on while the byte is a separator
    if before 0 = '/' then none        -- further out of the buffer
    else some 0                        -- buff_dir[len + 1] = '\0' with len + 1 = 0
  | len + 1 => if dir[len]? = some '/' then delTrail before dir len else some (len + 1)

/-- Pl_Decompose_File_Name with `del_trail_slashes` TRUE: the directory part (os_path.c 879-893). -/
def dirName (before : Nat → Char) (path : List Char) : Option (List Char) :=
  let d := (splitLast path []).1
  if d = [] then some ['.'] else (delTrail before d d.length).map (fun n => d.take n)

end Gp.Path
