/-
Model of environ/2: `Pl_Environ_2` and `Pl_Environ_Alt_0` (/repo/src/BipsPl/flag_c.c:615-663, 672-712).

Simplifications: the environment is a list of strings of bytes without NUL (the array ends with a NULL pointer) and does not change between the answers; atoms are
their text; the unification with both arguments is a test given as a parameter; the checks of the types of the arguments are not modelled. `getenv` is the
function of the GNU C library. Undefined behaviours are `none`.
-/
namespace Gp.Environ

abbrev Str := List Nat

/-- The size of `pl_glob_buff` (/repo/src/EnginePl/engine.h:88). -/
abbrev GLOB_BUFF : Nat := 1024 * 1024

/-- `strchr(s, '=')`: the bytes before the first '=' and those after it. -/
def strchrEq : Str → Option (Str × Str)
  | [] => none
  | c :: s => if c = 61 then some ([], s) else (strchrEq s).map fun p => (c :: p.1, p.2)

/-- The name and the value of an entry (flag_c.c:652-659, 701-708): without '=' the length is computed from a NULL pointer; the name is copied with its final NUL in
the buffer. -/
def split (e : Str) : Option (Str × Str) :=
  match strchrEq e with
  | none => none
  | some (n, v) => if n.length + 1 ≤ GLOB_BUFF then some (n, v) else none

/-- The answer of an entry (flag_c.c:652-662, 701-711). -/
def answer (unif : Str → Str → Bool) (e : Str) : Option (List (Str × Str)) :=
  (split e).map fun p => if unif p.1 p.2 then [p] else []

/-- The successive calls of `Pl_Environ_Alt_0` (flag_c.c:672-712), from the saved pointer. -/
def alts (unif : Str → Str → Bool) : List Str → Option (List (Str × Str))
  | [] => none
  | e :: cur =>
    match answer unif e with
    | none => none
    | some l => if cur = [] then some l else (alts unif cur).map (l ++ ·)

/-- `Pl_Environ_2` with an unbound name, and its alternatives (flag_c.c:636-662). -/
def environAll (unif : Str → Str → Bool) : List Str → Option (List (Str × Str))
  | [] => some []
  | e :: cur =>
    match answer unif e with
    | none => none
    | some l => if cur = [] then some l else (alts unif cur).map (l ++ ·)

/-- The entry starts with the name followed by '='. -/
def entryOf : Str → Str → Option Str
  | [], c :: v => if c = 61 then some v else none
  | [], [] => none
  | _ :: _, [] => none
  | a :: n, c :: e => if a = c then entryOf n e else none

/-- `getenv` on a name which is not empty. -/
def getenvLoop (n : Str) : List Str → Option Str
  | [] => none
  | e :: l =>
    match entryOf n e with
    | some v => some v
    | none => getenvLoop n l

/-- `Pl_Environ_2` with a known name (flag_c.c:627-634): the value unified with the second argument. -/
def environKnown (env : List Str) (n : Str) : Option Str := if n = [] then none else getenvLoop n env

end Gp.Environ
