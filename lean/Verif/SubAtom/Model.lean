/-
Model of sub_atom/5 and atom_concat/3: /repo/src/BipsPl/atom_c.c.

Arguments are dereferenced words: an unbound variable (with its identity, so that the same variable may
occur twice), an integer, an atom (its text) or anything else. Bindings made by `Pl_Get_Integer` and
`Pl_Get_Atom` go to an environment; on backtracking into the alternative the trail restores the initial
environment (all variables unbound). The solutions are the environments, in order.

Simplifications: atoms are identified with their texts (atom table: C03); `malloc` does not fail; texts
are shorter than 2^16 (so that the 16-bit field `prop.length`, atom.h:91, is exact, see C03_length_truncated); integers are unbounded (60-bit values and lengths
below 2^31: no overflow in `length - b - l`).
-/
namespace Gp.SubAtom

/-- The text of an atom (bytes, without the final NUL). -/
abbrev Text := List UInt8

/-- Values bound by these built-ins. -/
inductive Val where
  | int (z : Int)
  | atm (s : Text)
deriving DecidableEq, Repr

/-- A dereferenced argument. -/
inductive Arg where
  | var (id : Nat)
  | int (z : Int)
  | atm (s : Text)
  | other
deriving DecidableEq, Repr

/-- Bindings of the argument variables. -/
abbrev Env := Nat → Option Val

/-- No variable bound. -/
def noEnv : Env := fun _ => none

/-- Errors raised. -/
inductive Err where
  | instantiation
  | typeAtom
  | typeInteger
  | domainNotLessThanZero
deriving DecidableEq, Repr

/-- Outcome of a call: an error, an out of bounds memory access, or the sequence of solutions. -/
inductive Res where
  | err (e : Err)
  | outOfBounds
  | sols (l : List Env)

/-- `Pl_Get_Integer` / `Pl_Get_Atom` (wam_inst.c:244-330): bind a variable, or compare. -/
def get (e : Env) (v : Val) : Arg → Option Env
  | .var i =>
    match e i with
    | none => some (fun j => if j = i then some v else e j)
    | some w => if w = v then some e else none
  | .int z => if v = .int z then some e else none
  | .atm s => if v = .atm s then some e else none
  | .other => none

/-- `Pl_Get_...(v, a) && Pl_Get_...(w, b)`. -/
def get2 (e : Env) (v : Val) (a : Arg) (w : Val) (b : Arg) : Option Env :=
  match get e v a with
  | none => none
  | some e => get e w b

/-- `strncmp(p, s, strlen(s)) == 0` on NUL terminated texts. -/
def pref : Text → Text → Bool
  | [], _ => true
  | _ :: _, [] => false
  | x :: s, y :: p => x == y && pref s p

/-- `strstr(p, s)`: offset of the first occurrence. -/
def strstr (p s : Text) : Option Nat :=
  if pref s p then some 0
  else match p with
    | [] => none
    | _ :: p => (strstr p s).map (· + 1)

/-- The three integers `b`, `l`, `a`. -/
structure BLA where
  b : Int
  l : Int
  a : Int
deriving DecidableEq, Repr

/-- `Compute_Next_BLA` (atom_c.c:520-577). `mask` 8 (default case): the sub-atom is fixed. -/
def next (mask : Nat) (A sub : Text) (t : BLA) : Option BLA :=
  let n : Int := A.length
  match mask with
  | 0 =>
    if t.l + 1 > n - t.b then
      if t.b + 1 > n then none else some ⟨t.b + 1, 0, n - (t.b + 1) - 0⟩
    else some ⟨t.b, t.l + 1, n - t.b - (t.l + 1)⟩
  | 1 => if t.b + 1 > n - t.a then none else some ⟨t.b + 1, n - (t.b + 1) - t.a, t.a⟩
  | 2 => if t.b + 1 > n - t.l then none else some ⟨t.b + 1, t.l, n - (t.b + 1) - t.l⟩
  | 4 => if t.l + 1 > n - t.b then none else some ⟨t.b, t.l + 1, n - t.b - (t.l + 1)⟩
  | _ =>
    if t.b + 1 > n - t.l then none
    else
      match strstr (A.drop (t.b + 1).toNat) sub with
      | none => none
      | some k => some ⟨t.b + 1 + k, t.l, n - (t.b + 1 + k) - t.l⟩

/-- Termination measure of the enumeration. -/
def measure (mask : Nat) (n : Int) (t : BLA) : Nat × Nat :=
  match mask with
  | 0 => ((n + 1 - t.b).toNat, (n - t.b + 1 - t.l).toNat)
  | 1 => ((n - t.a + 1 - t.b).toNat, 0)
  | 2 => ((n - t.l + 1 - t.b).toNat, 0)
  | 4 => ((n - t.b + 1 - t.l).toNat, 0)
  | _ => ((n - t.l + 1 - t.b).toNat, 0)

theorem next_decreases {mask : Nat} {A sub : Text} {t t' : BLA} (h : next mask A sub t = some t') :
    Prod.Lex (· < ·) (· < ·) (measure mask A.length t') (measure mask A.length t) := by
  unfold next at h
  simp only at h
  split at h
  · split at h
    · split at h
      · cases h
      · cases h; apply Prod.Lex.left; simp only; omega
    · cases h; apply Prod.Lex.right; simp only; omega
  · split at h
    · cases h
    · cases h; apply Prod.Lex.left; simp only; omega
  · split at h
    · cases h
    · cases h; apply Prod.Lex.left; simp only; omega
  · split at h
    · cases h
    · cases h; apply Prod.Lex.left; simp only; omega
  · rename_i h0 h1 h2 h4
    split at h
    · cases h
    · split at h
      · cases h
      · cases h
        unfold measure
        split
        · exact absurd rfl h0
        · exact absurd rfl h1
        · exact absurd rfl h2
        · exact absurd rfl h4
        · apply Prod.Lex.left; simp only; omega

/-- The triples tried one after the other: the current one, and those of the alternative
(`Pl_Sub_Atom_Alt_0`, atom_c.c:459-512: each call computes the next triple before using the current). -/
def triples (mask : Nat) (A sub : Text) (t : BLA) : List BLA :=
  match h : next mask A sub t with
  | none => [t]
  | some t' => t :: triples mask A sub t'
termination_by measure mask A.length t
decreasing_by exact next_decreases h

/-- The end of `Pl_Sub_Atom_5` and of `Pl_Sub_Atom_Alt_0` (atom_c.c:439-450, 501-512): unifications for one
triple. The results of the first two `Pl_Get` are ignored. -/
def solve (mask : Nat) (A : Text) (before len after sub : Arg) (t : BLA) : Option Env :=
  let e :=
    if mask ≤ 7 then
      let s := (A.drop t.b.toNat).take t.l.toNat
      let e := (get noEnv (.atm s) sub).getD noEnv
      (get e (.int t.l) len).getD e
    else (get noEnv (.int t.l) len).getD noEnv       -- done before the switch for a fixed sub-atom (357)
  get2 e (.int t.b) before (.int t.a) after

/-- `DEREF_LG` (atom_c.c:305-320). -/
def derefLg : Arg → Except Err (Int × Nat)
  | .int z => if z < 0 then .error .domainNotLessThanZero else .ok (z, 1)
  | .var _ => .ok (0, 0)
  | _ => .error .typeInteger

/-- The case of a fixed sub-atom when B or A is fixed (atom_c.c:354-375). `none`: go on with mask 8. -/
def fixedCase (mask : Nat) (A s : Text) (before len after : Arg) (b a : Int) : Option Res :=
  let n : Int := A.length
  let l : Int := s.length
  match get noEnv (.int l) len with
  | none => some (.sols [])                                                  -- 357-358
  | some e =>
    if (mask = 5 ∨ mask = 7) ∧ n ≠ b + l + a then some (.sols [])            -- 360
    else if mask ≥ 4 then                                                    -- 363-368: B fixed
      if b > n ∧ l > 0 then some .outOfBounds
      else if pref s (A.drop b.toNat) then
        some (.sols (get e (.int (n - b - l)) after).toList)
      else some (.sols [])
    else if mask = 1 ∨ mask = 3 then                                         -- 370-375: A fixed
      let b := n - l - a
      if b < 0 ∧ l > 0 then some .outOfBounds
      else if pref s (A.drop b.toNat) then some (.sols (get e (.int b) before).toList)
      else some (.sols [])
    else none

/-- The first triple and `nondet` (atom_c.c:380-417). `none`: fail. -/
def first (mask : Nat) (A sub : Text) (b l a : Int) : Option (BLA × Bool) :=
  let n : Int := A.length
  match mask with
  | 0 | 2 | 4 => some (⟨b, l, n - b - l⟩, true)
  | 1 => some (⟨b, n - b - a, a⟩, true)
  | 3 => some (⟨n - l - a, l, a⟩, false)
  | 5 => some (⟨b, n - b - a, a⟩, false)
  | 6 | 7 => some (⟨b, l, n - b - l⟩, false)
  | _ =>
    match strstr (A.drop b.toNat) sub with
    | none => none
    | some k => some (⟨k, sub.length, n - k - sub.length⟩, true)

/-- The enumeration of `Pl_Sub_Atom_5` after the switch (atom_c.c:419-450). -/
def enum (mask : Nat) (A sub : Text) (before len after subA : Arg) (b l a : Int) : List Env :=
  match first mask A sub b l a with
  | none => []
  | some (t, nondet) =>
    if t.b < 0 ∨ t.l < 0 ∨ t.a < 0 then []
    else (if nondet then triples mask A sub t else [t]).filterMap (solve mask A before len after subA)

/-- `Pl_Sub_Atom_5` (atom_c.c:326-451) with its alternative. -/
def subAtom (atom before len after sub : Arg) : Res :=
  match atom with
  | .var _ => .err .instantiation                       -- 341: Pl_Rd_Atom_Check
  | .int _ | .other => .err .typeAtom
  | .atm A =>
    match derefLg before, derefLg len, derefLg after with
    | .error e, _, _ => .err e
    | .ok _, .error e, _ => .err e
    | .ok _, .ok _, .error e => .err e
    | .ok (b, mb), .ok (l, ml), .ok (a, ma) =>
      let mask := mb * 4 + ml * 2 + ma
      match sub with
      | .int _ | .other => .err .typeAtom               -- 350-351
      | .var _ => .sols (enum mask A [] before len after sub b l a)
      | .atm s =>
        match fixedCase mask A s before len after b a with
        | some r => r
        | none => .sols (enum 8 A s before len after sub b s.length a)

/-- The alternative of atom_concat/3 (`Pl_Atom_Concat_Alt_0`, atom_c.c:255-295): `k` is `p - name`, `cnt`
the number of characters from `p` on (the alternative where `p` is on the final NUL is the last one). -/
def concatAlt (A3 : Text) (a1 a2 : Arg) : Nat → Nat → List Env
  | k, cnt =>
    (get2 noEnv (.atm (A3.take k)) a1 (.atm (A3.drop k)) a2).toList
    ++ (match cnt with
      | 0 => []
      | cnt + 1 => concatAlt A3 a1 a2 (k + 1) cnt)

/-- Tag test of atom_concat/3 (atom_c.c:147-166): a variable or an atom. -/
def concatOk : Arg → Bool
  | .var _ => true
  | .atm _ => true
  | _ => false

/-- `Pl_Atom_Concat_3` (atom_c.c:136-246). -/
def atomConcat (a1 a2 a3 : Arg) : Res :=
  if !concatOk a1 || !concatOk a2 || !concatOk a3 then .err .typeAtom
  else
    match a1, a2, a3 with
    | .atm s1, .atm s2, _ => .sols (get noEnv (.atm (s1 ++ s2)) a3).toList            -- 178-186
    | .atm s1, _, .atm s3 =>                                                          -- 188-195
      if s3.length < s1.length ∨ pref s1 s3 = false then .sols []
      else .sols (get noEnv (.atm (s3.drop s1.length)) a2).toList
    | _, .atm s2, .atm s3 =>                                                          -- 198-211
      if s3.length < s2.length ∨ pref s2 (s3.drop (s3.length - s2.length)) = false then .sols []
      else .sols (get noEnv (.atm (s3.take (s3.length - s2.length))) a1).toList
    | .var i, .var j, .atm s3 =>
      if i = j then                                                                   -- 217-233
        if s3.length % 2 ≠ 0 then .sols []
        else
          let l := s3.length / 2
          if pref (s3.take l) (s3.drop l) = false then .sols []
          else .sols [fun k => if k = i then some (.atm (s3.drop l)) else none]
      else
        .sols ((get2 noEnv (.atm []) a1 (.atm s3) a2).toList                          -- 236-246
          ++ if s3.length > 0 then concatAlt s3 a1 a2 1 (s3.length - 1) else [])
    | _, _, _ => .err .instantiation                                                  -- 169-170

end Gp.SubAtom
