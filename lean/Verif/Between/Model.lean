import Verif.ListBip.Model
/-
Model of between/3 and for/3: `Pl_Between_3`, `Pl_Between_Alt_0` (/repo/src/BipsPl/control_c.c:112-141, 150-175), called by
control.pl:79-90, on the memory of the WAM of the part ListBip (same choice points: see its header).

Simplification: the integers saved in the choice point are not tagged in C; they are kept here in words `int`.
-/
namespace Gp.Between
open Gp.Heap Gp.Unify Gp.ListBip

/-- The errors of `Pl_Rd_Integer_Check`. -/
inductive BErr where
  | inst
  | typeInteger (culprit : Cell)

/-- `Pl_Rd_Integer_Check` (c_supp.c:217-230). -/
def rdInteger (s : St) (w : Cell) : Option (Except BErr Int) :=
  match deref s.mem w with
  | none => none
  | some (.ref _) => some (.error .inst)
  | some (.int n) => some (.ok n)
  | some v => some (.error (.typeInteger v))

/-- The result of `Pl_Get_Integer` with the choice point left. -/
def bindInt (E : Env) (s : St) (l : Int) (w : Cell) (cp : Option CP) : Option Out :=
  match getInteger E s l w with
  | none => none
  | some (r, s') => some (.ret r s' cp)

/-- `Pl_Between_3` once the bounds are read (control_c.c:121-140). -/
def betweenFrom (E : Env) (s : St) (l u : Int) (iw : Cell) : Option (Except BErr Out) :=
  match deref s.mem iw with
  | none => none
  | some (.ref a) =>
    if l > u then some (.ok (.ret false s none))
    else (bindInt E s l (.ref a) (if l < u then some ⟨s, .int (l + 1), .int u, .ref a⟩ else none)).map .ok
  | some v =>
    match rdInteger s v with
    | none => none
    | some (.error e) => some (.error e)
    | some (.ok i) => some (.ok (.ret (decide (i ≥ l ∧ i ≤ u)) s none))

/-- `Pl_Between_3` (control_c.c:112-141). -/
def between3 (E : Env) (s : St) (lw uw iw : Cell) : Option (Except BErr Out) :=
  match rdInteger s lw with
  | none => none
  | some (.error e) => some (.error e)
  | some (.ok l) =>
    match rdInteger s uw with
    | none => none
    | some (.error e) => some (.error e)
    | some (.ok u) => betweenFrom E s l u iw

/-- `Pl_Between_Alt_0` (control_c.c:150-175). -/
def betweenAlt (E : Env) (c : CP) : Option Out :=
  match c.a0, c.a1 with
  | .int l, .int u => bindInt E c.st l c.a2 (if l = u then none else some { c with a0 := .int (l + 1) })
  | _, _ => none

/-- The call when it raises no error. -/
def noError : Option (Except BErr Out) → Option Out
  | some (.ok o) => some o
  | _ => none

end Gp.Between
