import Verif.Unify.Total
/-
Theorems about =/2 and unify_with_occurs_check/2 (properties C13 and C14).

Hypotheses: the memory below `N` is well formed (`WF`), the two words are valid, there are no FD variables.
`t1` and `t2` are the finite terms read at the two words (`Reads`).
-/
namespace Gp.Unify
open Gp.Heap

section
variable {N : Adr} {oc : Bool} {fd : FdHooks} {n : Nat} {s s' : St} {u v : Cell} {r : Bool}

/-- `σ` makes the two terms equal. -/
def Unifies (σ : Nat → T) (t1 t2 : T) : Prop := t1.subst σ = t2.subst σ

/-- C13: after a success the two words represent the same term (when they represent finite terms). -/
theorem C13_success_equal (hwf : WF N s.lssa s.mem) (hu : ValidWord N s.lssa s.mem u) (hv : ValidWord N s.lssa s.mem v)
    (h : unify oc fd n s u v = some (true, s')) (hfin : Finite N s'.mem) :
    ∃ t, Reads s'.mem u t ∧ Reads s'.mem v t := by
  have hr := unify_res n s u v true s' rfl hwf hu hv h
  obtain ⟨t1, h1⟩ := hfin.reads (hr.same.valid hu)
  obtain ⟨t2, h2⟩ := hfin.reads (hr.same.valid hv)
  obtain ⟨ρ, m1, m2⟩ := model_exists hr.wf ((finite_iff hr.wf).mp hfin) T.var
  have e1 := reads_eval hr.wf m1 m2 h1 (hr.same.valid hu)
  have e2 := reads_eval hr.wf m1 m2 h2 (hr.same.valid hv)
  rw [subst_var] at e1 e2
  have e3 := ((hr.sol rfl ρ).mp m1).2
  rw [hr.same.eval hu, ] at e1
  rw [hr.same.eval hv] at e2
  have : t1 = t2 := by rw [← e1, ← e2]; exact e3
  subst this
  exact ⟨t1, h1, h2⟩

/-- C13: whatever the result, only unbound variables have been changed, the memory is still well formed and
the registers are unchanged. -/
theorem C13_binds_only_variables (hwf : WF N s.lssa s.mem) (hu : ValidWord N s.lssa s.mem u)
    (hv : ValidWord N s.lssa s.mem v) (h : unify oc fd n s u v = some (r, s')) :
    (∀ a, s'.mem a ≠ s.mem a → s.mem a = .ref a ∧ a < N) ∧ WF N s.lssa s'.mem ∧
      s'.h = s.h ∧ s'.hb1 = s.hb1 ∧ s'.b = s.b ∧ s'.lssa = s.lssa :=
  let hr := unify_res n s u v r s' rfl hwf hu hv h
  ⟨hr.keeps, hr.wf, hr.regs⟩

/-- C13: the bindings of variables older than the choice point, and only these, are in the trail: resetting
the variables added to the trail restores all cells older than the choice point. -/
theorem C13_trailed (hwf : WF N s.lssa s.mem) (hu : ValidWord N s.lssa s.mem u)
    (hv : ValidWord N s.lssa s.mem v) (h : unify oc fd n s u v = some (r, s')) :
    ∃ new : List Adr, s'.trail = new.map TrRec.uv ++ s.trail ∧
      (∀ a, (a < s.hb1 ∨ (s.lssa ≤ a ∧ a < s.b)) →
        (if a ∈ new then .ref a else s'.mem a) = s.mem a) ∧
      (∀ a ∈ new, s.mem a = .ref a ∧ (a < s.hb1 ∨ (s.lssa ≤ a ∧ a < s.b))) := by
  have hr := unify_res n s u v r s' rfl hwf hu hv h
  obtain ⟨new, h1, h2, h3⟩ := hr.trail
  have hneeds : ∀ a, s.needsTrailing a = true ↔ (a < s.hb1 ∨ (s.lssa ≤ a ∧ a < s.b)) := by
    intro a; simp [St.needsTrailing, St.isLocal]
  refine ⟨new, h1, ?_, ?_⟩
  · intro a ha
    by_cases hc : s'.mem a = s.mem a
    · by_cases hn : a ∈ new
      · rw [if_pos hn, (h2 a hn).1]
      · rw [if_neg hn, hc]
    · rw [if_pos ((h3 a hc).mpr ((hneeds a).mpr ha)), (hr.keeps a hc).1]
  · intro a ha
    obtain ⟨k1, k2⟩ := h2 a ha
    refine ⟨k1, (hneeds a).mp ((h3 a ?_).mp ha)⟩
    rw [k1]; exact k2

/-- C14: the bindings are most general. Every unifier of the two terms factors through the bindings: the
term read at any word before and after the unification have the same instance by this unifier. -/
theorem C14_most_general (hwf : WF N s.lssa s.mem) (hfin : Finite N s.mem) (hu : ValidWord N s.lssa s.mem u)
    (hv : ValidWord N s.lssa s.mem v) {t1 t2 : T} (h1 : Reads s.mem u t1) (h2 : Reads s.mem v t2)
    (h : unify oc fd n s u v = some (true, s')) (σ : Nat → T) (hσ : Unifies σ t1 t2)
    (w : Cell) (hw : ValidWord N s.lssa s.mem w) (t t' : T) (ht : Reads s.mem w t) (ht' : Reads s'.mem w t') :
    t'.subst σ = t.subst σ := by
  have hr := unify_res n s u v true s' rfl hwf hu hv h
  obtain ⟨ρ, m1, m2⟩ := model_exists hwf ((finite_iff hwf).mp hfin) σ
  have hm' : Model N s'.mem ρ := by
    refine (hr.sol rfl ρ).mpr ⟨m1, ?_⟩
    rw [reads_eval hwf m1 m2 h1 hu, reads_eval hwf m1 m2 h2 hv]
    exact hσ
  rw [← reads_eval hwf m1 m2 ht hw, ← hr.same.eval hw]
  refine (reads_eval hr.wf hm' ?_ ht' (hr.same.valid hw)).symm
  intro a ha
  apply m2
  by_cases hc : s'.mem a = s.mem a
  · rw [← hc]; exact ha
  · exact (hr.keeps a hc).1

/-- C14: if =/2 (or unify_with_occurs_check/2) fails, the two terms have no unifier. -/
theorem C14_fail_no_unifier (hwf : WF N s.lssa s.mem) (hfin : Finite N s.mem) (hu : ValidWord N s.lssa s.mem u)
    (hv : ValidWord N s.lssa s.mem v) {t1 t2 : T} (h1 : Reads s.mem u t1) (h2 : Reads s.mem v t2)
    (h : unify oc fd n s u v = some (false, s')) (σ : Nat → T) : ¬ Unifies σ t1 t2 := by
  intro hσ
  have hr := unify_res n s u v false s' rfl hwf hu hv h
  obtain ⟨ρ, m1, m2⟩ := model_exists hwf ((finite_iff hwf).mp hfin) σ
  apply hr.fail rfl ρ m1
  rw [reads_eval hwf m1 m2 h1 hu, reads_eval hwf m1 m2 h2 hv]
  exact hσ

/-- C14: if the two terms have a unifier, both versions terminate with success. -/
theorem C14_unifier_success (hwf : WF N s.lssa s.mem) (hfin : Finite N s.mem) (hu : ValidWord N s.lssa s.mem u)
    (hv : ValidWord N s.lssa s.mem v) {t1 t2 : T} (h1 : Reads s.mem u t1) (h2 : Reads s.mem v t2)
    (σ : Nat → T) (hσ : Unifies σ t1 t2) : ∃ n s', unify oc fd n s u v = some (true, s') := by
  obtain ⟨ρ, m1, m2⟩ := model_exists hwf ((finite_iff hwf).mp hfin) σ
  have heq : eval s.mem ρ u = eval s.mem ρ v := by
    rw [reads_eval hwf m1 m2 h1 hu, reads_eval hwf m1 m2 h2 hv]; exact hσ
  obtain ⟨r, s', h⟩ := unify_solved (oc := oc) (fd := fd) _ s u v rfl hwf hu hv m1 heq (Nat.lt_succ_self _)
  have hr := unify_res _ s u v r s' rfl hwf hu hv h
  obtain ⟨rfl, _⟩ := hr.true_of m1 heq
  exact ⟨_, s', h⟩

/-- C14: unify_with_occurs_check/2 always terminates, succeeds iff the two terms have a unifier, and creates
no cyclic term. -/
theorem C14_occurs_check_decides (hwf : WF N s.lssa s.mem) (hfin : Finite N s.mem) (hu : ValidWord N s.lssa s.mem u)
    (hv : ValidWord N s.lssa s.mem v) {t1 t2 : T} (h1 : Reads s.mem u t1) (h2 : Reads s.mem v t2) :
    ∃ n r s', unify true fd n s u v = some (r, s') ∧ (r = true ↔ ∃ σ, Unifies σ t1 t2) ∧ Finite N s'.mem := by
  have hac := (finite_iff hwf).mp hfin
  obtain ⟨ρ, m1, m2⟩ := model_exists hwf hac T.var
  obtain ⟨n, r, s', h⟩ := unify_total (fd := fd) _ _ s u v rfl hwf hac hu hv (Nat.le_refl _) ⟨ρ, m1, Nat.le_refl _⟩
  have hr := unify_res n s u v r s' rfl hwf hu hv h
  have hac' := hr.acyc rfl hac
  refine ⟨n, r, s', h, ⟨?_, ?_⟩, (finite_iff hr.wf).mpr hac'⟩
  · rintro rfl
    obtain ⟨ρ', m1', m2'⟩ := model_exists hr.wf hac' T.var
    obtain ⟨k1, k2⟩ := (hr.sol rfl ρ').mp m1'
    refine ⟨ρ', ?_⟩
    unfold Unifies
    rw [← reads_eval hwf k1 (fun _ _ => rfl) h1 hu, ← reads_eval hwf k1 (fun _ _ => rfl) h2 hv]
    exact k2
  · rintro ⟨σ, hσ⟩
    cases r with
    | true => rfl
    | false => exact absurd hσ (C14_fail_no_unifier hwf hfin hu hv h1 h2 h σ)

/-- C14: the result does not depend on the fuel of the model. -/
theorem C14_deterministic {k : Nat} {x y : Bool × St} (h : unify oc fd n s u v = some x)
    (h' : unify oc fd k s u v = some y) : x = y := unify_det h h'

end

/-! Examples: the heap contains f(X, Y, X) at 0 and f(g(Y'), Z, W) at 4, with Y' = Y; g(Y') at 8; X, Z, W
unbound; local variable 20. -/

/-- Hooks of the FD solver (never called). -/
def noFd : FdHooks := { withInt := fun s _ _ => (false, s), withFd := fun s _ _ => (false, s) }

/-- 0: f/3, 1: X, 2: Y, 3: reference to X; 4: f/3, 5: g(Y), 6: Z, 7: W; 8: g/1, 9: reference to Y; 20: local. -/
def exMem : Mem := fun a =>
  match a with
  | 0 => .fn 1 3 | 1 => .ref 1 | 2 => .ref 2 | 3 => .ref 1
  | 4 => .fn 1 3 | 5 => .stc 8 | 6 => .ref 6 | 7 => .ref 7
  | 8 => .fn 2 1 | 9 => .ref 2
  | 20 => .ref 20
  | _ => .raw 0

def exSt : St := { mem := exMem, trail := [], h := 10, hb1 := 7, b := 20, lssa := 20 }

def exRes : Option (List Cell × List TrRec) :=
  match unify true noFd 10 exSt (.stc 0) (.stc 4) with
  | some (true, s) => some ([s.mem 1, s.mem 2, s.mem 6, s.mem 7, s.mem 20], s.trail)
  | _ => none

/-- X = g(Y), Z = Y, W = g(Y); the binding of W (at 7, not older than the choice point) is not trailed. -/
theorem exRes_eq : exRes = some ([.stc 8, .ref 2, .ref 2, .stc 8, .ref 20], [.uv 6, .uv 1]) := by
  simp [exRes, unify, unifyNonVar, unifyArgs, bindTo, occurs, occursArgs, deref_ref, deref_nonref, St.bindUV, St.isLocal, exSt, exMem,
    Mem.set, copyWord, St.needsTrailing]

theorem acc_of_le {m : Mem} (h : ∀ a b, m a = .ref b → b ≤ a) (a : Adr) : Acc (RefTo m) a := by
  induction a using Nat.strongRecOn with
  | _ a ih =>
    refine Acc.intro a ?_
    rintro b ⟨hb, hne⟩
    have := h a b hb
    exact ih b (by omega)

theorem exAcc (a : Adr) : Acc (RefTo exMem) a := by
  refine acc_of_le ?_ a
  intro a b h
  unfold exMem at h
  split at h <;> simp at h <;> omega

theorem exWF : WF 21 20 exMem := by
  intro a ha hta
  have : a = 0 ∨ a = 1 ∨ a = 2 ∨ a = 3 ∨ a = 4 ∨ a = 5 ∨ a = 6 ∨ a = 7 ∨ a = 8 ∨ a = 9 ∨ a = 10 ∨ a = 11 ∨ a = 12 ∨
    a = 13 ∨ a = 14 ∨ a = 15 ∨ a = 16 ∨ a = 17 ∨ a = 18 ∨ a = 19 ∨ a = 20 := by omega
  rcases this with rfl | rfl | rfl | rfl | rfl | rfl | rfl | rfl | rfl | rfl | rfl | rfl | rfl | rfl | rfl | rfl |
    rfl | rfl | rfl | rfl | rfl <;> simp [exMem, isTerm] at hta
  case inr.inr.inr.inr.inr.inl =>
    refine ⟨⟨2, 1, rfl, by omega, by omega, by omega, ?_⟩, by intro b hb; simp [exMem] at hb, exAcc _⟩
    intro i hi
    have : i = 0 := by omega
    subst this; rfl
  all_goals simp [exMem, ValidWord, isTerm, exAcc]

theorem exValid : ValidWord 21 20 exMem (.stc 0) ∧ ValidWord 21 20 exMem (.stc 4) := by
  constructor
  · refine ⟨1, 3, rfl, by omega, by omega, by omega, ?_⟩
    intro i hi
    have : i = 0 ∨ i = 1 ∨ i = 2 := by omega
    rcases this with rfl | rfl | rfl <;> rfl
  · refine ⟨1, 3, rfl, by omega, by omega, by omega, ?_⟩
    intro i hi
    have : i = 0 ∨ i = 1 ∨ i = 2 := by omega
    rcases this with rfl | rfl | rfl <;> rfl

theorem exFinite : Finite 21 exMem := by
  have hv : ∀ a, exMem a = .ref a → Reads exMem (exMem a) (.var a) := fun a h => by rw [h]; exact .var h
  intro a ha hta
  have : a = 0 ∨ a = 1 ∨ a = 2 ∨ a = 3 ∨ a = 4 ∨ a = 5 ∨ a = 6 ∨ a = 7 ∨ a = 8 ∨ a = 9 ∨ a = 10 ∨ a = 11 ∨ a = 12 ∨
    a = 13 ∨ a = 14 ∨ a = 15 ∨ a = 16 ∨ a = 17 ∨ a = 18 ∨ a = 19 ∨ a = 20 := by omega
  rcases this with rfl | rfl | rfl | rfl | rfl | rfl | rfl | rfl | rfl | rfl | rfl | rfl | rfl | rfl | rfl | rfl |
    rfl | rfl | rfl | rfl | rfl <;> simp [exMem, isTerm] at hta
  · exact ⟨_, hv _ rfl⟩
  · exact ⟨_, hv _ rfl⟩
  · exact ⟨_, .var rfl⟩
  · refine ⟨_, .stc (f := 2) (n := 1) (g := fun _ => .var 2) rfl ?_⟩
    intro i hi
    have : i = 0 := by omega
    subst this
    exact .var rfl
  · exact ⟨_, hv _ rfl⟩
  · exact ⟨_, hv _ rfl⟩
  · exact ⟨_, .var rfl⟩
  · exact ⟨_, hv _ rfl⟩

/-- The hypotheses of the theorems are satisfied by this heap, the conclusions are not trivial. -/
example : ∃ n s', unify true noFd n exSt (.stc 0) (.stc 4) = some (true, s') ∧ Finite 21 s'.mem ∧
    ∃ t, Reads s'.mem (.stc 0) t ∧ Reads s'.mem (.stc 4) t := by
  obtain ⟨t1, h1⟩ := exFinite.reads exValid.1
  obtain ⟨t2, h2⟩ := exFinite.reads exValid.2
  obtain ⟨n, r, s', h, hr, hf⟩ := C14_occurs_check_decides (fd := noFd) (s := exSt) exWF exFinite exValid.1 exValid.2 h1 h2
  have hrt : r = true := by
    have : ∃ s', unify true noFd 10 exSt (.stc 0) (.stc 4) = some (true, s') := by
      have : exRes ≠ none := by rw [exRes_eq]; simp
      unfold exRes at this
      split at this
      · rename_i s h; exact ⟨s, h⟩
      · exact absurd rfl this
    obtain ⟨s'', h''⟩ := this
    exact (Prod.mk.inj (C14_deterministic h h'')).1
  subst hrt
  exact ⟨n, s', h, hf, C13_success_equal exWF exValid.1 exValid.2 h hf⟩

/-- X and f(X) : with the occurs check failure, without it a cyclic term. -/
def exMem2 : Mem := fun a =>
  match a with
  | 0 => .fn 1 1 | 1 => .ref 1
  | _ => .raw 0

example : (unify true noFd 5 { exSt with mem := exMem2 } (.ref 1) (.stc 0)).map (·.1) = some false ∧
    (unify false noFd 5 { exSt with mem := exMem2 } (.ref 1) (.stc 0)).map (fun r => (r.1, r.2.mem 1)) =
      some (true, .stc 0) := by
  simp [unify, bindTo, occurs, occursArgs, deref_ref, deref_nonref, St.bindUV, St.isLocal, exSt, exMem2, Mem.set, copyWord]

/-- Without the occurs check, unifying two cyclic terms (0: [.0|a], 2: [.2|a]) may not terminate:
the hypothesis `Finite` is needed. -/
def exCyc : Mem := fun a =>
  match a with
  | 0 => .lst 0 | 1 => .atm 0 | 2 => .lst 2 | 3 => .atm 0
  | _ => .raw 0

theorem C14_cyclic_diverges (n : Nat) : unify false noFd n { exSt with mem := exCyc } (.lst 0) (.lst 2) = none := by
  induction n with
  | zero => rfl
  | succ n ih =>
    rw [unify]
    simp only [deref_nonref (w := .lst 0) (by simp), deref_nonref (w := .lst 2) (by simp), unifyNonVar]
    rw [if_neg (by decide)]
    simp only [exCyc] at ih ⊢
    rw [ih]

end Gp.Unify
