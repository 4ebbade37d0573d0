/-
C35: assigning machine registers to the temporaries of a clause never lets one live value
overwrite another: every instruction reads the same values as before the allocation.
-/
import Verif.RegAlloc.Assign

namespace Gp.RegAlloc

theorem aliasesOpt_als (opt : Nat) (p : List WInst) : Als opt p [] (aliasesOpt opt p) := by
  have hl : ∀ (p : List WInst) al, (aliases p al).length = p.length := by
    intro p
    induction p with
    | nil => intro al; rfl
    | cons i p ih => intro al; simp [aliases, ih]
  unfold aliasesOpt
  refine ⟨?_, ?_⟩
  · split
    · exact hl p []
    · simp
  · intro e; subst e; rfl

/-- The registers of an instruction occur in its codes. -/
theorem regs_codif {i : WInst} (h : NoAdr i) {r : Reg} (hr : r ∈ regs i) :
    ∃ c ∈ codif i, c.has r := by
  simp only [regs, List.mem_append] at hr
  rcases shape i h with ⟨a, b, _, hc, h1, h2, _⟩ | ⟨pw, _, hc, _⟩
  · rw [h1, h2] at hr
    rw [hc]
    refine ⟨_, List.mem_singleton.2 rfl, ?_⟩
    simpa [Code.has] using hr
  · rw [hc]
    rcases hr with hr | hr
    · exact ⟨.r r, by simp [hr], rfl⟩
    · exact ⟨.w r, by simp [hr], rfl⟩

theorem createLstTmp_key (opt : Nat) (p : List WInst) (als : List Alias)
    (hl : als.length = p.length) (ha : ∀ i ∈ p, NoAdr i) {i : WInst} (hi : i ∈ p) {m : Nat}
    (hr : .tmp m ∈ regs i) : Key (createLstTmp opt p als).2 m := by
  induction p generalizing als with
  | nil => cases hi
  | cons j p ih =>
    cases als with
    | nil => simp at hl
    | cons a as =>
      simp only [createLstTmp]
      obtain ⟨_, h2, h3⟩ := handleLstCode_inv opt (codif j) a _ (createLstTmp_inv opt p as)
      rcases List.mem_cons.1 hi with rfl | hi
      · obtain ⟨c, hc, hh⟩ := regs_codif (ha _ (List.mem_cons_self ..)) hr
        exact h3 c hc m hh
      · exact h2.key m (ih as (by simpa using hl) (fun k hk => ha k (List.mem_cons_of_mem _ hk)) hi)

theorem NoAddress.adr {p : List WInst} (h : NoAddress p) : ∀ i ∈ p, NoAdr i := by
  intro i hi j u res args e
  subst e
  exact h j u res args hi

/-- **C35, the allocation always succeeds and is complete.**  Whatever the instructions and the
    level of optimisation, the allocator terminates with an assignment, and in the resulting
    clause every register is a machine register (provided no C function takes the address of a
    register). -/
theorem C35_total (opt : Nat) (p : List WInst) :
    ∃ p', allocated opt p = some p' ∧ p'.length = p.length ∧
      (NoAddress p → ∀ i ∈ p', ∀ r ∈ regs i, r.isVar = false) := by
  have inv := createLstTmp_inv opt p (aliasesOpt opt p)
  obtain ⟨s, h1, _, h3⟩ := assignLstTmp_spec opt inv.d inv.w
  refine ⟨p.map (WInst.map (ap s)), ?_, by simp, ?_⟩
  · simp only [allocated, allocate, h1]; rfl
  · intro ha i hi r hr
    obtain ⟨j, hj, rfl⟩ := List.mem_map.1 hi
    have : regs (j.map (ap s)) = (regs j).map (ap s) := by
      simp [regs, reads_map (ap_arg s), writes_map]
    rw [this] at hr
    obtain ⟨x, hx, rfl⟩ := List.mem_map.1 hr
    cases x with
    | arg k => rfl
    | tmp m =>
      obtain ⟨k, hk⟩ := h3 m
        (createLstTmp_key opt p _ (aliasesOpt_als opt p).1 ha.adr hj hx)
      simp only [ap, hk]; rfl

/-- **C35, the values read** (`_partial`: for clauses which copy no register into itself, hand no
    address of register to a C function, and set no register in vain but temporaries (at level 2:
    temporaries which have not been copied before); see the counterexamples below).  Whatever the
    values the instructions compute from what has been read so far, and whatever the called
    predicates leave in the registers, each instruction of the allocated clause reads exactly the
    values it reads in the clause with temporaries. -/
theorem C35_reads_partial (opt : Nat) (p p' : List WInst) (hp : allocated opt p = some p')
    (hadr : NoAddress p) (hself : opt = 2 → NoSelfCopy p) (hdef : WellDef atEntry p)
    (huse : UselessWrites (opt == 2) p)
    {V : Type} (w w' : World V) (hv : w.val = w'.val) (ρ ρ' : File V)
    (hρ : ∀ k, ρ (.arg k) = ρ' (.arg k)) :
    trace w' p' ρ' = trace w p ρ := by
  have inv := createLstTmp_inv opt p (aliasesOpt opt p)
  obtain ⟨s, h1, h2, _⟩ := assignLstTmp_spec opt inv.d inv.w
  have : p' = p.map (WInst.map (ap s)) := by
    simp only [allocated, allocate, h1, Option.map_some, Option.some.injEq] at hp
    exact hp.symm
  subst this
  have hA := aliasesOpt_als opt p
  refine (sim opt s w w' hv p hadr.adr (fun i hi e => hself e i hi) huse p [] [] _ atEntry ρ ρ' []
    rfl hA (by simp) (.nil _) (by simp) hdef h2 ?_).symm
  intro r hr
  have hd := inLife_def hA.1 hadr.adr hdef hr
  cases r with
  | arg k => exact hρ k
  | tmp m => simp [atEntry, Reg.isVar] at hd

/-! ### Checking `UselessWrites` on a given clause -/

def UW (c : Bool) : List WInst → List WInst → Prop
  | _, [] => True
  | pre, i :: post =>
    (∀ x ∈ writes i, ¬ Live x post → x.isVar = true ∧
      (c = true → ∀ j ∈ pre, ∀ a b, copyOf j = some (a, b) → x ≠ a ∧ x ≠ b)) ∧
    UW c (pre ++ [i]) post

theorem UW.useless {c : Bool} {p : List WInst} (h : UW c [] p) : UselessWrites c p := by
  have key : ∀ (q pre0 : List WInst), UW c pre0 q → ∀ pre i post, q = pre ++ i :: post →
      ∀ x ∈ writes i, ¬ Live x post → x.isVar = true ∧
      (c = true → ∀ j ∈ pre0 ++ pre, ∀ a b, copyOf j = some (a, b) → x ≠ a ∧ x ≠ b) := by
    intro q
    induction q with
    | nil => intro pre0 _ pre i post e; simp at e
    | cons k q ih =>
      intro pre0 hq pre i post e x hx hl
      cases pre with
      | nil =>
        simp only [List.nil_append, List.cons.injEq] at e
        obtain ⟨rfl, rfl⟩ := e
        simpa using hq.1 x hx hl
      | cons k' pre =>
        simp only [List.cons_append, List.cons.injEq] at e
        obtain ⟨rfl, rfl⟩ := e
        have := ih (pre0 ++ [k]) hq.2 pre i post rfl x hx hl
        simpa using this
  intro pre i post e x hx hl
  simpa using key p [] h pre i post e x hx hl

/-! ### Examples -/

/-- `p(X) :- var(X), q(X).` before the allocation. -/
def exVar : List WInst :=
  [.getVariable (.x (.tmp 0)) (.arg 0), .putValue (.x (.tmp 0)) (.tmp 1),
   .callC false false none [.x (.tmp 1)], .putValue (.x (.tmp 0)) (.arg 0), .execute 1]

/-- `p(X, Y, Z) :- A is X + Y, q(Z, A, Y, f(X)).` before the allocation. -/
def exSwap : List WInst :=
  [.getVariable (.x (.tmp 0)) (.arg 0), .getVariable (.x (.tmp 1)) (.arg 1),
   .getVariable (.x (.tmp 2)) (.arg 2), .mathLoadValue (.x (.tmp 0)) (.tmp 3),
   .mathLoadValue (.x (.tmp 1)) (.tmp 4),
   .callC false false (some (.tmp 5)) [.x (.tmp 3), .x (.tmp 4)],
   .getVariable (.x (.tmp 6)) (.tmp 5),
   .putValue (.x (.tmp 2)) (.arg 0), .putValue (.x (.tmp 6)) (.arg 1),
   .putValue (.x (.tmp 1)) (.arg 2), .putStructure (.arg 3), .unifyLocalValue (.x (.tmp 0)),
   .execute 4]

example : allocated 2 exVar = some
    [.getVariable (.x (.arg 0)) (.arg 0), .putValue (.x (.arg 0)) (.arg 0),
     .callC false false none [.x (.arg 0)], .putValue (.x (.arg 0)) (.arg 0), .execute 1] := by
  decide +kernel

/-- The arguments are permuted: temporaries in other registers are needed. -/
example : allocated 2 exSwap = some
    [.getVariable (.x (.arg 4)) (.arg 0), .getVariable (.x (.arg 3)) (.arg 1),
     .getVariable (.x (.arg 2)) (.arg 2), .mathLoadValue (.x (.arg 4)) (.arg 0),
     .mathLoadValue (.x (.arg 3)) (.arg 1),
     .callC false false (some (.arg 1)) [.x (.arg 0), .x (.arg 1)],
     .getVariable (.x (.arg 1)) (.arg 1),
     .putValue (.x (.arg 2)) (.arg 0), .putValue (.x (.arg 1)) (.arg 1),
     .putValue (.x (.arg 3)) (.arg 2), .putStructure (.arg 3), .unifyLocalValue (.x (.arg 4)),
     .execute 4] := by
  decide +kernel

/-- The hypotheses of `C35_reads_partial` hold for `p(X) :- var(X), q(X).`, at level 2. -/
example : NoAddress exVar ∧ NoSelfCopy exVar ∧ WellDef atEntry exVar ∧
    UselessWrites true exVar := by
  refine ⟨?_, ?_, ?_, UW.useless ?_⟩
  · simp [NoAddress, exVar]
  · simp [NoSelfCopy, exVar, copyOf]
  · simp [WellDef, exVar, reads, writes, clobbers, atEntry, CArg.reads, CArg.writes, Reg.isVar]
  · simp [UW, exVar, reads, writes, clobbers, Live, CArg.reads, CArg.writes]

/-- And for a clause which computes, permutes its arguments and builds a term. -/
example : NoAddress exSwap ∧ NoSelfCopy exSwap ∧ WellDef atEntry exSwap ∧
    UselessWrites true exSwap := by
  refine ⟨?_, ?_, ?_, UW.useless ?_⟩
  · intro j u res args h
    simp [exSwap] at h
    obtain ⟨_, _, _, rfl⟩ := h
    simp
  · simp [NoSelfCopy, exSwap, copyOf]
  · simp [WellDef, exSwap, reads, writes, clobbers, atEntry, CArg.reads, CArg.writes, Reg.isVar,
      List.range_succ]
  · simp [UW, exSwap, reads, writes, clobbers, Live, CArg.reads, CArg.writes, List.range_succ]

/-- A temporary set and never used is allowed, when it has not been copied. -/
def exUseless : List WInst :=
  [.getVariable (.x (.tmp 0)) (.arg 1), .getStructure (.arg 0), .unifyVariable (.x (.tmp 1)),
   .unifyVariable (.x (.tmp 2)), .putValue (.x (.tmp 2)) (.arg 0), .putValue (.x (.tmp 0)) (.arg 1),
   .execute 2]

example : UselessWrites true exUseless ∧ ¬ Live (.tmp 1) (exUseless.drop 3) := by
  refine ⟨UW.useless ?_, ?_⟩
  · simp [UW, exUseless, reads, writes, clobbers, Live, Reg.isVar, List.range_succ, copyOf]
  · simp [exUseless, reads, writes, clobbers, Live, List.range_succ]

/-! ### What the hypotheses exclude -/

/-- A world where each instruction computes a value not met before. -/
def fresh : World Nat := ⟨fun h j => 100 + 10 * h.length + j, fun _ _ => 0⟩

/-- **A useless write may overwrite a live value** (level 2, the default).  The temporary 1 is
    copied from the temporary 0, then set without being used; the allocator, which considers the
    two registers as aliases at the entry of the instruction that breaks the alias, gives them
    the same machine register: the value of the temporary 0, passed to the called predicate, is
    lost. -/
theorem C35_useless_write_overwrites :
    ∃ p p', allocated 2 p = some p' ∧ NoAddress p ∧ NoSelfCopy p ∧ WellDef atEntry p ∧
      UselessWrites false p ∧
      ∃ ρ : File Nat, trace fresh p' ρ ≠ trace fresh p ρ := by
  refine ⟨[.getVariable (.x (.tmp 0)) (.arg 0), .putValue (.x (.tmp 0)) (.tmp 1),
      .getCurrentChoice (.x (.tmp 1)), .putValue (.x (.tmp 0)) (.arg 0), .execute 1],
    [.getVariable (.x (.arg 0)) (.arg 0), .putValue (.x (.arg 0)) (.arg 0),
      .getCurrentChoice (.x (.arg 0)), .putValue (.x (.arg 0)) (.arg 0), .execute 1],
    by decide +kernel, ?_, ?_, ?_, UW.useless ?_, fun _ => 7, by decide⟩
  · simp [NoAddress]
  · simp [NoSelfCopy, copyOf]
  · simp [WellDef, reads, writes, clobbers, atEntry, Reg.isVar]
  · simp [UW, reads, writes, clobbers, Live, Reg.isVar]

/-- **A useless write of an argument register may overwrite a live value**, at every level: no
    incompatibility is recorded for it. -/
theorem C35_argument_write_overwrites :
    ∃ p p', (∀ opt ∈ [0, 1, 2], allocated opt p = some p') ∧ NoAddress p ∧ NoSelfCopy p ∧
      WellDef atEntry p ∧ ∃ ρ : File Nat, trace fresh p' ρ ≠ trace fresh p ρ := by
  refine ⟨[.unifyVariable (.x (.tmp 0)), .putAtom (.arg 0), .unifyValue (.x (.tmp 0))],
    [.unifyVariable (.x (.arg 0)), .putAtom (.arg 0), .unifyValue (.x (.arg 0))],
    by decide +kernel, ?_, ?_, ?_, fun _ => 7, by decide⟩
  · simp [NoAddress]
  · simp [NoSelfCopy, copyOf]
  · simp [WellDef, reads, writes, clobbers, atEntry]

/-- **Registers passed by address are not seen by the allocator**: `call_c` with an argument
    `&(x(R))` neither reads nor writes `R` for it, and another register of the same call gets the
    same machine register. -/
theorem C35_address_overwrites :
    ∃ p p', (∀ opt ∈ [0, 1, 2], allocated opt p = some p') ∧ NoSelfCopy p ∧
      WellDef atEntry p ∧ UselessWrites true p ∧
      ∃ ρ : File Nat, trace fresh p' ρ ≠ trace fresh p ρ := by
  refine ⟨[.unifyVariable (.x (.tmp 0)), .unifyVariable (.x (.tmp 1)),
      .callC false false none [.adr (.tmp 0), .x (.tmp 1)]],
    [.unifyVariable (.x (.arg 0)), .unifyVariable (.x (.arg 0)),
      .callC false false none [.adr (.arg 0), .x (.arg 0)]],
    by decide +kernel, ?_, ?_, UW.useless ?_, fun _ => 7, by decide⟩
  · simp [NoSelfCopy, copyOf]
  · simp [WellDef, reads, writes, clobbers, atEntry, CArg.reads, CArg.writes]
  · simp [UW, reads, writes, clobbers, Live, Reg.isVar, CArg.reads, CArg.writes, copyOf]

/-- **A register copied into itself** makes the allocator forget that a later write ends its
    aliases (level 2): the set of aliases contains it twice and only one occurrence is removed. -/
theorem C35_self_copy_overwrites :
    ∃ p p', allocated 2 p = some p' ∧ NoAddress p ∧ WellDef atEntry p ∧
      UselessWrites true p ∧
      ∃ ρ : File Nat, trace fresh p' ρ ≠ trace fresh p ρ := by
  refine ⟨[.unifyVariable (.x (.tmp 0)), .putValue (.x (.tmp 0)) (.tmp 0),
      .putValue (.x (.tmp 0)) (.tmp 1), .unifyVariable (.x (.tmp 0)),
      .getValue (.x (.tmp 0)) (.tmp 1)],
    [.unifyVariable (.x (.arg 0)), .putValue (.x (.arg 0)) (.arg 0),
      .putValue (.x (.arg 0)) (.arg 0), .unifyVariable (.x (.arg 0)),
      .getValue (.x (.arg 0)) (.arg 0)],
    by decide +kernel, ?_, ?_, UW.useless ?_, fun _ => 7, by decide⟩
  · simp [NoAddress]
  · simp [WellDef, reads, writes, clobbers, atEntry, Reg.isVar]
  · simp [UW, reads, writes, clobbers, Live]

/-- The header of the allocator (reg_alloc.pl:93-95) wonders whether the values that remain
    wanted after the temporaries have been collapsed are always possible.  They are not: here the
    first temporary of the dictionary still wants the register 0, which its collapsed partner
    excludes. -/
theorem C35_wish_check_needed :
    ∃ p t lt, (createLstTmp 2 p (aliasesOpt 2 p)).2 = t :: lt ∧
      (collapseTmps .init t.wish t.imposs lt t.reg).map
        (fun r => (r.1.filter (fun x => setElt r.2.2.2 r.2.1 x))) = some [.arg 0] := by
  refine ⟨[.unifyVariable (.x (.tmp 1)), .unifyValue (.x (.tmp 1)),
    .getVariable (.x (.tmp 0)) (.arg 0), .putValue (.x (.tmp 0)) (.tmp 1),
    .unifyValue (.x (.tmp 1)), .unifyValue (.x (.tmp 0))], ?_⟩
  refine ⟨⟨0, [], [.arg 0, .tmp 1]⟩, [⟨1, [.arg 0], [.tmp 0]⟩], by decide +kernel,
    by decide +kernel⟩

end Gp.RegAlloc
