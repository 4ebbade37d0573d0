/-
C55: the byte code of a consulted clause is executed as its WAM instructions.
-/
import Verif.ByteCode.Lemmas

namespace Gp.ByteCode

/-- The buffer after the emission of some clauses, from the start of the system
(each clause comes with the table of predicates and the predicate it belongs to). -/
def session (w64 : Bool) (cls : List (Env × List Inst)) : Buf :=
  cls.foldl (fun b c => emitClause w64 c.1 b c.2) Buf.init

theorem foldClauses_ok {w64 : Bool} (cls : List (Env × List Inst)) : ∀ {b : Buf}, b.ok →
    (cls.foldl (fun b c => emitClause w64 c.1 b c.2) b).ok := by
  induction cls with
  | nil => intro b h; exact h
  | cons c cls ih => intro b h; exact ih (emitClause_ok c.2 h).1

theorem init_ok : Buf.init.ok := by unfold Buf.ok; decide

theorem session_ok (w64 : Bool) (cls : List (Env × List Inst)) : (session w64 cls).ok :=
  foldClauses_ok cls init_ok

/-- A table of predicates for the examples: 7/2 is native, 8/1 is consulted. -/
def db0 (f n : Nat) : Option Pred :=
  if f = 7 ∧ n = 2 then some (.native 0x7f0012345678)
  else if f = 8 ∧ n = 1 then some .dyn else none

/-- The clause of a predicate 300/2. -/
def env0 : Env := ⟨db0, 300, 2⟩

theorem env0_ok : env0.ok true := by
  intro f n p h
  simp only [env0, db0] at h
  split at h
  · simp at h; subst h; decide
  · split at h <;> simp at h

/-- Instructions with big and negative integers, an atom over 16 bits, and calls. -/
def prog0 : List Inst :=
  [.allocate 4, .getVariable (.y 3) 0, .getInteger (-5) 1, .putAtom 70000 0, .putInteger 65535 1,
   .call 7 2, .putUnsafeValue (.y 3) 0, .deallocate, .execute 8 1]

theorem prog0_ok : ∀ i ∈ prog0, Valid true i := by
  simp [prog0, Valid, okAtom, okInt, Reg.ok1]

/-! ### One instruction -/

/-- The words written for an instruction, wherever they are, are read back as this
instruction with the same operands, and the next word read is the one after them. -/
theorem C55_instruction {w64 : Bool} {e : Env} (he : e.ok w64) (pre rest : List Nat) {i : Inst}
    (hv : Valid w64 i) (hc : ∀ f n, i ≠ .call f n) (hx : ∀ f n, i ≠ .execute f n) :
    decode w64 (pre ++ (emit w64 e i ++ rest)) pre.length =
      some (.inst i, pre.length + (emit w64 e i).length) := by
  rw [decode_emit he pre rest hv, act_inst hc hx]

example : decode true ([1, 2, 3] ++ (emit true env0 (.putInteger (-5) 200) ++ [9])) 3 =
    some (.inst (.putInteger (-5) 200), 6) := by
  have := C55_instruction env0_ok [1, 2, 3] [9] (i := .putInteger (-5) 200)
    (by simp [Valid, okInt]) (by simp) (by simp)
  exact this

/-- A call is read as a call to the same predicate: by the address of its code when
it is native, and the continuation it saves is the next instruction. -/
theorem C55_call {w64 : Bool} {e : Env} (he : e.ok w64) (pre rest : List Nat) {f n : Nat}
    (hf : okAtom f) (hn : n < 16777216) :
    (∀ p, e.db f n = some (.native p) →
      decode w64 (pre ++ (emit w64 e (.call f n) ++ rest)) pre.length =
        some (.native (some (pre.length + (emit w64 e (.call f n)).length)) f n p,
          pre.length + (emit w64 e (.call f n)).length)) ∧
    ((∀ p, e.db f n ≠ some (.native p)) → ∃ cf cn,
      decode w64 (pre ++ (emit w64 e (.call f n) ++ rest)) pre.length =
        some (.pred (some (pre.length + (emit w64 e (.call f n)).length)) f n cf cn,
          pre.length + (emit w64 e (.call f n)).length)) := by
  have h := decode_emit he pre rest (i := .call f n) ⟨hf, hn⟩
  constructor
  · intro p hp
    rw [h]; simp only [actOf, hp]
  · intro hp
    refine ⟨(ctxOf w64 e).1, (ctxOf w64 e).2, ?_⟩
    rw [h]
    match hd : e.db f n with
    | none => simp only [actOf, hd]
    | some .dyn => simp only [actOf, hd]
    | some (.native p) => exact absurd hd (hp p)

example : decode true (emit true env0 (.call 7 2) ++ [48]) 0 =
    some (.native (some 4) 7 2 0x7f0012345678, 4) := by decide

/-! ### A clause -/

/-- Whatever has been consulted before, the emulation of the byte code of a clause
is the execution of its WAM instructions, on a 32 bits machine: from every
instruction (`pos k` is its place, the one of the first is 0), so also when a call
comes back to the saved place; with the same calls, the same continuations and the
same context for the error of an unknown predicate. -/
theorem C55_clause_32 {σ : Type} (hist : List (Env × List Inst)) {e : Env} (he : e.ok false)
    (hf : e.callerF < 4194304) (hn : e.callerN < 1024)
    {is : List Inst} (hv : ∀ i ∈ is, Valid false i)
    (M : Mach σ) {db : Nat → Nat → Option Pred} (hs : Stable e db) (base : Nat) (debug : Bool) :
    ∃ pos : Nat → Nat, pos 0 = 0 ∧ ∀ k fuel s, is.length - k < fuel →
      emulate false M db (emitClause false e (session false hist) is).words base debug fuel
          (pos k) s =
        run M db (e.callerF, e.callerN) (fun k => saved base (pos k) debug) (is.drop k) k s := by
  refine ⟨posOf false e is, by simp [posOf, encAll], ?_⟩
  intro k fuel s hfuel
  rw [(emitClause_ok is (session_ok false hist)).2, ← ctx32 hf hn]
  exact emulate_run he hv M hs base debug _ k fuel s rfl (by rw [List.length_drop]; exact hfuel)

/-- On a 64 bits machine, the same but for the context of the error of an unknown
predicate, whose arity is always 0.  Missing: the arity of the predicate of the
clause (see `C55_context`). -/
theorem C55_clause_partial {σ : Type} (hist : List (Env × List Inst)) {e : Env} (he : e.ok true)
    (hf : okAtom e.callerF) {is : List Inst} (hv : ∀ i ∈ is, Valid true i)
    (M : Mach σ) {db : Nat → Nat → Option Pred} (hs : Stable e db) (base : Nat) (debug : Bool) :
    ∃ pos : Nat → Nat, pos 0 = 0 ∧ ∀ k fuel s, is.length - k < fuel →
      emulate true M db (emitClause true e (session true hist) is).words base debug fuel
          (pos k) s =
        run M db (e.callerF, 0) (fun k => saved base (pos k) debug) (is.drop k) k s := by
  refine ⟨posOf true e is, by simp [posOf, encAll], ?_⟩
  intro k fuel s hfuel
  rw [(emitClause_ok is (session_ok true hist)).2, ← ctx64 hf]
  exact emulate_run he hv M hs base debug _ k fuel s rfl (by rw [List.length_drop]; exact hfuel)

example : ∃ pos : Nat → Nat, pos 0 = 0 ∧ ∀ k fuel s, prog0.length - k < fuel →
    emulate true (σ := Nat) ⟨fun _ s => some (s + 1), fun _ s => s⟩ db0
        (emitClause true env0 (session true [(env0, prog0)]) prog0).words 4096 false fuel (pos k) s =
      run ⟨fun _ s => some (s + 1), fun _ s => s⟩ db0 (300, 0)
        (fun k => saved 4096 (pos k) false) (prog0.drop k) k s :=
  C55_clause_partial [(env0, prog0)] env0_ok (by unfold okAtom; decide) prog0_ok _ (fun _ _ _ => Iff.rfl) 4096 false

/-- The first call of this clause is reached after five instructions. -/
example : run (σ := Nat) ⟨fun _ s => some (s + 1), fun _ s => s⟩ db0 (300, 0) id prog0 0 0 =
    .native 7 2 0x7f0012345678 5 := rfl

/-- On a 64 bits machine, the error of an unknown predicate called by a clause of
`p/N` with `N > 0` is given with the context `p/0`. -/
theorem C55_context {σ : Type} (hist : List (Env × List Inst)) {e : Env} (he : e.ok true)
    (hc : okAtom e.callerF) (hN : e.callerN ≠ 0) (M : Mach σ) {f n : Nat}
    (hf : okAtom f) (hn : n < 16777216) {db : Nat → Nat → Option Pred} (hs : Stable e db)
    (hu : db f n = none) (base : Nat) (debug : Bool) (s : σ) :
    emulate true M db (emitClause true e (session true hist) [.execute f n]).words base debug 2 0 s =
      .unknown f n e.callerF 0 s ∧
    emulate true M db (emitClause true e (session true hist) [.execute f n]).words base debug 2 0 s ≠
      .unknown f n e.callerF e.callerN s := by
  obtain ⟨pos, h0, h⟩ := C55_clause_partial hist he hc (is := [.execute f n])
    (by intro i hi; cases List.mem_singleton.1 hi; exact ⟨hf, hn⟩) M hs base debug
  have := h 0 2 s (by simp)
  rw [h0] at this
  rw [this]
  constructor
  · simp only [List.drop, run, callTo, hu]
  · simp only [List.drop, run, callTo, hu]
    intro hh; injection hh with _ _ _ h4; exact hN h4.symm

example : emulate true (σ := Nat) ⟨fun _ s => some s, fun _ s => s⟩ db0
    (emitClause true env0 (session true []) [.execute 9 3]).words 4096 false 2 0 5 =
      .unknown 9 3 300 0 5 :=
  (C55_context [] env0_ok (by unfold okAtom; decide) (by decide) _ (by unfold okAtom; decide) (by decide)
    (fun _ _ _ => Iff.rfl) (by decide) 4096 false 5).1

/-- The word saved before a call gives back the address of the next instruction
(the byte code is at an address which is a multiple of 4) and the debug flag. -/
theorem C55_resume {base : Nat} (hb : base % 4 = 0) (pc : Nat) (debug : Bool) :
    restored (saved base pc debug) = (base + 4 * pc, debug) :=
  restored_saved hb pc debug

example : restored (saved 4096 13 true) = (4148, true) := by decide

/-- The emission never writes outside of its buffer, whatever is consulted. -/
theorem C55_buffer (w64 : Bool) (cls : List (Env × List Inst)) :
    (session w64 cls).overflow = false :=
  (session_ok w64 cls).1

/-- The check is needed as it is: with one word less a `call` to a native
predicate would be written over the end (1021 words are in the buffer). -/
example : (Buf.push ⟨List.replicate 1021 0, 1, false⟩ (emit true env0 (.call 7 2))).overflow = true := by
  decide +kernel

/-! ### Limits -/

/-- Permanent variables from 65536 and argument registers from 256 are written
modulo the size of their field: another variable is read. -/
theorem C55_field_overflow (e : Env) (n a : Nat) :
    decode true (emit true e (.getVariable (.y (n + 65536)) a)) 0 =
      decode true (emit true e (.getVariable (.y n) a)) 0 ∧
    decode true (emit true e (.getList (a + 256))) 0 = decode true (emit true e (.getList a)) 0 := by
  constructor
  · show decode true [pack1 1 a (n + 65536)] 0 = decode true [pack1 1 a n] 0
    have : pack1 1 a (n + 65536) = pack1 1 a n := by unfold pack1; omega
    rw [this]
  · show decode true [pack1 10 (a + 256) 0] 0 = decode true [pack1 10 a 0] 0
    have : pack1 10 (a + 256) 0 = pack1 10 a 0 := by unfold pack1; omega
    rw [this]

/-- The registers `X` are 256 (`NB_OF_X_REGS`, EnginePl/pl_params.h:48) and a
predicate may have 255 arguments (`MAX_ARITY`): calling a consulted predicate
writes only in these registers exactly when it has at most 254 arguments; with
255 the debug flag is written over the register which follows them. -/
theorem C55_max_arity (arity : Nat) : (∀ r ∈ prepWrites arity, r < 256) ↔ arity ≤ 254 := by
  simp [prepWrites]; omega

example : 256 ∈ prepWrites 255 := by decide

end Gp.ByteCode
