import Verif.Tag.Lemmas
/-!
Property C05: tagged words represent each object faithfully and unambiguously.
-/
namespace Gp.Tag

/-! Specification: the objects a word can denote. -/

/-- An object: a Prolog integer, an atom number, or an 8-byte aligned address of one of the five
pointer kinds. -/
inductive Obj where
  | int (z : Int)
  | atm (v : Nat)
  | adr (t : Tag) (a : Word)

/-- Objects the engine builds: 61-bit integers, atom numbers that fit a C `int`, aligned addresses
with a pointer tag. -/
def Obj.valid : Obj → Prop
  | .int z => -2 ^ 60 ≤ z ∧ z < 2 ^ 60
  | .atm v => v < 2 ^ 31
  | .adr t a => a.toNat % 8 = 0 ∧ t ≠ .int ∧ t ≠ .atm

/-- The kind the object must be seen as. -/
def Obj.kind : Obj → Tag
  | .int _ => .int
  | .atm _ => .atm
  | .adr t _ => t

/-- Word built by the engine for an object. -/
def encode : Obj → Word
  | .int z => tagInt z
  | .atm v => tagAtm v
  | .adr t a => tagAdr t a

theorem encode_mask (o : Obj) (h : o.valid) : tagMaskOf (encode o) = o.kind.mask := by
  cases o with
  | int z => exact tagInt_mask z
  | atm v => exact tagAtm_mask h
  | adr t a => exact tagAdr_mask t h.1

/-- **C05** (kind). The tag test of a kind answers true on a word exactly when the word was built
for an object of that kind. -/
theorem C05_kind_recognised (o : Obj) (h : o.valid) (t : Tag) :
    tagIs t (encode o) = true ↔ t = o.kind := by
  unfold tagIs
  rw [encode_mask o h]
  constructor
  · intro he; exact (mask_inj (by simpa using he)).symm
  · rintro rfl; simp

example : (Obj.int (-2 ^ 60)).valid ∧ (Obj.atm 12345).valid ∧ (Obj.adr .lst 0x7f00#64).valid :=
  ⟨⟨by decide, by decide⟩, by show _ < _; decide, ⟨by decide, by decide, by decide⟩⟩

/-- **C05** (value). Untagging gives back the integer, the atom number or the address. -/
theorem C05_value_recovered (o : Obj) (h : o.valid) :
    match o with
    | .int z => untagInt (encode o) = z
    | .atm v => untagAtm (encode o) = v
    | .adr t a => untagAdr t (encode o) = a := by
  cases o with
  | int z => exact untag_tagInt h.1 h.2
  | atm v => exact untag_tagAtm h
  | adr t a => exact untag_tagAdr t h.1

/-- **C05** (no confusion). Two objects with the same word are the same object: word equality is
object equality, the basis of the `==` tests of the engine on atoms and integers. -/
theorem C05_words_unambiguous (o p : Obj) (ho : o.valid) (hp : p.valid)
    (h : encode o = encode p) : o = p := by
  have hk : o.kind = p.kind := mask_inj (by rw [← encode_mask o ho, h, encode_mask p hp])
  have h1 := C05_value_recovered o ho
  have h2 := C05_value_recovered p hp
  cases o <;> cases p <;> simp only [Obj.kind] at hk
  · simp only at h1 h2; rw [h] at h1; rw [h1] at h2; rw [h2]
  · exact absurd hk (by decide)
  · exact absurd hk.symm hp.2.1
  · exact absurd hk (by decide)
  · simp only at h1 h2; rw [h] at h1; rw [h1] at h2; rw [Int.ofNat_inj.1 h2]
  · exact absurd hk.symm hp.2.2
  · exact absurd hk ho.2.1
  · exact absurd hk ho.2.2
  · subst hk; simp only at h1 h2; rw [h] at h1; rw [h1] at h2; rw [h2]

/-- **C05** (integer range). Reading any word as an integer gives a 61-bit integer, and the overflow
test of the engine accepts exactly the integers which survive tagging. -/
theorem C05_overflow_test_exact (z : Int) :
    testIntOverflow z = false ↔ untagInt (tagInt z) = z := by
  have hr : ∀ w : Word, -2 ^ 60 ≤ untagInt w ∧ untagInt w < 2 ^ 60 := by
    intro w
    unfold untagInt
    rw [BitVec.toInt_sshiftRight, Int.shiftRight_eq_div_pow]
    have := @BitVec.le_toInt 64 w
    have := @BitVec.toInt_lt 64 w
    omega
  have := testIntOverflow_iff z
  constructor
  · intro h
    have : -2 ^ 60 ≤ z ∧ z < 2 ^ 60 := by
      by_cases hz : -2 ^ 60 ≤ z ∧ z < 2 ^ 60
      · exact hz
      · rw [this.2 hz] at h; cases h
    exact untag_tagInt this.1 this.2
  · intro h
    have h2 := hr (tagInt z)
    rw [h] at h2
    cases ht : testIntOverflow z
    · rfl
    · exact absurd h2 (this.1 ht)

example : testIntOverflow (2 ^ 60) = true ∧ testIntOverflow (2 ^ 60 - 1) = false ∧
    testIntOverflow (-2 ^ 60) = false ∧ testIntOverflow (-2 ^ 60 - 1) = true := by decide

/-- **C05** (functor words). A functor word gives back its atom and arity, for every atom number and
every arity up to 1023 (the engine limits arities to 255). -/
theorem C05_functor_arity (f n : Nat) (hf : f < 2 ^ 31) (hn : n < 1024) :
    functorOf (functorArity f n) = f ∧ arityOf (functorArity f n) = n :=
  ⟨functorOf_functorArity hf hn, arityOf_functorArity hf hn⟩

/-- Functor words are equal only for the same name and arity. -/
theorem C05_functor_arity_inj (f n f' n' : Nat) (hf : f < 2 ^ 31) (hn : n < 1024)
    (hf' : f' < 2 ^ 31) (hn' : n' < 1024) (h : functorArity f n = functorArity f' n') :
    f = f' ∧ n = n' := by
  obtain ⟨h1, h2⟩ := C05_functor_arity f n hf hn
  obtain ⟨h3, h4⟩ := C05_functor_arity f' n' hf' hn'
  rw [h] at h1 h2
  omega

example : (70000 : Nat) < 2 ^ 31 ∧ (255 : Nat) < 1024 := by decide

/-- **C05** (trail words). A trail entry gives back its kind and its address. -/
theorem C05_trail_entry (t v : Word) (ht : t.toNat < 4) (hv : v.toNat % 4 = 0) :
    trailTagOf (trailTagValue t v) = t ∧ trailValueOf (trailTagValue t v) = v := by
  have key : v &&& 3#64 = 0#64 := by
    apply BitVec.eq_of_toNat_eq; rw [and3_toNat, hv]; rfl
  have key2 : t &&& 3#64 = t := by
    apply BitVec.eq_of_toNat_eq; rw [and3_toNat]; omega
  have e3 : ∀ i, (v.getLsbD i && (3#64).getLsbD i) = false := by
    intro i
    have := congrArg (fun b => BitVec.getLsbD b i) key
    simpa using this
  have e4 : ∀ i, (t.getLsbD i && (3#64).getLsbD i) = t.getLsbD i := by
    intro i
    have := congrArg (fun b => BitVec.getLsbD b i) key2
    simpa using this
  constructor
  · apply BitVec.eq_of_getLsbD_eq
    intro i hi
    simp only [trailTagOf, trailTagValue, BitVec.getLsbD_and, BitVec.getLsbD_or]
    have a := e3 i; have b := e4 i
    revert a b
    cases v.getLsbD i <;> cases t.getLsbD i <;> cases (3#64).getLsbD i <;> simp
  · apply BitVec.eq_of_getLsbD_eq
    intro i hi
    simp only [trailValueOf, trailTagValue, BitVec.getLsbD_and, BitVec.getLsbD_or, BitVec.getLsbD_not, hi,
      decide_true, Bool.true_and]
    have a := e3 i; have b := e4 i
    revert a b
    cases v.getLsbD i <;> cases t.getLsbD i <;> cases (3#64).getLsbD i <;> simp

example : (2#64).toNat < 4 ∧ (0x7f00#64).toNat % 4 = 0 := by decide

end Gp.Tag
