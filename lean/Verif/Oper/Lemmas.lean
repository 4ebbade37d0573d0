import Verif.Oper.Model
import Verif.Oper.Spec
import Verif.HashTbl.Props
/-! Helper lemmas about the operator table. -/
namespace Gp.Oper

open Gp.HashTbl (Tbl Key Rep)

/-- The number of a kind. -/
def Kind.num : Kind → Nat
  | .pre => 0 | .post => 1 | .inf => 2

def Kind.ofNum : Nat → Option Kind
  | 0 => some .pre | 1 => some .post | 2 => some .inf | _ => none

theorem Kind.ofNum_num (k : Kind) : Kind.ofNum k.num = some k := by cases k <;> rfl
theorem Kind.num_lt (k : Kind) : k.num < 4 := by cases k <;> decide
theorem Kind.num_of {n : Nat} {k : Kind} (h : Kind.ofNum n = some k) : k.num = n := by
  unfold Kind.ofNum at h
  split at h <;> simp_all <;> subst h <;> rfl

/-! Keys -/

theorem key_toNat {a t : Nat} (ha : a < 2 ^ 62) (ht : t < 4) : (key a t).toNat = 4 * a + t := by
  unfold key
  rw [BitVec.toNat_or, BitVec.toNat_shiftLeft, BitVec.toNat_ofNat, BitVec.toNat_ofNat, Nat.mod_eq_of_lt (a := a) (by omega),
    Nat.mod_eq_of_lt (a := t) (by omega), Nat.mod_eq_of_lt (by rw [Nat.shiftLeft_eq]; omega),
    ← Nat.shiftLeft_add_eq_or_of_lt (by omega : t < 2 ^ 2), Nat.shiftLeft_eq]
  omega

theorem atomOf_eq (k : Key) : atomOf k = k.toNat / 4 := by
  unfold atomOf
  rw [BitVec.toNat_ushiftRight, Nat.shiftRight_eq_div_pow]

theorem typeOf_eq (k : Key) : typeOf k = k.toNat % 4 := by
  unfold typeOf
  rw [BitVec.toNat_and]
  exact Nat.and_two_pow_sub_one_eq_mod k.toNat 2

theorem key_inj {a t b u : Nat} (ha : a < 2 ^ 62) (ht : t < 4) (hb : b < 2 ^ 62) (hu : u < 4) :
    key a t = key b u ↔ a = b ∧ t = u := by
  constructor
  · intro h
    have := congrArg BitVec.toNat h
    rw [key_toNat ha ht, key_toNat hb hu] at this
    omega
  · rintro ⟨rfl, rfl⟩; rfl

theorem key_of (k : Key) : key (atomOf k) (typeOf k) = k := by
  apply BitVec.eq_of_toNat_eq
  rw [atomOf_eq, typeOf_eq, key_toNat (by omega) (by omega)]
  omega

theorem atomOf_key {a t : Nat} (ha : a < 2 ^ 62) (ht : t < 4) : atomOf (key a t) = a := by
  rw [atomOf_eq, key_toNat ha ht]; omega

theorem typeOf_key {a t : Nat} (ha : a < 2 ^ 62) (ht : t < 4) : typeOf (key a t) = t := by
  rw [typeOf_eq, key_toNat ha ht]; omega

theorem atomOf_lt (k : Key) : atomOf k < 2 ^ 62 := by rw [atomOf_eq]; omega

/-! Masks -/

theorem mask_or (m : BitVec 4) (k k' : Kind) :
    ((m ||| opMask k.num) &&& opMask k'.num != 0#4) = (decide (k' = k) || (m &&& opMask k'.num != 0#4)) := by
  revert m; cases k <;> cases k' <;> decide

theorem mask_clear (m : BitVec 4) (k k' : Kind) :
    ((m &&& ~~~ opMask k.num) &&& opMask k'.num != 0#4) = (!decide (k' = k) && (m &&& opMask k'.num != 0#4)) := by
  revert m; cases k <;> cases k' <;> decide

/-! The simulation -/

/-- The C record of a definition. -/
def enc (d : Int × Specif) : Inf := ⟨d.1, d.2.left d.1, d.2.right d.1⟩

/-- The map of the hash table. -/
def mapOf (D : Defs) (k : Key) : Option Inf :=
  match Kind.ofNum (typeOf k) with
  | none => none
  | some kd => (D (atomOf k) kd).map enc

/-- The state represents the table of operators. -/
structure Rel (s : St) (D : Defs) : Prop where
  rep : Rep s.tbl (mapOf D)
  mask : ∀ a k, check s a (Kind.num k) = (D a k).isSome
  top : ∀ a, s.mask a < 8#4
  small : ∀ a k, D a k ≠ none → a < 2 ^ 31
  valid : ∀ a k p s, D a k = some (p, s) → 1 ≤ p ∧ p ≤ 1200 ∧ s.kind = k

theorem mapOf_key (D : Defs) {a : Nat} (ha : a < 2 ^ 62) (k : Kind) : mapOf D (key a k.num) = (D a k).map enc := by
  unfold mapOf
  rw [typeOf_key ha k.num_lt, atomOf_key ha k.num_lt, Kind.ofNum_num]

theorem mapOf_set (D : Defs) {a : Nat} (ha : a < 2 ^ 62) (k : Kind) (d : Option (Int × Specif)) (x : Key) :
    mapOf (D.set a k d) x = if x = key a k.num then d.map enc else mapOf D x := by
  by_cases hx : x = key a k.num
  · rw [if_pos hx, hx, mapOf_key _ ha]
    unfold Defs.set
    rw [if_pos ⟨rfl, rfl⟩]
  · rw [if_neg hx]
    unfold mapOf
    cases hk : Kind.ofNum (typeOf x) with
    | none => rfl
    | some kd =>
      simp only
      unfold Defs.set
      rw [if_neg]
      rintro ⟨h1, h2⟩
      apply hx
      rw [← key_of x, h1, ← Kind.num_of hk, h2]

theorem check_def (s : St) (a t : Nat) : check s a t = (s.mask a &&& opMask t != 0#4) := rfl

theorem mask_top_or (m : BitVec 4) (k : Kind) (h : m < 8#4) : m ||| opMask k.num < 8#4 := by
  revert m; cases k <;> decide

theorem mask_top_clear (m : BitVec 4) (k : Kind) (h : m < 8#4) : m &&& ~~~ opMask k.num < 8#4 := by
  revert m; cases k <;> decide

theorem createOper_rel {s : St} {D : Defs} (r : Rel s D) {a : Nat} (ha : a < 2 ^ 31) {p : Int} {sp : Specif} (hp : 1 ≤ p ∧ p ≤ 1200) :
    ∃ s', createOper s a sp.kind.num p (sp.left p) (sp.right p) = some s' ∧ Rel s' (D.set a sp.kind (some (p, sp))) := by
  obtain ⟨t, ht, rt⟩ := HashTbl.step_rep r.rep .grow trivial
  have ht' : HashTbl.extendIfNeeded s.tbl (s.tbl.gen + 1) = some t := ht
  obtain ⟨t2, ht2, rt2⟩ := HashTbl.step_rep rt (.insert (key a sp.kind.num) (enc (p, sp)) true) trivial
  have ht2' : (HashTbl.insert t (key a sp.kind.num) (enc (p, sp)) true).1 = t2 := by
    simpa [HashTbl.step] using ht2
  unfold createOper
  simp only [ht']
  refine ⟨_, rfl, ?_, ?_, ?_, ?_, ?_⟩
  · have : mapOf (D.set a sp.kind (some (p, sp))) =
        HashTbl.specStep (HashTbl.specStep (mapOf D) .grow) (.insert (key a sp.kind.num) (enc (p, sp)) true) := by
      funext x
      rw [mapOf_set D (by omega)]
      rfl
    rw [this]
    show Rep (HashTbl.insert t (key a sp.kind.num) (enc (p, sp)) true).1 _
    rw [ht2']
    exact rt2
  · intro b k
    have := r.mask b k
    simp only [check_def, setMask] at this ⊢
    unfold Defs.set
    by_cases hb : b = a
    · subst hb
      simp only [if_true, mask_or, true_and]
      by_cases hk : k = sp.kind
      · simp [hk]
      · simp [hk, this]
    · simp [hb, this]
  · intro b
    simp only [setMask]
    by_cases hb : b = a
    · rw [if_pos hb]; exact mask_top_or _ _ (r.top a)
    · rw [if_neg hb]; exact r.top b
  · intro b k h
    unfold Defs.set at h
    by_cases hb : b = a
    · rw [hb]; exact ha
    · rw [if_neg (by simp [hb])] at h
      exact r.small b k h
  · intro b k p' s' h
    unfold Defs.set at h
    by_cases hb : b = a ∧ k = sp.kind
    · rw [if_pos hb] at h
      simp only [Option.some.injEq, Prod.mk.injEq] at h
      obtain ⟨rfl, rfl⟩ := h
      exact ⟨hp.1, hp.2, hb.2.symm⟩
    · rw [if_neg hb] at h
      exact r.valid b k p' s' h

theorem deleteOper_rel {s : St} {D : Defs} (r : Rel s D) {a : Nat} (ha : a < 2 ^ 31) (kd : Kind) :
    Rel (deleteOper s a kd.num) (D.set a kd none) := by
  obtain ⟨t2, ht2, rt2⟩ := HashTbl.step_rep r.rep (.delete (key a kd.num)) trivial
  have ht2' : (HashTbl.delete s.tbl (key a kd.num)).1 = t2 := by
    simpa [HashTbl.step] using ht2
  refine ⟨?_, ?_, ?_, ?_, ?_⟩
  · have : mapOf (D.set a kd none) = HashTbl.specStep (mapOf D) (.delete (key a kd.num)) := by
      funext x
      rw [mapOf_set D (by omega)]
      rfl
    rw [this]
    show Rep (HashTbl.delete s.tbl (key a kd.num)).1 _
    rw [ht2']
    exact rt2
  · intro b k
    have := r.mask b k
    simp only [check_def, setMask, deleteOper] at this ⊢
    unfold Defs.set
    by_cases hb : b = a
    · subst hb
      simp only [if_true, mask_clear, true_and]
      by_cases hk : k = kd
      · simp [hk]
      · simp [hk, this]
    · simp [hb, this]
  · intro b
    simp only [setMask, deleteOper]
    by_cases hb : b = a
    · rw [if_pos hb]; exact mask_top_clear _ _ (r.top a)
    · rw [if_neg hb]; exact r.top b
  · intro b k h
    unfold Defs.set at h
    by_cases hb : b = a
    · rw [hb]; exact ha
    · rw [if_neg (by simp [hb])] at h
      exact r.small b k h
  · intro b k p' s' h
    unfold Defs.set at h
    by_cases hb : b = a ∧ k = kd
    · rw [if_pos hb] at h; simp at h
    · rw [if_neg hb] at h
      exact r.valid b k p' s' h

theorem find_rel {s : St} {D : Defs} (r : Rel s D) {a : Nat} (ha : a < 2 ^ 62) (k : Kind) :
    (HashTbl.find s.tbl (key a k.num)).map (·.val) = (D a k).map enc := by
  rw [r.rep.look, mapOf_key D ha]

theorem lookup_rel {s : St} {D : Defs} (r : Rel s D) {a : Nat} (ha : a < 2 ^ 62) (k : Kind) :
    lookup s a k.num = (D a k).map enc := by
  unfold lookup
  rw [r.mask, find_rel r ha]
  cases D a k <;> simp

theorem specifIndex_spec (A : Atoms) (sp : Nat) (p : Int) :
    args (specifIndex A sp) p = (Specif.all.find? (fun s => A s.name == sp)).map fun s => (s.kind.num, s.left p, s.right p) := by
  unfold specifIndex specifNames Specif.all
  simp only [List.map_cons, List.map_nil, List.idxOf_cons, List.idxOf_nil, List.find?_cons, List.find?_nil, Specif.name]
  cases h0 : A "fx" == sp
  · cases h1 : A "fy" == sp
    · cases h2 : A "xf" == sp
      · cases h3 : A "yf" == sp
        · cases h4 : A "xfx" == sp
          · cases h5 : A "xfy" == sp
            · cases h6 : A "yfx" == sp
              · rfl
              · rfl
            · rfl
          · rfl
        · rfl
      · rfl
    · rfl
  · rfl

/-- The index of a specifier. -/
def Specif.index : Specif → Nat
  | .fx => 0 | .fy => 1 | .xf => 2 | .yf => 3 | .xfx => 4 | .xfy => 5 | .yfx => 6

theorem detect_enc {p : Int} {sp : Specif} (hp : 1 ≤ p) : detect sp.kind.num (enc (p, sp)) = sp.index := by
  have h : p - 1 < p := by omega
  cases sp <;> simp [detect, enc, Specif.kind, Kind.num, Specif.left, Specif.right, Specif.index, h]

theorem tMacro_spec (sp : Specif) (p : Int) : tMacro sp.index p = (sp.kind.num, sp.left p, sp.right p) := by
  cases sp <;> rfl

end Gp.Oper
