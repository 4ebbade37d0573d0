import Verif.Switch.Lemmas
import Verif.Tag.Props
/-
C28: the switch instructions select the right code.

The specification of a switch on the elements `l` is `(key, code) ∈ l`.
-/
namespace Gp.Switch

variable {Code : Type}

/-- C28: the hash tables of switch_on_atom and switch_on_structure. For every list of elements with distinct keys the table is
built, and the search of any key ends, with the code of the key, or fail iff the key is not in the list. -/
theorem C28_table (l : List (Int × Code)) (hpos : ∀ e ∈ l, 0 ≤ e.1) (hd : (l.map (·.1)).Nodup) :
    ∃ t, build l = some t ∧ ∀ key, 0 ≤ key →
      ∃ r, switchTbl t l.length key = some r ∧ ∀ c, r = some c ↔ (key, c) ∈ l := by
  have hempty : Inv l.length (create : Tbl Code) := ⟨fun s k c h => by simp [create] at h, fun s _ => rfl⟩
  have hu : used l.length (create : Tbl Code) = 0 := by
    unfold used create
    rw [List.countP_eq_zero]; simp
  obtain ⟨t, h1, h2, h3, h4⟩ := addAll_spec hempty hpos (by omega)
  refine ⟨t, h1, fun key hk => ?_⟩
  obtain ⟨r, hr, hc⟩ := switchTbl_spec h2 hk h3
  refine ⟨r, hr, fun c => (hc c).trans ((h4 key c).trans ?_)⟩
  constructor
  · rintro (⟨a, b, rfl, _⟩ | ⟨_, s, h⟩)
    · simp
    · simp [create] at h
  · intro h
    obtain ⟨a, b, rfl⟩ := List.append_of_mem h
    refine .inl ⟨a, b, rfl, fun e he hek => ?_⟩
    rw [List.map_append, List.map_cons, List.nodup_append, List.nodup_cons] at hd
    exact hd.2.1.1 (List.mem_map.2 ⟨e, he, hek⟩)

/-- C28: if a key is given several times, the last code is kept. -/
theorem C28_table_last (l : List (Int × Code)) (hpos : ∀ e ∈ l, 0 ≤ e.1) :
    ∃ t, build l = some t ∧ ∀ key, 0 ≤ key →
      switchTbl t l.length key = some ((l.reverse.find? (fun e => e.1 == key)).map (·.2)) := by
  have hempty : Inv l.length (create : Tbl Code) := ⟨fun s k c h => by simp [create] at h, fun s _ => rfl⟩
  have hu : used l.length (create : Tbl Code) = 0 := by
    unfold used create
    rw [List.countP_eq_zero]; simp
  obtain ⟨t, h1, h2, h3, h4⟩ := addAll_spec hempty hpos (by omega)
  refine ⟨t, h1, fun key hk => ?_⟩
  obtain ⟨r, hr, hc⟩ := switchTbl_spec h2 hk h3
  rw [hr]
  refine congrArg some (Option.ext fun c => (hc c).trans ((h4 key c).trans ?_))
  constructor
  · rintro (⟨a, b, rfl, hb⟩ | ⟨_, s, h⟩)
    · rw [List.reverse_append, List.reverse_cons, List.append_assoc, List.find?_append]
      have : List.find? (fun e => e.1 == key) b.reverse = none := by
        rw [List.find?_eq_none]
        intro e he
        simpa using hb e (List.mem_reverse.1 he)
      rw [this]
      simp
    · simp [create] at h
  · intro h
    cases hf : l.reverse.find? (fun e => e.1 == key) with
    | none => rw [hf] at h; simp at h
    | some e =>
      rw [hf] at h
      simp only [Option.map_some, Option.some.injEq] at h
      rw [List.find?_eq_some_iff_append] at hf
      obtain ⟨hek, a, b, hab, ha⟩ := hf
      obtain ⟨k, d⟩ := e
      simp only [beq_iff_eq] at hek
      simp only at h
      subst hek h
      refine .inl ⟨b.reverse, a.reverse, ?_, ?_⟩
      · have := congrArg List.reverse hab
        rw [List.reverse_reverse] at this
        rw [this]; simp
      · intro e he
        simpa using ha e (List.mem_reverse.1 he)

/-- Three elements, two with the same first cell (4 and 8 modulo 4), and the element 12 not in the table. -/
example : ∃ t, build [(4, 10), (8, 11), (5, 12)] = some t ∧ switchTbl t 3 8 = some (some 11) ∧
    switchTbl t 3 5 = some (some 12) ∧ switchTbl t 3 12 = some none := by
  refine ⟨_, rfl, ?_, ?_, ?_⟩ <;> decide

/-- The keys of switch_on_structure. -/
def stcKey (f n : Nat) : Int := (Gp.Tag.functorArity f n).toInt

/-- C28: the keys of switch_on_structure are positive and identify name and arity (`MAX_ARITY` is 255). -/
theorem C28_structure_keys (f n f' n' : Nat) (hf : f < 2 ^ 31) (hn : n ≤ 255) (hf' : f' < 2 ^ 31) (hn' : n' ≤ 255) :
    0 ≤ stcKey f n ∧ (stcKey f n = stcKey f' n' → f = f' ∧ n = n') := by
  constructor
  · unfold stcKey
    have : (Gp.Tag.functorArity f n).msb = false := by
      unfold Gp.Tag.functorArity Gp.Tag.atomMaxBits
      rw [BitVec.msb_or]
      have h1 : (BitVec.ofNat 64 f).msb = false := by
        rw [BitVec.msb_eq_false_iff_two_mul_lt, BitVec.toNat_ofNat]
        omega
      have h2 : (BitVec.ofNat 64 n <<< (64 - 10)).msb = false := by
        rw [BitVec.msb_eq_false_iff_two_mul_lt, BitVec.toNat_shiftLeft, BitVec.toNat_ofNat, Nat.shiftLeft_eq]
        omega
      rw [h1, h2]; rfl
    rw [BitVec.toInt_eq_msb_cond, this]; simp
  · intro h
    unfold stcKey at h
    exact Gp.Tag.C05_functor_arity_inj _ _ _ _ hf (by omega) hf' (by omega) (BitVec.eq_of_toInt_eq h)

example : stcKey 5 2 = 36028797018963973 := by decide

/-- C28 (the disabled version of switch_on_integer): a negative key gives an access before the table. -/
theorem C28_negative_key_out_of_bounds (t : Tbl Code) : switchTbl t 3 (-1) = none := by rfl

/-! Integers -/

/-- The result of the qsort of ma2asm.c:651: any list with the same elements, ordered for the comparison function. -/
def Sorted (l l' : List (Int × Code)) : Prop := l'.Perm l ∧ l'.Pairwise (fun a b => cmpInt a b ≤ 0)

/-- The code emitted for the elements `l`. -/
def Emitted (l : List (Int × Code)) (t : Tree Code) : Prop := ∃ l', Sorted (loadKeys l) l' ∧ t = switchRec l'

theorem run_mem (l : List (Int × Code)) (n : Int) (c : Code) : (switchRec l).run n = some c → (n, c) ∈ l := by
  fun_induction switchRec l with
  | case1 l h =>
    clear h
    rw [Tree.run]
    induction l with
    | nil => simp [runTests]
    | cons e l ih =>
      obtain ⟨k, d⟩ := e
      rw [runTests]
      by_cases h : n = k
      · subst h; rw [if_pos rfl]; intro h; cases h; simp
      · rw [if_neg h]; intro h'; exact List.mem_cons_of_mem _ (ih h')
  | case2 l h mid ih1 ih2 =>
    rw [Tree.run]
    by_cases he : n = (l[mid]'(by grind)).1
    · rw [if_pos he]
      intro h'
      simp only [Option.some.injEq] at h'
      have : (n, c) = l[mid]'(by grind) := Prod.ext he h'.symm
      rw [this]
      exact List.getElem_mem _
    · rw [if_neg he]
      by_cases hg : n > (l[mid]'(by grind)).1
      · rw [if_pos hg]; intro h'; exact List.mem_of_mem_drop (ih2 h')
      · rw [if_neg hg]; intro h'; exact List.mem_of_mem_take (ih1 h')

/-- C28: switch_on_integer selects the right code for every integer, if the keys of the clauses are in the range of the C type
int and their differences too. The two following theorems show what happens otherwise. -/
theorem C28_integer_partial (l : List (Int × Code)) (t : Tree Code) (hd : (l.map (·.1)).Nodup)
    (hr : ∀ e ∈ l, -2147483648 ≤ e.1 ∧ e.1 < 2147483648) (hdiff : ∀ e ∈ l, ∀ e' ∈ l, e.1 - e'.1 < 2147483648)
    (he : Emitted l t) (n : Int) (c : Code) : t.run n = some c ↔ (n, c) ∈ l := by
  obtain ⟨l', ⟨hp, hs⟩, rfl⟩ := he
  have hload : loadKeys l = l := by
    unfold loadKeys
    rw [List.map_congr_left (g := id), List.map_id]
    intro e he
    rw [toInt32_id (hr e he).1 (hr e he).2]; rfl
  rw [hload] at hp
  have hlt : l'.Pairwise (fun a b => a.1 < b.1) := by
    have hnd : (l'.map (·.1)).Nodup := (hp.map _).nodup_iff.2 hd
    rw [List.Nodup, List.pairwise_map] at hnd
    refine List.Pairwise.imp_of_mem ?_ (hs.and hnd)
    intro a b ha hb ⟨h1, h2⟩
    have ha' := hp.mem_iff.1 ha
    have hb' := hp.mem_iff.1 hb
    have d1 := hdiff a ha' b hb'
    have d2 := hdiff b hb' a ha'
    unfold cmpInt toInt32 at h1
    have h2' : a.1 ≠ b.1 := h2
    omega
  rw [switchRec_spec l' hlt n c, hp.mem_iff]

/-- Five clauses; the emitted code is unique. -/
example : ∃ t, Emitted [(7, 1), (-3, 2), (1000000000, 3), (0, 4), (12, 5)] t ∧ t.run 1000000000 = some 3 ∧
    t.run (-3) = some 2 ∧ t.run 8 = none := by
  have he : Emitted [(7, 1), (-3, 2), (1000000000, 3), (0, 4), (12, 5)] (switchRec [(-3, 2), (0, 4), (7, 1), (12, 5), (1000000000, 3)]) := by
    refine ⟨_, ⟨?_, ?_⟩, rfl⟩
    · decide
    · decide
  have := C28_integer_partial _ _ (by decide) (by decide) (by decide) he
  refine ⟨_, he, (this _ _).2 (by decide), (this _ _).2 (by decide), ?_⟩
  cases h : (switchRec [(-3, 2), (0, 4), (7, 1), (12, 5), (1000000000, 3)]).run 8 with
  | none => rfl
  | some c =>
    have := (this _ _).1 h
    simp at this

/-- The code violates C28: an integer which is not in the range of the C type int always fails, even if it is the key of a clause
(the key is truncated by `LOAD_C_INT`, wam2ma.c:1435). -/
theorem C28_big_integer_fails (l : List (Int × Code)) (t : Tree Code) (he : Emitted l t) (n : Int)
    (hn : n < -2147483648 ∨ 2147483648 ≤ n) : t.run n = none := by
  obtain ⟨l', ⟨hp, _⟩, rfl⟩ := he
  cases h : (switchRec l').run n with
  | none => rfl
  | some c =>
    exfalso
    have hm := hp.mem_iff.1 (run_mem l' n c h)
    unfold loadKeys at hm
    rw [List.mem_map] at hm
    obtain ⟨e, _, h1⟩ := hm
    simp only [Prod.mk.injEq] at h1
    have := h1.1
    unfold toInt32 at this
    omega

/-- p(4294967296). p(1). : the call p(4294967296) fails. -/
example : ∃ t, Emitted [(4294967296, 1), (1, 2)] t ∧ t.run 4294967296 = none := by
  have he : Emitted [(4294967296, 1), (1, 2)] (switchRec [(0, 1), (1, 2)]) := by
    refine ⟨_, ⟨?_, ?_⟩, rfl⟩ <;> decide
  exact ⟨_, he, C28_big_integer_fails _ _ he _ (by omega)⟩

theorem perm_sorted_unique {a b : List (Int × Code)} (hab : a.Perm b)
    (ha : a.Pairwise (fun x y => cmpInt x y ≤ 0)) (hb : b.Pairwise (fun x y => cmpInt x y ≤ 0))
    (hanti : ∀ x ∈ a, ∀ y ∈ a, cmpInt x y ≤ 0 → cmpInt y x ≤ 0 → x = y) : a = b := by
  induction a generalizing b with
  | nil => exact (List.Perm.nil_eq hab)
  | cons x a ih =>
    cases b with
    | nil => exact absurd hab.symm (by simp)
    | cons y b =>
      have hxy : x = y := by
        have hy : y ∈ x :: a := hab.mem_iff.2 (by simp)
        have hx : x ∈ y :: b := hab.mem_iff.1 (by simp)
        rcases List.mem_cons.1 hy with h | hy'
        · exact h.symm
        · rcases List.mem_cons.1 hx with h | hx'
          · exact h
          · exact hanti x (by simp) y hy ((List.pairwise_cons.1 ha).1 y hy') ((List.pairwise_cons.1 hb).1 x hx')
      subst hxy
      rw [ih ((List.perm_cons x).1 hab) (List.pairwise_cons.1 ha).2 (List.pairwise_cons.1 hb).2
        (fun u hu v hv => hanti u (by simp [hu]) v (by simp [hv]))]

/-- The code violates C28: with keys in the range of the C type int but far apart, the difference overflows in `Switch_Cmp_Int`
(ma2asm.c:731), the elements are not sorted, and a key of a clause is not found: with the clauses p(-2000000001).
p(-2000000000). p(2000000000). p(2000000001). the call p(-2000000001) fails. -/
theorem C28_far_integers_fail (t : Tree Nat)
    (he : Emitted [(-2000000001, 1), (-2000000000, 2), (2000000000, 3), (2000000001, 4)] t) :
    t.run (-2000000001) = none := by
  obtain ⟨l', ⟨hp, hs⟩, rfl⟩ := he
  have : [(2000000000, 3), (2000000001, 4), (-2000000001, 1), (-2000000000, 2)] = l' := by
    refine perm_sorted_unique (List.Perm.trans ?_ hp.symm) ?_ hs ?_
    · decide
    · decide
    · decide
  subst this
  rw [switchRec]
  simp [Tree.run, switchRec, runTests]

example : ∃ t, Emitted [(-2000000001, 1), (-2000000000, 2), (2000000000, 3), (2000000001, 4)] t := by
  refine ⟨_, [(2000000000, 3), (2000000001, 4), (-2000000001, 1), (-2000000000, 2)], ⟨?_, ?_⟩, rfl⟩
  · decide
  · decide

/-! Type of the first argument -/

/-- C28: whichever function is chosen by the compiler, switch_on_term goes to the label of the type of the first argument, to
the label for variables if it is a variable or an FD variable, and fails if there is no label. (For a float see the
next theorem.) -/
theorem C28_switch_on_term (cv ca ci cl cs : Option Code) (tag : Tag) (h : tag ≠ .flt) :
    emitSwitchOnTerm cv ca ci cl cs tag =
      match tag with
      | .atm => ca
      | .int => ci
      | .lst => cl
      | .stc => cs
      | _ => cv := by
  cases cv <;> cases ca <;> cases ci <;> cases cl <;> cases cs <;> cases tag <;> first | rfl | exact absurd rfl h

/-- C28: a float goes to the label for variables or fails. -/
theorem C28_switch_on_term_float (cv ca ci cl cs : Option Code) :
    emitSwitchOnTerm cv ca ci cl cs .flt = cv ∨ emitSwitchOnTerm cv ca ci cl cs .flt = none := by
  cases cv <;> cases ca <;> cases ci <;> cases cl <;> cases cs <;> first | exact .inl rfl | exact .inr rfl

example : emitSwitchOnTerm (some 1) (some 2) none none none .flt = none := rfl
example : emitSwitchOnTerm (some 1) (some 2) (some 3) none none .flt = some 1 := rfl

end Gp.Switch
