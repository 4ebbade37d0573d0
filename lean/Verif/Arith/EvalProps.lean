import Verif.Arith.Eval
import Verif.Arith.Props
/-!
Property C41: `X is Expr` delivers the mathematical value of an integer expression.

Specification: the relation `Den`, which assigns to an expression its mathematical value, every
intermediate value being a Prolog integer. It does not mention words, tags or C operations.
-/
namespace Gp.Arith
open Gp.Tag

variable (M : Dbl)

/-- Mathematical meaning of the one-argument functions. -/
def Op1 (f : String) (a z : Int) : Prop :=
  (f = "+" ∧ z = a) ∨ (f = "-" ∧ z = -a) ∨ (f = "inc" ∧ z = a + 1) ∨ (f = "dec" ∧ z = a - 1) ∨
  (f = "abs" ∧ z = a.natAbs) ∨ (f = "sign" ∧ z = a.sign) ∨
  (f = "\\" ∧ ∀ i, ibit z i = !ibit a i) ∨
  (f = "truncate" ∧ z = a)

/-- Mathematical meaning of the two-argument functions. -/
def Op2 (f : String) (a b z : Int) : Prop :=
  (f = "+" ∧ z = a + b) ∨ (f = "-" ∧ z = a - b) ∨ (f = "*" ∧ z = a * b) ∨
  (f = "//" ∧ b ≠ 0 ∧ ∃ r, TruncDiv a b z r) ∨ (f = "rem" ∧ b ≠ 0 ∧ ∃ q, TruncDiv a b q z) ∨
  (f = "div" ∧ b ≠ 0 ∧ ∃ r, FloorDiv a b z r) ∨ (f = "mod" ∧ b ≠ 0 ∧ ∃ q, FloorDiv a b q z) ∨
  (f = "/\\" ∧ ∀ i, ibit z i = (ibit a i && ibit b i)) ∨
  (f = "\\/" ∧ ∀ i, ibit z i = (ibit a i || ibit b i)) ∨
  (f = "xor" ∧ ∀ i, ibit z i = (ibit a i ^^ ibit b i)) ∨
  (f = "min" ∧ z = min a b) ∨ (f = "max" ∧ z = max a b)

/-- Names covered by the theorem: `truncate` stands for the four rounding functions on integers;
`<<`, `>>`, `gcd`, `^` and the bit scans are covered by C06, C08, C09 only (the code is wrong on some
arguments of the first three). -/
def names1 : List String := ["+", "-", "inc", "dec", "abs", "sign", "\\", "truncate"]
def names2 : List String :=
  ["+", "-", "*", "//", "rem", "div", "mod", "/\\", "\\/", "xor", "min", "max"]

/-- An integer expression. -/
inductive IntExp : Exp M → Prop where
  | int (z : Int) : InRange z → IntExp (.int (tagInt z))
  | un (f : String) (x : Exp M) : f ∈ names1 → IntExp x → IntExp (.stc1 f x)
  | bin (f : String) (x y : Exp M) : f ∈ names2 → IntExp x → IntExp y → IntExp (.stc2 f x y)

/-- Value of an expression, all intermediate results being Prolog integers. -/
inductive Den : Exp M → Int → Prop where
  | int (z : Int) : InRange z → Den (.int (tagInt z)) z
  | un (f : String) (x : Exp M) (a z : Int) : Den x a → Op1 f a z → InRange z → Den (.stc1 f x) z
  | bin (f : String) (x y : Exp M) (a b z : Int) : Den x a → Den y b → Op2 f a b z → InRange z →
      Den (.stc2 f x y) z

variable {M}

theorem Den.inRange {e : Exp M} {z : Int} (h : Den M e z) : InRange z := by cases h <;> assumption

theorem ibit_ext {x y : Int} (hx : InRange x) (hy : InRange y) (h : ∀ i, ibit x i = ibit y i) : x = y := by
  apply tagInt_inj hx.1 hx.2 hy.1 hy.2
  apply BitVec.eq_of_getLsbD_eq
  intro i hi
  by_cases h3 : i < 3
  · have lx := (low_bits _).1 (tagInt_low x)
    have ly := (low_bits _).1 (tagInt_low y)
    rcases (by omega : i = 0 ∨ i = 1 ∨ i = 2) with rfl | rfl | rfl
    · rw [lx.1, ly.1]
    · rw [lx.2.1, ly.2.1]
    · rw [lx.2.2, ly.2.2]
  · have h1 := ibit_tag hx (i - 3)
    have h2 := ibit_tag hy (i - 3)
    rw [show min (i - 3) 60 + 3 = i by omega] at h1 h2
    rw [← h1, ← h2, h]

/-- Outcome of a function on integers: the mathematical value when there is one in range, an error
otherwise. -/
def Delivers (r : Out (Num M)) (P : Int → Prop) : Prop :=
  (∃ z, InRange z ∧ P z ∧ (∀ z', InRange z' → P z' → z' = z) ∧ r = .ok (.int (tagInt z))) ∨
  ((∃ e, r = .err e) ∧ ∀ z, InRange z → ¬ P z)

theorem delivers_exact (z : Int) : Delivers (M := M) (outInt M (exactOrOverflow z)) (fun y => y = z) := by
  unfold exactOrOverflow
  by_cases h : InRange z
  · exact Or.inl ⟨z, h, rfl, fun _ _ e => e, by rw [if_pos h]; rfl⟩
  · refine Or.inr ⟨⟨_, by rw [if_neg h]; rfl⟩, ?_⟩
    rintro y hy rfl; exact h hy

theorem Delivers.congr {r : Out (Num M)} {P Q : Int → Prop} (h : Delivers r P) (e : ∀ z, Q z ↔ P z) :
    Delivers r Q := by
  have : Q = P := by funext z; exact propext (e z)
  rw [this]; exact h

theorem delivers_ok {z : Int} {P : Int → Prop} (hz : InRange z) (hp : P z)
    (hu : ∀ z', InRange z' → P z' → z' = z) {r : Out Word} (hr : r = .ok (tagInt z)) :
    Delivers (M := M) (outInt M r) P :=
  Or.inl ⟨z, hz, hp, hu, by rw [hr]; rfl⟩

theorem apply1_spec (f : String) (hf : f ∈ names1) (a : Int) (ha : InRange a) :
    ∃ fn, lookup1 f = some fn ∧ Delivers (apply1 M false fn (.int (tagInt a))) (Op1 f a) := by
  obtain ⟨_, _, _, c4, c5, c6, c7⟩ := C06_exact_or_overflow a a ha ha
  obtain ⟨s1, _⟩ := C06_sign_and_compare a a ha ha
  obtain ⟨_, _, _, ⟨zn, hzn, hn1, hn2, hn3⟩⟩ := C08_bitwise a a ha ha
  have idc : Delivers (M := M) (.ok (.int (tagInt a))) (fun z => z = a) :=
    Or.inl ⟨a, ha, rfl, fun _ _ e => e, rfl⟩
  simp only [names1, List.mem_cons, List.not_mem_nil, or_false] at hf
  rcases hf with rfl | rfl | rfl | rfl | rfl | rfl | rfl | rfl
  · exact ⟨_, rfl, idc.congr (by simp [Op1])⟩
  · refine ⟨_, rfl, ?_⟩
    simp only [apply1, iftoif, c4]; exact (delivers_exact (-a)).congr (by simp [Op1])
  · refine ⟨_, rfl, ?_⟩
    simp only [apply1, iftoif, c5]; exact (delivers_exact (a + 1)).congr (by simp [Op1])
  · refine ⟨_, rfl, ?_⟩
    simp only [apply1, iftoif, c6]; exact (delivers_exact (a - 1)).congr (by simp [Op1])
  · refine ⟨_, rfl, ?_⟩
    simp only [apply1, iftoif, c7]; exact (delivers_exact (a.natAbs : Int)).congr (by simp [Op1])
  · refine ⟨_, rfl, ?_⟩
    have hs : InRange a.sign := by
      rcases Int.lt_trichotomy a 0 with h | h | h
      · rw [Int.sign_eq_neg_one_of_neg h]; decide
      · subst h; decide
      · rw [Int.sign_eq_one_of_pos h]; decide
    simp only [apply1, iftoif, s1]
    exact Or.inl ⟨a.sign, hs, by simp [Op1], by simp [Op1], rfl⟩
  · refine ⟨_, rfl, ?_⟩
    simp only [apply1, itoi, hn1]
    refine Or.inl ⟨zn, hzn, by simp only [Op1]; simp [hn3], ?_, rfl⟩
    intro z' hz' hp
    simp only [Op1] at hp
    simp at hp
    exact ibit_ext hz' hzn (fun i => by rw [hp, hn3])
  · exact ⟨_, rfl, idc.congr (by simp [Op1])⟩

theorem apply2_spec (f : String) (hf : f ∈ names2) (a b : Int) (ha : InRange a) (hb : InRange b) :
    ∃ fn, lookup2 f = some fn ∧
      Delivers (apply2 M fn (.int (tagInt a)) (.int (tagInt b))) (Op2 f a b) := by
  obtain ⟨c1, c2, c3, _⟩ := C06_exact_or_overflow a b ha hb
  obtain ⟨⟨za, hza, ha1, ha2⟩, ⟨zo, hzo, ho1, ho2⟩, ⟨zx, hzx, hx1, hx2⟩, _⟩ := C08_bitwise a b ha hb
  obtain ⟨d1, d2, d3, d4⟩ := C07_zero_divisor a
  simp only [names2, List.mem_cons, List.not_mem_nil, or_false] at hf
  rcases hf with rfl | rfl | rfl | rfl | rfl | rfl | rfl | rfl | rfl | rfl | rfl | rfl
  · refine ⟨_, rfl, ?_⟩
    simp only [apply2, ifxiftoif, c1]; exact (delivers_exact (a + b)).congr (by simp [Op2])
  · refine ⟨_, rfl, ?_⟩
    simp only [apply2, ifxiftoif, c2]; exact (delivers_exact (a - b)).congr (by simp [Op2])
  · refine ⟨_, rfl, ?_⟩
    simp only [apply2, ifxiftoif, c3]; exact (delivers_exact (a * b)).congr (by simp [Op2])
  · refine ⟨_, rfl, ?_⟩
    simp only [apply2, ixitoi]
    have hop : Op2 "//" a b = fun z => b ≠ 0 ∧ ∃ r, TruncDiv a b z r := by
      funext z; simp [Op2]
    rw [hop]
    by_cases hb0 : b = 0
    · subst hb0
      rw [d1]
      exact Or.inr ⟨⟨_, rfl⟩, fun z _ h => h.1 rfl⟩
    · obtain ⟨q, r, hl, h1, h2⟩ := C07_truncating_division a b ha hb hb0
      rw [h1]
      have := delivers_exact (M := M) q
      have he : (fun y => y = q) = (fun z => b ≠ 0 ∧ ∃ r, TruncDiv a b z r) := by
        funext z; apply propext
        constructor
        · rintro rfl; exact ⟨hb0, r, hl⟩
        · rintro ⟨_, r', hl'⟩; exact (C07_trunc_law_determines _ _ _ _ _ _ hl' hl).1
      rw [he] at this
      exact this
  · refine ⟨_, rfl, ?_⟩
    simp only [apply2, ixitoi]
    have hop : Op2 "rem" a b = fun z => b ≠ 0 ∧ ∃ q, TruncDiv a b q z := by
      funext z; simp [Op2]
    rw [hop]
    by_cases hb0 : b = 0
    · subst hb0
      rw [d3]
      exact Or.inr ⟨⟨_, rfl⟩, fun z _ h => h.1 rfl⟩
    · obtain ⟨q, r, hl, h1, h2⟩ := C07_truncating_division a b ha hb hb0
      refine delivers_ok (z := r) ?_ ⟨hb0, q, hl⟩ ?_ h2
      · have := hl.2.1; unfold InRange at *; omega
      · rintro z' _ ⟨_, q', hl'⟩; exact (C07_trunc_law_determines _ _ _ _ _ _ hl' hl).2
  · refine ⟨_, rfl, ?_⟩
    simp only [apply2, ixitoi]
    have hop : Op2 "div" a b = fun z => b ≠ 0 ∧ ∃ r, FloorDiv a b z r := by
      funext z; simp [Op2]
    rw [hop]
    by_cases hb0 : b = 0
    · subst hb0
      rw [d2]
      exact Or.inr ⟨⟨_, rfl⟩, fun z _ h => h.1 rfl⟩
    · obtain ⟨q, r, hl, h1, h2⟩ := C07_flooring_division a b ha hb hb0
      rw [h1]
      have := delivers_exact (M := M) q
      have he : (fun y => y = q) = (fun z => b ≠ 0 ∧ ∃ r, FloorDiv a b z r) := by
        funext z; apply propext
        constructor
        · rintro rfl; exact ⟨hb0, r, hl⟩
        · rintro ⟨_, r', hl'⟩; exact (C07_law_determines _ _ _ _ _ _ hl' hl).1
      rw [he] at this
      exact this
  · refine ⟨_, rfl, ?_⟩
    simp only [apply2, ixitoi]
    have hop : Op2 "mod" a b = fun z => b ≠ 0 ∧ ∃ q, FloorDiv a b q z := by
      funext z; simp [Op2]
    rw [hop]
    by_cases hb0 : b = 0
    · subst hb0
      rw [d4]
      exact Or.inr ⟨⟨_, rfl⟩, fun z _ h => h.1 rfl⟩
    · obtain ⟨q, r, hl, h1, h2⟩ := C07_flooring_division a b ha hb hb0
      refine delivers_ok (z := r) ?_ ⟨hb0, q, hl⟩ ?_ h2
      · have := hl.2.1; unfold InRange at *; omega
      · rintro z' _ ⟨_, q', hl'⟩; exact (C07_law_determines _ _ _ _ _ _ hl' hl).2
  · refine ⟨_, rfl, ?_⟩
    simp only [apply2, ixitoi]
    have hop : Op2 "/\\" a b = fun z => ∀ i, ibit z i = (ibit a i && ibit b i) := by
      funext z; simp [Op2]
    rw [hop]
    exact delivers_ok hza ha2 (fun z' hz' h => ibit_ext hz' hza (fun i => by rw [h, ha2])) ha1
  · refine ⟨_, rfl, ?_⟩
    simp only [apply2, ixitoi]
    have hop : Op2 "\\/" a b = fun z => ∀ i, ibit z i = (ibit a i || ibit b i) := by
      funext z; simp [Op2]
    rw [hop]
    exact delivers_ok hzo ho2 (fun z' hz' h => ibit_ext hz' hzo (fun i => by rw [h, ho2])) ho1
  · refine ⟨_, rfl, ?_⟩
    simp only [apply2, ixitoi]
    have hop : Op2 "xor" a b = fun z => ∀ i, ibit z i = (ibit a i ^^ ibit b i) := by
      funext z; simp [Op2]
    rw [hop]
    exact delivers_ok hzx hx2 (fun z' hz' h => ibit_ext hz' hzx (fun i => by rw [h, hx2])) hx1
  · refine ⟨_, rfl, ?_⟩
    have hop : Op2 "min" a b = fun z => z = min a b := by funext z; simp [Op2]
    rw [hop]
    refine Or.inl ⟨min a b, by unfold InRange at *; omega, rfl, fun _ _ h => h, ?_⟩
    simp only [apply2, compareNumbers, ha.untag, hb.untag]
    rcases Int.lt_trichotomy a b with h | h | h
    · simp [h, Int.min_eq_left (Int.le_of_lt h)]
    · subst h; simp [preferFlt]
    · have h1 : ¬ a < b := by omega
      have h2 : a ≠ b := by omega
      simp [h1, h2, Int.min_eq_right (Int.le_of_lt h)]
  · refine ⟨_, rfl, ?_⟩
    have hop : Op2 "max" a b = fun z => z = max a b := by funext z; simp [Op2]
    rw [hop]
    refine Or.inl ⟨max a b, by unfold InRange at *; omega, rfl, fun _ _ h => h, ?_⟩
    simp only [apply2, compareNumbers, ha.untag, hb.untag]
    rcases Int.lt_trichotomy a b with h | h | h
    · simp [h, Int.max_eq_right (Int.le_of_lt h)]
    · subst h; simp [preferFlt]
    · have h1 : ¬ a < b := by omega
      have h2 : a ≠ b := by omega
      simp [h1, h2, Int.max_eq_left (Int.le_of_lt h)]

theorem load_delivers (ord : Exp M → Bool) (e : Exp M) (he : IntExp M e) :
    Delivers (load M false ord e) (Den M e) := by
  induction he with
  | int z hz =>
    refine Or.inl ⟨z, hz, .int z hz, ?_, by simp [load]⟩
    intro z' hz' h
    generalize hk : Exp.int (tagInt z) = k at h
    cases h with
    | int y hy =>
      injection hk with hk
      exact (tagInt_inj hz.1 hz.2 hy.1 hy.2 hk).symm
    | un => cases hk
    | bin => cases hk
  | un f x hf _ ih =>
    have inv : ∀ z, Den M (.stc1 f x) z → ∃ a, Den M x a ∧ Op1 f a z ∧ InRange z := by
      intro z h; cases h; exact ⟨_, by assumption, by assumption, by assumption⟩
    rcases ih with ⟨a, ha, hd, hu, hr⟩ | ⟨⟨e, hr⟩, hno⟩
    · obtain ⟨fn, hl, hdel⟩ := apply1_spec (M := M) f hf a ha
      have hload : load M false ord (.stc1 f x) = apply1 M false fn (.int (tagInt a)) := by
        simp only [load, hl, hr]; rfl
      rw [hload]
      rcases hdel with ⟨z, hz, hp, hzu, hzr⟩ | ⟨⟨e, hre⟩, hnone⟩
      · refine Or.inl ⟨z, hz, .un f x a z hd hp hz, ?_, hzr⟩
        intro z' hz' h
        obtain ⟨a', hda, hop, _⟩ := inv z' h
        rw [hu a' hda.inRange hda] at hop
        exact hzu z' hz' hop
      · refine Or.inr ⟨⟨e, hre⟩, ?_⟩
        intro z hz h
        obtain ⟨a', hda, hop, _⟩ := inv z h
        rw [hu a' hda.inRange hda] at hop
        exact hnone z hz hop
    · refine Or.inr ⟨⟨e, ?_⟩, ?_⟩
      · obtain ⟨fn, hl, _⟩ := apply1_spec (M := M) f hf 0 (by decide)
        simp only [load, hl, hr]; rfl
      · intro z _ h
        obtain ⟨a', hda, _⟩ := inv z h
        exact hno a' hda.inRange hda
  | bin f x y hf _ _ ihx ihy =>
    have inv : ∀ z, Den M (.stc2 f x y) z →
        ∃ a b, Den M x a ∧ Den M y b ∧ Op2 f a b z ∧ InRange z := by
      intro z h; cases h; exact ⟨_, _, by assumption, by assumption, by assumption, by assumption⟩
    obtain ⟨fn0, hl0, _⟩ := apply2_spec (M := M) f hf 0 0 (by decide) (by decide)
    rcases ihx with ⟨a, ha, hda, hua, hra⟩ | ⟨⟨e, hr⟩, hno⟩
    · rcases ihy with ⟨b, hb, hdb, hub, hrb⟩ | ⟨⟨e, hr⟩, hno⟩
      · obtain ⟨fn, hl, hdel⟩ := apply2_spec (M := M) f hf a b ha hb
        have hload : load M false ord (.stc2 f x y)
            = apply2 M fn (.int (tagInt a)) (.int (tagInt b)) := by
          simp only [load, hl, hra, hrb]; split <;> rfl
        rw [hload]
        rcases hdel with ⟨z, hz, hp, hzu, hzr⟩ | ⟨⟨e, hre⟩, hnone⟩
        · refine Or.inl ⟨z, hz, .bin f x y a b z hda hdb hp hz, ?_, hzr⟩
          intro z' hz' h
          obtain ⟨a', b', h1, h2, hop, _⟩ := inv z' h
          rw [hua a' h1.inRange h1, hub b' h2.inRange h2] at hop
          exact hzu z' hz' hop
        · refine Or.inr ⟨⟨e, hre⟩, ?_⟩
          intro z hz h
          obtain ⟨a', b', h1, h2, hop, _⟩ := inv z h
          rw [hua a' h1.inRange h1, hub b' h2.inRange h2] at hop
          exact hnone z hz hop
      · refine Or.inr ⟨⟨e, ?_⟩, ?_⟩
        · simp only [load, hl0, hra, hr]; split <;> rfl
        · intro z _ h
          obtain ⟨a', b', h1, h2, _⟩ := inv z h
          exact hno b' h2.inRange h2
    · refine Or.inr ⟨?_, ?_⟩
      · simp only [load, hl0, hr]
        split
        · exact ⟨e, rfl⟩
        · rcases ihy with ⟨b, _, _, _, hrb⟩ | ⟨⟨e', hr'⟩, _⟩
          · exact ⟨e, by rw [hrb]; rfl⟩
          · exact ⟨e', by rw [hr']; rfl⟩
      · intro z _ h
        obtain ⟨a', b', h1, h2, _⟩ := inv z h
        exact hno a' h1.inRange h1

/-- **C41**. For every integer expression and every order in which the operands of the C calls are
evaluated: the evaluation delivers an integer if and only if the expression has a mathematical value
whose intermediate results are all Prolog integers, that integer is the value, and otherwise the
evaluation raises an error (never undefined behaviour, never a float). -/
theorem C41_is_evaluates_exactly (ord : Exp M → Bool) (e : Exp M) (he : IntExp M e) :
    (∀ z, InRange z → (load M false ord e = .ok (.int (tagInt z)) ↔ Den M e z)) ∧
    ((¬ ∃ z, Den M e z) → ∃ err, load M false ord e = .err err) := by
  rcases load_delivers ord e he with ⟨z, hz, hd, hu, hr⟩ | ⟨⟨er, hr⟩, hno⟩
  · refine ⟨?_, fun h => absurd ⟨z, hd⟩ h⟩
    intro z' hz'
    rw [hr]
    constructor
    · intro h
      injection h with h; injection h with h
      rw [← tagInt_inj hz.1 hz.2 hz'.1 hz'.2 h]; exact hd
    · intro h; rw [hu z' hz' h]
  · refine ⟨?_, fun _ => ⟨er, hr⟩⟩
    intro z' hz'
    rw [hr]
    constructor
    · intro h; cases h
    · intro h; exact absurd h (hno z' hz')

/-- **C41** (order independence). The delivered value does not depend on the evaluation order. -/
theorem C41_order_independent (ord ord' : Exp M → Bool) (e : Exp M) (he : IntExp M e) (z : Int)
    (hz : InRange z) (h : load M false ord e = .ok (.int (tagInt z))) :
    load M false ord' e = .ok (.int (tagInt z)) :=
  ((C41_is_evaluates_exactly ord' e he).1 z hz).2 (((C41_is_evaluates_exactly ord e he).1 z hz).1 h)

/-- `(7 - 10) // 2 + max(4, 1)` is an integer expression with value 3. -/
example : IntExp M (.stc2 "+" (.stc2 "//" (.stc2 "-" (.int (tagInt 7)) (.int (tagInt 10))) (.int (tagInt 2)))
    (.stc2 "max" (.int (tagInt 4)) (.int (tagInt 1)))) := by
  refine .bin _ _ _ (by decide) (.bin _ _ _ (by decide) (.bin _ _ _ (by decide) (.int _ (by decide))
    (.int _ (by decide))) (.int _ (by decide))) (.bin _ _ _ (by decide) (.int _ (by decide)) (.int _ (by decide)))

end Gp.Arith
