import Verif.FdSymb.Count
/-
C60: the symbolic constraints `fd_element/3`, `fd_element_var/3`, `fd_atmost/3`, `fd_atleast/3`, `fd_exactly/3`, `fd_all_different/1` and
`fd_relation/2`. `At l j x` (Lemmas.lean): x is the element of l at the position j, from 1.
-/
namespace Gp.FdSymb

open Gp.FdRange Gp.Fd

/-! ## fd_element -/

/-- The values of the list are `int`. -/
def Fit (l : List Int) : Prop := ∀ w ∈ l, -2147483648 ≤ w ∧ w < 2147483648

/-- C60: the first domain of the index: the positions of the list which are not greater than the maximum of the vectors. -/
theorem C60_index (c : Cfg) (hc : c.Ok) (n : Nat) :
    WF c (elementI c n) ∧ (elementI c n).vec ≠ none ∧ ((elementI c n).extra = true ↔ (n : Int) > c.vmax) ∧
      ∀ j, Mem (elementI c n) j ↔ 1 ≤ j ∧ j ≤ n ∧ Win c j := by
  obtain ⟨h1, ⟨v, h2, _⟩, h3, h4⟩ := becomesSparse_spec c hc (initInterval 1 n) rfl
  refine ⟨h1, by unfold elementI; rw [h2]; simp, by unfold elementI; rw [h3]; simp [initInterval], fun j => ?_⟩
  rw [elementI, h4, mem_none rfl]
  simp only [initInterval, and_assoc]

/-- C60: the range computed for the value of `fd_element/3` is exactly the set of the elements at the positions of the domain of the
index, if they are all values of the vectors. Otherwise a bit is written outside of the vector. -/
theorem C60_value (c : Cfg) (hc : c.Ok) (r0 i : Range) (l : List Int) (h0 : -2147483648 < r0.min) (hf : Fit l) (hw : WF c i)
    (hne : i.min ≤ i.max) (hi : ∀ j, Mem i j → 1 ≤ j ∧ j ≤ l.length) :
    (elementIToV c r0 i l = none ↔ ∃ j w, Mem i j ∧ At l j w ∧ ¬ Win c w) ∧
    ∀ r, elementIToV c r0 i l = some r → WF c r ∧ r.vec ≠ none ∧ r.extra = r0.extra ∧ ∀ m : Nat, Mem r m ↔ ∃ j, Mem i j ∧ At l j (m : Int) := by
  have hid : ∀ {j w}, At l j w → toInt w = w := fun h => by
    have := hf _ (at_range h).2.2; exact toInt_id this.1 this.2
  have hres := setVals_res c l (idx i) (vecEmpty c.size) (vecEmpty_len _)
  by_cases hbad : ∃ j w, Mem i j ∧ At l j w ∧ ¬ Win c w
  · obtain ⟨j, w, a1, a2, a3⟩ := hbad
    have := hres.1 ⟨j, (mem_idx hw hne j).2 a1, w, at_arr a2, by rw [hid a2]; exact a3⟩
    unfold elementIToV
    rw [this]
    exact ⟨⟨fun _ => ⟨j, w, a1, a2, a3⟩, fun _ => rfl⟩, fun r h => by cases h⟩
  · obtain ⟨v, e, hl, hb⟩ := hres.2 (fun j hj => by
      have hj' := (mem_idx hw hne j).1 hj
      obtain ⟨w, hwj⟩ := at_of_range l (hi j hj').1 (hi j hj').2
      refine ⟨w, at_arr hwj, ?_⟩
      rw [hid hwj]
      exact Classical.byContradiction fun hn => hbad ⟨j, w, hj', hwj, hn⟩)
    unfold elementIToV
    rw [e]
    refine ⟨⟨fun h => (by cases h), fun h => absurd h hbad⟩, fun r h => ?_⟩
    cases h
    obtain ⟨f1, f2, f3, f4⟩ := fromVector_spec c hc r0 h0 v hl
    refine ⟨f1, by rw [f2]; simp, f3, fun m => ?_⟩
    rw [f4]
    simp only [Int.toNat_natCast, hb, empty_bit, Bool.false_eq_true, false_or]
    constructor
    · rintro ⟨_, j, hj, w, h1, h2⟩
      have hj' := (mem_idx hw hne j).1 hj
      obtain ⟨w', hwj⟩ := at_of_range l (hi j hj').1 (hi j hj').2
      rw [at_arr hwj] at h1; cases h1
      rw [hid hwj] at h2
      exact ⟨j, hj', h2 ▸ hwj⟩
    · rintro ⟨j, hj, hwj⟩
      exact ⟨by omega, j, (mem_idx hw hne j).2 hj, m, at_arr hwj, hid hwj⟩

/-- C60: the range computed for the index of `fd_element/3` is exactly the set of the positions of the values of the domain of the value,
if they are all values of the vectors. Otherwise a bit is written outside of the vector. -/
theorem C60_position (c : Cfg) (hc : c.Ok) (r0 v : Range) (l : List Int) (h0 : -2147483648 < r0.min) (hf : Fit l) (hw : WF c v) :
    (elementVToI c r0 v l = none ↔ ∃ j w, At l j w ∧ Mem v w ∧ ¬ Win c j) ∧
    ∀ r, elementVToI c r0 v l = some r → WF c r ∧ r.vec ≠ none ∧ r.extra = r0.extra ∧ ∀ m : Nat, Mem r m ↔ ∃ w, At l m w ∧ Mem v w := by
  have hid : ∀ {j w}, At l j w → toInt w = w := fun h => by
    have := hf _ (at_range h).2.2; exact toInt_id this.1 this.2
  have hat : ∀ {k : Nat} {x : Int}, l[k]? = some x → At l (1 + k) x := fun {k x} h => ⟨k, by omega, h⟩
  have hres := setIdx_res c (fun w => testValue v (toInt w)) l 1 (vecEmpty c.size) (vecEmpty_len _) (by omega)
  by_cases hbad : ∃ j w, At l j w ∧ Mem v w ∧ ¬ Win c j
  · obtain ⟨j, w, a1, a2, a3⟩ := hbad
    have hi := hid a1
    obtain ⟨k, rfl, a1'⟩ := a1
    have e : setIdx (fun w => testValue v (toInt w)) 1 l (vecEmpty c.size) = none :=
      hres.1 ⟨k, w, a1', by rw [hi]; exact (testValue_mem c v hw w).2 a2, by rw [Int.add_comm]; exact a3⟩
    unfold elementVToI
    rw [e]
    exact ⟨⟨fun _ => ⟨_, w, ⟨k, rfl, a1'⟩, a2, a3⟩, fun _ => rfl⟩, fun r h => by cases h⟩
  · obtain ⟨w, e, hl, hb⟩ := hres.2 (fun k x h1 h2 => by
      try dsimp only at h2
      rw [hid (hat h1)] at h2
      exact Classical.byContradiction fun hn => hbad ⟨_, x, hat h1, (testValue_mem c v hw x).1 h2, hn⟩)
    unfold elementVToI
    rw [e]
    refine ⟨⟨fun h => (by cases h), fun h => absurd h hbad⟩, fun r h => ?_⟩
    cases h
    obtain ⟨f1, f2, f3, f4⟩ := fromVector_spec c hc r0 h0 w hl
    refine ⟨f1, by rw [f2]; simp, f3, fun m => ?_⟩
    rw [f4]
    simp only [Int.toNat_natCast, hb, empty_bit, Bool.false_eq_true, false_or]
    constructor
    · rintro ⟨_, k, x, h1, h2, h3⟩
      rw [hid (hat h1)] at h2
      exact ⟨x, h3 ▸ hat h1, (testValue_mem c v hw x).1 h2⟩
    · rintro ⟨x, h1, h2⟩
      have hi := hid h1
      obtain ⟨k, e', h1⟩ := h1
      exact ⟨by omega, k, x, h1, by rw [hi]; exact (testValue_mem c v hw x).2 h2, by omega⟩

/-- The element of the list at the position `j` is `m`, both in the domains. -/
def ElementSol (i : Fdv) (l : List Int) (v : Fdv) (j m : Nat) : Prop := Mem i.r j ∧ Mem v.r m ∧ At l j m

/-- C60: `fd_element(I, L, V)` where the values and the length of L are not greater than the maximum of the vectors: it fails iff there is
no solution; otherwise the domains of I and V left by the first execution are exactly the values which occur in a solution. The
content of the memory not initialised does not matter. -/
theorem C60_element (c : Cfg) (hc : c.Ok) (r1 r2 : Range) (h1 : -2147483648 < r1.min) (h2 : -2147483648 < r2.min) (i v : Fdv) (l : List Int)
    (hf : Fit l) (hl : ∀ w ∈ l, Win c w) (hn : Win c l.length) (hi : VarOk c i) (hie : i.r.extra = false) (hv : VarOk c v)
    (hve : v.r.extra = false) :
    (element c r1 r2 i l v = .fail ↔ ∀ j m, ¬ ElementSol i l v j m) ∧
    element c r1 r2 i l v ≠ .undef ∧
    ∀ i' v', element c r1 r2 i l v = .ok (i', v') → VarOk c i' ∧ VarOk c v' ∧
      (∀ j : Nat, Mem i'.r j ↔ ∃ m, ElementSol i l v j m) ∧ ∀ m : Nat, Mem v'.r m ↔ ∃ j, ElementSol i l v j m := by
  have natAt : ∀ {j : Int} {w : Int}, At l j w → ∃ m : Nat, w = m := fun h =>
    ⟨_, (Int.toNat_of_nonneg (hl _ (at_range h).2.2).1).symm⟩
  obtain ⟨e1, e2, e3, e4⟩ := C60_index c hc l.length
  have he1 : (elementI c l.length).extra = false := by
    cases h : (elementI c l.length).extra with
    | false => rfl
    | true => have := e3.1 h; have := hn.2; unfold Cfg.vmax at *; omega
  have hI : ∀ j : Nat, Mem (elementI c l.length) j ↔ ∃ m : Nat, At l j m := fun j => by
    rw [e4]
    constructor
    · rintro ⟨a, b, _⟩
      obtain ⟨w, hw⟩ := at_of_range l a b
      obtain ⟨m, rfl⟩ := natAt hw
      exact ⟨m, hw⟩
    · rintro ⟨m, hm⟩
      have := at_range hm
      have := hn.2
      exact ⟨by omega, by omega, by omega, by omega⟩
  obtain ⟨t1, t2⟩ := tell_sparse c hc i (elementI c l.length) hi hie e1 e2
  unfold element
  cases hk1 : (tell c i (.range (elementI c l.length))).ok with
  | false =>
    have hno := t1.1 hk1
    simp only [tellFct, hk1, Bool.false_eq_true, if_false]
    refine ⟨⟨fun _ j m hs => hno j ⟨hs.1, (hI j).2 ⟨m, hs.2.2⟩⟩, fun _ => trivial⟩, by simp, fun i' v' h => by cases h⟩
  | true =>
    obtain ⟨u1, u2, u3⟩ := t2 hk1
    have hext := u2 he1
    generalize hI1 : (tell c i (.range (elementI c l.length))).v = i1 at *
    have hi1 : ∀ j, Mem i1.r j → 1 ≤ j ∧ j ≤ l.length := fun j hj => by
      have h0 := (bounds_mem c _ u1.wf u1.ne).2.2 j hj
      have h0' := u1.nonneg
      have hjn : ((j.toNat : Nat) : Int) = j := Int.toNat_of_nonneg (by omega)
      have := ((u3 j.toNat).1 (by rw [hjn]; exact hj)).2
      rw [hjn, e4] at this
      exact ⟨this.1, this.2.1⟩
    have hmem1 : ∀ j : Nat, Mem i1.r j ↔ Mem i.r j ∧ ∃ m : Nat, At l j m := fun j => by rw [u3, hI]
    obtain ⟨v1, v2⟩ := C60_value c hc r1 i1.r l h1 hf u1.wf u1.ne hi1
    have ev : elementIToV c r1 i1.r l ≠ none := fun h => by
      obtain ⟨j, w, _, a, b⟩ := v1.1 h
      exact b (hl _ (at_range a).2.2)
    simp only [tellFct, hk1, if_true, hI1]
    cases hr : elementIToV c r1 i1.r l with
    | none => exact absurd hr ev
    | some r =>
      obtain ⟨w1, w2, _, w4⟩ := v2 r hr
      obtain ⟨x1, x2⟩ := tell_sparse c hc v r hv hve w1 w2
      have hmr : ∀ m : Nat, Mem r m ↔ ∃ j : Nat, Mem i.r j ∧ At l j m := fun m => by
        rw [w4]
        constructor
        · rintro ⟨j, a, b⟩
          have := hi1 j a
          have hjn : ((j.toNat : Nat) : Int) = j := Int.toNat_of_nonneg (by omega)
          rw [← hjn] at a b
          exact ⟨j.toNat, ((hmem1 _).1 a).1, b⟩
        · rintro ⟨j, a, b⟩
          exact ⟨j, (hmem1 j).2 ⟨a, m, b⟩, b⟩
      simp only
      cases hk2 : (tell c v (.range r)).ok with
      | false =>
        have hno := x1.1 hk2
        simp only [Bool.false_eq_true, if_false]
        refine ⟨⟨fun _ j m hs => hno m ⟨hs.2.1, (hmr m).2 ⟨j, hs.1, hs.2.2⟩⟩, fun _ => trivial⟩, by simp, fun i' v' h => by cases h⟩
      | true =>
        obtain ⟨y1, _, y3⟩ := x2 hk2
        generalize hV1 : (tell c v (.range r)).v = vv at *
        have hmv : ∀ m : Nat, Mem vv.r m ↔ ∃ j, ElementSol i l v j m := fun m => by
          rw [y3, hmr]
          constructor
          · rintro ⟨a, j, b, d⟩; exact ⟨j, b, a, d⟩
          · rintro ⟨j, b, a, d⟩; exact ⟨a, j, b, d⟩
        obtain ⟨z1, z2⟩ := C60_position c hc r2 vv.r l h2 hf y1.wf
        have ei : elementVToI c r2 vv.r l ≠ none := fun h => by
          obtain ⟨j, w, a, _, b⟩ := z1.1 h
          have := at_range a
          have := hn.2
          exact b ⟨by omega, by omega⟩
        simp only [if_true]
        cases hr2 : elementVToI c r2 vv.r l with
        | none => exact absurd hr2 ei
        | some r' =>
          obtain ⟨a1, a2, _, a4⟩ := z2 r' hr2
          obtain ⟨b1, b2⟩ := tell_sparse c hc i1 r' u1 hext a1 a2
          have hfin : ∀ j : Nat, (Mem i1.r j ∧ Mem r' j) ↔ ∃ m, ElementSol i l v j m := fun j => by
            rw [hmem1, a4]
            constructor
            · rintro ⟨⟨p, _⟩, w, q, s⟩
              obtain ⟨m, rfl⟩ := natAt q
              exact ⟨m, p, ((y3 m).1 s).1, q⟩
            · rintro ⟨m, p, q, s⟩
              exact ⟨⟨p, m, s⟩, m, s, (hmv m).2 ⟨j, p, q, s⟩⟩
          simp only
          cases hk3 : (tell c i1 (.range r')).ok with
          | false =>
            have hno := b1.1 hk3
            simp only [Bool.false_eq_true, if_false]
            refine ⟨⟨fun _ j m hs => hno j ((hfin j).2 ⟨m, hs⟩), fun _ => trivial⟩, by simp, fun i' v' h => by cases h⟩
          | true =>
            obtain ⟨d1, _, d3⟩ := b2 hk3
            simp only [if_true]
            refine ⟨⟨fun h => (by cases h), fun h => ?_⟩, by simp, fun i' v' h => ?_⟩
            · have hb := bounds_mem c _ d1.wf d1.ne
              have := (d3 _).1 (by rw [Int.toNat_of_nonneg d1.nonneg]; exact hb.1)
              obtain ⟨m, hm⟩ := (hfin _).1 this
              exact absurd hm (h _ m)
            · cases h
              exact ⟨d1, y1, fun j => by rw [d3]; exact hfin j, hmv⟩

/-- A list of five values, I in 0..10, V in 3..20. -/
example : Fit [5, 1, 7, 5, 30] ∧ (∀ w ∈ [5, 1, 7, 5, 30], Win exCfg w) ∧ Win exCfg [5, 1, 7, 5, 30].length ∧ VarOk exCfg (newInterval 0 10) ∧
    (newInterval 0 10).r.extra = false ∧ VarOk exCfg (newInterval 3 20) ∧ (newInterval 3 20).r.extra = false ∧
    element exCfg exSet (initInterval 9 2) (newInterval 0 10) [5, 1, 7, 5, 30] (newInterval 3 20) =
      .ok (⟨none, 3, ⟨false, 1, 4, some [0x1a#64, 0#64]⟩⟩, ⟨none, 2, ⟨false, 5, 7, some [0xa0#64, 0#64]⟩⟩) :=
  ⟨by unfold Fit; decide, by unfold Win; decide, by unfold Win; decide, newInterval_ok exCfg (by decide) (by decide), rfl,
    newInterval_ok exCfg (by decide) (by decide), rfl, by decide +kernel⟩

example : element exCfg exSet exSet (newInterval 0 2) [5, 1, 7, 5, 30] (newInterval 6 20) = .fail := by decide +kernel

/-- C60: a value of the list greater than the maximum of the vectors, or negative, or a list too long: a bit is written outside of the
vector (`fd_element(I, [1, 1000], V)`; `fd_element(I, [1, -1], V)`). -/
theorem C60_element_undef :
    element exCfg exSet exSet (newInterval 0 imax) [1, 1000] (newInterval 0 imax) = .undef ∧
    element exCfg exSet exSet (newInterval 0 imax) [1, -1] (newInterval 0 imax) = .undef ∧
    element exCfg exSet exSet (newInterval 0 imax) (List.replicate 128 1) (newInterval 0 imax) = .undef := by decide +kernel

/-- C60: the values are reduced to 32 bits: `fd_element(I, [4294967301], V)` gives V = 5. -/
theorem C60_element_large :
    ∃ i v, element exCfg exSet exSet (newInterval 0 imax) [4294967301] (newInterval 0 imax) = .ok (i, v) ∧ v.tag = some 5 :=
  ⟨_, _, rfl, by decide +kernel⟩

/-- C60: the flag `extra_cstr` of V (shown as `@`) is the one of the local range which is not initialised. -/
theorem C60_element_flag :
    (element exCfg ⟨true, 0, 0, none⟩ exSet (newInterval 0 imax) [5, 1] (newInterval 0 imax) =
      .ok (⟨none, 2, ⟨false, 1, 2, some [6#64, 0#64]⟩⟩, ⟨none, 2, ⟨true, 1, 5, some [0x22#64, 0#64]⟩⟩)) ∧
    (element exCfg ⟨false, 0, 0, none⟩ exSet (newInterval 0 imax) [5, 1] (newInterval 0 imax) =
      .ok (⟨none, 2, ⟨false, 1, 2, some [6#64, 0#64]⟩⟩, ⟨none, 2, ⟨false, 1, 5, some [0x22#64, 0#64]⟩⟩)) := by decide +kernel

/-! ## fd_element_var -/

theorem unions_res (c : Cfg) (hc : c.Ok) (l : List Range) (T : Nat → Nat → Prop)
    (hl : ∀ (k : Nat) (r : Range), l[k]? = some r → Repr c r (T k)) : ∀ (js : List Int) (v : Range) (U : Nat → Prop), Repr c v U →
    (∀ j ∈ js, 1 ≤ j ∧ j ≤ l.length) →
    ∃ r, unions c l js v = some r ∧ Repr c r (fun m => U m ∨ ∃ j ∈ js, T (j - 1).toNat m)
  | [], v, U, hv, _ => ⟨v, rfl, by simpa using hv⟩
  | j :: js, v, U, hv, h => by
    have hj := h j (by simp)
    have hk : (j - 1).toNat < l.length := by omega
    have e : l[(j - 1).toNat]? = some l[(j - 1).toNat] := List.getElem?_eq_getElem hk
    unfold unions
    rw [if_neg (by omega), e]
    dsimp only
    obtain ⟨r, e1, e2⟩ := unions_res c hc l T hl js _ _ (C23_union c hc v _ U _ hv (hl _ _ e)) (fun j' h' => h j' (by simp [h']))
    refine ⟨r, e1, ?_⟩
    have : (fun m => (U m ∨ T (j - 1).toNat m) ∨ ∃ j' ∈ js, T (j' - 1).toNat m) = (fun m => U m ∨ ∃ j' ∈ j :: js, T (j' - 1).toNat m) := by
      funext m
      simp only [List.mem_cons, exists_eq_or_imp, or_assoc]
    rw [← this]; exact e2

/-- C60: the range computed for the value of `fd_element_var/3` represents the union of the sets represented by the domains of the
variables of the list at the positions of the domain of the index. -/
theorem C60_var_value (c : Cfg) (hc : c.Ok) (r0 i : Range) (l : List Range) (T : Int → Nat → Prop) (h0 : -2147483648 < r0.min)
    (hl : ∀ j r, At l j r → Repr c r (T j)) (hw : WF c i) (hne : i.min ≤ i.max) (hi : ∀ j, Mem i j → 1 ≤ j ∧ j ≤ l.length) :
    ∃ r, elementVarIToV c r0 i l = some r ∧ Repr c r (fun m => ∃ j, Mem i j ∧ T j m) := by
  have hemp : Repr c (Range.setEmpty { r0 with extra := false, vec := none }) (fun _ => False) := by
    refine ⟨wf_none rfl h0, fun n _ => ⟨fun h => absurd h id, fun h => not_mem_empty ?_ _ h⟩, fun h => absurd rfl h⟩
    simp only [Range.setEmpty]; omega
  obtain ⟨r, e1, e2⟩ := unions_res c hc l (fun k => T (k + 1)) (fun k r h => hl _ r ⟨k, rfl, h⟩) (idx i) _ _ hemp
    (fun j hj => hi j ((mem_idx hw hne j).1 hj))
  refine ⟨r, e1, ?_⟩
  have : (fun m : Nat => False ∨ ∃ j ∈ idx i, T (((j - 1).toNat : Nat) + 1) m) = (fun m => ∃ j, Mem i j ∧ T j m) := by
    funext m
    apply propext
    rw [false_or]
    constructor
    · rintro ⟨j, a, b⟩
      have a' := (mem_idx hw hne j).1 a
      have := hi j a'
      have e : (((j - 1).toNat : Nat) : Int) + 1 = j := by omega
      rw [e] at b
      exact ⟨j, a', b⟩
    · rintro ⟨j, a, b⟩
      have := hi j a
      have e : (((j - 1).toNat : Nat) : Int) + 1 = j := by omega
      exact ⟨j, (mem_idx hw hne j).2 a, by rw [e]; exact b⟩
  rw [← this]; exact e2

/-- C60: the range computed for the index of `fd_element_var/3` is exactly the set of the positions of the variables whose domain has a
value in common with the domain of the value, if they are all values of the vectors. Otherwise a bit is written outside of the vector. -/
theorem C60_var_position (c : Cfg) (hc : c.Ok) (r0 v : Range) (l : List Range) (h0 : -2147483648 < r0.min)
    (hl : ∀ r ∈ l, WF c r ∧ r.min ≤ r.max) (hw : WF c v) (hne : v.min ≤ v.max) :
    (elementVarVToI c r0 v l = none ↔ ∃ j r n, At l j r ∧ Mem r n ∧ Mem v n ∧ ¬ Win c j) ∧
    ∀ w, elementVarVToI c r0 v l = some w → WF c w ∧ w.vec ≠ none ∧ w.extra = r0.extra ∧
      ∀ m : Nat, Mem w m ↔ ∃ r n, At l m r ∧ Mem r n ∧ Mem v n := by
  have hat : ∀ {k : Nat} {x : Range}, l[k]? = some x → At l (1 + k) x := fun {k x} h => ⟨k, by omega, h⟩
  have htest : ∀ r ∈ l, (!testNullInter r v) = true ↔ ∃ n, Mem r n ∧ Mem v n := fun r hr => by
    have := testNullInter_iff c r v (hl r hr).1 hw (hl r hr).2 hne
    rw [Bool.not_eq_true', ← Bool.not_eq_true, this]
    constructor
    · intro h; exact Classical.byContradiction fun hn => h fun n hn' => hn ⟨n, hn'⟩
    · rintro ⟨n, hn⟩ h; exact h n hn
  have hres := setIdx_res c (fun r => !testNullInter r v) l 1 (vecEmpty c.size) (vecEmpty_len _) (by omega)
  by_cases hbad : ∃ j r n, At l j r ∧ Mem r n ∧ Mem v n ∧ ¬ Win c j
  · obtain ⟨j, r, n, a1, a2, a3, a4⟩ := hbad
    have hr := (at_range a1).2.2
    obtain ⟨k, rfl, a1'⟩ := a1
    have e : setIdx (fun r => !testNullInter r v) 1 l (vecEmpty c.size) = none :=
      hres.1 ⟨k, r, a1', (htest r hr).2 ⟨n, a2, a3⟩, by rw [Int.add_comm]; exact a4⟩
    unfold elementVarVToI
    rw [e]
    exact ⟨⟨fun _ => ⟨_, r, n, ⟨k, rfl, a1'⟩, a2, a3, a4⟩, fun _ => rfl⟩, fun r h => by cases h⟩
  · obtain ⟨w, e, hlw, hb⟩ := hres.2 (fun k x h1 h2 => by
      obtain ⟨n, a, b⟩ := (htest x (at_range (hat h1)).2.2).1 h2
      exact Classical.byContradiction fun hn => hbad ⟨_, x, n, hat h1, a, b, hn⟩)
    unfold elementVarVToI
    rw [e]
    refine ⟨⟨fun h => (by cases h), fun h => absurd h hbad⟩, fun r h => ?_⟩
    cases h
    obtain ⟨f1, f2, f3, f4⟩ := fromVector_spec c hc r0 h0 w hlw
    refine ⟨f1, by rw [f2]; simp, f3, fun m => ?_⟩
    rw [f4]
    simp only [Int.toNat_natCast, hb, empty_bit, Bool.false_eq_true, false_or]
    constructor
    · rintro ⟨_, k, x, h1, h2, h3⟩
      obtain ⟨n, a, b⟩ := (htest x (at_range (hat h1)).2.2).1 h2
      exact ⟨x, n, h3 ▸ hat h1, a, b⟩
    · rintro ⟨x, n, h1, a, b⟩
      have hx := (at_range h1).2.2
      obtain ⟨k, e', h1⟩ := h1
      exact ⟨by omega, k, x, h1, (htest x hx).2 ⟨n, a, b⟩, by omega⟩

/-- C60: when the index is known, the domain of the value is told to the variable (see C25 for `tell`). -/
theorem C60_var_tell (c : Cfg) (x : Fdv) (v : Range) : elementVToXi c x v = tell c x (.range v) := by
  unfold elementVToXi tell tellRange
  rfl

/-- X1 in 3..6, X2 in 10..12, X3 in {3,4,5,64,127}; I in 1..3, V in 5..11. -/
example : elementVarIToV exCfg exSet (initInterval 1 2) [initInterval 3 6, initInterval 10 12, exSet] =
      some ⟨false, 3, 12, some [0x1c78#64, 0#64]⟩ ∧
    elementVarVToI exCfg exSet (initInterval 6 70) [initInterval 3 5, initInterval 10 12, exSet] = some ⟨false, 2, 3, some [0xc#64, 0#64]⟩ := by
  decide +kernel

/-! ## fd_atmost, fd_atleast, fd_exactly -/

/-- The outcome of a constraint whose solutions are `P`: a failure only if there is no solution; otherwise the domains of the variables are
reduced, and the solutions are the same. -/
def Keeps (c : Cfg) (xs : List Nat) (s : Store) (P : (Nat → Nat) → Prop) (o : Option Store) : Prop :=
  (o = none → ∀ σ, In s xs σ → ¬ P σ) ∧
  ∀ s', o = some s' → (∀ x ∈ xs, VarOk c (s' x)) ∧ (∀ x, x ∉ xs → s' x = s x) ∧ (∀ σ, In s' xs σ → In s xs σ) ∧
    ∀ σ, In s xs σ → P σ → In s' xs σ

/-- The domains left have only values which occur in a solution, and there is a solution. -/
def Exact (xs : List Nat) (P : (Nat → Nat) → Prop) (o : Option Store) : Prop :=
  ∀ s', o = some s' → (∃ σ, In s' xs σ ∧ P σ) ∧ ∀ x ∈ xs, ∀ m : Nat, Mem (s' x).r m → ∃ σ, In s' xs σ ∧ P σ ∧ σ x = m

theorem entails_exact {c : Cfg} {xs : List Nat} {P : (Nat → Nat) → Prop} {s' : Store} (h : ∀ x ∈ xs, VarOk c (s' x))
    (hP : ∀ σ, In s' xs σ → P σ) : (∃ σ, In s' xs σ ∧ P σ) ∧ ∀ x ∈ xs, ∀ m : Nat, Mem (s' x).r m → ∃ σ, In s' xs σ ∧ P σ ∧ σ x = m := by
  obtain ⟨σ, hσ⟩ := in_some h
  refine ⟨⟨σ, hσ, hP σ hσ⟩, fun x _ m hm => ?_⟩
  obtain ⟨τ, a, b⟩ := in_at h hm
  exact ⟨τ, a, hP τ a, b⟩

theorem count_lo {c : Cfg} {s : Store} {v : Int} {xs : List Nat} (h : ∀ x ∈ xs, VarOk c (s x)) {σ : Nat → Nat} (hσ : In s xs σ) :
    xs.countP (lo s v) ≤ count xs v σ := countP_le (lo_count h hσ)

theorem count_le_hi {c : Cfg} {s : Store} {v : Int} {xs : List Nat} (h : ∀ x ∈ xs, VarOk c (s x)) {σ : Nat → Nat} (hσ : In s xs σ) :
    count xs v σ ≤ xs.countP (hi s v) := countP_le (count_hi h hσ)

/-- After the removal of `v` from the variables not instantiated, the number is known. -/
theorem notAll_count {c : Cfg} (hc : c.Ok) {s s' : Store} {v : Int} {xs : List Nat} (h : ∀ x ∈ xs, VarOk c (s x) ∧ Small c (s x))
    (e : notAll c v xs s = some s') :
    (∀ x ∈ xs, VarOk c (s' x)) ∧ (∀ x, x ∉ xs → s' x = s x) ∧ (∀ σ, In s' xs σ → In s xs σ) ∧
    (∀ σ, In s' xs σ → count xs v σ = xs.countP (lo s v)) ∧ ∀ σ, In s xs σ → count xs v σ ≤ xs.countP (lo s v) → In s' xs σ := by
  obtain ⟨s1, e1, a1, a2, a3⟩ := notAll_res c hc v xs s h
  rw [e] at e1; cases e1
  have hv : ∀ x ∈ xs, VarOk c (s x) := fun x hx => (h x hx).1
  have hin : ∀ σ, In s' xs σ → In s xs σ := fun σ hσ x hx => ((a3 x hx _).1 (hσ x hx)).1
  refine ⟨fun x hx => (a1 x hx).1, a2, hin, fun σ hσ => ?_, fun σ hσ hle x hx => ?_⟩
  · refine Nat.le_antisymm (countP_le fun x hx hd => ?_) (count_lo hv (hin σ hσ))
    have hd := of_decide_eq_true hd
    have hm := (a3 x hx _).1 (hσ x hx)
    cases ht : (s x).tag with
    | none => exact absurd hd (hm.2 ht)
    | some n =>
      have := (tag_mem (hv x hx) ht _).1 hm.1
      unfold lo
      rw [ht]; simp; omega
  · rw [a3 x hx]
    refine ⟨hσ x hx, fun ht hd => ?_⟩
    have := countP_lt (lo_count hv hσ (v := v)) ⟨x, hx, by unfold lo; rw [ht]; rfl, decide_eq_true hd⟩
    unfold count at hle; omega

/-- After telling `v` to the variables which can take it, the number is known. -/
theorem valAll_count {c : Cfg} (hc : c.Ok) {s s' : Store} {v : Int} {xs : List Nat} (h : ∀ x ∈ xs, VarOk c (s x))
    (e : valAll c v xs s = some s') :
    (∀ x ∈ xs, VarOk c (s' x)) ∧ (∀ x, x ∉ xs → s' x = s x) ∧ (∀ σ, In s' xs σ → In s xs σ) ∧
    (∀ σ, In s' xs σ → count xs v σ = xs.countP (hi s v)) ∧ ∀ σ, In s xs σ → xs.countP (hi s v) ≤ count xs v σ → In s' xs σ := by
  obtain ⟨s1, e1, a1, a2, a3⟩ := valAll_res c hc v xs s h
  rw [e] at e1; cases e1
  have hin : ∀ σ, In s' xs σ → In s xs σ := fun σ hσ x hx => ((a3 x hx _).1 (hσ x hx)).1
  refine ⟨a1, a2, hin, fun σ hσ => ?_, fun σ hσ hle x hx => ?_⟩
  · refine Nat.le_antisymm (count_le_hi h (hin σ hσ)) (countP_le fun x hx hd => ?_)
    have hm := (a3 x hx _).1 (hσ x hx)
    exact decide_eq_true (hm.2 ((testValue_mem c _ (h x hx).wf v).1 hd))
  · rw [a3 x hx]
    refine ⟨hσ x hx, fun hv => Classical.byContradiction fun hd => ?_⟩
    have := countP_lt (count_hi h hσ (v := v)) ⟨x, hx, decide_eq_false hd, (testValue_mem c _ (h x hx).wf v).2 hv⟩
    unfold count at hle; omega

theorem one_lo {s : Store} {v : Int} {xs : List Nat} (hn : xs.Nodup) (x m : Nat) :
    xs.countP (fun y => if y = x then decide ((m : Int) = v) else lo s v y) ≤ xs.countP (lo s v) + 1 :=
  countP_one x hn fun y _ hy => by rw [if_neg hy]

theorem one_hi {s : Store} {v : Int} {xs : List Nat} (hn : xs.Nodup) (x m : Nat) :
    xs.countP (hi s v) ≤ xs.countP (fun y => if y = x then decide ((m : Int) = v) else hi s v y) + 1 :=
  countP_one x hn fun y _ hy => by rw [if_neg hy]

theorem lo_le_hi {c : Cfg} {s : Store} {v : Int} {xs : List Nat} (h : ∀ x ∈ xs, VarOk c (s x)) (x m : Nat) :
    xs.countP (fun y => if y = x then decide ((m : Int) = v) else lo s v y) ≤
      xs.countP (fun y => if y = x then decide ((m : Int) = v) else hi s v y) :=
  countP_le fun y hy => by
    by_cases e : y = x
    · simp [e]
    · simpa [e] using lo_hi h y hy

/-- C60: `fd_atmost(N, Vars, V)`: no solution is lost and a failure means that there is none; if the variables are different, the domains left
have only values which occur in a solution. -/
theorem C60_atmost (c : Cfg) (hc : c.Ok) (n v : Int) (xs : List Nat) (s : Store) (h : ∀ x ∈ xs, VarOk c (s x) ∧ Small c (s x)) :
    Keeps c xs s (fun σ => (count xs v σ : Int) ≤ n) (atmost c n xs v s) ∧
    (xs.Nodup → Exact xs (fun σ => (count xs v σ : Int) ≤ n) (atmost c n xs v s)) := by
  have hv : ∀ x ∈ xs, VarOk c (s x) := fun x hx => (h x hx).1
  have e : nbIs s v xs = (xs.countP (lo s v) : Nat) := rfl
  unfold atmost
  rw [e]
  split
  · refine ⟨⟨fun _ σ hσ hp => ?_, fun s' h => by cases h⟩, fun _ s' h => by cases h⟩
    have := count_lo hv hσ (v := v); omega
  · split
    · have hres := notAll_res c hc v xs s h
      refine ⟨⟨fun hnone => ?_, fun s' hs => ?_⟩, fun _ s' hs => ?_⟩
      · obtain ⟨s', e, _⟩ := hres; rw [hnone] at e; cases e
      · obtain ⟨a1, a2, a3, a4, a5⟩ := notAll_count hc h hs
        exact ⟨a1, a2, a3, fun σ hσ hp => a5 σ hσ (by omega)⟩
      · obtain ⟨a1, _, _, a4, _⟩ := notAll_count hc h hs
        exact entails_exact a1 fun σ hσ => by rw [a4 σ hσ]; omega
    · refine ⟨⟨fun hnone => (by cases hnone), fun s' hs => ?_⟩, fun hn s' hs => ?_⟩
      · cases hs; exact ⟨hv, fun _ _ => rfl, fun _ h => h, fun _ h _ => h⟩
      · cases hs
        refine ⟨?_, fun x hx m hm => ?_⟩
        · obtain ⟨σ, a, b⟩ := pick_any (v := v) hv hn _ (Nat.le_refl _) (countP_le (lo_hi hv))
          exact ⟨σ, a, by omega⟩
        · obtain ⟨σ, a, b, d⟩ := pick_at (v := v) hv hn hm hx _ (Nat.le_refl _) (lo_le_hi hv x m)
          have := one_lo (s := s) (v := v) hn x m
          exact ⟨σ, a, by omega, b⟩

/-- C60: `fd_atleast(N, Vars, V)` (the domains are not restricted to the vectors). -/
theorem C60_atleast (c : Cfg) (hc : c.Ok) (n v : Int) (xs : List Nat) (s : Store) (hv : ∀ x ∈ xs, VarOk c (s x)) :
    Keeps c xs s (fun σ => n ≤ count xs v σ) (atleast c n xs v s) ∧
    (xs.Nodup → Exact xs (fun σ => n ≤ count xs v σ) (atleast c n xs v s)) := by
  unfold atleast
  rw [nbCan_eq]
  split
  · refine ⟨⟨fun _ σ hσ hp => ?_, fun s' h => by cases h⟩, fun _ s' h => by cases h⟩
    have := count_le_hi hv hσ (v := v); omega
  · split
    · have hres := valAll_res c hc v xs s hv
      refine ⟨⟨fun hnone => ?_, fun s' hs => ?_⟩, fun _ s' hs => ?_⟩
      · obtain ⟨s', e, _⟩ := hres; rw [hnone] at e; cases e
      · obtain ⟨a1, a2, a3, a4, a5⟩ := valAll_count hc hv hs
        exact ⟨a1, a2, a3, fun σ hσ hp => a5 σ hσ (by omega)⟩
      · obtain ⟨a1, _, _, a4, _⟩ := valAll_count hc hv hs
        exact entails_exact a1 fun σ hσ => by rw [a4 σ hσ]; omega
    · refine ⟨⟨fun hnone => (by cases hnone), fun s' hs => ?_⟩, fun hn s' hs => ?_⟩
      · cases hs; exact ⟨hv, fun _ _ => rfl, fun _ h => h, fun _ h _ => h⟩
      · cases hs
        refine ⟨?_, fun x hx m hm => ?_⟩
        · obtain ⟨σ, a, b⟩ := pick_any (v := v) hv hn _ (countP_le (lo_hi hv)) (Nat.le_refl _)
          exact ⟨σ, a, by omega⟩
        · obtain ⟨σ, a, b, d⟩ := pick_at (v := v) hv hn hm hx _ (lo_le_hi hv x m) (Nat.le_refl _)
          have := one_hi (s := s) (v := v) hn x m
          exact ⟨σ, a, by omega, b⟩

/-- C60: `fd_exactly(N, Vars, V)`. -/
theorem C60_exactly (c : Cfg) (hc : c.Ok) (n v : Int) (xs : List Nat) (s : Store) (h : ∀ x ∈ xs, VarOk c (s x) ∧ Small c (s x)) :
    Keeps c xs s (fun σ => (count xs v σ : Int) = n) (exactly c n xs v s) ∧
    (xs.Nodup → Exact xs (fun σ => (count xs v σ : Int) = n) (exactly c n xs v s)) := by
  have hv : ∀ x ∈ xs, VarOk c (s x) := fun x hx => (h x hx).1
  have e : nbIs s v xs = (xs.countP (lo s v) : Nat) := rfl
  unfold exactly
  rw [e, nbCan'_eq hv]
  split
  · refine ⟨⟨fun _ σ hσ hp => ?_, fun s' h => by cases h⟩, fun _ s' h => by cases h⟩
    have := count_lo hv hσ (v := v); have := count_le_hi hv hσ (v := v); omega
  · split
    · have hres := notAll_res c hc v xs s h
      refine ⟨⟨fun hnone => ?_, fun s' hs => ?_⟩, fun _ s' hs => ?_⟩
      · obtain ⟨s', e, _⟩ := hres; rw [hnone] at e; cases e
      · obtain ⟨a1, a2, a3, a4, a5⟩ := notAll_count hc h hs
        exact ⟨a1, a2, a3, fun σ hσ hp => a5 σ hσ (by omega)⟩
      · obtain ⟨a1, _, _, a4, _⟩ := notAll_count hc h hs
        exact entails_exact a1 fun σ hσ => by rw [a4 σ hσ]; omega
    · split
      · have hres := valAll_res c hc v xs s hv
        refine ⟨⟨fun hnone => ?_, fun s' hs => ?_⟩, fun _ s' hs => ?_⟩
        · obtain ⟨s', e, _⟩ := hres; rw [hnone] at e; cases e
        · obtain ⟨a1, a2, a3, a4, a5⟩ := valAll_count hc hv hs
          exact ⟨a1, a2, a3, fun σ hσ hp => a5 σ hσ (by omega)⟩
        · obtain ⟨a1, _, _, a4, _⟩ := valAll_count hc hv hs
          exact entails_exact a1 fun σ hσ => by rw [a4 σ hσ]; omega
      · refine ⟨⟨fun hnone => (by cases hnone), fun s' hs => ?_⟩, fun hn s' hs => ?_⟩
        · cases hs; exact ⟨hv, fun _ _ => rfl, fun _ h => h, fun _ h _ => h⟩
        · cases hs
          refine ⟨?_, fun x hx m hm => ?_⟩
          · obtain ⟨σ, a, b⟩ := pick_any (v := v) hv hn n.toNat (by omega) (by omega)
            exact ⟨σ, a, by omega⟩
          · have := one_hi (s := s) (v := v) hn x m
            have := one_lo (s := s) (v := v) hn x m
            obtain ⟨σ, a, b, d⟩ := pick_at (v := v) hv hn hm hx n.toNat (by omega) (by omega)
            exact ⟨σ, a, by omega, b⟩

/-- X0 = 5, X1 in 4..6, X2 in 7..9, X3 in 5..6. -/
def exStore : Store := fun x => match x with
  | 0 => newInt 5 | 1 => newInterval 4 6 | 2 => newInterval 7 9 | _ => newInterval 5 6

theorem newInt_ok (c : Cfg) {n : Int} (h0 : 0 ≤ n) : VarOk c (newInt n) where
  wf := wf_none rfl (by simp only [newInt, initInterval]; omega)
  ne := Int.le_refl _
  nonneg := h0
  nb := fun l hl => by
    have := C23_nb_ith (newInt n).r (by simp [newInt, initInterval, Range.isEmpty]) l hl
    rw [← this.1]; simp [newInt, nbElem, initInterval]
  int := fun m h => by simp only [newInt, Option.some.injEq] at h; subst h; exact ⟨rfl, rfl, rfl⟩
  fdv := fun h => by cases h

example : (∀ x ∈ [0, 1, 2, 3], VarOk exCfg (exStore x) ∧ Small exCfg (exStore x)) ∧ [0, 1, 2, 3].Nodup ∧
    (atmost exCfg 1 [0, 1, 2, 3] 5 exStore).map (fun s => (s 1, (s 3).tag)) = some (⟨none, 2, ⟨false, 4, 6, some [0x50#64, 0#64]⟩⟩, some 6) ∧
    (atleast exCfg 3 [0, 1, 2, 3] 5 exStore).map (fun s => ((s 1).tag, (s 2).tag, (s 3).tag)) = some (some 5, none, some 5) ∧
    (exactly exCfg 3 [0, 1, 2, 3] 5 exStore).map (fun s => ((s 1).tag, (s 2).tag, (s 3).tag)) = some (some 5, none, some 5) ∧
    (atleast exCfg 4 [0, 1, 2, 3] 5 exStore).isNone ∧ (exactly exCfg 0 [0, 1, 2, 3] 5 exStore).isNone ∧
    (atmost exCfg 0 [0, 1, 2, 3] 5 exStore).isNone := by
  refine ⟨fun x hx => ?_, by decide, by decide +kernel, by decide +kernel, by decide +kernel, by decide +kernel, by decide +kernel, by decide +kernel⟩
  simp only [List.mem_cons, List.not_mem_nil, or_false] at hx
  rcases hx with rfl | rfl | rfl | rfl
  · exact ⟨newInt_ok exCfg (by decide), by decide, rfl⟩
  · exact ⟨newInterval_ok exCfg (by decide) (by decide), by decide, rfl⟩
  · exact ⟨newInterval_ok exCfg (by decide) (by decide), by decide, rfl⟩
  · exact ⟨newInterval_ok exCfg (by decide) (by decide), by decide, rfl⟩

/-- C60: with a variable which occurs twice the domain keeps a value without solution: `fd_atmost(1, [X, X], 5)`, X in 4..6. -/
theorem C60_atmost_twice : (atmost exCfg 1 [1, 1] 5 exStore).map (fun s => testValue (s 1).r 5) = some true ∧
    ∀ σ : Nat → Nat, σ 1 = 5 → count [1, 1] 5 σ = 2 :=
  ⟨by decide +kernel, fun σ h => by simp [count, h]⟩

/-! ## fd_all_different -/

/-- The value of an element of the list. -/
def Item.val (σ : Nat → Int) : Item → Int
  | .int n => n
  | .var x => σ x

/-- A constraint X ≠ Y (or X ≠ C): the solutions of the state which satisfy it are kept, or there is none (an hypothesis; the primitive constraints are not modelled here). -/
def NeqOk {S : Type} (Sol : S → (Nat → Int) → Prop) (neq : Item → Item → S → Option S) : Prop :=
  ∀ a b s, (neq a b s = none → ∀ σ, Sol s σ → a.val σ = b.val σ) ∧
    ∀ s', neq a b s = some s' → ∀ σ, Sol s' σ ↔ Sol s σ ∧ a.val σ ≠ b.val σ

theorem diffRec_res {S : Type} (Sol : S → (Nat → Int) → Prop) (neq : Item → Item → S → Option S) (h : NeqOk Sol neq) (x : Item) :
    ∀ (ys : List Item) (s : S), (diffRec neq x ys s = none → ∀ σ, Sol s σ → ∃ y ∈ ys, y.val σ = x.val σ) ∧
      ∀ s', diffRec neq x ys s = some s' → ∀ σ, Sol s' σ ↔ Sol s σ ∧ ∀ y ∈ ys, y.val σ ≠ x.val σ
  | [], s => ⟨fun h => (by cases h), fun s' h σ => by cases h; simp⟩
  | y :: ys, s => by
    have post : ∀ (a b : Item) (s1 : S), neq a b s = some s1 → (∀ σ, a.val σ = b.val σ ↔ y.val σ = x.val σ) →
        (diffRec neq x ys s1 = none → ∀ σ, Sol s σ → ∃ z ∈ y :: ys, z.val σ = x.val σ) ∧
        ∀ s', diffRec neq x ys s1 = some s' → ∀ σ, Sol s' σ ↔ Sol s σ ∧ ∀ z ∈ y :: ys, z.val σ ≠ x.val σ := by
      intro a b s1 e hab
      have hs := (h a b s).2 s1 e
      have ih := diffRec_res Sol neq h x ys s1
      refine ⟨fun hn σ hσ => ?_, fun s' hs' σ => ?_⟩
      · by_cases hy : y.val σ = x.val σ
        · exact ⟨y, by simp, hy⟩
        · obtain ⟨z, hz, e⟩ := ih.1 hn σ ((hs σ).2 ⟨hσ, fun e => hy ((hab σ).1 e)⟩)
          exact ⟨z, by simp [hz], e⟩
      · rw [ih.2 s' hs' σ, hs σ, Ne, hab σ]
        simp only [List.mem_cons, forall_eq_or_imp, and_assoc, ne_eq]
    have no : ∀ (a b : Item), neq a b s = none → (∀ σ, a.val σ = b.val σ ↔ y.val σ = x.val σ) → ∀ σ, Sol s σ →
        ∃ z ∈ y :: ys, z.val σ = x.val σ := fun a b e hab σ hσ => ⟨y, by simp, (hab σ).1 ((h a b s).1 e σ hσ)⟩
    cases x with
    | int n =>
      cases y with
      | int m =>
        unfold diffRec
        dsimp only
        have ih := diffRec_res Sol neq h (.int n) ys s
        by_cases hnm : n ≠ m
        · rw [if_pos hnm]
          refine ⟨fun hn σ hσ => ?_, fun s' hs' σ => ?_⟩
          · obtain ⟨z, hz, e⟩ := ih.1 hn σ hσ
            exact ⟨z, by simp [hz], e⟩
          · rw [ih.2 s' hs' σ]
            simp only [List.mem_cons, forall_eq_or_imp, Item.val]
            exact ⟨fun h => ⟨h.1, fun e => hnm e.symm, h.2⟩, fun h => ⟨h.1, h.2.2⟩⟩
        · rw [if_neg hnm]
          refine ⟨fun _ σ _ => ⟨.int m, by simp, ?_⟩, fun s' h => by cases h⟩
          simp only [Item.val]; omega
      | var z =>
        unfold diffRec
        dsimp only
        cases e : neq (.var z) (.int n) s with
        | none => exact ⟨fun _ => no _ _ e (fun _ => Iff.rfl), fun s' h => by cases h⟩
        | some s1 => exact post _ _ s1 e (fun _ => Iff.rfl)
    | var w =>
      unfold diffRec
      dsimp only
      cases e : neq (.var w) y s with
      | none => exact ⟨fun _ => no _ _ e (fun _ => eq_comm), fun s' h => by cases h⟩
      | some s1 => exact post _ _ s1 e (fun _ => eq_comm)

/-- C60: `fd_all_different(L)`: the solutions kept are those where the values of the elements of the list are all different; a failure
means that there is none. -/
theorem C60_all_different {S : Type} (Sol : S → (Nat → Int) → Prop) (neq : Item → Item → S → Option S) (h : NeqOk Sol neq) :
    ∀ (xs : List Item) (s : S), (allDiff neq xs s = none → ∀ σ, Sol s σ → ¬ (xs.map (Item.val σ)).Nodup) ∧
      ∀ s', allDiff neq xs s = some s' → ∀ σ, Sol s' σ ↔ Sol s σ ∧ (xs.map (Item.val σ)).Nodup
  | [], s => ⟨fun h => (by cases h), fun s' h σ => by cases h; simp⟩
  | x :: xs, s => by
    obtain ⟨d1, d2⟩ := diffRec_res Sol neq h x xs s
    unfold allDiff
    have hnd : ∀ σ, ((x :: xs).map (Item.val σ)).Nodup ↔ (∀ y ∈ xs, y.val σ ≠ x.val σ) ∧ (xs.map (Item.val σ)).Nodup := fun σ => by
      simp only [List.map_cons, List.nodup_cons, List.mem_map, not_exists, not_and, ne_eq]
    cases e : diffRec neq x xs s with
    | none =>
      refine ⟨fun _ σ hσ hn => ?_, fun s' h => by cases h⟩
      obtain ⟨y, hy, e'⟩ := d1 e σ hσ
      exact ((hnd σ).1 hn).1 y hy e'
    | some s1 =>
      have ih := C60_all_different Sol neq h xs s1
      refine ⟨fun hn σ hσ hd => ?_, fun s' hs' σ => ?_⟩
      · have hd' := (hnd σ).1 hd
        exact ih.1 hn σ ((d2 s1 e σ).2 ⟨hσ, hd'.1⟩) hd'.2
      · rw [ih.2 s' hs' σ, d2 s1 e σ, hnd, and_assoc]

/-- A state is the list of the disequalities. -/
example : ∃ (Sol : List (Item × Item) → (Nat → Int) → Prop) (neq : Item → Item → List (Item × Item) → Option (List (Item × Item))),
    NeqOk Sol neq ∧ allDiff neq [.var 0, .int 3, .var 1] [] = some [(.var 1, .int 3), (.var 0, .var 1), (.var 0, .int 3)] ∧
    allDiff neq [.int 3, .var 0, .int 3] [] = none := by
  refine ⟨fun l σ => ∀ p ∈ l, p.1.val σ ≠ p.2.val σ, fun a b l => some ((a, b) :: l), fun a b s => ⟨fun h => (by cases h), fun s' h σ => ?_⟩,
    by decide, by decide⟩
  cases h
  simp only [List.mem_cons, forall_eq_or_imp]
  exact And.comm

/-! ## fd_relation -/

theorem createColumn_spec {α : Type} : ∀ (ts : List (List α)) (col : List α) (ts' : List (List α)),
    createColumn ts = some (col, ts') ↔ ts = List.zipWith (fun x l => x :: l) col ts' ∧ col.length = ts'.length
  | [], col, ts' => by
    constructor
    · intro h; cases h; exact ⟨rfl, rfl⟩
    · rintro ⟨h1, h2⟩
      cases col with
      | nil =>
        cases ts' with
        | nil => rfl
        | cons _ _ => cases h2
      | cons _ _ =>
        cases ts' with
        | nil => cases h2
        | cons _ _ => cases h1
  | [] :: ts, col, ts' => by
    constructor
    · intro h; cases h
    · rintro ⟨h1, h2⟩
      cases col with
      | nil => cases h1
      | cons _ _ =>
        cases ts' with
        | nil => cases h1
        | cons _ _ => cases h1
  | (x :: l) :: ts, col, ts' => by
    unfold createColumn
    constructor
    · intro h
      cases e : createColumn ts with
      | none => rw [e] at h; cases h
      | some p =>
        obtain ⟨c1, t1⟩ := p
        rw [e] at h
        cases h
        obtain ⟨a, b⟩ := (createColumn_spec ts c1 t1).1 e
        exact ⟨by rw [List.zipWith_cons_cons, ← a], by simp [b]⟩
    · rintro ⟨h1, h2⟩
      cases col with
      | nil => cases h1
      | cons y col =>
        cases ts' with
        | nil => cases h1
        | cons l' ts' =>
          rw [List.zipWith_cons_cons, List.cons.injEq, List.cons.injEq] at h1
          obtain ⟨⟨rfl, rfl⟩, h3⟩ := h1
          rw [(createColumn_spec ts col ts').2 ⟨h3, by simpa using h2⟩]

theorem relationc_res {α β : Type} : ∀ (cs : List α) (xs : List β),
    (relationc cs xs = none ↔ cs.length ≠ xs.length) ∧ ∀ p, relationc cs xs = some p → p = cs.zip xs
  | [], [] => ⟨by simp [relationc], fun p h => by cases h; rfl⟩
  | [], _ :: _ => ⟨by simp [relationc], fun p h => by cases h⟩
  | _ :: _, [] => ⟨by simp [relationc], fun p h => by cases h⟩
  | c :: cs, x :: xs => by
    obtain ⟨a, b⟩ := relationc_res cs xs
    unfold relationc
    cases e : relationc cs xs with
    | none => exact ⟨by simpa using a.1 e, fun p h => by cases h⟩
    | some q =>
      refine ⟨?_, fun p h => ?_⟩
      · have : ¬ cs.length ≠ xs.length := fun h => by rw [a.2 h] at e; cases e
        simpa using this
      · cases h; rw [b q e]; rfl

/-- C60: `fd_relation(Tuples, Vars)`, tuples of the same length as Vars: there are columns, and a row number R satisfies the constraint
`fd_element(R, Column, X)` for each column and each variable iff the tuple R is the values of the variables. -/
theorem C60_relation (n : Nat) : ∀ (ts cols : List (List Int)) (vals : List Int), ts ≠ [] → (∀ t ∈ ts, t.length = n) → vals.length = n →
    Columns ts cols → ∃ p, relationc cols vals = some p ∧ ∀ j, 1 ≤ j → j ≤ (ts.length : Int) → ((∀ q ∈ p, At q.1 j q.2) ↔ At ts j vals) := by
  induction n with
  | zero =>
    intro ts cols vals hne hts hvals hc
    have hv : vals = [] := List.length_eq_zero_iff.1 hvals
    subst hv
    cases hc with
    | stop ts' =>
      refine ⟨[], rfl, fun j h1 h2 => ⟨fun _ => ?_, fun _ q hq => by cases hq⟩⟩
      obtain ⟨t, ht⟩ := at_of_range ([] :: ts') h1 h2
      have : t = [] := List.length_eq_zero_iff.1 (hts t (at_range ht).2.2)
      exact this ▸ ht
    | step hh =>
      cases ts with
      | nil => exact absurd rfl hne
      | cons t ts => exact absurd (by simp [List.length_eq_zero_iff.1 (hts t (by simp))]) hh
  | succ n ih =>
    intro ts cols vals hne hts hvals hc
    cases hc with
    | stop ts' => have := hts [] (by simp); simp at this
    | step hh hcol hrest =>
      rename_i ts' col cols
      obtain ⟨e, hl⟩ := (createColumn_spec ts col ts').1 hcol
      have hlen : ts.length = ts'.length := by rw [e, List.length_zipWith, hl, Nat.min_self]
      cases vals with
      | nil => simp at hvals
      | cons x xs =>
        have hat : ∀ (k : Nat) (a : Int) (b : List Int), col[k]? = some a → ts'[k]? = some b → ts[k]? = some (a :: b) := fun k a b h1 h2 => by
          rw [e, List.getElem?_zipWith, h1, h2]
        have hts' : ∀ t ∈ ts', t.length = n := fun t ht => by
          obtain ⟨k, hk, rfl⟩ := List.mem_iff_getElem.1 ht
          have h1 := hat k col[k] ts'[k] (List.getElem?_eq_getElem (by omega)) (List.getElem?_eq_getElem hk)
          have := hts _ (List.mem_of_getElem? h1)
          simpa using this
        obtain ⟨p, hp, hsol⟩ := ih ts' cols xs (fun h => hne (List.length_eq_zero_iff.1 (by rw [hlen, h]; rfl))) hts' (by simpa using hvals) hrest
        refine ⟨(col, x) :: p, by unfold relationc; rw [hp], fun j h1 h2 => ?_⟩
        simp only [List.mem_cons, forall_eq_or_imp]
        rw [hsol j h1 (by omega)]
        constructor
        · rintro ⟨⟨k, e1, a⟩, k', e2, b⟩
          have : k = k' := by omega
          subst this
          exact ⟨k, e1, hat k _ _ a b⟩
        · rintro ⟨k, e1, a⟩
          have hk := (List.getElem?_eq_some_iff.1 a).1
          have h3 := hat k col[k] ts'[k] (List.getElem?_eq_getElem (by omega)) (List.getElem?_eq_getElem (by omega))
          rw [a] at h3
          simp only [Option.some.injEq, List.cons.injEq] at h3
          exact ⟨⟨k, e1, by rw [h3.1]; exact List.getElem?_eq_getElem (by omega)⟩, k, e1, by rw [h3.2]; exact List.getElem?_eq_getElem (by omega)⟩

/-- There are columns when all the tuples have the same length. -/
theorem C60_columns (n : Nat) : ∀ (ts : List (List Int)), ts ≠ [] → (∀ t ∈ ts, t.length = n) → ∃ cols, Columns ts cols := by
  have split : ∀ (n : Nat) (ts : List (List Int)), (∀ t ∈ ts, t.length = n + 1) →
      ∃ col ts', createColumn ts = some (col, ts') ∧ (∀ t ∈ ts', t.length = n) ∧ ts'.length = ts.length := by
    intro n ts
    induction ts with
    | nil => exact fun _ => ⟨[], [], rfl, by simp, rfl⟩
    | cons t ts ih =>
      intro h
      obtain ⟨col, ts', e, a, b⟩ := ih (fun t ht => h t (by simp [ht]))
      cases t with
      | nil => have := h [] (by simp); simp at this
      | cons x l =>
        have hl := h (x :: l) (by simp)
        refine ⟨x :: col, l :: ts', by unfold createColumn; rw [e], fun t ht => ?_, by simp [b]⟩
        rcases List.mem_cons.1 ht with rfl | ht
        · simpa using hl
        · exact a t ht
  induction n with
  | zero =>
    intro ts hne h
    cases ts with
    | nil => exact absurd rfl hne
    | cons t ts =>
      have := List.length_eq_zero_iff.1 (h t (by simp))
      subst this
      exact ⟨[], .stop ts⟩
  | succ n ih =>
    intro ts hne h
    obtain ⟨col, ts', e, a, b⟩ := split n ts h
    obtain ⟨cols, hc⟩ := ih ts' (fun h' => hne (List.length_eq_zero_iff.1 (by rw [← b, h']; rfl))) a
    refine ⟨col :: cols, .step (fun hh => ?_) e hc⟩
    cases ts with
    | nil => exact absurd rfl hne
    | cons t ts =>
      simp only [List.head?_cons, Option.some.injEq] at hh
      have := h t (by simp)
      rw [hh] at this; simp at this

example : Columns [[1, 2], [3, 4], [1, 5]] [[1, 3, 1], [2, 4, 5]] ∧
    relationc [[1, 3, 1], [2, 4, 5]] [(7 : Nat), 8] = some [([1, 3, 1], 7), ([2, 4, 5], 8)] :=
  ⟨.step (by decide) rfl (.step (by decide) rfl (.stop _)), rfl⟩

/-- C60: without tuple the computation of the columns has no answer and does not fail: `'$create_column'([], C, T)` succeeds with T = [], so the
recursive call is the same (`fd_relation([], [X])` does not end). -/
theorem C60_relation_empty : createColumn ([] : List (List Int)) = some ([], []) ∧ ∀ cols : List (List Int), ¬ Columns [] cols := by
  refine ⟨rfl, fun cols h => ?_⟩
  generalize hts : ([] : List (List Int)) = ts at h
  induction h with
  | stop _ => cases hts
  | step _ e _ ih =>
    subst hts
    cases e
    exact ih rfl

end Gp.FdSymb
