import Verif.FdRange.Range
/- Setting and removing a value, numbering the elements. -/
namespace Gp.FdRange

theorem outside_iff (c : Cfg) (n : Int) : outside c n = true ↔ ¬ Win c n := by
  unfold outside Win Cfg.vmax
  simp only [Bool.or_eq_true, decide_eq_true_eq]
  omega

theorem outside_false {c : Cfg} {n : Int} : outside c n = false ↔ Win c n := by
  rw [← Bool.not_eq_true, outside_iff, Classical.not_not]

theorem setSparse_spec (c : Cfg) (hc : c.Ok) (r : Range) (v : Vec) (hr : r.vec = some v) (hw : WF c r) (hne : r.min ≤ r.max)
    (n : Int) (always : Bool) :
    ∃ r', setSparse c r v n always = some r' ∧ WF c r' ∧ r'.vec ≠ none ∧ (r'.extra = (r.extra || outside c n)) ∧
      ∀ m, Mem r' m ↔ Mem r m ∨ (m = n ∧ Win c n) := by
  unfold setSparse
  have hl := (hw.2 v hr).1
  by_cases ho : outside c n = true
  · rw [if_pos ho]
    have hnw := (outside_iff c n).1 ho
    refine ⟨_, rfl, ⟨hw.1, ?_⟩, by simp, by simp [ho], ?_⟩
    · intro v' hv'
      cases hv'
      refine ⟨hl, fun h => ?_⟩
      have hm : ∀ m, Mem { r with extra := true, vec := some v } m ↔ Mem r m := by
        intro m; rw [mem_some rfl, mem_some hr]
      have := (hw.2 v hr).2 hne
      simp only [hm]
      exact this
    · intro m
      have hm : Mem { r with extra := true, vec := some v } m ↔ Mem r m := by rw [mem_some rfl, mem_some hr]
      rw [hm]
      simp [hnw]
  · rw [if_neg ho]
    have hwin := outside_false.1 (by simpa using ho)
    obtain ⟨v', hs, hl', hb⟩ := setV_some (v := v) hwin.1 (by rw [hl]; exact hwin.2)
    rw [hs]
    simp only
    have hbit : ∀ m : Int, 0 ≤ m ∧ bit v' m.toNat = true ↔ Mem r m ∨ (m = n ∧ Win c n) := by
      intro m
      rw [hb, mem_some hr]
      simp only [Bool.or_eq_true, decide_eq_true_eq, hwin, and_true, hne, true_and]
      have := hwin.1
      constructor
      · rintro ⟨h0, h | h⟩
        · exact Or.inl ⟨h0, h⟩
        · exact Or.inr (by omega)
      · rintro (⟨h0, h⟩ | h)
        · exact ⟨h0, Or.inl h⟩
        · subst h; exact ⟨by omega, Or.inr (by omega)⟩
    have hoe : outside c n = false := by simpa using ho
    by_cases hcond : always = true ∨ n < r.min ∨ n > r.max
    · rw [if_pos hcond]
      obtain ⟨f1, f2, f3, f4⟩ := fromVector_spec c hc r hw.1 v' (by omega)
      refine ⟨_, rfl, f1, by rw [f2]; simp, by rw [f3, hoe]; simp, ?_⟩
      intro m
      rw [f4, hbit]
    · rw [if_neg hcond]
      have hm : ∀ m, Mem { r with vec := some v' } m ↔ Mem r m ∨ (m = n ∧ Win c n) := by
        intro m
        rw [mem_some rfl, ← hbit]
        simp only [hne, true_and]
      refine ⟨_, rfl, ⟨hw.1, ?_⟩, by simp, by simp [hoe], hm⟩
      intro v'' hv''
      cases hv''
      refine ⟨by omega, fun _ => ?_⟩
      obtain ⟨a1, a2, a3⟩ := (hw.2 v hr).2 hne
      refine ⟨(hm _).2 (Or.inl a1), (hm _).2 (Or.inl a2), fun m h => ?_⟩
      rcases (hm m).1 h with h | h
      · exact a3 m h
      · simp only; omega

/-- When an interval must become sparse, a part of it is in the vectors. -/
def Fits (c : Cfg) (r : Range) : Prop := r.vec = none → 0 ≤ r.max ∧ r.min ≤ c.vmax

theorem becomesSparse_nonempty (c : Cfg) (hc : c.Ok) (r : Range) (hr : r.vec = none) (hne : r.min ≤ r.max) (hf : Fits c r) :
    (becomesSparse c r).min ≤ (becomesSparse c r).max := by
  have hs := hc.size
  obtain ⟨h1, h2⟩ := hf hr
  unfold becomesSparse
  unfold Cfg.vmax at *
  simp only
  split <;> split <;> omega

theorem setValue_spec (c : Cfg) (hc : c.Ok) (r : Range) (hw : WF c r) (hf : Fits c r) (n : Int) (hlo : -2147483648 < n) (hlo' : -2147483648 < r.min - 1) :
    ∃ r', setValue c r n = some r' ∧ WF c r' ∧
      (∀ m, (r'.vec = none ∨ Win c m) → (Mem r' m ↔ Mem r m ∨ m = n)) ∧
      (r'.vec ≠ none → r'.extra = ((sparseArg c r).extra || outside c n)) := by
  unfold setValue
  by_cases he : r.isEmpty = true
  · rw [if_pos he]
    refine ⟨_, rfl, wf_none rfl hlo, ?_, fun h => absurd rfl h⟩
    intro m _
    have hne := not_mem_empty ((isEmpty_iff r).1 he) m
    unfold initInterval
    rw [mem_iv rfl]
    constructor
    · intro h; exact Or.inr (by omega)
    · intro h
      have := h.resolve_left hne
      omega
  · rw [if_neg he]
    have hne := (isEmpty_false r).1 (by simpa using he)
    cases hr : r.vec with
    | none =>
      simp only
      by_cases h1 : n ≥ r.min ∧ n ≤ r.max
      · rw [if_pos h1]
        refine ⟨_, rfl, hw, ?_, fun h => absurd hr h⟩
        intro m _
        rw [mem_none hr]; omega
      · rw [if_neg h1]
        by_cases h2 : n = r.min - 1
        · rw [if_pos h2]
          refine ⟨_, rfl, wf_none rfl hlo', ?_, fun h => absurd rfl h⟩
          intro m _
          rw [mem_iv rfl, mem_none hr]; omega
        · rw [if_neg h2]
          by_cases h3 : n = r.max + 1
          · rw [if_pos h3]
            refine ⟨_, rfl, wf_none rfl hw.1, ?_, fun h => absurd rfl h⟩
            intro m _
            rw [mem_iv rfl, mem_none hr]; omega
          · rw [if_neg h3]
            obtain ⟨b1, ⟨v, b2, _⟩, _, b4⟩ := becomesSparse_spec c hc r hr
            rw [b2]
            simp only
            obtain ⟨r', s1, s2, s3, s4, s5⟩ := setSparse_spec c hc _ v b2 b1 (becomesSparse_nonempty c hc r hr hne hf) n true
            refine ⟨r', s1, s2, ?_, fun _ => ?_⟩
            · intro m hm
              have hwin := hm.resolve_left s3
              rw [s5, b4]
              constructor
              · rintro (h | h)
                · exact Or.inl h.1
                · exact Or.inr h.1
              · rintro (h | h)
                · exact Or.inl ⟨h, hwin⟩
                · exact Or.inr ⟨h, h ▸ hwin⟩
            · rw [s4]; unfold sparseArg; rw [hr]
    | some v =>
      simp only
      obtain ⟨r', s1, s2, s3, s4, s5⟩ := setSparse_spec c hc r v hr hw hne n false
      refine ⟨r', s1, s2, ?_, fun _ => ?_⟩
      · intro m hm
        have hwin := hm.resolve_left s3
        rw [s5]
        constructor
        · rintro (h | h)
          · exact Or.inl h
          · exact Or.inr h.1
        · rintro (h | h)
          · exact Or.inl h
          · exact Or.inr ⟨h, h ▸ hwin⟩
      · rw [s4]; unfold sparseArg; rw [hr]

/-- Removing `n` from the middle of an interval: `n` does not become a bound when the interval is restricted to the vectors. -/
def ResetOk (c : Cfg) (r : Range) (n : Int) : Prop := r.vec = none → r.min < n → n < r.max → n ≠ 0 ∧ n ≠ c.vmax

theorem resetValue_spec (c : Cfg) (hc : c.Ok) (r : Range) (hw : WF c r) (n : Int) (hok : ResetOk c r n) :
    ∃ r', resetValue c r n = some r' ∧ WF c r' ∧
      (∀ m, (r'.vec = none ∨ Win c m) → (Mem r' m ↔ Mem r m ∧ m ≠ n)) ∧
      (r'.vec ≠ none → r'.extra = (sparseArg c r).extra) := by
  unfold resetValue
  by_cases h1 : r.isEmpty = true ∨ n < r.min ∨ n > r.max
  · rw [if_pos h1]
    refine ⟨r, rfl, hw, ?_, ?_⟩
    · intro m _
      constructor
      · intro h
        refine ⟨h, ?_⟩
        rintro rfl
        rcases h1 with h1 | h1
        · exact not_mem_empty ((isEmpty_iff r).1 h1) _ h
        · have := (bounds_mem c r hw h.1).2.2 _ h; omega
      · intro h; exact h.1
    · intro h; unfold sparseArg
      cases hr : r.vec with
      | none => exact absurd hr h
      | some v => rfl
  · rw [if_neg h1]
    have hne : r.min ≤ r.max := by
      apply Classical.byContradiction
      intro hc; exact h1 (Or.inl ((isEmpty_iff r).2 (by omega)))
    have hlo := hw.1
    have hb : r.min ≤ n ∧ n ≤ r.max := by
      constructor <;> apply Classical.byContradiction <;> intro hc
      · exact h1 (Or.inr (Or.inl (by omega)))
      · exact h1 (Or.inr (Or.inr (by omega)))
    by_cases h2 : r.min = r.max
    · rw [if_pos h2]
      have hlt : r.setEmpty.max < r.setEmpty.min := by simp only [Range.setEmpty]; omega
      refine ⟨_, rfl, ⟨hw.1, ?_⟩, ?_, ?_⟩
      · intro v hv
        exact ⟨(hw.2 v hv).1, fun h => by omega⟩
      · intro m _
        constructor
        · intro h; exact absurd h (not_mem_empty hlt m)
        · intro ⟨h, hmn⟩
          have := (bounds_mem c r hw hne).2.2 m h
          omega
      · intro h; unfold sparseArg
        cases hr : r.vec with
        | none => exact absurd hr h
        | some v => rfl
    · rw [if_neg h2]
      cases hr : r.vec with
      | none =>
        simp only
        by_cases h3 : n = r.min
        · rw [if_pos h3]
          refine ⟨_, rfl, wf_none rfl (by simp only; omega), ?_, fun h => absurd rfl h⟩
          intro m _
          rw [mem_iv rfl, mem_none hr]; omega
        · rw [if_neg h3]
          by_cases h4 : n = r.max
          · rw [if_pos h4]
            refine ⟨_, rfl, wf_none rfl hw.1, ?_, fun h => absurd rfl h⟩
            intro m _
            rw [mem_iv rfl, mem_none hr]; omega
          · rw [if_neg h4]
            obtain ⟨hn0, hnv⟩ := hok hr (by omega) (by omega)
            obtain ⟨b1, ⟨v, b2, b3⟩, b5, b4⟩ := becomesSparse_spec c hc r hr
            rw [b2]
            simp only
            by_cases ho : outside c n = true
            · rw [if_pos ho]
              refine ⟨_, rfl, b1, ?_, ?_⟩
              · intro m hm
                have hwin := hm.resolve_left (by rw [b2]; simp)
                rw [b4]
                have hmn : m ≠ n := by rintro rfl; exact (outside_iff c m).1 ho hwin
                simp [hwin, hmn]
              · intro _; unfold sparseArg; rw [hr]
            · rw [if_neg ho]
              have hwin0 := outside_false.1 (by simpa using ho)
              have hm : ∀ m, Mem { becomesSparse c r with vec := some (resetV v n.toNat) } m ↔ Mem (becomesSparse c r) m ∧ m ≠ n := by
                intro m
                rw [mem_some rfl, mem_some b2]
                simp only [resetV_bit, Bool.and_eq_true, Bool.not_eq_true', decide_eq_false_iff_not]
                have := hwin0.1
                constructor
                · rintro ⟨h5, h6, h7, h8⟩; exact ⟨⟨h5, h6, h7⟩, by omega⟩
                · rintro ⟨⟨h5, h6, h7⟩, h8⟩; exact ⟨h5, h6, h7, by omega⟩
              refine ⟨_, rfl, ⟨b1.1, ?_⟩, ?_, ?_⟩
              · intro v' hv'
                cases hv'
                refine ⟨by rw [resetV_len]; exact b3, fun hne' => ?_⟩
                obtain ⟨c1, c2, c3⟩ := (b1.2 v b2).2 hne'
                refine ⟨(hm _).2 ⟨c1, ?_⟩, (hm _).2 ⟨c2, ?_⟩, fun m h => c3 m ((hm m).1 h).1⟩
                · unfold becomesSparse; simp only; split <;> omega
                · unfold becomesSparse; simp only; split <;> omega
              · intro m hmw
                have hwin := hmw.resolve_left (by simp)
                rw [hm, b4]
                simp [hwin]
              · intro _; unfold sparseArg; rw [hr]
      | some v =>
        simp only
        obtain ⟨a1, a2, a3⟩ := (hw.2 v hr).2 hne
        have hl := (hw.2 v hr).1
        have w1 := mem_win hw hr a1
        have w2 := mem_win hw hr a2
        have hwin0 : Win c n := ⟨by have := w1.1; omega, by have := w2.2; omega⟩
        rw [if_neg (by rw [outside_iff]; simpa using hwin0)]
        have hbit : ∀ m, (0 ≤ m ∧ bit (resetV v n.toNat) m.toNat = true) ↔ Mem r m ∧ m ≠ n := by
          intro m
          rw [mem_some hr, resetV_bit, Bool.and_eq_true, Bool.not_eq_true', decide_eq_false_iff_not]
          have := hwin0.1
          constructor
          · rintro ⟨h6, h7, h8⟩; exact ⟨⟨hne, h6, h7⟩, by omega⟩
          · rintro ⟨⟨_, h6, h7⟩, h8⟩; exact ⟨h6, h7, by omega⟩
        by_cases h3 : n = r.min ∨ n = r.max
        · rw [if_pos h3]
          obtain ⟨f1, f2, f3, f4⟩ := fromVector_spec c hc r hw.1 (resetV v n.toNat) (by rw [resetV_len]; exact hl)
          refine ⟨_, rfl, f1, ?_, ?_⟩
          · intro m _; rw [f4, hbit]
          · intro _; rw [f3]; unfold sparseArg; rw [hr]
        · rw [if_neg h3]
          have hm : ∀ m, Mem { r with vec := some (resetV v n.toNat) } m ↔ Mem r m ∧ m ≠ n := by
            intro m
            rw [mem_some rfl, ← hbit]
            simp only [hne, true_and]
          refine ⟨_, rfl, ⟨hw.1, ?_⟩, fun m _ => hm m, ?_⟩
          · intro v' hv'
            cases hv'
            refine ⟨by rw [resetV_len]; exact hl, fun _ => ⟨(hm _).2 ⟨a1, ?_⟩, (hm _).2 ⟨a2, ?_⟩, fun m h => a3 m ((hm m).1 h).1⟩⟩
            · simp only; omega
            · simp only; omega
          · intro _; unfold sparseArg; rw [hr]

/-! The list of the elements -/

/-- The elements of a range in increasing order. -/
def Listing (r : Range) (l : List Int) : Prop := l.Pairwise (· < ·) ∧ ∀ n, n ∈ l ↔ Mem r n

theorem sorted_unique : ∀ {l l' : List Int}, l.Pairwise (· < ·) → l'.Pairwise (· < ·) → (∀ n, n ∈ l ↔ n ∈ l') → l = l'
  | [], [], _, _, _ => rfl
  | [], b :: l', _, _, h => absurd ((h b).2 (List.mem_cons_self)) (by simp)
  | a :: l, [], _, _, h => absurd ((h a).1 (List.mem_cons_self)) (by simp)
  | a :: l, b :: l', h1, h2, h => by
    rw [List.pairwise_cons] at h1 h2
    have hab : a = b := by
      have m1 := (h a).1 List.mem_cons_self
      have m2 := (h b).2 List.mem_cons_self
      rcases List.mem_cons.1 m1 with e | e
      · exact e
      · rcases List.mem_cons.1 m2 with e' | e'
        · exact e'.symm
        · have := h2.1 a e; have := h1.1 b e'; omega
    subst hab
    congr 1
    apply sorted_unique h1.2 h2.2
    intro n
    constructor
    · intro hn
      rcases List.mem_cons.1 ((h n).1 (List.mem_cons_of_mem _ hn)) with e | e
      · subst e; exact absurd (h1.1 _ hn) (by omega)
      · exact e
    · intro hn
      rcases List.mem_cons.1 ((h n).2 (List.mem_cons_of_mem _ hn)) with e | e
      · subst e; exact absurd (h2.1 _ hn) (by omega)
      · exact e

/-- The list computed from the representation. -/
def elems (r : Range) : List Int :=
  match r.vec with
  | none => (List.range (r.max - r.min + 1).toNat).map (fun k : Nat => r.min + k)
  | some v => (enumVec v 0).map (fun k : Nat => (k : Int))

theorem elems_listing (r : Range) (hne : r.min ≤ r.max) : Listing r (elems r) := by
  unfold elems Listing
  cases hr : r.vec with
  | none =>
    simp only
    constructor
    · rw [List.pairwise_map]
      exact List.Pairwise.imp (fun h => by omega) List.pairwise_lt_range
    · intro n
      rw [mem_none hr]
      simp only [List.mem_map, List.mem_range]
      constructor
      · rintro ⟨k, hk, rfl⟩; omega
      · intro h; exact ⟨(n - r.min).toNat, by omega, by omega⟩
  | some v =>
    simp only
    constructor
    · rw [List.pairwise_map]
      exact List.Pairwise.imp (fun h => by omega) (enum_sorted v)
    · intro n
      rw [mem_some hr]
      simp only [List.mem_map, mem_enum]
      constructor
      · rintro ⟨k, hk, rfl⟩; exact ⟨hne, by omega, by simpa using hk⟩
      · rintro ⟨_, h0, h⟩; exact ⟨n.toNat, h, by omega⟩

theorem nbElem_elems (r : Range) (hne : r.min ≤ r.max) : nbElem r = (elems r).length := by
  unfold nbElem elems
  cases hr : r.vec with
  | none => simp; omega
  | some v => simp [nbElem_eq v 0]

theorem ithElem_elems (r : Range) (hne : r.min ≤ r.max) (i : Int) :
    ithElem r i = if 0 < i then ((elems r)[(i - 1).toNat]?).getD (-1) else -1 := by
  unfold ithElem elems
  rw [if_neg (by rw [isEmpty_iff]; omega)]
  cases hr : r.vec with
  | none =>
    simp only [List.getElem?_map]
    by_cases hi : 0 < i
    · rw [if_pos hi]
      by_cases hk : (i - 1).toNat < (r.max - r.min + 1).toNat
      · rw [List.getElem?_range hk, if_neg (by omega)]
        simp; omega
      · rw [List.getElem?_eq_none (by simp; omega), if_pos (by omega)]
        rfl
    · rw [if_neg hi, if_pos (by omega)]
  | some v =>
    simp only [List.getElem?_map]
    unfold vecIth
    by_cases hi : 0 < i
    · rw [if_pos hi, if_pos (by omega)]
      cases (enumVec v 0)[(i - 1).toNat]? <;> rfl
    · rw [if_neg hi, if_neg (by omega)]

end Gp.FdRange
