import Verif.Mirror.Inv
namespace Gp.Mirror

open Spec

theorem isOpen_iff {s : St} {i : Nat} : IsOpen s i ↔ s.tbl i ≠ none := by
  simp only [IsOpen]
  cases s.tbl i <;> simp

/-! ### Closing -/

theorem Inv.deleteStream {s : St} (h : Inv s) {i : Nat} (hi : 3 ≤ i) (ho : s.tbl i ≠ none) :
    ∃ s', deleteStream s i false = some s' ∧ Inv s' ∧
      (∀ k, s'.tbl k = if k = i then none else (s.tbl k).map (strip i)) ∧
      s'.alias = delAliases s.alias i := by
  cases hp : s.tbl i with
  | none => exact absurd hp ho
  | some p =>
  obtain ⟨s1, s2, e1, e2, e3, e4, e5, e6, e7, e8⟩ :=
    upd_ok (s := { s with alias := delAliases s.alias i }) (i := i) (p := p) h.mir hp
  have htbl : ∀ k, upd s2.tbl i none k = if k = i then none else (s.tbl k).map (strip i) := by
    intro k
    by_cases hk : k = i
    · rw [hk, upd_same, if_pos rfl]
    · rw [upd_ne _ _ hk, if_neg hk, e3 k hk]
  have hnone : ∀ k, upd s2.tbl i none k = none ↔ (k = i ∨ s.tbl k = none) := by
    intro k
    rw [htbl]
    by_cases hk : k = i
    · simp [hk]
    · simp [hk]
  obtain ⟨m, l1, l2, l3, l4⟩ := lastUsed_ok (tbl := upd s2.tbl i none) (n := s.last)
    ⟨0, by omega, by
      rw [Ne, hnone]
      intro hx
      rcases hx with hx | hx
      · omega
      · exact h.std 0 (by omega) hx⟩
  have heq : Mirror.deleteStream s i false = some { s2 with tbl := upd s2.tbl i none, last := m } := by
    simp only [Mirror.deleteStream, hp, e1, e2, e5, l1]
    rfl
  refine ⟨_, heq, ?_, htbl, e6⟩
  have hopen : ∀ k, k ≠ i → s.tbl k ≠ none → upd s2.tbl i none k ≠ none := by
    intro k h1 h2 h3
    rcases (hnone k).1 h3 with h3 | h3
    · exact h1 h3
    · exact h2 h3
  constructor
  · dsimp only; rw [e4]; exact h.size3
  · intro k hk
    dsimp only at hk ⊢
    rw [e4] at hk
    exact (hnone k).2 (.inr (h.size k hk))
  · exact l3
  · intro k hk
    dsimp only at hk ⊢
    by_cases hkl : k ≤ s.last
    · exact l4 k hk hkl
    · exact (hnone k).2 (.inr (h.lastM k (by omega)))
  · intro k hk
    exact hopen k (by omega) (h.std k hk)
  · intro k p' hk hp'
    dsimp only at hp'
    rw [htbl] at hp'
    split at hp'
    · cases hp'
    · cases hq : s.tbl k with
      | none => rw [hq] at hp'; cases hp'
      | some q => rw [hq] at hp'; cases hp'; exact h.nsp k q hk hq
  · intro e he
    dsimp only at he ⊢
    rw [e6] at he
    rcases delAliases_mem he with ⟨h1, h2⟩ | ⟨h1, _⟩
    · exact hopen _ h2 (h.ali e h1)
    · exact hopen _ (by omega) (h.std _ h1)
  · dsimp only
    rw [e6]
    exact delAliases_keys.nodup h.akeys
  · intro a ha
    dsimp only
    rw [e6]
    have hs := h.pre a ha
    have : findAlias (delAliases s.alias i) a ≠ none := by
      rw [findAlias_del h.akeys]
      split
      · obtain ⟨k, hk, _⟩ := goesTo_pre ha
        rw [hk]; exact fun e => nomatch e
      · intro e; exact findAlias_none.1 e hs
    refine Classical.byContradiction fun hx => this (findAlias_none.2 hx)
  · dsimp only
    rw [e7]
    refine h.mir.restrict (fun k _ x => k ≠ i ∧ x ≠ i) (fun k b x hx => ⟨hx.2, hx.1⟩) ?_ ?_ ?_
    · intro k b n
      simp only [At, htbl]
      by_cases hk : k = i
      · simp [hk]
      · simp only [if_neg hk]
        constructor
        · rintro ⟨p', h1, h2⟩
          cases hq : s.tbl k with
          | none => rw [hq] at h1; cases h1
          | some q =>
            rw [hq] at h1
            cases h1
            rw [strip_lst, List.mem_filter] at h2
            exact ⟨⟨q, rfl, h2.1⟩, hk, by simpa using h2.2⟩
        · rintro ⟨⟨q, h1, h2⟩, _, h3⟩
          rw [h1]
          exact ⟨_, rfl, by rw [strip_lst, List.mem_filter]; exact ⟨h2, by simpa using h3⟩⟩
    · intro k p' hp'
      rw [htbl] at hp'
      by_cases hk : k = i
      · rw [if_pos hk] at hp'; cases hp'
      · rw [if_neg hk] at hp'
        cases hq : s.tbl k with
        | none => rw [hq] at hp'; cases hp'
        | some q =>
          rw [hq] at hp'
          cases hp'
          exact ⟨q, rfl, fun b => by rw [strip_lst]; exact List.filter_sublist⟩
    · intro x hx
      rcases e8 x hx with hx | ⟨k, b, m, h1, h2, h3⟩
      · exact .inl hx
      · exact .inr ⟨k, b, m, h1, by rintro ⟨g1, g2⟩; rcases h2 with h2 | h2; exact g1 h2; exact g2 h2, h3⟩

theorem Inv.closeStd {s : St} (h : Inv s) (i : Nat) : Inv { s with alias := delAliases s.alias i } := by
  refine { h with ali := ?_, akeys := ?_, pre := ?_ }
  · intro e he
    rcases delAliases_mem he with ⟨h1, _⟩ | ⟨h1, _⟩
    · exact h.ali e h1
    · exact h.std _ h1
  · exact delAliases_keys.nodup h.akeys
  · intro a ha
    have hs := h.pre a ha
    have : findAlias (delAliases s.alias i) a ≠ none := by
      rw [findAlias_del h.akeys]
      split
      · obtain ⟨k, hk, _⟩ := goesTo_pre ha
        rw [hk]; exact fun e => nomatch e
      · intro e; exact findAlias_none.1 e hs
    refine Classical.byContradiction fun hx => this (findAlias_none.2 hx)

/-! ### Removing a mirror -/

theorem strip1_lst_same (b : Bool) (i : Nat) (p : Stm) :
    lst (strip1 b i p) b = (lst p b).filter (fun n => n.stm ≠ i) := lst_setLst_same _ _ _

theorem strip1_lst_ne (b : Bool) (i : Nat) (p : Stm) : lst (strip1 b i p) (!b) = lst p (!b) := lst_setLst_ne _ _ _

theorem strip1_sub (b : Bool) (i : Nat) (p : Stm) (b' : Bool) : (lst (strip1 b i p) b').Sublist (lst p b') := by
  by_cases hb : b' = b
  · rw [hb, strip1_lst_same]; exact List.filter_sublist
  · have : b' = !b := by cases b <;> cases b' <;> simp_all
    rw [this, strip1_lst_ne]
    exact List.Sublist.refl _

theorem Inv.delMirror {s : St} (h : Inv s) {i j : Nat} (hi : s.tbl i ≠ none) (hj : s.tbl j ≠ none) :
    ∃ s', delMirror s i j = some (s', decide (j ∈ mirrors s i)) ∧ Inv s' ∧
      (∀ k, s'.tbl k = (if k = i then (s.tbl k).map (strip1 true j) else if k = j then (s.tbl k).map (strip1 false i)
        else s.tbl k)) ∧ s'.alias = s.alias ∧ s'.last = s.last := by
  cases hp : s.tbl i with
  | none => exact absurd hp hi
  | some p =>
  cases hq : s.tbl j with
  | none => exact absurd hq hj
  | some q =>
  have hm := h.mir
  obtain ⟨s1, r1, r2, r3, r4, r5, r6, r7, r8⟩ := rmv_ok (s := s) (b := true) (i := i) (j := j) (p := p) hp
    (fun n hn => (hm.fr _ _ _ ⟨p, hp, hn⟩).2) (hm.nodup _ _ _ hp)
  have hmi : mirrors s i = (lst p true).map (·.stm) := by simp only [mirrors, hp]; rfl
  have hno : j ∉ (lst p true).map (·.stm) → i ∉ (lst q false).map (·.stm) := by
    intro h1 h2
    obtain ⟨m, hm1, hm2⟩ := List.mem_map.1 h2
    obtain ⟨n', ⟨p', hp', hn'⟩, hn2⟩ := hm.sym _ _ _ (⟨q, hq, hm1⟩ : At s.tbl j false m)
    rw [hm2, hp] at hp'
    cases hp'
    exact h1 (by rw [← hn2]; exact List.mem_map_of_mem hn')
  by_cases hin : j ∈ (lst p true).map (·.stm)
  · have hij : i ≠ j := by
      rintro rfl
      obtain ⟨n, hn, hni⟩ := List.mem_map.1 hin
      exact hm.irr _ _ _ (⟨p, hp, hn⟩ : At s.tbl i true n) hni
    have hq1 : s1.tbl j = some q := by rw [r2, upd_ne _ _ (Ne.symm hij)]; exact hq
    obtain ⟨s2, t1, t2, t3, t4, t5, t6, t7, t8⟩ := rmv_ok (s := s1) (b := false) (i := j) (j := i) (p := q) hq1
      (by
        intro n hn hx
        rcases r7 _ hx with hx | ⟨m, hm1, hm2, hx⟩
        · exact (hm.fr _ _ _ (⟨q, hq, hn⟩ : At s.tbl j false n)).2 hx
        · have := hm.ids _ _ _ _ _ _ (⟨p, hp, hm1⟩ : At s.tbl i true m) (⟨q, hq, hn⟩ : At s.tbl j false n) hx
          cases this.2.1)
      (hm.nodup _ _ _ hq)
    have htbl : ∀ k, s2.tbl k = (if k = i then (s.tbl k).map (strip1 true j) else if k = j then (s.tbl k).map (strip1 false i)
        else s.tbl k) := by
      intro k
      rw [t2, r2]
      by_cases e1 : k = i
      · subst e1
        rw [upd_ne _ _ hij, upd_same, if_pos rfl, hp]; rfl
      · by_cases e2 : k = j
        · subst e2
          rw [upd_same, if_neg e1, if_pos rfl, hq]; rfl
        · rw [upd_ne _ _ e2, upd_ne _ _ e1, if_neg e1, if_neg e2]
    have hnone : ∀ k, s2.tbl k = none ↔ s.tbl k = none := by
      intro k
      rw [htbl]
      split
      · simp
      · split <;> simp
    refine ⟨s2, ?_, ?_, htbl, by rw [t5, r5], by rw [t4, r4]⟩
    · simp only [Mirror.delMirror, removeMirrorIn_eq, r1, removeMirrorOfIn_eq, hmi]
      rw [decide_eq_true hin]
      simp only [t1]
      rfl
    · refine { size3 := by rw [t3, r3]; exact h.size3, size := ?_, lastO := ?_, lastM := ?_, std := ?_, nsp := ?_, ali := ?_,
               akeys := by rw [t5, r5]; exact h.akeys, pre := by rw [t5, r5]; exact h.pre, mir := ?_ }
      · intro k hk; rw [t3, r3] at hk; exact (hnone k).2 (h.size k hk)
      · rw [t4, r4]; exact fun e => h.lastO ((hnone _).1 e)
      · intro k hk; rw [t4, r4] at hk; exact (hnone k).2 (h.lastM k hk)
      · intro k hk e; exact h.std k hk ((hnone _).1 e)
      · intro k p' hk hp'
        rw [htbl] at hp'
        split at hp'
        · cases hs : s.tbl k with
          | none => rw [hs] at hp'; cases hp'
          | some r => rw [hs] at hp'; cases hp'; exact h.nsp k r hk hs
        · split at hp'
          · cases hs : s.tbl k with
            | none => rw [hs] at hp'; cases hp'
            | some r => rw [hs] at hp'; cases hp'; exact h.nsp k r hk hs
          · exact h.nsp k p' hk hp'
      · intro e he hx; rw [t5, r5] at he; exact h.ali e he ((hnone _).1 hx)
      · rw [t6, r6]
        refine hm.restrict (fun k b x => ¬ ((b = true ∧ k = i ∧ x = j) ∨ (b = false ∧ k = j ∧ x = i))) ?_ ?_ ?_ ?_
        · intro k b x hx hy
          apply hx
          rcases hy with ⟨h1, h2, h3⟩ | ⟨h1, h2, h3⟩
          · exact .inr ⟨by simpa using h1, h3, h2⟩
          · exact .inl ⟨by simpa using h1, h3, h2⟩
        · intro k b n
          simp only [At, htbl]
          by_cases e1 : k = i
          · subst e1
            simp only [if_true, hp, Option.map_some, Option.some.injEq, exists_eq_left', hij, false_and, and_false, or_false,
              true_and]
            cases b with
            | true =>
              rw [strip1_lst_same, List.mem_filter]
              simp
            | false =>
              have : lst (strip1 true j p) false = lst p false := strip1_lst_ne true j p
              rw [this]
              simp
          · by_cases e2 : k = j
            · subst e2
              simp only [if_neg e1, if_true, hq, Option.map_some, Option.some.injEq, exists_eq_left']
              simp only [e1, false_and, and_false, false_or, true_and]
              cases b with
              | false =>
                rw [strip1_lst_same, List.mem_filter]
                simp
              | true =>
                have : lst (strip1 false i q) true = lst q true := strip1_lst_ne false i q
                rw [this]
                simp
            · simp only [if_neg e1, if_neg e2]
              simp only [e1, e2, false_and, and_false, or_self, not_false_eq_true, and_true]
        · intro k p' hp'
          rw [htbl] at hp'
          split at hp'
          · cases hs : s.tbl k with
            | none => rw [hs] at hp'; cases hp'
            | some r => rw [hs] at hp'; cases hp'; exact ⟨r, rfl, strip1_sub _ _ _⟩
          · split at hp'
            · cases hs : s.tbl k with
              | none => rw [hs] at hp'; cases hp'
              | some r => rw [hs] at hp'; cases hp'; exact ⟨r, rfl, strip1_sub _ _ _⟩
            · exact ⟨p', hp', fun b => List.Sublist.refl _⟩
        · intro x hx
          rcases t7 _ hx with hx | ⟨m, g1, g2, g3⟩
          · rcases r7 _ hx with hx | ⟨m, g1, g2, g3⟩
            · exact .inl hx
            · exact .inr ⟨i, true, m, ⟨p, hp, g1⟩, (fun hn => hn (.inl ⟨rfl, rfl, g2⟩)), g3⟩
          · exact .inr ⟨j, false, m, ⟨q, hq, g1⟩, (fun hn => hn (.inr ⟨rfl, rfl, g2⟩)), g3⟩
  · have hs1 : s1.tbl = s.tbl := by
      rw [r2, strip1_eq_self hin]
      funext k
      by_cases hk : k = i
      · rw [hk, upd_same, hp]
      · rw [upd_ne _ _ hk]
    refine ⟨s1, ?_, ?_, ?_, r5, r4⟩
    · simp only [Mirror.delMirror, removeMirrorIn_eq, r1, hmi]
      rw [decide_eq_false hin]
    · refine { size3 := by rw [r3]; exact h.size3, size := by rw [r3, hs1]; exact h.size,
               lastO := by rw [hs1, r4]; exact h.lastO, lastM := by rw [hs1, r4]; exact h.lastM,
               std := by rw [hs1]; exact h.std, nsp := by rw [hs1]; exact h.nsp, ali := by rw [hs1, r5]; exact h.ali,
               akeys := by rw [r5]; exact h.akeys, pre := by rw [r5]; exact h.pre, mir := ?_ }
      rw [hs1, r6]
      refine { hm with fr := ?_, f0 := ?_ }
      · intro k b n ha
        refine ⟨(hm.fr k b n ha).1, fun hx => ?_⟩
        rcases r7 _ hx with hx | ⟨m, g1, g2, g3⟩
        · exact (hm.fr k b n ha).2 hx
        · exact hin (by rw [← g2]; exact List.mem_map_of_mem g1)
      · intro a ha
        rcases r7 _ ha with hx | ⟨m, g1, g2, g3⟩
        · exact hm.f0 _ hx
        · exact absurd (by rw [← g2]; exact List.mem_map_of_mem g1) hin
    · intro k
      rw [hs1]
      by_cases e1 : k = i
      · rw [if_pos e1, e1, hp, Option.map_some, strip1_eq_self hin]
      · rw [if_neg e1]
        by_cases e2 : k = j
        · rw [if_pos e2, e2, hq, Option.map_some, strip1_eq_self (hno hin)]
        · rw [if_neg e2]

/-! ### Finding a stream -/

def num (s : St) : Sora → Int
  | .stream n => n
  | .alias a => match findAlias s.alias a with
    | none => -1
    | some i => i

def chkNum (s : St) (n : Int) (chk : Check) : Option Nat :=
  if n < 0 ∨ n > s.last then none
  else match s.tbl n.toNat with
    | none => none
    | some p =>
      match chk with
      | .exist => some n.toNat
      | .input => if p.input then some n.toNat else none
      | .output => if p.output then some n.toNat else none

theorem getStream_num (s : St) (x : Sora) (chk : Check) : getStream s x chk = chkNum s (num s x) chk := by
  cases x with
  | stream n => rfl
  | alias a => rfl

theorem getStream_exist {s : St} (h : Inv s) {x : Sora} {i : Nat} : getStream s x .exist = some i ↔ Denotes s x i := by
  have key : ∀ n : Int, (chkNum s n .exist = some i) ↔ (IsOpen s i ∧ n = i) := by
    intro n
    simp only [chkNum]
    by_cases hn : n < 0 ∨ n > s.last
    · rw [if_pos hn]
      constructor
      · intro e; cases e
      · rintro ⟨ho, rfl⟩
        exact absurd (h.lastM i (by omega)) (isOpen_iff.1 ho)
    · rw [if_neg hn]
      cases ht : s.tbl n.toNat with
      | none =>
        constructor
        · intro e; cases e
        · rintro ⟨ho, rfl⟩
          exact absurd ht (isOpen_iff.1 ho)
      | some p =>
        constructor
        · intro e
          simp only [Option.some.injEq] at e
          rw [e] at ht
          exact ⟨⟨p, ht⟩, by omega⟩
        · rintro ⟨ho, rfl⟩
          rfl
  rw [getStream_num]
  refine (key _).trans ?_
  simp only [Denotes]
  cases x with
  | stream n => exact Iff.rfl
  | alias a =>
    simp only [num]
    rw [findAlias_resolve]
    cases hr : resolve s a with
    | none =>
      constructor
      · rintro ⟨_, h2⟩; dsimp only at h2; omega
      · rintro ⟨_, h2⟩; cases h2
    | some k =>
      dsimp only
      constructor
      · rintro ⟨h1, h2⟩; exact ⟨h1, by rw [Option.some.injEq]; omega⟩
      · rintro ⟨h1, h2⟩; exact ⟨h1, by rw [Option.some.injEq] at h2; omega⟩

theorem getStream_chk (s : St) (x : Sora) (i : Nat) :
    (getStream s x .input = some i ↔ (getStream s x .exist = some i ∧ IsInput s i)) ∧
    (getStream s x .output = some i ↔ (getStream s x .exist = some i ∧ IsOutput s i)) := by
  simp only [getStream_num]
  generalize num s x = n
  simp only [chkNum]
  by_cases hn : n < 0 ∨ n > s.last
  · simp [hn]
  · simp only [if_neg hn]
    cases ht : s.tbl n.toNat with
    | none => simp
    | some p =>
      dsimp only
      constructor
      · constructor
        · intro hx
          split at hx
          · next hp => cases hx; exact ⟨rfl, p, ht, hp⟩
          · cases hx
        · rintro ⟨he, p', hp', hpi⟩
          cases he
          rw [ht] at hp'
          cases hp'
          rw [if_pos hpi]
      · constructor
        · intro hx
          split at hx
          · next hp => cases hx; exact ⟨rfl, p, ht, hp⟩
          · cases hx
        · rintro ⟨he, p', hp', hpi⟩
          cases he
          rw [ht] at hp'
          cases hp'
          rw [if_pos hpi]

theorem getStream_input {s : St} (h : Inv s) {x : Sora} {i : Nat} :
    getStream s x .input = some i ↔ (Denotes s x i ∧ IsInput s i) := by
  rw [(getStream_chk s x i).1, getStream_exist h]

theorem getStream_output {s : St} (h : Inv s) {x : Sora} {i : Nat} :
    getStream s x .output = some i ↔ (Denotes s x i ∧ IsOutput s i) := by
  rw [(getStream_chk s x i).2, getStream_exist h]

theorem getStream_open {s : St} (h : Inv s) {x : Sora} {i : Nat} (c : Check) (hg : getStream s x c = some i) :
    s.tbl i ≠ none := by
  cases c with
  | exist => exact isOpen_iff.1 ((getStream_exist h).1 hg).1
  | input => exact isOpen_iff.1 ((getStream_input h).1 hg).1.1
  | output => exact isOpen_iff.1 ((getStream_output h).1 hg).1.1

end Gp.Mirror
