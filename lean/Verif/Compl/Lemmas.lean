import Verif.Compl.Model

/- Lemmas about the completion. -/
namespace Gp.Compl
open Gp.RbMap

theorem strcmp_self (a : Word) : strcmp a a = 0 := by
  induction a with
  | nil => rfl
  | cons x a ih => simp [strcmp, ih]

theorem strcmp_order : IsOrder strcmp where
  eq0 a b := by
    constructor
    · fun_induction strcmp a b with
      | case1 => simp
      | case2 => simp
      | case3 => simp
      | case4 => simp
      | case5 => simp
      | case6 x a y b h1 h2 ih => intro h; rw [ih h, show x = y by omega]
    · rintro rfl; exact strcmp_self a
  anti a b := by
    fun_induction strcmp a b with
    | case1 => simp [strcmp]
    | case2 => simp [strcmp]
    | case3 => simp [strcmp]
    | case4 x a y b h => simp [strcmp, h, show ¬ y < x by omega]
    | case5 x a y b h1 h2 => simp [strcmp, h2]
    | case6 x a y b h1 h2 ih => simp only [strcmp, if_neg h1, if_neg h2]; exact ih
  trans a b c := by
    fun_induction strcmp a b generalizing c with
    | case1 => simp
    | case2 y b => cases c <;> simp [strcmp]
    | case3 => simp
    | case4 x a y b h =>
      cases c with
      | nil => simp [strcmp]
      | cons z c =>
        simp only [strcmp]
        intro _ h2
        by_cases k : y < z
        · rw [if_pos (by omega)]; omega
        · rw [if_neg k] at h2
          by_cases k2 : z < y
          · rw [if_pos k2] at h2; omega
          · rw [if_pos (by omega)]; omega
    | case5 => simp
    | case6 x a y b h1 h2 ih =>
      cases c with
      | nil => simp [strcmp]
      | cons z c =>
        have e : x = y := by omega
        subst e
        simp only [strcmp]
        by_cases k : x < z
        · simp [k]
        · by_cases k2 : z < x
          · simp [k, k2]
          · simp only [if_neg k, if_neg k2]; exact ih c

theorem strncmp_prefix (pre w : Word) : strncmp pre.length pre w = 0 ↔ pre <+: w := by
  induction pre generalizing w with
  | nil => simp [strncmp]
  | cons x pre ih =>
    cases w with
    | nil => simp [strncmp]
    | cons y w =>
      simp only [List.length_cons, strncmp, List.cons_prefix_cons]
      by_cases k : x < y
      · rw [if_pos k]; simp; omega
      · by_cases k2 : y < x
        · rw [if_neg k, if_pos k2]; simp; omega
        · rw [if_neg k, if_neg k2, ih]
          have : x = y := by omega
          simp [this]

/-- A prefix is before the word. -/
theorem prefix_le (pre w : Word) (h : pre <+: w) : strcmp pre w ≤ 0 := by
  induction pre generalizing w with
  | nil => cases w <;> simp [strcmp]
  | cons x pre ih =>
    cases w with
    | nil => simp at h
    | cons y w =>
      rw [List.cons_prefix_cons] at h
      obtain ⟨rfl, h⟩ := h
      simp [strcmp, ih w h]

/-- The words with a prefix are together. -/
theorem between (pre a b : Word) (h1 : strcmp pre a ≤ 0) (h2 : strcmp a b < 0) (h : pre <+: b) : pre <+: a := by
  induction pre generalizing a b with
  | nil => simp
  | cons x pre ih =>
    cases b with
    | nil => simp at h
    | cons y b =>
      rw [List.cons_prefix_cons] at h
      obtain ⟨rfl, h⟩ := h
      cases a with
      | nil => simp [strcmp] at h1
      | cons z a =>
        simp only [strcmp] at h1 h2
        by_cases k : x < z
        · rw [if_neg (show ¬ z < x by omega), if_pos k] at h2; omega
        · by_cases k2 : z < x
          · rw [if_neg k, if_pos k2] at h1; omega
          · have e : x = z := by omega
            subst e
            simp only [Nat.lt_irrefl, if_false] at h1 h2
            rw [List.cons_prefix_cons]
            exact ⟨rfl, ih a b h1 h2 h⟩

theorem mapNext_root (d : Dico) (pre : Word) (x : Loc (Word × Int)) (h : mapNext strcmp d pre false = some x) :
    x.root = d.root := by
  unfold mapNext at h
  generalize hl : locate strcmp pre [] d.root = o at h
  cases o with
  | none => simp at h
  | some y =>
    obtain ⟨h1, _⟩ := locate_spec _ _ _ _ hl
    simp only at h
    split at h
    · rw [(next_some _ _ h).1, h1]; rfl
    · simp at h; subst h; rw [h1]; rfl

/-- The test of the words. -/
abbrev has (pre : Word) (e : Word × Int) : Bool := pre.isPrefixOf e.1

theorem has_iff (pre : Word) (e : Word × Int) : has pre e = true ↔ pre <+: e.1 := by simp [has]

/-- In a sorted list of words not before the prefix, the words with the prefix are the first ones. -/
theorem filter_eq_takeWhile (pre : Word) (es : List (Word × Int)) (hs : Sorted strcmp es)
    (hge : ∀ e ∈ es, strcmp pre e.1 ≤ 0) : es.filter (has pre) = es.takeWhile (has pre) := by
  induction es with
  | nil => rfl
  | cons e es ih =>
    simp only [Sorted, List.pairwise_cons] at hs
    by_cases k : has pre e = true
    · rw [List.filter_cons_of_pos k, List.takeWhile_cons_of_pos k, ih hs.2 (fun a ha => hge a (List.mem_cons_of_mem _ ha))]
    · rw [List.filter_cons_of_neg k, List.takeWhile_cons_of_neg k, List.filter_eq_nil_iff]
      intro a ha h
      apply k
      rw [has_iff] at h ⊢
      exact between pre e.1 a.1 (hge e (List.mem_cons_self ..)) (hs.1 a ha) h

/-- The words with the prefix, from the entry found by `map_next`. -/
theorem matches_from (d : Dico) (hd : WF strcmp d) (pre : Word) :
    match mapNext strcmp d pre false with
    | none => (entries d).filter (has pre) = []
    | some x => x.root = d.root ∧ (entries d).filter (has pre) = (x.e :: x.after).takeWhile (has pre) := by
  have hn := C42_next strcmp_order d hd pre false
  generalize hm : mapNext strcmp d pre false = o at hn
  cases o with
  | none =>
    simp only at hn ⊢
    rw [List.filter_eq_nil_iff]
    intro e he h
    rw [has_iff] at h
    have := prefix_le _ _ h
    apply hn e he
    by_cases k : strcmp pre e.1 = 0
    · exact Or.inr ⟨trivial, (strcmp_order.eq0 _ _).mp k⟩
    · left; omega
  | some x =>
    have hr := mapNext_root d pre x hm
    refine ⟨hr, ?_⟩
    have hin : entries d = x.before ++ x.e :: x.after := by rw [← x.inorder_root, hr]; rfl
    simp only at hn
    obtain ⟨_, hx, hleast⟩ := hn
    have hs := hd.sorted
    rw [hin] at hs
    have hs' := hs
    simp only [Sorted, List.pairwise_append, List.pairwise_cons] at hs
    have hb : x.before.filter (has pre) = [] := by
      rw [List.filter_eq_nil_iff]
      intro e he h
      rw [has_iff] at h
      have h1 := prefix_le _ _ h
      have h2 := hs.2.2 e he x.e (List.mem_cons_self ..)
      have h3 : strcmp pre e.1 < 0 ∨ (false = false ∧ pre = e.1) := by
        by_cases k : strcmp pre e.1 = 0
        · exact Or.inr ⟨rfl, (strcmp_order.eq0 _ _).mp k⟩
        · left; omega
      rcases hleast e (by rw [hin]; simp [he]) h3 with h4 | h4
      · rw [h4, strcmp_self] at h2; omega
      · have := strcmp_order.trans _ _ _ h4 h2; rw [strcmp_self] at this; omega
    rw [hin, List.filter_append, hb, List.nil_append]
    have hxe : strcmp pre x.e.1 ≤ 0 := by
      rcases hx with hx | ⟨_, hx⟩
      · omega
      · rw [hx, strcmp_self]
    apply filter_eq_takeWhile
    · exact (List.pairwise_append.mp hs').2.1
    · intro e he
      rcases List.mem_cons.mp he with rfl | he
      · exact hxe
      · have := hs.2.1.1 e he
        by_cases k : strcmp pre x.e.1 = 0
        · rw [(strcmp_order.eq0 _ _).mp k]; omega
        · have := strcmp_order.trans pre x.e.1 e.1 (by omega) this; omega

/-- The greatest length. -/
def maxLen (m : Int) (es : List (Word × Int)) : Int := es.foldl (fun m e => if e.2 > m then e.2 else m) m

theorem scan_spec (pre : Word) (x : Loc (Word × Int)) (nb : Nat) (mx : Int) (last : Option (Loc (Word × Int))) :
    let T := (x.e :: x.after).takeWhile (has pre)
    let r := scan pre pre.length x nb mx last
    r.1 = nb + T.length ∧ r.2.1 = maxLen mx T ∧ (T = [] → r.2.2 = last) ∧
      (T ≠ [] → ∃ y, r.2.2 = some y ∧ T.getLast? = some y.e) := by
  intro T r
  have hr : r = scan pre pre.length x nb mx last := rfl
  have hT : T = (x.e :: x.after).takeWhile (has pre) := rfl
  clear_value T r
  subst hr hT
  fun_induction scan pre pre.length x nb mx last with
  | case1 x nb mx last hx mx' hn =>
    have hh : has pre x.e = true := by rw [has_iff]; exact (strncmp_prefix _ _).mp hx
    rw [next_none x hn, List.takeWhile_cons_of_pos hh]
    exact ⟨by simp, by simp [maxLen, mx'], by simp, fun _ => ⟨x, rfl, by simp⟩⟩
  | case2 x nb mx last hx mx' y hn ih =>
    have hh : has pre x.e = true := by rw [has_iff]; exact (strncmp_prefix _ _).mp hx
    rw [next_after x y hn, List.takeWhile_cons_of_pos hh]
    obtain ⟨h1, h2, h3, h4⟩ := ih
    refine ⟨by rw [h1]; simp; omega, by rw [h2]; simp [maxLen, mx'], by simp, fun _ => ?_⟩
    by_cases k : (y.e :: y.after).takeWhile (has pre) = []
    · exact ⟨x, h3 k, by rw [k]; simp⟩
    · obtain ⟨z, hz, hz2⟩ := h4 k
      refine ⟨z, hz, ?_⟩
      rw [List.getLast?_cons, hz2]; simp
  | case3 x nb mx last hx =>
    have hh : ¬ has pre x.e = true := by rw [has_iff, ← strncmp_prefix]; exact hx
    rw [List.takeWhile_cons_of_neg hh]
    exact ⟨by simp, by simp [maxLen], by simp, by simp⟩

theorem maxLen_ge (m : Int) (es : List (Word × Int)) : m ≤ maxLen m es ∧ (∀ e ∈ es, e.2 ≤ maxLen m es) ∧
    (maxLen m es = m ∨ ∃ e ∈ es, maxLen m es = e.2) := by
  induction es generalizing m with
  | nil => simp [maxLen]
  | cons e es ih =>
    have h := ih (if e.2 > m then e.2 else m)
    have hd : maxLen m (e :: es) = maxLen (if e.2 > m then e.2 else m) es := rfl
    rw [hd]
    obtain ⟨h1, h2, h3⟩ := h
    have a1 : m ≤ (if e.2 > m then e.2 else m) := by split <;> omega
    have a2 : e.2 ≤ (if e.2 > m then e.2 else m) := by split <;> omega
    refine ⟨by omega, ?_, ?_⟩
    · intro x hx
      rcases List.mem_cons.mp hx with rfl | hx
      · omega
      · exact h2 x hx
    · rcases h3 with h3 | ⟨x, hx, h3⟩
      · rw [h3]; split
        · exact Or.inr ⟨e, List.mem_cons_self .., rfl⟩
        · exact Or.inl rfl
      · exact Or.inr ⟨x, List.mem_cons_of_mem _ hx, h3⟩

theorem byteAt_some (s : Word) (i : Nat) (h : i ≤ s.length) : byteAt s i = some (s.getD i 0) := by
  unfold byteAt
  by_cases k : i < s.length
  · rw [if_pos k]; simp [k]
  · rw [if_neg k, if_pos (by omega)]; simp [List.getD, show s.length ≤ i by omega]

theorem take_succ_eq (a b : Word) (l : Nat) (ha : l < a.length) (hb : l < b.length) (h : a.take l = b.take l)
    (he : a.getD l 0 = b.getD l 0) : a.take (l + 1) = b.take (l + 1) := by
  rw [List.take_succ_eq_append_getElem ha, List.take_succ_eq_append_getElem hb, h]
  simp [List.getD, ha, hb] at he
  rw [he]

theorem common_spec (a b : Word) (za : 0 ∉ a) (zb : 0 ∉ b) (hab : a ≠ b) (n : Nat) (ha : n ≤ a.length)
    (hb : n ≤ b.length) (h : a.take n = b.take n) :
    ∃ l, common a b n = some l ∧ n ≤ l ∧ l ≤ a.length ∧ l ≤ b.length ∧ a.take l = b.take l ∧
      (∀ q, q <+: a → q <+: b → q.length ≤ l) := by
  induction k : a.length - n generalizing n with
  | zero =>
    have e : n = a.length := by omega
    have hbn : n < b.length := by
      rcases Nat.lt_or_ge n b.length with h' | h'
      · exact h'
      · rw [List.take_of_length_le (by omega), List.take_of_length_le (by omega)] at h; exact absurd h hab
    refine ⟨n, ?_, Nat.le_refl _, ha, hb, h, fun q hq _ => by rw [e]; exact hq.length_le⟩
    rw [common, if_pos ha, byteAt_some a n ha, byteAt_some b n hb]
    have h1 : a.getD n 0 = 0 := by simp [List.getD, e]
    have h2 : b.getD n 0 ≠ 0 := by
      simp only [List.getD, List.getElem?_eq_getElem hbn, Option.getD_some]
      intro h'; exact zb (h' ▸ List.getElem_mem hbn)
    simp only [h1]
    rw [if_neg (fun h' => h2 h'.symm)]
  | succ k ih =>
    have han : n < a.length := by omega
    have h1 : a.getD n 0 ≠ 0 := by
      simp only [List.getD, List.getElem?_eq_getElem han, Option.getD_some]
      intro h'; exact za (h' ▸ List.getElem_mem han)
    by_cases e : a.getD n 0 = b.getD n 0
    · have hbn : n < b.length := by
        rcases Nat.lt_or_ge n b.length with h' | h'
        · exact h'
        · exfalso; apply h1; rw [e]; simp [List.getD, h']
      obtain ⟨l, q1, q2, q3⟩ := ih (n + 1) han hbn (take_succ_eq a b n han hbn h e) (by omega)
      refine ⟨l, ?_, by omega, q3⟩
      rw [common, if_pos ha, byteAt_some a n ha, byteAt_some b n hb]
      simp only
      rw [if_pos e, q1]
    · refine ⟨n, ?_, Nat.le_refl _, ha, hb, h, fun q hqa hqb => ?_⟩
      · rw [common, if_pos ha, byteAt_some a n ha, byteAt_some b n hb]
        simp only
        rw [if_neg e]
      · rcases Nat.lt_or_ge n q.length with h' | h'
        · exfalso; apply e
          have e1 : a.getD n 0 = q.getD n 0 := by
            obtain ⟨t, rfl⟩ := hqa
            simp [List.getD, h', List.getElem?_append_left]
          have e2 : b.getD n 0 = q.getD n 0 := by
            obtain ⟨t, rfl⟩ := hqb
            simp [List.getD, h', List.getElem?_append_left]
          rw [e1, e2]
        · exact h'

end Gp.Compl
