import Verif.Sort.Model
/-! Helper lemmas for the sorting algorithm: refinement of the memory loops to list functions. -/
namespace Gp.Sort
open Gp.Term

variable {α : Type}

theorem upd_same (m : Mem α) (a x) : upd m a x a = x := by simp [upd]
theorem upd_other (m : Mem α) {a b} (x) (h : b ≠ a) : upd m a x b = m b := by simp [upd, h]

theorem seg_length (m : Mem α) (a n) : (seg m a n).length = n := by
  induction n generalizing a with
  | zero => rfl
  | succ n ih => simp [seg, ih]

theorem seg_congr {m m' : Mem α} {a n} (h : ∀ b, a ≤ b → b < a + n → m' b = m b) :
    seg m' a n = seg m a n := by
  induction n generalizing a with
  | zero => rfl
  | succ n ih =>
    simp only [seg]
    rw [h a (Nat.le_refl _) (by omega), ih (fun b h1 h2 => h b (by omega) (by omega))]

theorem seg_append (m : Mem α) (a k n) : seg m a (k + n) = seg m a k ++ seg m (a + k) n := by
  induction k generalizing a with
  | zero => simp [seg]
  | succ k ih =>
    rw [show k + 1 + n = (k + n) + 1 by omega]
    simp only [seg, List.cons_append, ih]
    rw [show a + 1 + k = a + (k + 1) by omega]

theorem seg_take (m : Mem α) (a n k) (h : k ≤ n) : (seg m a n).take k = seg m a k := by
  rw [show n = k + (n - k) by omega, seg_append, List.take_append_of_le_length (by rw [seg_length]; omega)]
  rw [List.take_of_length_le (by rw [seg_length]; omega)]

theorem seg_drop (m : Mem α) (a n k) (h : k ≤ n) : (seg m a n).drop k = seg m (a + k) (n - k) := by
  conv => lhs; rw [show n = k + (n - k) by omega, seg_append]
  rw [List.drop_append_of_le_length (by rw [seg_length]; omega)]
  rw [List.drop_of_length_le (by rw [seg_length]; omega)]
  rfl

theorem store_other (m : Mem α) (l : List α) (a b) (h : b < a ∨ a + l.length ≤ b) : store m a l b = m b := by
  induction l generalizing m a with
  | nil => rfl
  | cons x l ih =>
    simp only [store, List.length_cons] at *
    rw [ih _ _ (by omega), upd_other _ _ (by omega)]

theorem seg_store (m : Mem α) (a) (l : List α) : seg (store m a l) a l.length = l := by
  induction l generalizing m a with
  | nil => rfl
  | cons x l ih =>
    simp only [store, List.length_cons, seg]
    rw [store_other _ _ _ _ (by omega), upd_same, ih]

/-! ### Copy loop -/

theorem copyLoop_spec (m : Mem α) (src dst n) (hd : src + n ≤ dst ∨ dst + n ≤ src) :
    seg (copyLoop m src dst n) dst n = seg m src n ∧
    ∀ b, (b < dst ∨ dst + n ≤ b) → copyLoop m src dst n b = m b := by
  induction n generalizing m src dst with
  | zero => exact ⟨rfl, fun _ _ => rfl⟩
  | succ n ih =>
    obtain ⟨h1, h2⟩ := ih (upd m dst (m src)) (src + 1) (dst + 1) (by omega)
    simp only [copyLoop, seg]
    refine ⟨?_, ?_⟩
    · rw [h1, h2 dst (by omega), upd_same]
      congr 1
      exact seg_congr (fun b hb1 hb2 => upd_other _ _ (by omega))
    · intro b hb
      rw [h2 b (by omega), upd_other _ _ (by omega)]

/-! ### Merge -/

/-- Merge of two lists, the first one having priority. -/
def mergeL (cmp : α → α → Int) : List α → List α → List α
  | [], ys => ys
  | xs, [] => xs
  | x :: xs, y :: ys =>
    if cmp x y ≤ 0 then x :: mergeL cmp xs (y :: ys) else y :: mergeL cmp (x :: xs) ys

theorem mergeL_nil_right (cmp : α → α → Int) (xs : List α) : mergeL cmp xs [] = xs := by
  cases xs <;> simp [mergeL]

theorem mergeL_nil_left (cmp : α → α → Int) (xs : List α) : mergeL cmp [] xs = xs := by
  simp [mergeL]

theorem mergeLoop_spec (cmp : α → α → Int) (A : Nat) : ∀ s : MSt α, s.l1 + s.n1 ≤ A → s.l2 + s.n2 ≤ A → A ≤ s.p →
    let t := mergeLoop cmp s
    (t.n1 = 0 ∨ t.n2 = 0) ∧ t.l1 + t.n1 = s.l1 + s.n1 ∧ t.l2 + t.n2 = s.l2 + s.n2 ∧
    t.p + t.n1 + t.n2 = s.p + s.n1 + s.n2 ∧ s.p ≤ t.p ∧ t.n1 ≤ s.n1 ∧ t.n2 ≤ s.n2 ∧
    (∀ b, (b < s.p ∨ t.p ≤ b) → t.m b = s.m b) ∧
    seg t.m s.p (t.p - s.p) ++ (seg s.m t.l1 t.n1 ++ seg s.m t.l2 t.n2)
      = mergeL cmp (seg s.m s.l1 s.n1) (seg s.m s.l2 s.n2) := by
  intro s
  induction hk : s.n1 + s.n2 using Nat.strongRecOn generalizing s with
  | ind k ih =>
    intro h1 h2 h3
    rw [mergeLoop]
    split
    · rename_i k1 k2 e1 e2
      split
      · rename_i hc
        obtain ⟨g1, g2, g3, g4, g5, g6, g7, g8, g9⟩ := ih (k1 + s.n2) (by omega)
          { s with m := upd s.m s.p (s.m s.l1), p := s.p + 1, l1 := s.l1 + 1, n1 := k1 } rfl
          (by simp only; omega) (by simp only; omega) (by simp only; omega)
        simp only at g1 g2 g3 g4 g5 g6 g7 g8 g9
        refine ⟨g1, by omega, by omega, by omega, by omega, by omega, by omega, ?_, ?_⟩
        · intro b hb
          rw [g8 b (by omega), upd_other _ _ (by omega)]
        · generalize mergeLoop cmp _ = t at *
          have c1 : seg (upd s.m s.p (s.m s.l1)) t.l1 t.n1 = seg s.m t.l1 t.n1 :=
            seg_congr (fun b _ _ => upd_other _ _ (by omega))
          have c2 : seg (upd s.m s.p (s.m s.l1)) t.l2 t.n2 = seg s.m t.l2 t.n2 :=
            seg_congr (fun b _ _ => upd_other _ _ (by omega))
          have c3 : seg (upd s.m s.p (s.m s.l1)) (s.l1 + 1) k1 = seg s.m (s.l1 + 1) k1 :=
            seg_congr (fun b _ _ => upd_other _ _ (by omega))
          have c4 : seg (upd s.m s.p (s.m s.l1)) s.l2 s.n2 = seg s.m s.l2 s.n2 :=
            seg_congr (fun b _ _ => upd_other _ _ (by omega))
          rw [c1, c2, c3, c4] at g9
          rw [show t.p - s.p = (t.p - (s.p + 1)) + 1 by omega]
          simp only [e1, seg, List.cons_append]
          rw [g9, g8 s.p (by omega), upd_same, e2]
          simp only [seg, mergeL, hc, if_true]
      · rename_i hc
        obtain ⟨g1, g2, g3, g4, g5, g6, g7, g8, g9⟩ := ih (s.n1 + k2) (by omega)
          { s with m := upd s.m s.p (s.m s.l2), p := s.p + 1, l2 := s.l2 + 1, n2 := k2 } rfl
          (by simp only; omega) (by simp only; omega) (by simp only; omega)
        simp only at g1 g2 g3 g4 g5 g6 g7 g8 g9
        refine ⟨g1, by omega, by omega, by omega, by omega, by omega, by omega, ?_, ?_⟩
        · intro b hb
          rw [g8 b (by omega), upd_other _ _ (by omega)]
        · generalize mergeLoop cmp _ = t at *
          have c1 : seg (upd s.m s.p (s.m s.l2)) t.l1 t.n1 = seg s.m t.l1 t.n1 :=
            seg_congr (fun b _ _ => upd_other _ _ (by omega))
          have c2 : seg (upd s.m s.p (s.m s.l2)) t.l2 t.n2 = seg s.m t.l2 t.n2 :=
            seg_congr (fun b _ _ => upd_other _ _ (by omega))
          have c3 : seg (upd s.m s.p (s.m s.l2)) (s.l2 + 1) k2 = seg s.m (s.l2 + 1) k2 :=
            seg_congr (fun b _ _ => upd_other _ _ (by omega))
          have c4 : seg (upd s.m s.p (s.m s.l2)) s.l1 s.n1 = seg s.m s.l1 s.n1 :=
            seg_congr (fun b _ _ => upd_other _ _ (by omega))
          rw [c1, c2, c3, c4] at g9
          rw [show t.p - s.p = (t.p - (s.p + 1)) + 1 by omega]
          simp only [e2, seg, List.cons_append]
          rw [g9, g8 s.p (by omega), upd_same, e1]
          simp only [seg, mergeL, hc, if_false]
    · rename_i hx
      have hz : s.n1 = 0 ∨ s.n2 = 0 := by
        rcases h : s.n1 with _ | a
        · exact .inl rfl
        · rcases h' : s.n2 with _ | b
          · exact .inr rfl
          · exact absurd h' (hx a b h)
      refine ⟨hz, rfl, rfl, rfl, by omega, by omega, by omega, fun _ _ => rfl, ?_⟩
      simp only [Nat.sub_self, seg, List.nil_append]
      rcases hz with h | h
      · rw [h]; simp [seg, mergeL_nil_left]
      · rw [h]; simp [seg, mergeL_nil_right]

/-! ### Duplicates -/

def dedupFrom (cmp : α → α → Int) (x : α) : List α → List α
  | [] => [x]
  | y :: l => if cmp x y < 0 then x :: dedupFrom cmp y l else dedupFrom cmp x l

def dedupL (cmp : α → α → Int) : List α → List α
  | [] => []
  | x :: l => dedupFrom cmp x l

theorem dedupFrom_length (cmp : α → α → Int) (x : α) (l : List α) :
    1 ≤ (dedupFrom cmp x l).length ∧ (dedupFrom cmp x l).length ≤ l.length + 1 := by
  induction l generalizing x with
  | nil => simp [dedupFrom]
  | cons y l ih =>
    simp only [dedupFrom]
    split
    · have := ih y; simp; omega
    · have := ih x; simp; omega

theorem dedupLoop_spec (cmp : α → α → Int) : ∀ (k : Nat) (m : Mem α) (base p n : Nat), base + k < p → k + 1 ≤ n →
    let r := dedupLoop cmp m base p n k
    let d := dedupFrom cmp (m base) (seg m p k)
    r.2 + (k + 1) = n + d.length ∧ seg r.1 base d.length = d ∧
    (∀ b, (b < base ∨ base + d.length ≤ b) → r.1 b = m b) ∧
    r.1 base = m base := by
  intro k
  induction k with
  | zero =>
    intro m base p n h hn
    simp [dedupLoop, seg, dedupFrom]
  | succ k ih =>
    intro m base p n h hn
    simp only [dedupLoop, seg, dedupFrom]
    split
    · rename_i hc
      obtain ⟨g1, g2, g3, g4⟩ := ih (upd m (base + 1) (m p)) (base + 1) (p + 1) n (by omega) (by omega)
      · have c1 : seg (upd m (base + 1) (m p)) (p + 1) k = seg m (p + 1) k :=
          seg_congr (fun b _ _ => upd_other _ _ (by omega))
        rw [upd_same, c1] at g1 g2 g3
        generalize dedupLoop cmp _ _ _ _ _ = r at *
        have hb : r.1 base = m base := by rw [g3 base (by omega), upd_other _ _ (by omega)]
        refine ⟨by simp only [List.length_cons]; omega, ?_, ?_, hb⟩
        · simp only [List.length_cons, seg]
          rw [g2, hb]
        · intro b hb
          simp only [List.length_cons] at hb
          have := (dedupFrom_length cmp (m p) (seg m (p + 1) k)).1
          rw [g3 b (by omega), upd_other _ _ (by omega)]
    · rename_i hc
      obtain ⟨g1, g2, g3, g4⟩ := ih m base (p + 1) (n - 1) (by omega) (by omega)
      · refine ⟨by omega, g2, g3, g4⟩

/-! ### The sort -/

/-- The sort on lists. -/
def sortL (cmp : α → α → Int) (keep : Bool) (l : List α) : List α :=
  if h : l.length ≤ 1 then l
  else
    let r := mergeL cmp (sortL cmp keep (l.take (l.length / 2))) (sortL cmp keep (l.drop (l.length / 2)))
    if keep then r else dedupL cmp r
termination_by l.length
decreasing_by
  · simp only [List.length_take]; omega
  · simp only [List.length_drop]; omega

theorem mergeL_length (cmp : α → α → Int) (xs ys : List α) : (mergeL cmp xs ys).length = xs.length + ys.length := by
  fun_induction mergeL cmp xs ys <;> simp_all <;> omega

theorem sortL_length_keep (cmp : α → α → Int) (l : List α) : (sortL cmp true l).length = l.length := by
  induction hk : l.length using Nat.strongRecOn generalizing l with
  | ind k ih =>
    rw [sortL]
    split
    · exact hk
    · simp only [if_true, mergeL_length]
      rw [ih (l.take (l.length / 2)).length (by simp only [List.length_take]; omega) _ rfl,
        ih (l.drop (l.length / 2)).length (by simp only [List.length_drop]; omega) _ rfl]
      simp only [List.length_take, List.length_drop]; omega

theorem sortL_length (cmp : α → α → Int) (keep : Bool) (l : List α) :
    (sortL cmp keep l).length ≤ l.length ∧ (1 ≤ l.length → 1 ≤ (sortL cmp keep l).length) := by
  induction hk : l.length using Nat.strongRecOn generalizing l with
  | ind k ih =>
    rw [sortL]
    split
    · omega
    · have a1 := ih (l.take (l.length / 2)).length (by simp only [List.length_take]; omega) _ rfl
      have a2 := ih (l.drop (l.length / 2)).length (by simp only [List.length_drop]; omega) _ rfl
      simp only [List.length_take, List.length_drop] at a1 a2
      have b := mergeL_length cmp (sortL cmp keep (l.take (l.length / 2))) (sortL cmp keep (l.drop (l.length / 2)))
      dsimp only
      split
      · omega
      · generalize mergeL cmp _ _ = r at *
        cases r with
        | nil => simp at b; omega
        | cons x r =>
          have := dedupFrom_length cmp x r
          simp only [dedupL, List.length_cons] at *
          omega

theorem mergeSort_spec (cmp : α → α → Int) (keep : Bool) : ∀ (n : Nat) (m : Mem α) (base aux : Nat),
    base + n ≤ aux →
    let r := mergeSort cmp keep m base aux n
    let s := sortL cmp keep (seg m base n)
    r.2 = s.length ∧ seg r.1 base s.length = s ∧
    ∀ b, (b < base ∨ base + n ≤ b) → (b < aux ∨ aux + n ≤ b) → r.1 b = m b := by
  intro n
  induction n using Nat.strongRecOn with
  | ind n ih =>
    intro m base aux hb
    rw [mergeSort, sortL]
    simp only [seg_length]
    split
    · simp [seg_length]
    · rename_i hn
      rw [seg_take _ _ _ _ (by omega), seg_drop _ _ _ _ (by omega)]
      have hn1 : n / 2 < n := by omega
      have hn2 : n - n / 2 < n := by omega
      obtain ⟨a1, a2, a3⟩ := ih (n / 2) hn1 m base aux (by omega)
      generalize hr1 : mergeSort cmp keep m base aux (n / 2) = r1 at *
      obtain ⟨b1, b2, b3⟩ := ih (n - n / 2) hn2 r1.1 (base + n / 2) aux (by omega)
      generalize hr2 : mergeSort cmp keep r1.1 (base + n / 2) aux (n - n / 2) = r2 at *
      have c1 : seg r1.1 (base + n / 2) (n - n / 2) = seg m (base + n / 2) (n - n / 2) :=
        seg_congr (fun b _ _ => a3 b (by omega) (by omega))
      rw [c1] at b1 b2
      have len1 := sortL_length cmp keep (seg m base (n / 2))
      have len2 := sortL_length cmp keep (seg m (base + n / 2) (n - n / 2))
      rw [seg_length] at len1 len2
      have klen1 : keep = true → (sortL cmp keep (seg m base (n / 2))).length = n / 2 := by
        rintro rfl; rw [sortL_length_keep, seg_length]
      have klen2 : keep = true → (sortL cmp keep (seg m (base + n / 2) (n - n / 2))).length = n - n / 2 := by
        rintro rfl; rw [sortL_length_keep, seg_length]
      generalize sortL cmp keep (seg m base (n / 2)) = s1 at *
      generalize sortL cmp keep (seg m (base + n / 2) (n - n / 2)) = s2 at *
      have d1 : seg r2.1 base r1.2 = s1 := by
        rw [a1]
        exact Eq.trans (seg_congr (fun b _ _ => b3 b (by omega) (by omega))) a2
      have d2 : seg r2.1 (base + n / 2) r2.2 = s2 := by rw [b1]; exact b2
      obtain ⟨g1, g2, g3, g4, g5, g6, g7, g8, g9⟩ :=
        mergeLoop_spec cmp aux ⟨r2.1, base, r1.2, base + n / 2, r2.2, aux⟩ (by simp only; omega)
          (by simp only; omega) (Nat.le_refl _)
      simp only at g1 g2 g3 g4 g5 g6 g7 g8 g9
      rw [d1, d2] at g9
      generalize mergeLoop cmp _ = t at *
      have lenr : (mergeL cmp s1 s2).length = r1.2 + r2.2 := by rw [mergeL_length]; omega
      -- copy of the rest of l1
      obtain ⟨p1, p2⟩ := copyLoop_spec t.m t.l1 t.p t.n1 (by omega)
      generalize hm1 : copyLoop t.m t.l1 t.p t.n1 = m1 at *
      have e1 : seg t.m t.l1 t.n1 = seg r2.1 t.l1 t.n1 := seg_congr (fun b _ _ => g8 b (by omega))
      have e2 : seg m1 aux (t.p - aux + t.n1) = seg t.m aux (t.p - aux) ++ seg r2.1 t.l1 t.n1 := by
        rw [seg_append, show aux + (t.p - aux) = t.p by omega, p1, e1]
        congr 1
        exact seg_congr (fun b _ _ => p2 b (by omega))
      have e3 : seg m1 t.l2 t.n2 = seg r2.1 t.l2 t.n2 :=
        seg_congr (fun b _ _ => by rw [p2 b (by omega), g8 b (by omega)])
      have e4 : seg m1 aux (t.p - aux + t.n1) ++ seg m1 t.l2 t.n2 = mergeL cmp s1 s2 := by
        rw [e2, e3, List.append_assoc]; exact g9
      have out : ∀ b, (b < base ∨ base + n ≤ b) → (b < aux ∨ aux + n ≤ b) → m1 b = m b := by
        intro b h1 h2
        rw [p2 b (by omega), g8 b (by omega), b3 b (by omega) (by omega), a3 b (by omega) (by omega)]
      by_cases hk : keep = true
      · subst hk
        simp only [if_true]
        obtain ⟨q1, q2⟩ := copyLoop_spec m1 aux base (r1.2 + r2.2 - t.n2) (by omega)
        have k1 := klen1 rfl
        have k2 := klen2 rfl
        refine ⟨lenr.symm, ?_, ?_⟩
        · rw [lenr, show r1.2 + r2.2 = (r1.2 + r2.2 - t.n2) + t.n2 by omega, seg_append,
            show r1.2 + r2.2 - t.n2 + t.n2 - t.n2 = r1.2 + r2.2 - t.n2 by omega, q1, ← e4]
          congr 1
          · rw [show t.p - aux + t.n1 = r1.2 + r2.2 - t.n2 by omega]
          · rw [show base + (r1.2 + r2.2 - t.n2) = t.l2 by omega]
            exact seg_congr (fun b _ _ => q2 b (by omega))
        · intro b h1 h2
          rw [q2 b (by omega)]; exact out b h1 h2
      · have hk' : keep = false := by simpa using hk
        subst hk'
        simp only [Bool.false_eq_true, if_false]
        obtain ⟨q1, q2⟩ := copyLoop_spec m1 t.l2 (t.p + t.n1) t.n2 (by omega)
        generalize hm2 : copyLoop m1 t.l2 (t.p + t.n1) t.n2 = m2 at *
        have f1 : seg m2 aux (r1.2 + r2.2) = mergeL cmp s1 s2 := by
          rw [← e4, show r1.2 + r2.2 = (t.p - aux + t.n1) + t.n2 by omega, seg_append,
            show aux + (t.p - aux + t.n1) = t.p + t.n1 by omega, q1]
          congr 1
          exact seg_congr (fun b _ _ => q2 b (by omega))
        rw [show r1.2 + r2.2 = (r1.2 + r2.2 - 1) + 1 by omega] at f1 lenr
        simp only [seg] at f1
        rw [← f1]
        simp only [dedupL]
        obtain ⟨w1, w2, w3, _⟩ := dedupLoop_spec cmp (r1.2 + r2.2 - 1) (upd m2 base (m2 aux)) base (aux + 1)
          (r1.2 + r2.2) (by omega) (by omega)
        · have c2 : seg (upd m2 base (m2 aux)) (aux + 1) (r1.2 + r2.2 - 1) = seg m2 (aux + 1) (r1.2 + r2.2 - 1) :=
            seg_congr (fun b _ _ => upd_other _ _ (by omega))
          rw [upd_same, c2] at w1 w2 w3
          have dl := dedupFrom_length cmp (m2 aux) (seg m2 (aux + 1) (r1.2 + r2.2 - 1))
          rw [seg_length] at dl
          refine ⟨by omega, w2, ?_⟩
          intro b h1 h2
          rw [w3 b (by omega), upd_other _ _ (by omega), q2 b (by omega)]
          exact out b h1 h2

end Gp.Sort
