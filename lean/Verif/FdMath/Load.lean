import Verif.FdMath.Lemmas

/-! # Splitting a polynomial and loading it into a word -/

namespace Gp.FdMath

/-- A list of monomial terms as a positive part, a negative part and null terms. -/
structure Parts (m l r z : List (Int × Var)) : Prop where
  perm : (l ++ (r ++ z)).Perm m
  pos : ∀ q ∈ l, 0 < q.1
  neg : ∀ q ∈ r, q.1 < 0
  zero : ∀ q ∈ z, q.1 = 0

def negM (r : List (Int × Var)) : List (Int × Var) := r.map fun m => (-m.1, m.2)

theorem evalM_negM (τ r) : evalM τ (negM r) = - evalM τ r := by
  induction r with
  | nil => rfl
  | cons q r ih => simp only [negM, List.map_cons, evalM_cons] at *; rw [ih, Int.neg_mul]; omega

theorem nrm_negM (u r) : nrm u (negM r) = nrm u r := by
  induction r with
  | nil => rfl
  | cons q r ih => simp only [negM, List.map_cons, nrm_cons] at *; rw [ih, Int.natAbs_neg]

theorem evalM_zero {τ z} (h : ∀ q ∈ z, q.1 = 0) : evalM τ z = 0 := by
  induction z with
  | nil => rfl
  | cons q r ih =>
    rw [evalM_cons, h q (by simp), ih (fun q hq => h q (List.mem_cons_of_mem _ hq))]; simp

theorem filter_parts (m : List (Int × Var)) :
    Parts m (m.filter (fun m => decide (m.1 > 0))) (m.filter (fun m => decide (m.1 < 0)))
      (m.filter (fun m => decide (m.1 = 0))) := by
  refine ⟨?_, ?_, ?_, ?_⟩
  · induction m with
    | nil => exact .nil
    | cons q m ih =>
      rcases Int.lt_trichotomy q.1 0 with h | h | h
      · rw [List.filter_cons_of_neg (by simp; omega), List.filter_cons_of_pos (by simp; omega),
          List.filter_cons_of_neg (by simp; omega)]
        exact (List.perm_middle).trans (.cons _ ih)
      · rw [List.filter_cons_of_neg (by simp; omega), List.filter_cons_of_neg (by simp; omega),
          List.filter_cons_of_pos (by simp; omega)]
        rw [← List.append_assoc]
        refine (List.perm_middle).trans (.cons _ ?_)
        rw [List.append_assoc]; exact ih
      · rw [List.filter_cons_of_pos (by simp; omega), List.filter_cons_of_neg (by simp; omega),
          List.filter_cons_of_neg (by simp; omega)]
        exact .cons _ ih
  · intro q hq; have := (List.mem_filter.mp hq).2; simpa using this
  · intro q hq; have := (List.mem_filter.mp hq).2; simpa using this
  · intro q hq; have := (List.mem_filter.mp hq).2; simpa using this

theorem mem_takeWhile' {α} {f : α → Bool} {l : List α} {x} (h : x ∈ l.takeWhile f) : f x = true := by
  induction l with
  | nil => simp at h
  | cons a l ih =>
    rw [List.takeWhile_cons] at h
    split at h
    · rcases List.mem_cons.mp h with rfl | h
      · assumption
      · exact ih h
    · simp at h

theorem dropWhile_head {α} {f : α → Bool} {l : List α} {x k} (h : l.dropWhile f = x :: k) :
    f x = false := by
  induction l with
  | nil => simp at h
  | cons a l ih =>
    rw [List.dropWhile_cons] at h
    split at h
    · exact ih h
    · rename_i hf; simp only [List.cons.injEq] at h; rw [← h.1]; simpa using hf

theorem sorted_parts {m q : List (Int × Var)} (hp : q.Perm m)
    (hs : q.Pairwise fun a b => comparMonom a b ≤ 0) :
    Parts m (q.takeWhile (fun m => decide (m.1 > 0)))
      ((q.dropWhile (fun m => decide (m.1 > 0))).takeWhile (fun m => decide (m.1 < 0)))
      ((q.dropWhile (fun m => decide (m.1 > 0))).dropWhile (fun m => decide (m.1 < 0))) := by
  have hs1 : (q.dropWhile (fun m => decide (m.1 > 0))).Pairwise
      fun a b => comparMonom a b ≤ 0 := hs.sublist (List.dropWhile_sublist _)
  have hs2 : ((q.dropWhile (fun m => decide (m.1 > 0))).dropWhile
      (fun m => decide (m.1 < 0))).Pairwise fun a b => comparMonom a b ≤ 0 :=
    hs1.sublist (List.dropWhile_sublist _)
  have hle : ∀ x ∈ q.dropWhile (fun m => decide (m.1 > 0)), x.1 ≤ 0 := by
    cases e : q.dropWhile (fun m => decide (m.1 > 0)) with
    | nil => simp
    | cons a k =>
      have ha := dropWhile_head e
      simp only [decide_eq_false_iff_not] at ha
      rw [e] at hs1
      intro x hx
      rcases List.mem_cons.mp hx with rfl | hx
      · omega
      · have := (List.pairwise_cons.mp hs1).1 x hx
        simp only [comparMonom] at this
        (repeat' split at this) <;> omega
  refine ⟨?_, ?_, ?_, ?_⟩
  · rw [List.takeWhile_append_dropWhile, List.takeWhile_append_dropWhile]; exact hp
  · intro x hx; simpa using mem_takeWhile' hx
  · intro x hx; simpa using mem_takeWhile' hx
  · cases e : (q.dropWhile (fun m => decide (m.1 > 0))).dropWhile (fun m => decide (m.1 < 0)) with
    | nil => simp
    | cons a k =>
      have ha := dropWhile_head e
      simp only [decide_eq_false_iff_not] at ha
      have hsub : ∀ x ∈ a :: k, x.1 ≤ 0 := fun x hx =>
        hle x ((List.dropWhile_sublist _).subset (e ▸ hx))
      have ha0 := hsub a (by simp)
      rw [e] at hs2
      intro x hx
      have hx0 := hsub x hx
      rcases List.mem_cons.mp hx with rfl | hx
      · omega
      · have := (List.pairwise_cons.mp hs2).1 x hx
        simp only [comparMonom] at this
        (repeat' split at this) <;> omega

theorem split_parts {E} (hE : SortOk E) (p : Poly) (st : St) :
    ∃ r z, Parts p.m (splitPoly E p st).1 r z ∧ (splitPoly E p st).2 = negM r := by
  unfold splitPoly
  split
  · exact ⟨_, _, sorted_parts (hE p.m).1 (hE p.m).2, rfl⟩
  · exact ⟨_, _, filter_parts p.m, rfl⟩

structure Split (m l r : List (Int × Var)) : Prop where
  pos : PosC l
  neg : PosC r
  eval : ∀ τ, evalM τ m = evalM τ l - evalM τ r
  nrm : ∀ u, nrm u l + nrm u r ≤ nrm u m
  vars : ∀ P : Var → Prop, (∀ q ∈ m, P q.2) → (∀ q ∈ l, P q.2) ∧ ∀ q ∈ r, P q.2

theorem split_ok {E} (hE : SortOk E) (p : Poly) (st : St) :
    Split p.m (splitPoly E p st).1 (splitPoly E p st).2 := by
  obtain ⟨r, z, h, e⟩ := split_parts hE p st
  rw [e]
  refine ⟨h.pos, ?_, ?_, ?_, ?_⟩
  · intro q hq
    simp only [negM, List.mem_map] at hq
    obtain ⟨x, hx, rfl⟩ := hq
    have := h.neg x hx; show 0 < -x.1; omega
  · intro τ
    rw [← evalM_perm h.perm, evalM_append, evalM_append, evalM_negM, evalM_zero h.zero]; omega
  · intro u
    rw [← nrm_perm h.perm, nrm_append, nrm_append, nrm_negM]; omega
  · intro P hP
    have : ∀ x ∈ (splitPoly E p st).1 ++ (r ++ z), P x.2 := fun x hx => hP x (h.perm.mem_iff.mp hx)
    refine ⟨fun q hq => this q (List.mem_append_left _ hq), fun q hq => ?_⟩
    simp only [negM, List.mem_map] at hq
    obtain ⟨x, hx, rfl⟩ := hq
    exact this x (List.mem_append_right _ (List.mem_append_left _ hx))

/-- Variables at 1: the norm is the sum of the absolute values of the coefficients. -/
def one : Var → Nat := fun _ => 1

/-- Variables at their value. -/
def nv (τ : Var → Int) : Var → Nat := fun v => (τ v).toNat

theorem smallC_of {m} (h : PosC m) (hn : (nrm one m : Int) ≤ MAX) : SmallC m := by
  induction m with
  | nil => intro q hq; simp at hq
  | cons a l ih =>
    simp only [nrm_cons, one] at hn
    have hl : SmallC l := ih (fun q hq => h q (List.mem_cons_of_mem _ hq)) (by omega)
    intro q hq
    rcases List.mem_cons.mp hq with rfl | hq
    · have := h q (by simp); exact ⟨this, by omega⟩
    · exact hl q hq

theorem evalM_nrm {τ m} (d : Dom τ) (h : PosC m) : evalM τ m = (nrm (nv τ) m : Int) := by
  induction m with
  | nil => rfl
  | cons a l ih =>
    have h1 : a.1 * τ a.2 = ((a.1.natAbs * (τ a.2).toNat : Nat) : Int) := by
      have := h a (by simp)
      have := (d a.2).1
      rw [Int.natCast_mul, Int.toNat_of_nonneg (by omega), Int.natAbs_of_nonneg (by omega)]
    simp only [evalM_cons, nrm_cons, nv, ih (fun q hq => h q (List.mem_cons_of_mem _ hq))] at *
    rw [h1]; omega

/-- What the two words stand for. -/
structure LRsem (τ : Var → Int) (lr : LR) (L R : Int) : Prop where
  ln : lr.l = none → L = 0
  ls : ∀ v, lr.l = some v → τ v = L
  rn : lr.r = none → R = 0
  rs : ∀ v, lr.r = some v → τ v = R

theorem loadLeft_pref {optim c l r st v} (h : (loadLeft optim c l r st).2.1 = some v) :
    r = [(1, v)] ∧ optim = true ∧ c = 0 := by
  unfold loadLeft at h
  split at h
  · simp at h
  · simp only at h
    split at h
    · rename_i x
      split at h
      · rename_i hc
        simp only [Option.some.injEq] at h; subst h
        exact ⟨rfl, hc⟩
      · simp at h
    · simp at h

/-- The preferred word for the left part. -/
def prefOf (optim : Bool) (c : Int) (r : List (Int × Var)) : Option Var :=
  match r with
  | [(1, x)] => if optim ∧ c = 0 then some x else none
  | _ => none

theorem prefOf_some {optim c r v} (h : prefOf optim c r = some v) :
    r = [(1, v)] ∧ optim = true ∧ c = 0 := by
  unfold prefOf at h
  split at h
  · split at h
    · rename_i hc
      simp only [Option.some.injEq] at h; subst h
      exact ⟨rfl, hc⟩
    · simp at h
  · simp at h

theorem loadLeft_eq {optim c l r st} (h : l ≠ []) : loadLeft optim c l r st =
    (some (loadPoly l (prefOf optim c r) st).1, prefOf optim c r,
      (loadPoly l (prefOf optim c r) st).2) := by
  cases l with
  | nil => exact absurd rfl h
  | cons a l => rfl

section
variable {E : Env} {optim : Bool} {p : Poly} {st : St}

theorem leftRight_c : (leftRight E optim p st).1.c = p.c := by
  unfold leftRight
  simp only
  split
  · rfl
  · split <;> rfl

/-- All about `leftRight` at once. -/
theorem leftRight_all (hE : SortOk E) (g : Good st) (hm : ∀ q ∈ p.m, Alloc st q.2)
    (hn : (nrm one p.m : Int) ≤ MAX) :
    Grow st (leftRight E optim p st).2 ∧ Good (leftRight E optim p st).2 ∧
    (∀ v, (leftRight E optim p st).1.l = some v → Alloc (leftRight E optim p st).2 v) ∧
    (∀ v, (leftRight E optim p st).1.r = some v → Alloc (leftRight E optim p st).2 v) ∧
    (∀ τ, Sat τ (leftRight E optim p st).2 →
      LRsem τ (leftRight E optim p st).1 (evalM τ (splitPoly E p st).1)
        (evalM τ (splitPoly E p st).2)) ∧
    (∀ τ, Dom τ → Sat τ st → (nrm (nv τ) p.m : Int) ≤ MAX → (optim = true → p.eval τ = 0) →
      ∃ τ', Ext st τ (leftRight E optim p st).2 τ') := by
  have sp := split_ok hE p st
  obtain ⟨al, ar⟩ := sp.vars _ hm
  have n1 := sp.nrm one
  have sl : SmallC (splitPoly E p st).1 := smallC_of sp.pos (by omega)
  have sr : SmallC (splitPoly E p st).2 := smallC_of sp.neg (by omega)
  have hev : ∀ τ, p.eval τ = p.c + (evalM τ (splitPoly E p st).1 - evalM τ (splitPoly E p st).2) := by
    intro τ; simp only [Poly.eval, sp.eval τ]
  have hbd : ∀ τ, Dom τ → (nrm (nv τ) p.m : Int) ≤ MAX →
      evalM τ (splitPoly E p st).1 ≤ MAX ∧ evalM τ (splitPoly E p st).2 ≤ MAX := by
    intro τ d hb
    have n2 := sp.nrm (nv τ)
    rw [evalM_nrm d sp.pos, evalM_nrm d sp.neg]; omega
  have hM : (0 : Int) ≤ MAX := by decide
  unfold leftRight
  generalize splitPoly E p st = lr at *
  obtain ⟨l, r⟩ := lr
  simp only at *
  by_cases hl : l = []
  · subst hl
    have e : loadLeft optim p.c [] r st = (none, none, st) := rfl
    rw [e]
    cases r with
    | nil =>
      refine ⟨Grow.refl _, g, by simp, by simp, fun τ s => ⟨fun _ => rfl, by simp, fun _ => rfl, by simp⟩,
        fun τ d s _ _ => ⟨τ, Ext.refl d s⟩⟩
    | cons a r =>
      simp only
      have hp : ∀ v, (if optim = true ∧ p.c = 0 then (none : Option Var) else none) = some v →
          Alloc st v := by intro v hv; split at hv <;> cases hv
      have e2 : (if optim = true ∧ p.c = 0 then (none : Option Var) else none) = none := by
        split <;> rfl
      rw [e2]
      obtain ⟨g1, g2, g3⟩ := loadPoly_stat (pref := none) g ar (by simp)
      refine ⟨g1, g2, by simp, ?_, fun τ s => ⟨fun _ => rfl, by simp, by simp, ?_⟩, ?_⟩
      · intro v hv; simp only [Option.some.injEq] at hv; subst hv; exact g3
      · intro v hv; simp only [Option.some.injEq] at hv; subst hv
        exact loadPoly_sound g ar (by simp) sr (by simp) s
      · intro τ d s hb _
        exact loadPoly_ext (pref := none) g ar (by simp) sr d s (by simp) (hbd τ d hb).2
  · rw [loadLeft_eq hl]
    have hpa : ∀ v, prefOf optim p.c r = some v → Alloc st v := by
      intro v hv; obtain ⟨e, _⟩ := prefOf_some hv
      exact ar (1, v) (by rw [e]; simp)
    obtain ⟨g1, g2, g3⟩ := loadPoly_stat (pref := prefOf optim p.c r) g al hpa
    have snd1 : ∀ τ, Sat τ (loadPoly l (prefOf optim p.c r) st).2 →
        τ (loadPoly l (prefOf optim p.c r) st).1 = evalM τ l :=
      fun τ s => loadPoly_sound g al hpa sl hl s
    have ext1 : ∀ τ, Dom τ → Sat τ st → (nrm (nv τ) p.m : Int) ≤ MAX →
        (optim = true → p.eval τ = 0) →
        ∃ τ', Ext st τ (loadPoly l (prefOf optim p.c r) st).2 τ' := by
      intro τ d s hb ho
      refine loadPoly_ext g al hpa sl d s ?_ (hbd τ d hb).1
      intro v hv
      obtain ⟨e, e1, e2⟩ := prefOf_some hv
      have := ho e1
      rw [hev τ, e2, e] at this
      simp only [evalM_cons, evalM_nil] at this; omega
    cases r with
    | nil =>
      refine ⟨g1, g2, ?_, by simp, fun τ s => ⟨by simp, ?_, fun _ => rfl, by simp⟩, ext1⟩
      · intro v hv; simp only [Option.some.injEq] at hv; subst hv; exact g3
      · intro v hv; simp only [Option.some.injEq] at hv; subst hv; exact snd1 τ s
    | cons a r =>
      simp only
      cases hq : prefOf optim p.c (a :: r) with
      | some x =>
        rw [hq] at g1 g2 g3 snd1 ext1
        simp only
        refine ⟨g1, g2, ?_, ?_, fun τ s => ⟨by simp, ?_, by simp, ?_⟩, ext1⟩
        · intro v hv; simp only [Option.some.injEq] at hv; subst hv; exact g3
        · intro v hv; simp only [Option.some.injEq] at hv; subst hv; exact (hpa _ hq).mono g1
        · intro v hv; simp only [Option.some.injEq] at hv; subst hv; exact snd1 τ s
        · intro v hv; simp only [Option.some.injEq] at hv; subst hv
          rw [(prefOf_some hq).1]; simp
      | none =>
        rw [hq] at g1 g2 g3 snd1 ext1
        simp only
        have ar' := fun q hq => (ar q hq).mono g1
        have hp2 : ∀ v, (if optim = true ∧ p.c = 0 then some (loadPoly l none st).1 else none) = some v →
            v = (loadPoly l none st).1 ∧ optim = true ∧ p.c = 0 := by
          intro v hv
          split at hv
          · rename_i hc
            simp only [Option.some.injEq] at hv
            exact ⟨hv.symm, hc⟩
          · cases hv
        generalize (if optim = true ∧ p.c = 0 then some (loadPoly l none st).1 else none) = pr at hp2 ⊢
        have hpa2 : ∀ v, pr = some v → Alloc (loadPoly l none st).2 v := by
          intro v hv; rw [(hp2 v hv).1]; exact g3
        obtain ⟨k1, k2, k3⟩ := loadPoly_stat (pref := pr) g2 ar' hpa2
        refine ⟨g1.trans k1, k2, ?_, ?_, fun τ s => ⟨by simp, ?_, by simp, ?_⟩, ?_⟩
        · intro v hv; simp only [Option.some.injEq] at hv; subst hv; exact g3.mono k1
        · intro v hv; simp only [Option.some.injEq] at hv; subst hv; exact k3
        · intro v hv; simp only [Option.some.injEq] at hv; subst hv; exact snd1 τ (s.mono k1)
        · intro v hv; simp only [Option.some.injEq] at hv; subst hv
          exact loadPoly_sound g2 ar' hpa2 sr (by simp) s
        · intro τ d s hb ho
          obtain ⟨τ1, x1⟩ := ext1 τ d s hb ho
          have er : evalM τ1 (a :: r) = evalM τ (a :: r) := (evalM_agree x1.agree ar).symm
          have el : evalM τ1 l = evalM τ l := (evalM_agree x1.agree al).symm
          obtain ⟨τ2, x2⟩ := loadPoly_ext (pref := pr) g2 ar' hpa2 sr x1.dom x1.sat
            (by
              intro v hv
              obtain ⟨e0, e1, e2⟩ := hp2 v hv
              have := ho e1
              rw [hev τ, e2] at this
              rw [e0, snd1 τ1 x1.sat, er, el]; omega)
            (by rw [er]; exact (hbd τ d hb).2)
          exact ⟨τ2, x1.trans g1 x2⟩

end

/-! ## Loading a term into a word -/

/-- Value of a word, without the cast to `int`. -/
def W.iv (τ : Var → Int) : W → Int
  | .int n => n
  | .var v => τ v

theorem iv_agree {st τ τ' w} (a : Agree st τ τ') (h : WAlloc st w) : w.iv τ = w.iv τ' := by
  cases w with
  | int => rfl
  | var v => exact a v h

theorem toWord_stat {lr st w st'} (h : toWord lr st = .ok w st') (g : Good st)
    (hl : ∀ v, lr.l = some v → Alloc st v) (hr : ∀ v, lr.r = some v → Alloc st v) :
    Grow st st' ∧ Good st' ∧ WAlloc st' w ∧ ∀ n, w = .int n → n = lr.c := by
  obtain ⟨c, l, r⟩ := lr
  have gr := Grow.newFd st
  have gr2 := gr.trans (Grow.newFd st.newFd)
  have x1 : WAlloc st.newFd (.var (.fd st.cs)) := Nat.lt_succ_self _
  have x2 : WAlloc st.newFd.newFd (.var (.fd st.newFd.cs)) := Nat.lt_succ_self _
  have x12 := x1.mono (Grow.newFd st.newFd)
  cases l with
  | none =>
    cases r with
    | none =>
      simp only [toWord] at h
      split at h
      · cases h
      · simp only [Res.ok.injEq] at h
        obtain ⟨rfl, rfl⟩ := h
        exact ⟨Grow.refl _, g, trivial, by simp⟩
    | some r =>
      simp only [toWord] at h
      split at h
      · cases h
      · simp only [Res.ok.injEq] at h
        obtain ⟨rfl, rfl⟩ := h
        have ar : WAlloc st.newFd.newFd (.var r) := (hr r rfl).mono gr2
        refine ⟨gr2.trans (Grow.post _ _), g.newFd.newFd.post ?_, x12.mono (Grow.post _ _), by simp⟩
        simp only [List.forall_mem_cons, Cstr.words, List.not_mem_nil, false_implies, implies_true, and_true]
        exact ⟨⟨ar, x12, x2⟩, x2⟩
  | some l =>
    have al := hl l rfl
    have al1 : WAlloc st.newFd (.var l) := al.mono gr
    have al2 : WAlloc st.newFd.newFd (.var l) := al.mono gr2
    cases r with
    | none =>
      simp only [toWord] at h
      split at h
      · simp only [Res.ok.injEq] at h
        obtain ⟨rfl, rfl⟩ := h
        exact ⟨Grow.refl _, g, al, by simp⟩
      · split at h
        all_goals
          simp only [Res.ok.injEq] at h
          obtain ⟨rfl, rfl⟩ := h
          refine ⟨gr.trans (Grow.post _ _), g.newFd.post ?_, x1.mono (Grow.post _ _), by simp⟩
          simp only [List.forall_mem_cons, Cstr.words, List.not_mem_nil, false_implies, implies_true, and_true]
          first | exact ⟨al1, x1⟩ | exact ⟨x1, al1⟩
    | some r =>
      have ar := hr r rfl
      have ar1 : WAlloc st.newFd (.var r) := ar.mono gr
      have ar2 : WAlloc st.newFd.newFd (.var r) := ar.mono gr2
      simp only [toWord] at h
      split at h
      · simp only [Res.ok.injEq] at h
        obtain ⟨rfl, rfl⟩ := h
        refine ⟨gr.trans (Grow.post _ _), g.newFd.post ?_, x1.mono (Grow.post _ _), by simp⟩
        simp only [List.forall_mem_cons, Cstr.words, List.not_mem_nil, false_implies, implies_true, and_true]
        exact ⟨ar1, x1, al1⟩
      · have g1 : Good (st.newFd.newFd.post [.xPlusYEqZ (.var r) (.var (.fd st.cs)) (.var (.fd st.newFd.cs))]) := by
          refine g.newFd.newFd.post ?_
          simp only [List.forall_mem_cons, Cstr.words, List.not_mem_nil, false_implies, implies_true, and_true]
          exact ⟨ar2, x12, x2⟩
        have gp := Grow.post st.newFd.newFd [.xPlusYEqZ (.var r) (.var (.fd st.cs)) (.var (.fd st.newFd.cs))]
        split at h
        all_goals
          simp only [Res.ok.injEq] at h
          obtain ⟨rfl, rfl⟩ := h
          refine ⟨gr2.trans (gp.trans (Grow.post _ _)), g1.post ?_, (x12.mono gp).mono (Grow.post _ _), by simp⟩
          simp only [List.forall_mem_cons, Cstr.words, List.not_mem_nil, false_implies, implies_true, and_true]
          first | exact ⟨al2.mono gp, x2.mono gp⟩ | exact ⟨x2.mono gp, al2.mono gp⟩

theorem toWord_sound {lr st w st'} (h : toWord lr st = .ok w st') {τ L R}
    (hc : -MAX ≤ lr.c ∧ lr.c ≤ MAX) (d : Dom τ) (s : Sat τ st') (q : LRsem τ lr L R) :
    w.iv τ = lr.c + (L - R) ∧ 0 ≤ w.iv τ := by
  obtain ⟨c, l, r⟩ := lr
  have e1 : clamp c = c := clamp_id hc
  have e2 : clamp (-c) = -c := clamp_id (by simp only at hc; omega)
  have hln := q.ln
  have hls := q.ls
  have hrn := q.rn
  have hrs := q.rs
  have dx := (d (.fd st.cs)).1
  cases l with
  | none =>
    have := hln rfl
    cases r with
    | none =>
      have := hrn rfl
      simp only [toWord] at h
      split at h
      · cases h
      · simp only [Res.ok.injEq] at h
        obtain ⟨rfl, rfl⟩ := h
        simp only [W.iv]; omega
    | some r =>
      have := hrs r rfl
      simp only [toWord] at h
      split at h
      · cases h
      · simp only [Res.ok.injEq] at h
        obtain ⟨rfl, rfl⟩ := h
        have := (sat_post.mp s).2
        simp only [satAll_cons, satAll_nil, and_true, Cstr.sat, W.val] at this
        simp only [W.iv]; omega
  | some l =>
    have := hls l rfl
    have dl := (d l).1
    cases r with
    | none =>
      have := hrn rfl
      simp only [toWord] at h
      split at h
      · simp only [Res.ok.injEq] at h
        obtain ⟨rfl, rfl⟩ := h
        simp only [W.iv]; omega
      · split at h
        all_goals
          simp only [Res.ok.injEq] at h
          obtain ⟨rfl, rfl⟩ := h
          have := (sat_post.mp s).2
          simp only [satAll_cons, satAll_nil, and_true, Cstr.sat, W.val, e1, e2] at this
          simp only [W.iv]; omega
    | some r =>
      have := hrs r rfl
      simp only [toWord] at h
      split at h
      · simp only [Res.ok.injEq] at h
        obtain ⟨rfl, rfl⟩ := h
        have := (sat_post.mp s).2
        simp only [satAll_cons, satAll_nil, and_true, Cstr.sat, W.val] at this
        simp only [W.iv]; omega
      · split at h
        all_goals
          simp only [Res.ok.injEq] at h
          obtain ⟨rfl, rfl⟩ := h
          have k1 := (sat_post.mp s).2
          have k2 := (sat_post.mp (sat_post.mp s).1).2
          simp only [satAll_cons, satAll_nil, and_true, Cstr.sat, W.val, e1, e2] at k1 k2
          simp only [W.iv]; omega

theorem toWord_ext {lr st} {τ L R} (g : Good st)
    (hl : ∀ v, lr.l = some v → Alloc st v) (hr : ∀ v, lr.r = some v → Alloc st v)
    (hc : -MAX ≤ lr.c ∧ lr.c ≤ MAX) (d : Dom τ) (s : Sat τ st) (q : LRsem τ lr L R)
    (h0 : 0 ≤ lr.c + (L - R)) (hL : 0 ≤ L) (hR : 0 ≤ R) (hb : (lr.c.natAbs : Int) + (L + R) ≤ MAX) :
    toWord lr st ≠ .fail ∧ ∀ w st', toWord lr st = .ok w st' → ∃ τ', Ext st τ st' τ' := by
  obtain ⟨c, l, r⟩ := lr
  have e1 : clamp c = c := clamp_id hc
  have e2 : clamp (-c) = -c := clamp_id (by simp only at hc; omega)
  have hln := q.ln
  have hls := q.ls
  have hrn := q.rn
  have hrs := q.rs
  have gr := Grow.newFd st
  simp only at hc h0 hb
  have x1 := Ext.newFd (n := c + (L - R)) d g s (by omega)
  have hcs : st.newFd.cs = st.cs + 1 := rfl
  have ne : (Var.fd st.newFd.cs) ≠ Var.fd st.cs := by
    simp only [hcs, ne_eq, Var.fd.injEq]; omega
  have two : ∀ n, 0 ≤ n ∧ n ≤ MAX →
      ∃ τ2, Ext st τ st.newFd.newFd τ2 ∧ τ2 (.fd st.cs) = c + (L - R) ∧ τ2 (.fd st.newFd.cs) = n ∧
        ∀ v, Alloc st v → τ2 v = τ v := by
    intro n hn
    have x2 := Ext.newFd (n := n) x1.dom g.newFd x1.sat hn
    refine ⟨_, x1.trans gr x2, ?_, upd_same _ _ _, fun v hv => ((x1.trans gr x2).agree v hv).symm⟩
    rw [upd_ne ne.symm, upd_same]
  have one1 : ∀ v, Alloc st v → upd τ (.fd st.cs) (c + (L - R)) v = τ v :=
    fun v hv => (x1.agree v hv).symm
  cases l with
  | none =>
    have := hln rfl
    cases r with
    | none =>
      have := hrn rfl
      simp only [toWord]
      split
      · omega
      · refine ⟨by simp, fun w st' h => ?_⟩
        simp only [Res.ok.injEq] at h
        obtain ⟨rfl, rfl⟩ := h
        exact ⟨τ, Ext.refl d s⟩
    | some r =>
      have hrv := hrs r rfl
      simp only [toWord]
      split
      · omega
      · refine ⟨by simp, fun w st' h => ?_⟩
        simp only [Res.ok.injEq] at h
        obtain ⟨rfl, rfl⟩ := h
        obtain ⟨τ2, y, ya, yb, yc⟩ := two c (by omega)
        refine ⟨τ2, y.trans (gr.trans (Grow.newFd _)) (Ext.post y.dom y.sat ?_)⟩
        simp only [satAll_cons, satAll_nil, and_true, Cstr.sat, W.val, ya, yb, yc r (hr r rfl), hrv]
        omega
  | some l =>
    have hlv := hls l rfl
    have al := hl l rfl
    cases r with
    | none =>
      have := hrn rfl
      simp only [toWord]
      split
      · refine ⟨by simp, fun w st' h => ?_⟩
        simp only [Res.ok.injEq] at h
        obtain ⟨rfl, rfl⟩ := h
        exact ⟨τ, Ext.refl d s⟩
      · split
        all_goals
          refine ⟨by simp, fun w st' h => ?_⟩
          simp only [Res.ok.injEq] at h
          obtain ⟨rfl, rfl⟩ := h
          refine ⟨_, x1.trans gr (Ext.post x1.dom x1.sat ?_)⟩
          simp only [satAll_cons, satAll_nil, and_true, Cstr.sat, W.val, e1, e2, one1 l al, upd_same, hlv]
          omega
    | some r =>
      have hrv := hrs r rfl
      have ar := hr r rfl
      simp only [toWord]
      split
      · refine ⟨by simp, fun w st' h => ?_⟩
        simp only [Res.ok.injEq] at h
        obtain ⟨rfl, rfl⟩ := h
        refine ⟨_, x1.trans gr (Ext.post x1.dom x1.sat ?_)⟩
        simp only [satAll_cons, satAll_nil, and_true, Cstr.sat, W.val, one1 l al, one1 r ar, upd_same, hlv, hrv]
        omega
      · obtain ⟨τ2, y, ya, yb, yc⟩ := two (L + c) (by omega)
        split
        all_goals
          refine ⟨by simp, fun w st' h => ?_⟩
          simp only [Res.ok.injEq] at h
          obtain ⟨rfl, rfl⟩ := h
          refine ⟨τ2, y.trans (gr.trans (Grow.newFd _)) ⟨fun _ _ => rfl, y.dom, sat_post.mpr ⟨sat_post.mpr ⟨y.sat, ?_⟩, ?_⟩⟩⟩
          all_goals
            simp only [satAll_cons, satAll_nil, and_true, Cstr.sat, W.val, ya, yb, e1, e2, yc l al, yc r ar, hlv, hrv]
            try omega

/-- `Load_Term_Into_Word` from the polynomial on. -/
def loadP (E : Env) (p : Poly) (st : St) : Res W :=
  toWord (leftRight E false p st).1 (leftRight E false p st).2

theorem nrm_parts (p : Poly) (u) : p.nrm u = p.c.natAbs + nrm u p.m := rfl

theorem loadP_stat {E p st w st'} (hE : SortOk E) (g : Good st) (hm : ∀ q ∈ p.m, Alloc st q.2)
    (hn : (p.nrm one : Int) ≤ MAX) (h : loadP E p st = .ok w st') :
    Grow st st' ∧ Good st' ∧ WAlloc st' w ∧ ∀ n, w = .int n → n = p.c := by
  rw [nrm_parts] at hn
  obtain ⟨a, b, c, d, _, _⟩ := leftRight_all (optim := false) hE g hm (by omega)
  obtain ⟨k1, k2, k3, k4⟩ := toWord_stat h b c d
  rw [leftRight_c] at k4
  exact ⟨a.trans k1, k2, k3, k4⟩

theorem loadP_sound {E p st w st'} (hE : SortOk E) (g : Good st) (hm : ∀ q ∈ p.m, Alloc st q.2)
    (hn : (p.nrm one : Int) ≤ MAX) (h : loadP E p st = .ok w st') {τ} (d : Dom τ) (s : Sat τ st') :
    w.iv τ = p.eval τ ∧ 0 ≤ w.iv τ := by
  rw [nrm_parts] at hn
  obtain ⟨a, b, c, e, f, _⟩ := leftRight_all (optim := false) hE g hm (by omega)
  obtain ⟨k1, _⟩ := toWord_stat h b c e
  have := toWord_sound h (by rw [leftRight_c]; omega) d s (f τ (s.mono k1))
  rw [leftRight_c] at this
  have sp := (split_ok hE p st).eval τ
  simp only [Poly.eval]; omega

theorem loadP_ext {E p st} (hE : SortOk E) (g : Good st) (hm : ∀ q ∈ p.m, Alloc st q.2)
    (hn : (p.nrm one : Int) ≤ MAX) {τ} (d : Dom τ) (s : Sat τ st) (hb : (p.nrm (nv τ) : Int) ≤ MAX)
    (h0 : 0 ≤ p.eval τ) :
    loadP E p st ≠ .fail ∧ ∀ w st', loadP E p st = .ok w st' → ∃ τ', Ext st τ st' τ' := by
  rw [nrm_parts] at hn hb
  obtain ⟨a, b, c, e, f, x⟩ := leftRight_all (optim := false) hE g hm (by omega)
  obtain ⟨τ1, x1⟩ := x τ d s (by omega) (by simp)
  have sp := split_ok hE p st
  obtain ⟨al, ar⟩ := sp.vars _ hm
  have spe := sp.eval τ
  have spn := sp.nrm (nv τ)
  have pl := evalM_nrm d sp.pos
  have pr := evalM_nrm d sp.neg
  simp only [Poly.eval] at h0
  have q := f τ1 x1.sat
  rw [← evalM_agree x1.agree al, ← evalM_agree x1.agree ar] at q
  obtain ⟨r1, r2⟩ := toWord_ext b c e (by rw [leftRight_c]; omega) x1.dom x1.sat q
    (by rw [leftRight_c]; omega) (by omega) (by omega) (by rw [leftRight_c]; omega)
  refine ⟨r1, fun w st' h => ?_⟩
  obtain ⟨τ2, x2⟩ := r2 w st' h
  exact ⟨τ2, x1.trans a x2⟩

end Gp.FdMath
