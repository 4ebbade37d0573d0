import Verif.AllSol.Lemmas
/-
Storing, recovering, executions.
-/
namespace Gp.AllSol
open Gp.Heap Gp.CopyTerm

theorem Holds.drop {vs : Nat} {lim : Adr} {m : Mem} : ∀ (ts : List CT) {ts0 : List CT} {l : List Sol},
    Holds vs lim m l (ts ++ ts0) → Holds vs lim m (l.drop ts.length) ts0
  | [], _, _, h => h
  | _ :: ts, _, b :: l, h => by
    simp only [List.length_cons, List.drop_succ_cons]
    exact Holds.drop ts h.2.2.2.2.2
  | _ :: _, _, [], h => h.elim

/-- A solution is stored. -/
theorem store_spec {c : Cfg} {n : Nat} {lim : Adr} {s s1 : S} {fix blk : Adr} {w : Cell} {t : CT} {ts : List CT}
    (hH : Holds c.vs lim s.mem s.sols ts) (h1 : lim ≤ blk) (h2 : ∀ b ∈ s.sols, Disj ⟨blk, 0, t.size c.vs⟩ b)
    (h3 : Out' blk (blk + t.size c.vs) fix) (h4 : ∀ b ∈ s.sols, ¬ b.Has fix)
    (h5 : Rd c.vs (fun x => x ≠ fix ∧ Out' blk (blk + t.size c.vs) x) s.mem w t) (hn : t.size c.vs < n)
    (ho : storeSolution c n s fix blk w = .ok s1) :
    Holds c.vs lim s1.mem s1.sols (t :: ts) ∧ s1.sols.drop 1 = s.sols ∧
      (∀ x, x ≠ fix → Out' blk (blk + t.size c.vs) x → s1.mem x = s.mem x) := by
  have hset : ∀ x, x ≠ fix → s.mem.set fix w x = s.mem x := fun x hx => by simp [Mem.set, hx]
  have hfix : s.mem.set fix w fix = w := by simp [Mem.set]
  have hr : Rd c.vs (Out' blk (blk + t.size c.vs)) (s.mem.set fix w) (s.mem.set fix w fix) t := by
    rw [hfix]
    exact h5.mono (fun _ h => h.2) (fun x h => hset x h.1)
  rw [storeSolution, termSize_spec h5 n (by omega)] at ho
  dsimp only at ho
  rcases copyTerm_res (n := n) hr h3 (by omega) with ⟨s2, cs, k1, R⟩ | ⟨cs, k1, _⟩
  · obtain ⟨t', v, C⟩ := C17_copy_contiguous hr h3 (n := n) (by omega) k1
    rw [k1] at ho
    cases ho
    refine ⟨⟨?_, h1, rfl, ⟨cs.p, t', R.le, v, C⟩, h2, ?_⟩, by simp, fun x hx hx' => by dsimp only; rw [R.out x hx', hset x hx]⟩
    · rw [hH.top]
    · refine hH.congr fun b hb x hx => ?_
      dsimp only
      rw [R.out x, hset x]
      · rintro rfl; exact h4 b hb hx
      · intro hs
        have := h2 b hb
        have := hx.1; have := hx.2; have := hs.1; have := hs.2
        simp only [Disj] at *
        omega
  · rw [k1] at ho; cases ho

/-- The solutions over the stop mark are recovered. -/
theorem recover_spec {c : Cfg} {n : Nat} {lim : Adr} (ts : List CT) {ts0 : List CT} {s : S} {tail : Cell} {tl : CT}
    {okT : Adr → Prop} (hH : Holds c.vs lim s.mem s.sols (ts.reverse ++ ts0)) (hn : ∀ t ∈ ts, t.size c.vs < n)
    (hl : s.h + 2 * ts.length + sizes c.vs ts ≤ lim) (hf : ∀ a, tail ≠ .fdv a) (ht : Rd c.vs okT s.mem tail tl)
    (hok : ∀ x, okT x → ¬ Seg s.h (s.h + 2 * ts.length + sizes c.vs ts) x) :
    ∃ s2 w us, recover c n s ts0.length tail = some (s2, w) ∧
      All2 Variant ts us ∧
      Rd c.vs (fun x => Seg s.h s2.h x ∨ okT x) s2.mem w (listOf us tl) ∧ Apart us ∧
      (∀ u ∈ us, ∀ a ∈ u.vars, Seg s.h s2.h a) ∧
      s2.h = s.h + 2 * ts.length + sizes c.vs ts ∧ s2.sols = s.sols.drop ts.length ∧
      Holds c.vs lim s2.mem s2.sols ts0 ∧
      (∀ x, ¬ Seg s.h s2.h x → s2.mem x = s.mem x) := by
  have hlen := hH.len
  have htop := hH.top
  simp only [List.length_append, List.length_reverse] at hlen
  have hrev : sizes c.vs ts.reverse = sizes c.vs ts := by
    simp [sizes, List.map_reverse, List.sum_reverse]
  have hge := hH.ge
  by_cases h0 : ts = []
  · subst h0
    refine ⟨s, tail, [], ?_, .nil, ht.mono (fun _ h => .inr h) (fun _ _ => rfl), .nil, by simp, by simp [sizes], by simp,
      hH, fun _ _ => rfl⟩
    rw [recover, if_pos]
    rw [htop, hlen]; simp
  · have hpos : 0 < ts.length := List.length_pos_iff.2 h0
    obtain ⟨m, us, e1, e2, e3, e4, e5, e6⟩ := recoverLoop_spec (c := c) (n := n) (lim := lim) ts.reverse (ts0 := ts0)
      (s := ⟨s.mem, s.h + 2 * ts.length, s.sols⟩) (p := s.h + 2 * ts.length) hH (fun t ht => hn t (List.mem_reverse.1 ht))
      (by simp only [List.length_reverse]; omega) (Nat.le_refl _) (by dsimp only; rw [hrev]; omega)
    simp only [List.length_reverse, hrev, List.reverse_reverse] at e1 e2 e3 e4 e5 e6
    have hsub : s.h + 2 * ts.length - 2 * ts.length = s.h := by omega
    rw [hsub] at e1 e3 e6
    have hus : us ≠ [] := by
      intro h; subst h
      have := e2.length
      simp only [List.length_nil] at this
      omega
    have hne : topNo s.sols ≠ ts0.length := by omega
    have hlt : ¬ topNo s.sols < ts0.length := by omega
    have hnb : topNo s.sols - ts0.length = ts.length := by omega
    have hfr : ∀ x, ¬ Seg s.h (s.h + 2 * ts.length + sizes c.vs ts) x →
        (m.set (s.h + 2 * ts.length - 1) tail) x = s.mem x := by
      intro x hx
      have hx1 : x ≠ s.h + 2 * ts.length - 1 := by rintro rfl; exact hx ⟨by omega, by omega⟩
      have : m.set (s.h + 2 * ts.length - 1) tail x = m x := by simp [Mem.set, hx1]
      rw [this]
      exact e6 x (fun h => hx ⟨h.1, by have := h.2; omega⟩) (fun h => hx ⟨by have := h.1; omega, h.2⟩)
    refine ⟨⟨m.set (s.h + 2 * ts.length - 1) tail, s.h + 2 * ts.length + sizes c.vs ts, s.sols.drop ts.length⟩, .lst s.h, us,
      ?_, e2, ?_, e4, ?_, rfl, rfl, ?_, hfr⟩
    · rw [recover, if_neg hne, if_neg hlt]
      simp only [hnb, e1]
    · have htl : Rd c.vs okT (m.set (s.h + 2 * ts.length - 1) tail) tail tl := ht.mono (fun _ h => h) (fun x hx => hfr x (hok x hx))
      refine (e3.rd hus (Nat.le_refl _) hf htl).mono (fun x hx => ?_) (fun _ _ => rfl)
      rcases hx with hx | hx | hx
      · exact .inl ⟨hx.1, by have := hx.2; dsimp only; omega⟩
      · exact .inl ⟨by have := hx.1; omega, hx.2⟩
      · exact .inr hx
    · intro u hu a ha
      have := e5 u hu a ha
      exact ⟨by have := this.1; omega, this.2⟩
    · have hd := Holds.drop ts.reverse hH
      rw [List.length_reverse] at hd
      refine hd.congr fun b hb x hx => hfr x ?_
      intro h
      have := hge b (List.drop_subset _ _ hb)
      have := hx.1
      have := h.2
      omega

/-- The stack after an execution. -/
theorem exec_holds {c : Cfg} {n : Nat} {lim : Adr} {ab : Prop} {s s' : S} {spec all : List CT}
    (h : Exec c n lim ab s spec all s') : ∀ {ts0 : List CT}, Holds c.vs lim s.mem s.sols ts0 →
    Holds c.vs lim s'.mem s'.sols (all.reverse ++ ts0) ∧ (∀ t ∈ all, t.size c.vs < n) ∧ s'.sols.drop all.length = s.sols := by
  induction h with
  | nil s => intro ts0 h; exact ⟨h, by simp, rfl⟩
  | user h1 h2 _ ih =>
    intro ts0 h
    have := ih (ts0 := ts0) (by rw [h1]; exact h.congr h2)
    rw [h1] at this
    exact this
  | store h1 h2 h3 h4 h5 h6 h7 _ ih =>
    intro ts0 h
    obtain ⟨k1, k2, _⟩ := store_spec h h1 h2 h3 h4 h5 h6 h7
    obtain ⟨i1, i2, i3⟩ := ih k1
    refine ⟨by simpa using i1, ?_, ?_⟩
    · intro t ht
      rcases List.mem_cons.1 ht with rfl | ht'
      · exact h6
      · exact i2 t ht'
    · rw [List.length_cons, ← List.drop_drop, i3, k2]
  | @nested s s1 s2 s3 spec all spec' all' tail w _ h2 h3 _ ih1 ih2 =>
    intro ts0 h
    obtain ⟨i1, i2, i3⟩ := ih1 h
    -- the result of recover does not depend on what is at the tail
    have hst : stopMark s = ts0.length := by rw [stopMark, h.top, h.len]
    have hs2 : Holds c.vs lim s2.mem s2.sols ts0 ∧ s2.sols = s1.sols.drop all.length := by
      by_cases h0 : all = []
      · subst h0
        rw [recover, if_pos (by rw [i1.top, i1.len, hst]; simp)] at h3
        cases h3
        exact ⟨i1, rfl⟩
      · obtain ⟨s2', w', us, j1, j2, j3, j4, j5, j6, j7, j8, j9⟩ := recover_spec (n := n) (tail := .atm 0) (okT := fun _ => False)
          all i1 i2 h2 (by simp) (tl := .atm 0) .atm (fun _ h => h.elim)
        rw [hst] at h3
        have hne : topNo s1.sols ≠ ts0.length := by
          rw [i1.top, i1.len, List.length_append, List.length_reverse]
          have : 0 < all.length := List.length_pos_iff.2 h0
          omega
        rw [recover, if_neg hne] at h3 j1
        split at h3
        · cases h3
        · rename_i hlt
          rw [if_neg hlt] at j1
          dsimp only at h3 j1
          have hnb : topNo s1.sols - ts0.length = all.length := by
            rw [i1.top, i1.len, List.length_append, List.length_reverse]; omega
          rw [hnb] at h3 j1
          cases hl : recoverLoop c n all.length ⟨s1.mem, s1.h + 2 * all.length, s1.sols⟩ (s1.h + 2 * all.length) with
          | none => rw [hl] at h3; cases h3
          | some r =>
            obtain ⟨sr, pr⟩ := r
            rw [hl] at h3 j1
            simp only [Option.some.injEq, Prod.mk.injEq] at h3 j1
            obtain ⟨rfl, _⟩ := h3
            obtain ⟨rfl, _⟩ := j1
            dsimp only at j7 j8 ⊢
            refine ⟨j8.congr fun b hb x hx => ?_, j7⟩
            have hx1 : x ≠ s1.h + 2 * all.length - 1 := by
              have := j8.ge b hb
              have := hx.1
              have : 0 < all.length := List.length_pos_iff.2 h0
              omega
            simp [Mem.set, hx1]
    have := ih2 hs2.1
    rw [hs2.2, i3] at this
    exact this
  | @abort s s1 s2 spec all spec' all' _ _ _ ih1 ih2 =>
    intro ts0 h
    obtain ⟨i1, i2, i3⟩ := ih1 h
    obtain ⟨j1, j2, j3⟩ := ih2 i1
    refine ⟨by simpa using j1, ?_, ?_⟩
    · intro t ht
      rcases List.mem_append.1 ht with ht | ht
      · exact i2 t ht
      · exact j2 t ht
    · rw [List.length_append, Nat.add_comm, ← List.drop_drop, j3, i3]

theorem exec_noabort {c : Cfg} {n : Nat} {lim : Adr} {s s' : S} {spec all : List CT}
    (h : Exec c n lim False s spec all s') : all = spec := by
  induction h with
  | nil => rfl
  | user _ _ _ ih => exact ih
  | store _ _ _ _ _ _ _ _ ih => rw [ih]
  | nested _ _ _ _ _ ih2 => exact ih2
  | abort h => exact h.elim

theorem exec_sub {c : Cfg} {n : Nat} {lim : Adr} {ab : Prop} {s s' : S} {spec all : List CT}
    (h : Exec c n lim ab s spec all s') : spec.Sublist all := by
  induction h with
  | nil => exact .slnil
  | user _ _ _ ih => exact ih
  | store _ _ _ _ _ _ _ _ ih => exact ih.cons_cons _
  | nested _ _ _ _ _ ih2 => exact ih2
  | abort _ _ _ _ ih2 => exact ih2.trans (List.sublist_append_right _ _)

end Gp.AllSol
