import Verif.AllSol.Spec
/-
The recovering loop.
-/
namespace Gp.AllSol
open Gp.Heap Gp.CopyTerm

theorem Holds.len {vs : Nat} {lim : Adr} {m : Mem} : ∀ {l : List Sol} {ts : List CT}, Holds vs lim m l ts → l.length = ts.length
  | [], [], _ => rfl
  | _ :: _, _ :: _, h => by simp only [List.length_cons]; rw [h.2.2.2.2.2.len]
  | [], _ :: _, h => h.elim
  | _ :: _, [], h => h.elim

theorem Holds.top {vs : Nat} {lim : Adr} {m : Mem} : ∀ {l : List Sol} {ts : List CT}, Holds vs lim m l ts →
    topNo l = l.length
  | [], [], _ => rfl
  | _ :: _, _ :: _, h => by simp only [topNo, List.length_cons]; exact h.1
  | [], _ :: _, h => h.elim
  | _ :: _, [], h => h.elim

theorem Holds.congr {vs : Nat} {lim : Adr} {m m2 : Mem} : ∀ {l : List Sol} {ts : List CT}, Holds vs lim m l ts →
    (∀ b ∈ l, ∀ x, b.Has x → m2 x = m x) → Holds vs lim m2 l ts
  | [], [], _, _ => trivial
  | b :: l, _ :: _, ⟨h1, h2, h3, ⟨hi, t', h4, h5, h6⟩, h7, h8⟩, hm =>
    ⟨h1, h2, h3, ⟨hi, t', h4, h5, h6.congr fun x hx => hm b (by simp) x ⟨hx.1, by have := hx.2; omega⟩⟩, h7,
      h8.congr fun b hb => hm b (by simp [hb])⟩
  | [], _ :: _, h, _ => h.elim
  | _ :: _, [], h, _ => h.elim

theorem Holds.ge {vs : Nat} {lim : Adr} {m : Mem} : ∀ {l : List Sol} {ts : List CT}, Holds vs lim m l ts →
    ∀ b ∈ l, lim ≤ b.adr
  | [], [], _, _, hb => by simp at hb
  | b :: l, _ :: _, ⟨_, h2, _, _, _, h8⟩, b', hb => by
    rcases List.mem_cons.1 hb with rfl | hb'
    · exact h2
    · exact h8.ge b' hb'
  | [], _ :: _, h, _, _ => h.elim
  | _ :: _, [], h, _, _ => h.elim

/-- The first word of a relocated term is not the tagged word of the frame of another FD variable. -/
theorem relocate_own {c : Cfg} {m m' : Mem} {src hi dst : Adr} {t : CT} (C : Contig c.vs m src hi t)
    (hdis : dst + (hi - src) ≤ src ∨ hi ≤ dst) {n : Nat} (hn : t.size c.vs < n) (h : contig c n m dst src = some m') :
    OwnFd m' dst := by
  have e : sA src dst src = dst := by simp only [sA]; omega
  obtain ⟨m2, h1, h2, h3⟩ := contig_spec C hdis C.rd n src m hn rfl .self (fun _ _ => rfl)
  rw [e, h] at h1
  cases h1
  intro a ha
  by_cases hf : ∃ a, m src = .fdv a
  · obtain ⟨a', ha'⟩ := hf
    obtain ⟨rfl, hlen⟩ := C.fd src a' .self ha'
    have hr := C.rd
    rw [ha'] at hr
    cases hr with
    | fd hd =>
      have hd' := ((h3 a' .self).fd _ hd).tag
      rw [e, ha] at hd'
      cases hd'
      rfl
  · have hf' : ∀ a, m src ≠ .fdv a := fun a ha => hf ⟨a, ha⟩
    have hc := (h3 src .self).cell hf'
    rw [e, ha] at hc
    cases hs : m src with
    | fdv a => exact absurd hs (hf' a)
    | _ => rw [hs] at hc; simp [shC] at hc

/-- The list cells from `p'` to `p`: the first words are references to cells with the terms `us`, in `[lo, hi)`. -/
def Chain (vs : Nat) (lo hi : Adr) (m : Mem) : Adr → Adr → List CT → Prop
  | p', p, [] => p' = p
  | p', p, u :: us => (∃ x, m p' = .ref x ∧ Seg lo hi x ∧ OwnFd m x ∧ Rd vs (Seg lo hi) m (.ref x) u) ∧
      m (p' + 1) = .lst (p' + 2) ∧ Chain vs lo hi m (p' + 2) p us

theorem Chain.le {vs : Nat} {lo hi : Adr} {m : Mem} : ∀ {us : List CT} {p' p : Adr}, Chain vs lo hi m p' p us →
    p = p' + 2 * us.length
  | [], _, _, h => by simp only [Chain] at h; simp [h]
  | _ :: us, p', p, h => by have := h.2.2.le; simp only [List.length_cons]; omega

theorem Chain.mono {vs : Nat} {lo hi lo' hi' : Adr} {m m' : Mem} : ∀ {us : List CT} {p' p : Adr},
    Chain vs lo hi m p' p us → lo' ≤ lo → hi ≤ hi' → (∀ x, Seg p' p x → m' x = m x) → (∀ x, Seg lo hi x → m' x = m x) →
    Chain vs lo' hi' m' p' p us
  | [], _, _, h, _, _, _, _ => h
  | u :: us, p', p, h, h1, h2, h3, h4 => by
    have hle := Chain.le h
    simp only [List.length_cons] at hle
    obtain ⟨⟨x, e1, e2, e3, e4⟩, f, g⟩ := h
    refine ⟨⟨x, ?_, ?_, ?_, ?_⟩, ?_, g.mono h1 h2 (fun y hy => h3 y ⟨by have := hy.1; omega, hy.2⟩) h4⟩
    · rw [h3 p' ⟨Nat.le_refl _, by omega⟩]; exact e1
    · exact ⟨by have := e2.1; omega, by have := e2.2; omega⟩
    · intro a ha; rw [h4 x e2] at ha; exact e3 a ha
    · exact e4.mono (fun y hy => ⟨by have := hy.1; omega, by have := hy.2; omega⟩) h4
    · rw [h3 (p' + 1) ⟨by omega, by omega⟩]; exact f

theorem Chain.snoc {vs : Nat} {lo hi : Adr} {m : Mem} {u : CT} : ∀ {us : List CT} {p' p : Adr},
    Chain vs lo hi m p' p us → Chain vs lo hi m p (p + 2) [u] → Chain vs lo hi m p' (p + 2) (us ++ [u])
  | [], _, _, h, h2 => by simp only [Chain] at h; subst h; exact h2
  | _ :: us, p', p, ⟨h1, h3, h4⟩, h2 => ⟨h1, h3, h4.snoc h2⟩

theorem Chain.rd {vs : Nat} {lo hi : Adr} {m : Mem} {tail : Cell} {tl : CT} {okT : Adr → Prop} : ∀ {us : List CT} {p' p : Adr},
    Chain vs lo hi m p' p us → us ≠ [] → p ≤ lo → (∀ a, tail ≠ .fdv a) →
    Rd vs okT (m.set (p - 1) tail) tail tl →
    Rd vs (fun x => Seg p' p x ∨ Seg lo hi x ∨ okT x) (m.set (p - 1) tail) (.lst p') (listOf us tl)
  | [], _, _, _, h, _, _, _ => absurd rfl h
  | [u], p', p, h, _, hp, hf, ht => by
    have hle := Chain.le h
    obtain ⟨⟨x, e1, e2, e3, e4⟩, f, g⟩ := h
    simp only [List.length_cons, List.length_nil] at hle
    have hx := e2.1
    have hm : ∀ y, y ≠ p - 1 → m.set (p - 1) tail y = m y := fun y hy => by simp [Mem.set, hy]
    have hl : m.set (p - 1) tail (p' + 1) = tail := by
      have : p' + 1 = p - 1 := by omega
      simp [Mem.set, this]
    refine .lst (.inl ⟨by omega, by omega⟩) (.inl ⟨by omega, by omega⟩) ?_ ?_ ?_ ?_
    · intro a ha; rw [hm p' (by omega), e1] at ha; cases ha
    · intro a ha; rw [hl] at ha; exact absurd ha (hf a)
    · rw [hm p' (by omega), e1]
      exact e4.mono (fun y hy => .inr (.inl hy)) (fun y hy => hm y (by have := hy.1; omega))
    · rw [hl]
      exact ht.mono (fun y hy => .inr (.inr hy)) (fun _ _ => rfl)
  | u :: u2 :: us, p', p, h, _, hp, hf, ht => by
    have hle := Chain.le h
    obtain ⟨⟨x, e1, e2, e3, e4⟩, f, g⟩ := h
    simp only [List.length_cons] at hle
    have hx := e2.1
    have hm : ∀ y, y ≠ p - 1 → m.set (p - 1) tail y = m y := fun y hy => by simp [Mem.set, hy]
    have ih := Chain.rd g (by simp) hp hf ht
    refine .lst (.inl ⟨by omega, by omega⟩) (.inl ⟨by omega, by omega⟩) ?_ ?_ ?_ ?_
    · intro a ha; rw [hm p' (by omega), e1] at ha; cases ha
    · intro a ha; rw [hm (p' + 1) (by omega), f] at ha; cases ha
    · rw [hm p' (by omega), e1]
      exact e4.mono (fun y hy => .inr (.inl hy)) (fun y hy => hm y (by have := hy.1; omega))
    · rw [hm (p' + 1) (by omega), f]
      refine ih.mono (fun y hy => ?_) (fun _ _ => rfl)
      rcases hy with hy | hy
      · exact .inl ⟨by have := hy.1; omega, hy.2⟩
      · exact .inr hy

/-- Variant terms, one by one. -/
inductive All2 (R : CT → CT → Prop) : List CT → List CT → Prop
  | nil : All2 R [] []
  | cons {a b : CT} {l l' : List CT} : R a b → All2 R l l' → All2 R (a :: l) (b :: l')

theorem All2.snoc {R : CT → CT → Prop} {a b : CT} : ∀ {l l' : List CT}, All2 R l l' → R a b → All2 R (l ++ [a]) (l' ++ [b])
  | _, _, .nil, h => .cons h .nil
  | _, _, .cons h1 h2, h => .cons h1 (h2.snoc h)

theorem All2.length {R : CT → CT → Prop} : ∀ {l l' : List CT}, All2 R l l' → l.length = l'.length
  | _, _, .nil => rfl
  | _, _, .cons _ h2 => by simp [h2.length]

theorem sizes_append (vs : Nat) (a b : List CT) : sizes vs (a ++ b) = sizes vs a + sizes vs b := by
  simp [sizes, List.sum_append]

/-- The terms have no common variable. -/
def Apart (us : List CT) : Prop := us.Pairwise fun u v => ∀ a ∈ u.vars, a ∉ v.vars

/-- The loop: `ts` are the terms on the top of the stack (top first). -/
theorem recoverLoop_spec {c : Cfg} {n : Nat} {lim : Adr} : ∀ (ts : List CT) {ts0 : List CT} {s : S} {p : Adr},
    Holds c.vs lim s.mem s.sols (ts ++ ts0) → (∀ t ∈ ts, t.size c.vs < n) → 2 * ts.length ≤ p → p ≤ s.h →
    s.h + sizes c.vs ts ≤ lim →
    ∃ m us, recoverLoop c n ts.length s p =
        some (⟨m, s.h + sizes c.vs ts, s.sols.drop ts.length⟩, p - 2 * ts.length) ∧
      All2 Variant ts.reverse us ∧ Chain c.vs s.h (s.h + sizes c.vs ts) m (p - 2 * ts.length) p us ∧ Apart us ∧
      (∀ u ∈ us, ∀ a ∈ u.vars, Seg s.h (s.h + sizes c.vs ts) a) ∧
      (∀ x, ¬ Seg (p - 2 * ts.length) p x → ¬ Seg s.h (s.h + sizes c.vs ts) x → m x = s.mem x) := by
  intro ts
  induction ts with
  | nil =>
    intro ts0 s p _ _ _ _ _
    exact ⟨s.mem, [], by simp [recoverLoop, sizes], .nil, by simp [Chain], .nil, by simp, fun _ _ _ => rfl⟩
  | cons t ts ih =>
    intro ts0 s p hH hn hp hps hl
    have hsz : sizes c.vs (t :: ts) = t.size c.vs + sizes c.vs ts := by simp [sizes]
    simp only [List.length_cons] at hp
    rw [hsz] at hl
    obtain ⟨m0, h0, sols⟩ := s
    dsimp only at hH hps hl
    cases sols with
    | nil => exact hH.elim
    | cons b rest =>
      rw [List.cons_append] at hH
      have hge := hH.ge
      obtain ⟨k1, k2, k3, ⟨hi, t', k4, ⟨φ, k5, rfl⟩, k6⟩, k7, k8⟩ := hH
      -- the two list cells
      have hm1 : ∀ x, x ≠ p - 1 → x ≠ p - 2 → ((m0.set (p - 1) (.lst p)).set (p - 2) (.ref h0)) x = m0 x := by
        intro x h1 h2; simp [Mem.set, h1, h2]
      have C1 : Contig c.vs ((m0.set (p - 1) (.lst p)).set (p - 2) (.ref h0)) b.adr hi (t.rename φ) :=
        k6.congr fun x hx => hm1 x (by have := hx.1; omega) (by have := hx.1; omega)
      obtain ⟨m1, g1, g2, g3, _⟩ := C17_relocate (c := c) C1 (dst := h0) (.inl (by omega)) (n := n)
        (by rw [size_rename]; exact hn t (by simp))
      have hlt := k6.lt
      -- the rest of the loop
      have hH1 : Holds c.vs lim m1 rest (ts ++ ts0) := k8.congr fun b' hb' x hx => by
        have := hge b' (by simp [hb'])
        have := hx.1
        rw [g3 x (by intro h; have := h.2; omega), hm1 x (by omega) (by omega)]
      obtain ⟨m, us, i1, i2, i3, i4, i5, i6⟩ := ih (s := ⟨m1, h0 + b.size, rest⟩) (p := p - 2) hH1
        (fun t ht => hn t (by simp [ht])) (by omega) (by dsimp only; omega) (by dsimp only; omega)
      dsimp only at i1 i3 i5 i6
      have hpe : p - 2 - 2 * ts.length = p - 2 * (ts.length + 1) := by omega
      have hhe : h0 + b.size + sizes c.vs ts = h0 + sizes c.vs (t :: ts) := by omega
      rw [hpe] at i1 i3 i6
      rw [hhe] at i1 i3 i5 i6
      -- the first copy is kept
      have hkeep : ∀ x, Seg h0 (h0 + (hi - b.adr)) x → m x = m1 x := fun x hx =>
        i6 x (by intro h; have := h.2; have := hx.1; omega) (by intro h; have := h.1; have := hx.2; omega)
      have hrd : Rd c.vs (Seg h0 (h0 + (hi - b.adr))) m (m h0) ((t.rename φ).rename fun a => h0 + (a - b.adr)) := by
        rw [hkeep h0 ⟨Nat.le_refl _, by omega⟩]; exact g2.mono (fun _ h => h) hkeep
      have hown : OwnFd m h0 := by
        intro a ha
        rw [hkeep h0 ⟨Nat.le_refl _, by omega⟩] at ha
        exact relocate_own C1 (.inl (by omega)) (by rw [size_rename]; exact hn t (by simp)) g1 a ha
      refine ⟨m, us ++ [(t.rename φ).rename fun a => h0 + (a - b.adr)], ?_, ?_, ?_, ?_, ?_, ?_⟩
      · dsimp only
        simp only [List.length_cons, recoverLoop, g1, List.drop_succ_cons]
        exact i1
      · rw [List.reverse_cons]
        refine i2.snoc ⟨(fun a => h0 + (a - b.adr)) ∘ φ, ?_, rename_rename _ _ _⟩
        intro a ha a' hb hab
        refine k5 a ha a' hb ?_
        have ok := fun x hx => (k6.rd.vars_ok (φ x) (by rw [vars_rename]; exact List.mem_map.mpr ⟨x, hx, rfl⟩)).1.1
        have := ok a ha
        have := ok a' hb
        simp only [Function.comp_apply] at hab
        omega
      · dsimp only
        have hpp : p = p - 2 + 2 := by omega
        have hch : Chain c.vs h0 (h0 + sizes c.vs (t :: ts)) m (p - 2) (p - 2 + 2)
            [(t.rename φ).rename fun a => h0 + (a - b.adr)] := by
          refine ⟨⟨h0, ?_, ⟨Nat.le_refl _, by omega⟩, ?_, ?_⟩, ?_, rfl⟩
          · rw [i6 _ (by intro h; have := h.2; omega) (by intro h; have := h.1; omega),
              g3 _ (by intro h; have := h.1; omega)]
            simp [Mem.set]
          · exact hown
          · have hr2 : Rd c.vs (Seg h0 (h0 + sizes c.vs (t :: ts))) m (m h0) _ :=
              hrd.mono (fun y hy => ⟨hy.1, by have := hy.2; omega⟩) (fun _ _ => rfl)
            by_cases hv : m h0 = .ref h0
            · rw [hv] at hr2; exact hr2
            · exact .bound ⟨Nat.le_refl _, by omega⟩ hv hown hr2
          · rw [i6 _ (by intro h; have := h.2; omega) (by intro h; have := h.1; omega),
              g3 _ (by intro h; have := h.1; omega)]
            have h1 : p - 2 + 1 = p - 1 := by omega
            have h2 : p - 1 ≠ p - 2 := by omega
            simp only [Mem.set, h1, h2, if_false]
            rw [← hpp]
            simp
        conv => arg 6; rw [hpp]
        exact Chain.snoc (i3.mono (by omega) (Nat.le_refl _) (fun _ _ => rfl) (fun _ _ => rfl)) hch
      · refine List.pairwise_append.2 ⟨i4, List.pairwise_singleton _ _, ?_⟩
        intro u hu v hv a ha hav
        rw [List.mem_singleton] at hv
        subst hv
        have := (i5 u hu a ha).1
        have := (hrd.vars_ok a hav).1.2
        omega
      · intro u hu a ha
        rcases List.mem_append.1 hu with hu | hu
        · have := i5 u hu a ha
          exact ⟨by have := this.1; dsimp only at *; omega, this.2⟩
        · rw [List.mem_singleton] at hu
          subst hu
          have := (hrd.vars_ok a ha).1
          exact ⟨this.1, by have := this.2; dsimp only at *; omega⟩
      · intro x h1 h2
        dsimp only at h2 ⊢
        rw [i6 x (by intro h; exact h1 ⟨h.1, by have := h.2; omega⟩) (by intro h; exact h2 ⟨by have := h.1; omega, h.2⟩),
          g3 x (by intro h; exact h2 ⟨h.1, by have := h.2; omega⟩)]
        exact hm1 x (by rintro rfl; exact h1 ⟨by simp only [List.length_cons]; omega, by omega⟩)
          (by rintro rfl; exact h1 ⟨by simp only [List.length_cons]; omega, by omega⟩)

end Gp.AllSol
