import Verif.Wam.Lemmas

namespace Gp.Wam
open Gp.Heap
variable {X : Type} {fc : Nat → List Cell → X → X}

/-- What the creation of a choice point writes. -/
theorem create_mem (m : M X) (alt arity : Nat) (a : Adr) (ha : a < m.localTop ∨ (create m alt arity).b ≤ a) :
    (create m alt arity).mem a = m.mem a := by
  simp only [create] at ha ⊢
  rw [saveArgs_out _ _ _ _ _ (by omega)]
  rw [set_other _ _ _ _ (by omega), set_other _ _ _ _ (by omega), set_other _ _ _ _ (by omega),
    set_other _ _ _ _ (by omega), set_other _ _ _ _ (by omega), set_other _ _ _ _ (by omega),
    set_other _ _ _ _ (by omega)]

theorem create_frame (m : M X) (alt arity : Nat) (d : List Adr) :
    FrameOk (create m alt arity).mem ⟨m, (create m alt arity).b, arity, alt, d⟩ ∧
      (create m alt arity).mem ((create m alt arity).b - 4) = .int m.b := by
  simp only [create]
  refine ⟨⟨?_, ?_, ?_, ?_, ?_, ?_, ?_⟩, ?_⟩
  all_goals try simp only
  rotate_left 6
  · intro i hi; rw [saveArgs_in _ _ _ _ _ hi (by omega)]
  all_goals
    rw [saveArgs_out _ _ _ _ _ (by omega)]
    repeat (first | rw [set_same] | rw [set_other _ _ _ _ (by omega)])

theorem Inv.create {m : M X} {ss : List (Snap X)} (h : Inv fc m ss) (alt arity : Nat) :
    Inv fc (create m alt arity) (⟨m, (Wam.create m alt arity).b, arity, alt, []⟩ :: ss) := by
  obtain ⟨S0, ss0, hss, hb, hb1⟩ := h.top
  have hlt := localTop_ge m
  have hmem : ∀ S ∈ ss, ∀ a, (S.frame a ∨ S.old a) → (Wam.create m alt arity).mem a = m.mem a := by
    intro S hS a ha
    apply create_mem
    left
    have hs := h.snaps S hS
    have h1 := hs.hb
    have h2 := hs.ble
    have h4 := localTop_ge S.st
    have h5 := hs.hl
    have h6 : m.lssa ≤ m.b := by have := hs.base; omega
    have h7 := hs.lssa
    unfold Snap.frame Snap.old at ha
    omega
  have hbb : (Wam.create m alt arity).b = m.localTop + 7 + arity := rfl
  have hlb : m.lssa ≤ m.b := by
    have hs := h.snaps S0 (by rw [hss]; simp)
    have := hs.base; have := hs.ble; have := hs.hb; have := localTop_ge S0.st
    omega
  refine ⟨⟨_, _, rfl, rfl, rfl⟩, ?_, ?_, ?_, h.hl⟩
  · have hc := h.chain.mono (mem' := (Wam.create m alt arity).mem)
      (fun S hS => hmem S hS _ (Or.inl (by have := (h.snaps S hS).b7; unfold Snap.frame; omega)))
    rw [hss] at hc ⊢
    refine ⟨?_, hc⟩
    rw [(create_frame m alt arity []).2, hb]
  · intro S hS
    rcases List.mem_cons.mp hS with rfl | hS
    · refine ⟨rfl, rfl, hlb, (create_frame m alt arity []).1, Nat.le_refl _, Nat.le_refl _, Nat.le_refl _, h.hl, [], rfl, by simp, ?_, rfl⟩
      intro a ha _
      simp only [undo]
      apply create_mem
      left
      have := h.hl
      unfold Snap.old at ha
      simp only at ha
      omega
    · have hs := h.snaps S hS
      refine ⟨hs.hb, hs.lssa, hs.base, hs.frame.mono hs.b7 (fun a ha => hmem S hS a (Or.inl ha)), hs.hle, ?_, ?_, hs.hl, ?_⟩
      · exact hs.hle
      · have := hs.ble; omega
      · obtain ⟨pre, h1, h2, h3, h4⟩ := hs.tr
        refine ⟨pre, h1, h2, ?_, h4⟩
        intro a ha hd
        rw [undo_congr (hmem S hS a (Or.inr ha)) pre]
        exact h3 a ha hd
  · refine List.Pairwise.cons ?_ h.order
    intro S hS
    have hs := h.snaps S hS
    obtain ⟨pre, h1, _⟩ := hs.tr
    exact ⟨hs.ble, hs.hle, pre, h1⟩

/-- The state after the common part of the return to a choice point. -/
structure Back (fc : Nat → List Cell → X → X) (m m' : M X) (S : Snap X) (ss : List (Snap X)) : Prop where
  trail : m'.trail = S.st.trail
  ext : m'.ext = S.st.ext
  cp : m'.cp = S.st.cp
  h : m'.h = S.st.h
  e : m'.e = S.st.e
  cs : m'.cs = S.st.cs
  b : m'.b = m.b
  lssa : m'.lssa = m.lssa
  hb1 : m'.hb1 = m.hb1
  stamp : m'.stamp = m.stamp
  mem : ∀ a, S.old a → a ∉ S.dirty → m'.mem a = S.st.mem a
  frames : ∀ T ∈ S :: ss, ∀ a, T.frame a → m'.mem a = m.mem a
  snaps : ∀ T ∈ ss, ∃ pre, m'.trail = pre ++ T.st.trail ∧ (∀ r ∈ pre, ∀ a, touches r a → ¬ T.frame a) ∧
    (∀ a, T.old a → a ∉ T.dirty → undo pre m'.mem a = T.st.mem a) ∧ undoExt fc pre m'.ext = T.st.ext

theorem Inv.back {m : M X} {S : Snap X} {ss : List (Snap X)} (h : Inv fc m (S :: ss)) :
    Back fc m (backCommon fc m) S ss := by
  obtain ⟨S0, ss0, hss, hb, hb1⟩ := h.top
  simp only [List.cons.injEq] at hss
  obtain ⟨rfl, rfl⟩ := hss
  have hs := h.snaps S (by simp)
  obtain ⟨pre, h1, h2, h3, h4⟩ := hs.tr
  have hu : untrail fc (rd m.mem (m.b - 6)) m.trail m.mem m.ext = (S.st.trail, undo pre m.mem, undoExt fc pre m.ext) := by
    rw [hb, rd_int hs.frame.tr, h1, untrail_eq]
  have hfr : ∀ T ∈ S :: ss, ∀ a, T.frame a → undo pre m.mem a = m.mem a := by
    intro T hT a ha
    apply undo_out
    intro r hr ht
    have hT' := h.snaps T hT
    obtain ⟨pre', k1, k2, _⟩ := hT'.tr
    rcases List.mem_cons.mp hT with rfl | hT2
    · exact h2 r hr a ht ha
    · have hnew := (List.pairwise_cons.mp h.order).1 T hT2
      obtain ⟨q, hq⟩ := hnew.2.2
      have : pre' = pre ++ q := by
        rw [h1, hq, ← List.append_assoc] at k1
        exact (List.append_cancel_right k1).symm
      exact k2 r (by rw [this]; exact List.mem_append_left _ hr) a ht ha
  have hfm : FrameOk (undo pre m.mem) S := hs.frame.mono hs.b7 (hfr S (by simp))
  have e : backCommon fc m =
      { m with trail := S.st.trail, mem := undo pre m.mem, ext := undoExt fc pre m.ext,
               cp := S.st.cp, h := S.st.h, e := S.st.e, cs := S.st.cs } := by
    unfold backCommon
    rw [hu]
    simp only
    rw [hb, rd_int hfm.cp, rd_int hfm.h, rd_int hfm.e, rd_int hfm.cs]
  rw [e]
  refine ⟨rfl, h4, rfl, rfl, rfl, rfl, rfl, rfl, rfl, rfl, h3, hfr, ?_⟩
  intro T hT
  obtain ⟨pre', k1, k2, k3, k4⟩ := (h.snaps T (List.mem_cons_of_mem _ hT)).tr
  have hnew := (List.pairwise_cons.mp h.order).1 T hT
  obtain ⟨q, hq⟩ := hnew.2.2
  have hpre : pre' = pre ++ q := by
    rw [h1, hq, ← List.append_assoc] at k1
    exact (List.append_cancel_right k1).symm
  subst hpre
  refine ⟨q, hq, fun r hr => k2 r (List.mem_append_right _ hr), ?_, ?_⟩
  · intro a ha hd
    rw [← undo_append]; exact k3 a ha hd
  · rw [← undoExt_append]; exact k4

theorem Inv.update {m : M X} {S : Snap X} {ss : List (Snap X)} (h : Inv fc m (S :: ss)) (alt : Nat) :
    Inv fc (update fc m alt S.arity) ({ S with alt := alt } :: ss) := by
  have hbk := h.back
  obtain ⟨S0, ss0, hss, hb, hb1⟩ := h.top
  simp only [List.cons.injEq] at hss
  obtain ⟨rfl, rfl⟩ := hss
  have hs := h.snaps S (by simp)
  -- the new memory
  have hmem : ∀ a, a ≠ S.b - 1 → (Wam.update fc m alt S.arity).mem a = (backCommon fc m).mem a := by
    intro a ha
    simp only [Wam.update, hb]
    exact set_other _ _ _ _ ha
  have hord := List.pairwise_cons.mp h.order
  have hout : ∀ T ∈ ss, ∀ a, (T.frame a ∨ T.old a) → a ≠ S.b - 1 := by
    intro T hT a ha
    have hn := hord.1 T hT
    have ht := h.snaps T (List.mem_cons_of_mem _ hT)
    have h1 := hs.hb
    have h2 := localTop_ge S.st
    have h3 := ht.hb
    have h4 := localTop_ge T.st
    have h5 := hn.1
    have h6 := ht.hl
    have h7 := ht.base
    unfold Snap.frame Snap.old at ha
    omega
  have hS : SnapOk fc (Wam.update fc m alt S.arity) { S with alt := alt } := by
    refine ⟨hs.hb, hs.lssa.trans hbk.lssa.symm, ?_, ?_, ?_, ?_, ?_, ?_, ?_⟩
    · show (backCommon fc m).lssa ≤ _; rw [hbk.lssa]; exact hs.base
    · have hf := hs.frame.mono hs.b7 (hbk.frames S (by simp))
      have := hs.b7
      refine ⟨?_, ?_, ?_, ?_, ?_, ?_, ?_⟩
      · simp only [Wam.update, hb]; exact set_same _ _ _
      all_goals simp only
      · rw [hmem _ (by omega)]; exact hf.cp
      · rw [hmem _ (by omega)]; exact hf.e
      · rw [hmem _ (by omega)]; exact hf.h
      · rw [hmem _ (by omega)]; exact hf.tr
      · rw [hmem _ (by omega)]; exact hf.cs
      · intro i hi; rw [hmem _ (by omega)]; exact hf.args i hi
    · show _ ≤ (backCommon fc m).h; rw [hbk.h]; exact Nat.le_refl _
    · show _ ≤ (backCommon fc m).h; rw [hbk.h]; exact Nat.le_refl _
    · show _ ≤ (backCommon fc m).b; rw [hbk.b, hb]; exact Nat.le_refl _
    · show _ ≤ (backCommon fc m).lssa; rw [hbk.lssa]; exact hs.hl
    · refine ⟨[], hbk.trail, by simp, ?_, hbk.ext⟩
      intro a ha hd
      have hne : a ≠ S.b - 1 := by
        rintro rfl
        exact (frame_not_old hs (a := S.b - 1) (by have := hs.b7; unfold Snap.frame; omega)).1 ha
      simp only [undo]
      rw [hmem a hne]
      exact hbk.mem a ha hd
  refine ⟨⟨_, _, rfl, ?_, ?_⟩, ?_, ?_, ?_, ?_⟩
  · show (backCommon fc m).b = _; rw [hbk.b, hb]
  · exact hbk.h
  · have hc := h.chain.mono (mem' := (Wam.update fc m alt S.arity).mem) (by
      intro T hT
      have hb7 := (h.snaps T hT).b7
      have hfr := hbk.frames T hT (T.b - 4) (by unfold Snap.frame; omega)
      rcases List.mem_cons.mp hT with rfl | hT2
      · rw [hmem _ (by omega), hfr]
      · rw [hmem _ (hout T hT2 _ (Or.inl (by unfold Snap.frame; omega))), hfr])
    cases ss with
    | nil => exact hc
    | cons S' ss => exact hc
  · intro T hT
    rcases List.mem_cons.mp hT with rfl | hT
    · exact hS
    · have ht := h.snaps T (List.mem_cons_of_mem _ hT)
      have hn := hord.1 T hT
      refine ⟨ht.hb, ht.lssa.trans hbk.lssa.symm, ?_, ?_, ?_, ?_, ?_, ?_, ?_⟩
      · show (backCommon fc m).lssa ≤ _; rw [hbk.lssa]; exact ht.base
      · refine ht.frame.mono ht.b7 ?_
        intro a ha
        rw [hmem a (hout T hT a (Or.inl ha)), hbk.frames T (List.mem_cons_of_mem _ hT) a ha]
      · show _ ≤ (backCommon fc m).h; rw [hbk.h]; exact hn.2.1
      · show _ ≤ (backCommon fc m).h; rw [hbk.h]; exact hn.2.1
      · show _ ≤ (backCommon fc m).b; rw [hbk.b]; exact ht.ble
      · show _ ≤ (backCommon fc m).lssa; rw [hbk.lssa]; exact ht.hl
      · obtain ⟨pre, k1, k2, k3, k4⟩ := hbk.snaps T hT
        refine ⟨pre, k1, k2, ?_, k4⟩
        intro a ha hd
        rw [undo_congr (hmem a (hout T hT a (Or.inr ha))) pre]
        exact k3 a ha hd
  · exact List.Pairwise.cons hord.1 hord.2
  · show (backCommon fc m).h ≤ (backCommon fc m).lssa
    rw [hbk.h, hbk.lssa]; exact hs.hl

theorem Inv.delete {m : M X} {S S' : Snap X} {ss : List (Snap X)} (h : Inv fc m (S :: S' :: ss)) :
    Inv fc (delete fc m S.arity) (S' :: ss) ∧ (Wam.delete fc m S.arity).b = S'.b := by
  have hbk := h.back
  obtain ⟨S0, ss0, hss, hb, hb1⟩ := h.top
  simp only [List.cons.injEq] at hss
  obtain ⟨rfl, rfl⟩ := hss
  have hs := h.snaps S (by simp)
  have hs' := h.snaps S' (by simp)
  have hord := List.pairwise_cons.mp h.order
  have hord' := List.pairwise_cons.mp hord.2
  have hbb : (Wam.delete fc m S.arity).b = S'.b := by
    show rd (backCommon fc m).mem (m.b - 4) = _
    rw [hb, rd_congr (hbk.frames S (by simp) (S.b - 4) (by have := hs.b7; unfold Snap.frame; omega))]
    exact rd_int h.chain.1
  have hhb : (Wam.delete fc m S.arity).hb1 = S'.st.h := by
    show rd (backCommon fc m).mem (rd (backCommon fc m).mem (m.b - 4) - 5) = _
    have : rd (backCommon fc m).mem (m.b - 4) = S'.b := hbb
    rw [this, rd_congr (hbk.frames S' (by simp) (S'.b - 5) (by have := hs'.b7; unfold Snap.frame; omega))]
    exact rd_int hs'.frame.h
  refine ⟨⟨⟨_, _, rfl, hbb, hhb⟩, ?_, ?_, hord.2, ?_⟩, hbb⟩
  · refine Chain.mono (h.chain.2) ?_
    intro T hT
    exact hbk.frames T (List.mem_cons_of_mem _ hT) _ (by
      have := (h.snaps T (List.mem_cons_of_mem _ hT)).b7
      unfold Snap.frame; omega)
  · intro T hT
    have ht := h.snaps T (List.mem_cons_of_mem _ hT)
    have hn := hord.1 T hT
    refine ⟨ht.hb, ht.lssa.trans hbk.lssa.symm, ?_, ?_, ?_, ?_, ?_, ?_, hbk.snaps T hT⟩
    · show (backCommon fc m).lssa ≤ _; rw [hbk.lssa]; exact ht.base
    · exact ht.frame.mono ht.b7 (hbk.frames T (List.mem_cons_of_mem _ hT))
    · show _ ≤ (backCommon fc m).h; rw [hbk.h]; exact hn.2.1
    · rw [hhb]
      rcases List.mem_cons.mp hT with rfl | hT2
      · exact Nat.le_refl _
      · exact (hord'.1 T hT2).2.1
    · rw [hbb]
      rcases List.mem_cons.mp hT with rfl | hT2
      · exact Nat.le_refl _
      · have h1 := (hord'.1 T hT2).1
        have h2 := hs'.hb
        have h3 := localTop_ge S'.st
        omega
    · show _ ≤ (backCommon fc m).lssa; rw [hbk.lssa]; exact ht.hl
  · show (backCommon fc m).h ≤ (backCommon fc m).lssa
    rw [hbk.h, hbk.lssa]; exact hs.hl

theorem Inv.assign {m : M X} {ss ss' : List (Snap X)} {S : Snap X} (h : Inv fc m (ss ++ S :: ss')) :
    Inv fc (m.assignB S.b) (S :: ss') := by
  have hs := h.snaps S (by simp)
  have hord := List.pairwise_cons.mp (List.pairwise_append.mp h.order).2.1
  have hhb : (m.assignB S.b).hb1 = S.st.h := rd_int hs.frame.h
  refine ⟨⟨_, _, rfl, rfl, hhb⟩, h.chain.tail, ?_, (List.pairwise_append.mp h.order).2.1, h.hl⟩
  intro T hT
  have ht := h.snaps T (List.mem_append_right _ hT)
  refine ⟨ht.hb, ht.lssa, ht.base, ht.frame, ht.hle, ?_, ?_, ht.hl, ht.tr⟩
  · rw [hhb]
    rcases List.mem_cons.mp hT with rfl | hT2
    · exact Nat.le_refl _
    · exact (hord.1 T hT2).2.1
  · show _ ≤ S.b
    rcases List.mem_cons.mp hT with rfl | hT2
    · exact Nat.le_refl _
    · have h1 := (hord.1 T hT2).1
      have h2 := hs.hb
      have h3 := localTop_ge S.st
      omega

/-- Addresses written without trailing. -/
theorem Inv.soil {m : M X} {ss : List (Snap X)} (h : Inv fc m ss) (a : Adr) (w : Cell) (hf : Free ss a) :
    Inv fc { m with mem := m.mem.set a w } (ss.map (Snap.soil a)) := by
  have hmem : ∀ x, x ≠ a → m.mem.set a w x = m.mem x := fun x hx => set_other _ _ _ _ hx
  have hchain : ∀ l : List (Snap X), (∀ S ∈ l, S ∈ ss) → Chain m.mem l → Chain (m.mem.set a w) (l.map (Snap.soil a)) := by
    intro l hl hc
    induction l with
    | nil => trivial
    | cons S l ih =>
      have hb7 := (h.snaps S (hl S (by simp))).b7
      have hne : m.mem.set a w (S.b - 4) = m.mem (S.b - 4) := by
        apply hmem
        rintro rfl
        exact hf S (hl S (by simp)) (by unfold Snap.frame; omega)
      cases l with
      | nil => show rd _ (S.b - 4) < S.b; rw [rd_congr hne]; exact hc
      | cons S' l => exact ⟨by show _ = Cell.int S'.b; rw [show (Snap.soil a S).b = S.b from rfl, hne]; exact hc.1,
          ih (fun T hT => hl T (List.mem_cons_of_mem _ hT)) hc.2⟩
  refine ⟨?_, hchain ss (fun _ h => h) h.chain, ?_, ?_, h.hl⟩
  · obtain ⟨S, ss', h1, h2, h3⟩ := h.top
    exact ⟨Snap.soil a S, ss'.map (Snap.soil a), by rw [h1]; rfl, h2, h3⟩
  · intro T hT
    obtain ⟨S, hS, rfl⟩ := List.mem_map.mp hT
    have hs := h.snaps S hS
    refine ⟨hs.hb, hs.lssa, hs.base, ?_, hs.hle, hs.hlb, hs.ble, hs.hl, ?_⟩
    · have := hs.frame.mono (mem' := m.mem.set a w) hs.b7 (by
        intro x hx
        apply hmem
        rintro rfl
        exact hf S hS hx)
      exact ⟨this.alt, this.cp, this.e, this.h, this.tr, this.cs, this.args⟩
    · obtain ⟨pre, k1, k2, k3, k4⟩ := hs.tr
      refine ⟨pre, k1, k2, ?_, k4⟩
      intro x hx hd
      have hd' : x ≠ a ∧ x ∉ S.dirty := by
        constructor
        · rintro rfl; exact hd (by simp [Snap.soil])
        · intro hx; exact hd (by simp [Snap.soil, hx])
      rw [undo_congr (hmem x hd'.1) pre]
      exact k3 x hx hd'.2
  · rw [List.pairwise_map]
    exact h.order

theorem mem_of_append {A : Type} {l1 l2 : List A} {a b : A} (h : b ∈ l1 ++ l2) : b ∈ l1 ++ a :: l2 := by
  rcases List.mem_append.mp h with h | h
  · exact List.mem_append_left _ h
  · exact List.mem_append_right _ (List.mem_cons_of_mem _ h)

theorem softCutLoop_found {m : M X} {ss0 ss ss' : List (Snap X)} {S S' S'' : Snap X} (h : Inv fc m (ss0 ++ (ss ++ S :: S' :: S'' :: ss')))
    (n : Nat) (hn : ss.length < n) :
    softCutLoop m.mem S'.b n ((ss ++ [S]).headD S).b = m.mem.set (S.b - 4) (.int S''.b) := by
  induction ss generalizing ss0 n with
  | nil =>
    obtain ⟨n, rfl⟩ : ∃ k, n = k + 1 := ⟨n - 1, by omega⟩
    have hc := h.chain.tail
    simp only [List.nil_append] at hc
    show softCutLoop m.mem S'.b (n + 1) S.b = _
    rw [softCutLoop, rd_int hc.1, if_pos rfl, rd_int hc.2.1]
  | cons T ss ih =>
    obtain ⟨n, rfl⟩ : ∃ k, n = k + 1 := ⟨n - 1, by omega⟩
    have hc := h.chain.tail
    have hord := (List.pairwise_append.mp h.order).2.1
    have hsn : ∀ U ∈ T :: ss ++ S :: S' :: S'' :: ss', SnapOk fc m U := fun U hU => h.snaps U (List.mem_append_right _ hU)
    have hT := hsn T (by simp)
    have hgt : ∀ U ∈ ss ++ S :: S' :: S'' :: ss', U.b < T.b := by
      intro U hU
      have h1 := ((List.pairwise_cons.mp hord).1 U hU).1
      have h2 := hT.hb
      have h3 := localTop_ge T.st
      omega
    show softCutLoop m.mem S'.b (n + 1) T.b = _
    rw [softCutLoop]
    cases hss : ss with
    | nil =>
      subst hss
      simp only [List.cons_append, List.nil_append] at hc hord hgt
      have hSgt : S'.b < S.b := by
        have h1 := ((List.pairwise_cons.mp (List.pairwise_cons.mp hord).2).1 S' (by simp)).1
        have h2 := (hsn S (by simp)).hb
        have h3 := localTop_ge S.st
        omega
      rw [rd_int hc.1, if_neg (by omega), if_neg (by have := hgt S' (by simp); omega)]
      have := ih (ss0 := ss0 ++ [T]) (by simpa using h) n (by simp at hn ⊢; omega)
      simpa using this
    | cons U ss2 =>
      subst hss
      simp only [List.cons_append] at hc hord hgt
      have hUgt : S'.b < U.b := by
        have h1 := ((List.pairwise_cons.mp (List.pairwise_cons.mp hord).2).1 S' (by simp)).1
        have h2 := (hsn U (by simp)).hb
        have h3 := localTop_ge U.st
        omega
      rw [rd_int hc.1, if_neg (by omega), if_neg (by have := hgt S' (by simp); omega)]
      have := ih (ss0 := ss0 ++ [T]) (by simpa using h) n (by simp at hn ⊢; omega)
      simpa using this

theorem Inv.length_le {m : M X} {ss : List (Snap X)} (h : Inv fc m ss) : ss.length ≤ m.b := by
  have key : ∀ l : List (Snap X), (∀ S ∈ l, SnapOk fc m S) → l.Pairwise Newer → ∀ n, (∀ S ∈ l, S.b ≤ n) → l.length ≤ n := by
    intro l
    induction l with
    | nil => intro _ _ n _; simp
    | cons S l ih =>
      intro hs ho n hn
      have h1 := (hs S (by simp)).hb
      have h2 := localTop_ge S.st
      have h3 := hn S (by simp)
      have := ih (fun T hT => hs T (List.mem_cons_of_mem _ hT)) (List.pairwise_cons.mp ho).2 S.st.b
        (fun T hT => ((List.pairwise_cons.mp ho).1 T hT).1)
      simp only [List.length_cons]
      omega
  exact key ss h.snaps h.order m.b (fun S hS => (h.snaps S hS).ble)

theorem Inv.softCutNone {m : M X} {ss : List (Snap X)} (h : Inv fc m ss) (kill : Nat) (hk : ∀ S ∈ ss, S.b ≠ kill)
    (hlow : ∃ S ∈ ss, S.b < kill) : softCut m kill = m := by
  obtain ⟨S0, ss0, hss, hb, hb1⟩ := h.top
  unfold softCut
  rw [if_neg (by rw [hb]; exact hk S0 (by rw [hss]; simp))]
  have key : ∀ (l : List (Snap X)) (l0 : List (Snap X)) (T : Snap X) (n : Nat), ss = l0 ++ T :: l →
      softCutLoop m.mem kill n T.b = m.mem := by
    intro l
    induction l with
    | nil =>
      intro l0 T n hl
      cases n with
      | zero => rfl
      | succ n =>
        have hc := h.chain
        rw [hl] at hc
        have hc' : rd m.mem (T.b - 4) < T.b := hc.tail
        -- T is the oldest
        have hT : T.b < kill := by
          obtain ⟨U, hU, hUk⟩ := hlow
          have ho := h.order
          rw [hl] at hU ho
          rcases List.mem_append.mp hU with hU | hU
          · have h1 := ((List.pairwise_append.mp ho).2.2 U hU T (by simp)).1
            have h2 := (h.snaps U (by rw [hl]; exact List.mem_append_left _ hU)).hb
            have h3 := localTop_ge U.st
            omega
          · simp only [List.mem_singleton] at hU
            subst hU; exact hUk
        rw [softCutLoop]
        rw [if_neg (by omega), if_pos hT]
    | cons U l ih =>
      intro l0 T n hl
      cases n with
      | zero => rfl
      | succ n =>
        have hc := h.chain
        rw [hl] at hc
        have hc' := hc.tail.1
        rw [softCutLoop]
        rw [rd_int hc', if_neg (hk U (by rw [hl]; simp))]
        split
        · rfl
        · exact ih (l0 ++ [T]) U n (by rw [hl]; simp)
  have := key ss0 [] S0 (m.b + 1) hss
  rw [← hb] at this
  rw [this]

theorem Inv.softCut {m : M X} {ss ss' : List (Snap X)} {S S' S'' : Snap X} (h : Inv fc m (ss ++ S :: S' :: S'' :: ss')) :
    Inv fc (softCut m S'.b) ((ss ++ S :: S'' :: ss').map (Snap.soil (S.b - 4))) := by
  have hlen := h.length_le
  have hS := h.snaps S (by simp)
  have hS' := h.snaps S' (by simp)
  have hord := List.pairwise_append.mp h.order
  have hordS := List.pairwise_cons.mp hord.2.1
  have hb7 := hS.b7
  have hgt : S'.b < S.b := by
    have h1 := (hordS.1 S' (by simp)).1
    have h2 := hS.hb
    have h3 := localTop_ge S.st
    omega
  have hsub : ∀ T ∈ ss ++ S :: S'' :: ss', T ∈ ss ++ S :: S' :: S'' :: ss' := by
    intro T hT
    rcases List.mem_append.mp hT with hT | hT
    · exact List.mem_append_left _ hT
    · rcases List.mem_cons.mp hT with rfl | hT
      · simp
      · apply List.mem_append_right; exact List.mem_cons_of_mem _ (List.mem_cons_of_mem _ hT)
  obtain ⟨S0, ss0, hss, hb, hb1⟩ := h.top
  have hhead : ((ss ++ [S]).headD S).b = m.b := by
    cases ss with
    | nil => simp only [List.nil_append, List.cons.injEq] at hss; simp [hb, hss.1]
    | cons T ss => simp only [List.cons_append, List.cons.injEq] at hss; simp [hb, hss.1]
  have htop : S'.b < m.b := by have := hS.ble; omega
  have hsc : Wam.softCut m S'.b = { m with mem := m.mem.set (S.b - 4) (.int S''.b) } := by
    unfold Wam.softCut
    rw [if_neg (by omega)]
    have := softCutLoop_found (ss0 := []) (by simpa using h) (m.b + 1) (by
      simp only [List.length_append, List.length_cons] at hlen; omega)
    rw [hhead] at this
    rw [this]
  rw [hsc]
  have hmem : ∀ x, x ≠ S.b - 4 → m.mem.set (S.b - 4) (.int S''.b) x = m.mem x := fun x hx => set_other _ _ _ _ hx
  -- frames of the others
  have hdis : ∀ T ∈ ss ++ S :: S' :: S'' :: ss', T.frame (S.b - 4) → T = S ∨ (T.b = S.b) := by
    intro T hT hf
    rcases List.mem_append.mp hT with hT2 | hT2
    · have h1 := (hord.2.2 T hT2 S (by simp)).1
      have h2 := (h.snaps T hT).hb
      have h3 := localTop_ge T.st
      unfold Snap.frame at hf
      omega
    · rcases List.mem_cons.mp hT2 with rfl | hT2
      · exact Or.inl rfl
      · have h1 := (hordS.1 T hT2).1
        have h2 := hS.hb
        have h3 := localTop_ge S.st
        unfold Snap.frame at hf
        omega
  have hnb : ∀ T ∈ ss ++ S :: S' :: S'' :: ss', T = S ∨ T.b ≠ S.b := by
    intro T hT
    rcases List.mem_append.mp hT with hT2 | hT2
    · have h1 := (hord.2.2 T hT2 S (by simp)).1
      have h2 := (h.snaps T hT).hb
      have h3 := localTop_ge T.st
      right; omega
    · rcases List.mem_cons.mp hT2 with rfl | hT2
      · exact Or.inl rfl
      · have h1 := (hordS.1 T hT2).1
        have h2 := hS.hb
        have h3 := localTop_ge S.st
        right; omega
  have hframe : ∀ T ∈ ss ++ S :: S' :: S'' :: ss', FrameOk (m.mem.set (S.b - 4) (.int S''.b)) T := by
    intro T hT
    have ht := h.snaps T hT
    rcases hnb T hT with rfl | hne
    · have hf := ht.frame
      refine ⟨?_, ?_, ?_, ?_, ?_, ?_, ?_⟩
      · rw [hmem _ (by omega)]; exact hf.alt
      · rw [hmem _ (by omega)]; exact hf.cp
      · rw [hmem _ (by omega)]; exact hf.e
      · rw [hmem _ (by omega)]; exact hf.h
      · rw [hmem _ (by omega)]; exact hf.tr
      · rw [hmem _ (by omega)]; exact hf.cs
      · intro i hi; rw [hmem _ (by omega)]; exact hf.args i hi
    · refine ht.frame.mono ht.b7 ?_
      intro a ha
      apply hmem
      rintro rfl
      rcases hdis T hT ha with rfl | hh
      · exact hne rfl
      · exact hne hh
  have hchain : ∀ l : List (Snap X), (∀ T ∈ l, T ∈ ss ++ S :: S' :: S'' :: ss' ∧ T.b ≠ S.b) → Chain m.mem (l ++ S :: S' :: S'' :: ss') →
      Chain (m.mem.set (S.b - 4) (.int S''.b)) ((l ++ S :: S'' :: ss').map (Snap.soil (S.b - 4))) := by
    have soilChain : ∀ (mm : Mem) (l : List (Snap X)), Chain mm l → Chain mm (l.map (Snap.soil (S.b - 4))) := by
      intro mm l
      induction l with
      | nil => intro; trivial
      | cons T l ih =>
        intro hc
        cases l with
        | nil => exact hc
        | cons U l => exact ⟨hc.1, ih hc.2⟩
    intro l hl hc
    apply soilChain
    induction l with
    | nil =>
      refine ⟨set_same _ _ _, ?_⟩
      refine Chain.mono hc.2.2 ?_
      intro T hT
      apply hmem
      have hT' : T ∈ ss ++ S :: S' :: S'' :: ss' := by
        apply List.mem_append_right; exact List.mem_cons_of_mem _ (List.mem_cons_of_mem _ hT)
      have h1 := (hordS.1 T (List.mem_cons_of_mem _ hT)).1
      have h2 := hS.hb
      have h3 := localTop_ge S.st
      have h4 := (h.snaps T hT').b7
      omega
    | cons T l ih =>
      have hT := hl T (by simp)
      have hb7T := (h.snaps T hT.1).b7
      have hne : m.mem.set (S.b - 4) (.int S''.b) (T.b - 4) = m.mem (T.b - 4) := hmem _ (by have := hT.2; omega)
      have hih := ih (fun U hU => hl U (List.mem_cons_of_mem _ hU))
      cases l with
      | nil => exact ⟨by rw [hne]; exact hc.1, hih hc.2⟩
      | cons U l => exact ⟨by rw [hne]; exact hc.1, hih hc.2⟩
  have hss' : ∀ T ∈ ss, T ∈ ss ++ S :: S' :: S'' :: ss' ∧ T.b ≠ S.b := by
    intro T hT
    refine ⟨List.mem_append_left _ hT, ?_⟩
    have h1 := (hord.2.2 T hT S (by simp)).1
    have h2 := (h.snaps T (List.mem_append_left _ hT)).hb
    have h3 := localTop_ge T.st
    omega
  refine ⟨?_, hchain ss hss' h.chain, ?_, ?_, h.hl⟩
  · cases ss with
    | nil =>
      simp only [List.nil_append, List.cons.injEq] at hss
      obtain ⟨rfl, _⟩ := hss
      exact ⟨_, _, rfl, hb, hb1⟩
    | cons T ss =>
      simp only [List.cons_append, List.cons.injEq] at hss
      obtain ⟨rfl, _⟩ := hss
      exact ⟨_, _, rfl, hb, hb1⟩
  · intro T hT
    obtain ⟨U, hU, rfl⟩ := List.mem_map.mp hT
    have hU' := hsub U hU
    have hu := h.snaps U hU'
    have hf := hframe U hU'
    refine ⟨hu.hb, hu.lssa, hu.base, ⟨hf.alt, hf.cp, hf.e, hf.h, hf.tr, hf.cs, hf.args⟩, hu.hle, hu.hlb, hu.ble, hu.hl, ?_⟩
    obtain ⟨pre, k1, k2, k3, k4⟩ := hu.tr
    refine ⟨pre, k1, k2, ?_, k4⟩
    intro x hx hd
    have hd' : x ≠ S.b - 4 ∧ x ∉ U.dirty := by
      constructor
      · rintro rfl; exact hd (by simp [Snap.soil])
      · intro hx; exact hd (by simp [Snap.soil, hx])
    rw [undo_congr (hmem x hd'.1) pre]
    exact k3 x hx hd'.2
  · rw [List.pairwise_map]
    refine List.Pairwise.sublist ?_ h.order
    exact List.Sublist.append (List.Sublist.refl _) (List.Sublist.cons_cons _ (List.sublist_cons_self _ _))

theorem reach_inv {m : M X} {ss : List (Snap X)} (h : Reach fc m ss) : Inv fc m ss := by
  induction h with
  | reset mem h lssa cs fail areg x hle =>
    have hf := create_frame (X := X) ⟨mem, [], h, 0, lssa, lssa, 0, cs, lssa, 0, areg, x⟩ fail 0 []
    have hb : (create (X := X) ⟨mem, [], h, 0, lssa, lssa, 0, cs, lssa, 0, areg, x⟩ fail 0).b = lssa + 7 := by
      simp [create, M.localTop]
    refine ⟨⟨_, _, rfl, hb, rfl⟩, ?_, ?_, by simp, hle⟩
    · show rd (create _ fail 0).mem (lssa + 7 - 4) < lssa + 7
      rw [← hb, rd_int hf.2]
      rw [hb]; simp
    · intro S hS
      simp only [List.mem_singleton] at hS
      subst hS
      refine ⟨by simp [M.localTop], rfl, Nat.le_refl _, ?_, Nat.le_refl _, Nat.le_refl _, by rw [reset, hb]; exact Nat.le_refl _, hle, ?_⟩
      · have := hf.1
        rw [hb] at this
        exact this
      · refine ⟨[], rfl, by simp, ?_, rfl⟩
        intro a ha _
        simp only [undo]
        apply create_mem
        unfold Snap.old at ha
        simp only at ha
        left
        simp only [M.localTop, ge_iff_le, Nat.le_refl, if_true]
        omega
  | create alt arity _ ih => exact ih.create alt arity
  | update alt _ ih => exact ih.update alt
  | delete _ ih => exact ih.delete.1
  | cut _ ih => exact ih.assign
  | @softCutLast m S S' ss _ ih =>
    have hb := ih.top
    obtain ⟨S0, ss0, hss, hb, _⟩ := hb
    simp only [List.cons.injEq] at hss
    obtain ⟨rfl, rfl⟩ := hss
    unfold softCut
    rw [if_pos hb, hb, rd_int ih.chain.1]
    exact Inv.assign (ss := [S]) ih
  | softCut _ ih => exact ih.softCut
  | softCutNone kill _ h1 h2 ih => rw [ih.softCutNone kill h1 h2]; exact ih
  | @bindUV m ss a w _ hu hf ih =>
    unfold bindUV
    by_cases hn : m.needsTrailing a = true
    · rw [if_pos hn]
      refine ih.trailed (.uv a) (m.mem.set a w) m.ext ?_ ?_ rfl
      · intro S hS x hx; simp only [touches] at hx; subst hx; exact hf S hS
      · funext x
        simp only [undo1]
        by_cases hx : x = a
        · subst hx; rw [set_same, hu]
        · rw [set_other _ _ _ _ hx, set_other _ _ _ _ hx]
    · rw [if_neg hn]
      have hn' : m.needsTrailing a = false := by simpa using hn
      refine ih.change rfl rfl (Nat.le_refl _) ih.hl rfl rfl rfl ?_ ?_
      · intro S hS x hx
        exact set_other _ _ _ _ (by rintro rfl; exact hf S hS hx)
      · intro S hS x hx _
        exact set_other _ _ _ _ (by rintro rfl; exact ih.notOld hn' hS hx)
  | @bindOV m ss a w _ hf ih =>
    unfold bindOV
    by_cases hn : m.needsTrailing a = true
    · rw [if_pos hn]
      refine ih.trailed (.ov a (m.mem a)) (m.mem.set a w) m.ext ?_ ?_ rfl
      · intro S hS x hx; simp only [touches] at hx; subst hx; exact hf S hS
      · funext x
        simp only [undo1]
        by_cases hx : x = a
        · subst hx; rw [set_same]
        · rw [set_other _ _ _ _ hx, set_other _ _ _ _ hx]
    · rw [if_neg hn]
      have hn' : m.needsTrailing a = false := by simpa using hn
      refine ih.change rfl rfl (Nat.le_refl _) ih.hl rfl rfl rfl ?_ ?_
      · intro S hS x hx
        exact set_other _ _ _ _ (by rintro rfl; exact hf S hS hx)
      · intro S hS x hx _
        exact set_other _ _ _ _ (by rintro rfl; exact ih.notOld hn' hS hx)
  | @bindMV m ss a ws _ _ hf hsame ih =>
    unfold bindMV
    by_cases hn : m.needsTrailing a = true
    · rw [if_pos hn]
      refine ih.trailed (.mv a (getMany m.mem a ws.length)) (setMany m.mem a ws) m.ext ?_ ?_ rfl
      · intro S hS x hx
        simp only [touches, getMany_length] at hx
        have := hf (x - a) (by omega) S hS
        rwa [show a + (x - a) = x by omega] at this
      · simp only [undo1]
        exact setMany_getMany _ _ _ _ (fun x hx => setMany_out _ _ _ _ hx)
    · rw [if_neg hn]
      have hn' : m.needsTrailing a = false := by simpa using hn
      refine ih.change rfl rfl (Nat.le_refl _) ih.hl rfl rfl rfl ?_ ?_
      · intro S hS x hx
        apply setMany_out
        by_cases hc : x < a ∨ a + ws.length ≤ x
        · exact hc
        · have := hf (x - a) (by omega) S hS
          rw [show a + (x - a) = x by omega] at this
          exact absurd hx this
      · intro S hS x hx _
        apply setMany_out
        by_cases hc : x < a ∨ a + ws.length ≤ x
        · exact hc
        · have := hsame (x - a) (by omega)
          rw [show a + (x - a) = x by omega, hn'] at this
          exact absurd hx (ih.notOld this hS)
  | @trailFC m ss f args x _ hx ih =>
    exact ih.trailed (.fc f args) m.mem x (fun _ _ _ h => h.elim) rfl hx
  | @push m ss w _ hl ih =>
    refine ih.change rfl rfl (Nat.le_succ _) hl rfl rfl rfl ?_ ?_
    · intro S hS x hx
      have := (frame_not_old (ih.snaps S hS) hx).2.1
      exact set_other _ _ _ _ (by omega)
    · intro S hS x hx _
      have h1 := (ih.snaps S hS).hle
      have h2 := (ih.snaps S hS).lssa
      unfold Snap.old at hx
      exact set_other _ _ _ _ (by omega)
  | @store m ss a w _ hf ih => exact ih.soil a w hf
  | @allocate m ss n _ ih =>
    have hlt := localTop_ge m
    refine ih.change rfl rfl (Nat.le_refl _) ih.hl rfl rfl rfl ?_ ?_
    · intro S hS x hx
      have := (frame_not_old (ih.snaps S hS) hx).2.2
      simp only [allocate]
      rw [set_other _ _ _ _ (by omega), set_other _ _ _ _ (by omega)]
    · intro S hS x hx _
      have hs := ih.snaps S hS
      have h1 := hs.hb
      have h2 := hs.ble
      have h3 := localTop_ge S.st
      have h4 := hs.hl
      have h5 := hs.base
      have h6 := hs.lssa
      unfold Snap.old at hx
      simp only [allocate]
      rw [set_other _ _ _ _ (by omega), set_other _ _ _ _ (by omega)]
  | deallocate _ ih => exact ih.change rfl rfl (Nat.le_refl _) ih.hl rfl rfl rfl (fun _ _ _ _ => rfl) (fun _ _ _ _ _ => rfl)
  | regs areg cp cs _ ih =>
    exact ih.change rfl rfl (Nat.le_refl _) ih.hl rfl rfl rfl (fun _ _ _ _ => rfl) (fun _ _ _ _ _ => rfl)

end Gp.Wam
