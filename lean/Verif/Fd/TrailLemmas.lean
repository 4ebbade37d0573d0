import Verif.Fd.Trail
/-
Lemmas on the trail of the finite domain variables: what `undo` restores, and the invariant of one choice point.
-/
namespace Gp.Fd.Trail

open Gp.FdRange Gp.Fd

@[simp] theorem set_apply (m : Mem) (l k : Loc) (x : Int) : m.set l x k = if k = l then x else m k := rfl
@[simp] theorem wr_mem (st : St) (l : Loc) (x : Int) : (st.wr l x).mem = st.mem.set l x := rfl
@[simp] theorem wr_cs (st : St) (l : Loc) (x : Int) : (st.wr l x).cs = st.cs := rfl
@[simp] theorem wr_hp (st : St) (l : Loc) (x : Int) : (st.wr l x).hp = st.hp := rfl
@[simp] theorem wr_stamp (st : St) (l : Loc) (x : Int) : (st.wr l x).stamp = st.stamp := rfl
@[simp] theorem wr_date (st : St) (l : Loc) (x : Int) : (st.wr l x).date = st.date := rfl
@[simp] theorem wr_trail (st : St) (l : Loc) (x : Int) : (st.wr l x).trail = st.trail := rfl
@[simp] theorem wr_cps (st : St) (l : Loc) (x : Int) : (st.wr l x).cps = st.cps := rfl
@[simp] theorem wr_vars (st : St) (l : Loc) (x : Int) : (st.wr l x).vars = st.vars := rfl
@[simp] theorem save_mem (st : St) (ls : List Loc) : (st.save ls).mem = st.mem := rfl
@[simp] theorem save_cs (st : St) (ls : List Loc) : (st.save ls).cs = st.cs := rfl
@[simp] theorem save_hp (st : St) (ls : List Loc) : (st.save ls).hp = st.hp := rfl
@[simp] theorem save_stamp (st : St) (ls : List Loc) : (st.save ls).stamp = st.stamp := rfl
@[simp] theorem save_date (st : St) (ls : List Loc) : (st.save ls).date = st.date := rfl
@[simp] theorem save_cps (st : St) (ls : List Loc) : (st.save ls).cps = st.cps := rfl
@[simp] theorem save_vars (st : St) (ls : List Loc) : (st.save ls).vars = st.vars := rfl

/-! ### What `undo` gives -/

/-- A word is saved in the segment. -/
def Cov (seg : List Ent) (l : Loc) : Prop := ∃ e ∈ seg, ∃ o, (l, o) ∈ e

theorem undoEnt_local (e : Ent) (m m' : Mem) (l : Loc) (h : m l = m' l) : undoEnt e m l = undoEnt e m' l := by
  induction e generalizing m m' with
  | nil => exact h
  | cons a e ih =>
    obtain ⟨k, o⟩ := a
    apply ih
    simp only [set_apply]
    split
    · rfl
    · exact h

theorem undoEnt_cov (e : Ent) (m m' : Mem) (l : Loc) (h : ∃ o, (l, o) ∈ e) : undoEnt e m l = undoEnt e m' l := by
  induction e generalizing m m' with
  | nil => obtain ⟨o, h⟩ := h; cases h
  | cons a e ih =>
    obtain ⟨k, o⟩ := a
    obtain ⟨o', h⟩ := h
    simp only [List.mem_cons, Prod.mk.injEq] at h
    rcases h with ⟨e1, _⟩ | h
    · subst e1
      show undoEnt e (m.set l o) l = undoEnt e (m'.set l o) l
      apply undoEnt_local
      simp
    · exact ih _ _ ⟨o', h⟩

theorem undo_local (seg : List Ent) (m m' : Mem) (l : Loc) (h : m l = m' l) : undo seg m l = undo seg m' l := by
  induction seg generalizing m m' with
  | nil => exact h
  | cons e seg ih => exact ih _ _ (undoEnt_local e m m' l h)

theorem undo_cov (seg : List Ent) (m m' : Mem) (l : Loc) (h : Cov seg l) : undo seg m l = undo seg m' l := by
  induction seg generalizing m m' with
  | nil => obtain ⟨e, he, _⟩ := h; cases he
  | cons e seg ih =>
    obtain ⟨e', he, o, ho⟩ := h
    rcases List.mem_cons.mp he with h1 | h1
    · subst h1
      exact undo_local seg _ _ l (undoEnt_cov e' m m' l ⟨o, ho⟩)
    · exact ih _ _ ⟨e', h1, o, ho⟩

theorem undo_append (s t : List Ent) (m : Mem) : undo (s ++ t) m = undo t (undo s m) := by
  induction s generalizing m with
  | nil => rfl
  | cons e s ih => exact ih _

theorem undoEnt_self (e : Ent) (m : Mem) (h : ∀ a ∈ e, a.2 = m a.1) : undoEnt e m = m := by
  induction e with
  | nil => rfl
  | cons a e ih =>
    have e1 : m.set a.1 a.2 = m := by
      funext k
      simp only [set_apply]
      split
      · next hk => rw [h a (List.mem_cons_self ..), hk]
      · rfl
    show undoEnt e (m.set a.1 a.2) = m
    rw [e1]
    exact ih (fun b hb => h b (List.mem_cons_of_mem _ hb))

theorem undo_set (seg : List Ent) (m : Mem) (l k : Loc) (x : Int) (h : Cov seg l ∨ k ≠ l) :
    undo seg (m.set l x) k = undo seg m k := by
  by_cases e : k = l
  · subst e
    rcases h with h | h
    · exact undo_cov _ _ _ _ h
    · exact absurd rfl h
  · exact undo_local _ _ _ _ (by simp [e])

theorem Cov.mono {s t : List Ent} {l : Loc} (h : Cov s l) : Cov (t ++ s) l := by
  obtain ⟨e, he, h⟩ := h
  exact ⟨e, List.mem_append.mpr (.inr he), h⟩

theorem Cov.left {s t : List Ent} {l : Loc} (h : Cov s l) : Cov (s ++ t) l := by
  obtain ⟨e, he, h⟩ := h
  exact ⟨e, List.mem_append.mpr (.inl he), h⟩

/-! ### The invariant of a choice point -/

/-- The words which are compared: below the choice point, except the number of constraints of a variable. -/
def Below (csb : Nat) (l : Loc) : Prop := l.2 < csb ∧ l.1 ≠ .ncstr

/-- What links the memory `m` and the segment `seg` of the trail since the choice point to the memory `m0` at its creation. -/
structure Lev (c : Cfg) (csb : Nat) (σ : Int) (m0 : Mem) (seg : List Ent) (vars : List Nat) (m : Mem) : Prop where
  res : ∀ l, Below csb l → undo seg m l = m0 l
  rngS : ∀ v ∈ vars, v < csb → σ ≤ m (.rstamp, v) → (∀ l ∈ rangeLocs v, Cov seg l) ∧
    ((m (.vecp, v)).toNat ≠ 0 → ∀ l ∈ vecLocs c.size (m (.vecp, v)).toNat, csb ≤ l.2 ∨ Cov seg l)
  rngU : ∀ v ∈ vars, v < csb → m (.rstamp, v) < σ → m (.rstamp, v) = m0 (.rstamp, v) ∧ m (.vecp, v) = m0 (.vecp, v)
  chnS : ∀ v ∈ vars, v < csb → σ ≤ m (.cstamp, v) → ∀ l ∈ chainsLocs v, l.1 ≠ .ncstr → Cov seg l
  chnU : ∀ v ∈ vars, v < csb → m (.cstamp, v) < σ → m (.cstamp, v) = m0 (.cstamp, v)

/-- The stamps are not in the future, the frames and the vectors are below the top, a vector is after its variable,
two vectors do not overlap. -/
structure Basic (c : Cfg) (vars : List Nat) (m : Mem) (cs : Nat) (stamp : Int) : Prop where
  pos : 0 < cs
  rs : ∀ v ∈ vars, m (.rstamp, v) ≤ stamp
  ch : ∀ v ∈ vars, m (.cstamp, v) ≤ stamp
  lt : ∀ v ∈ vars, v < cs
  vec : ∀ v ∈ vars, (m (.vecp, v)).toNat ≠ 0 → v < (m (.vecp, v)).toNat ∧ (m (.vecp, v)).toNat + c.size ≤ cs
  own : ∀ v ∈ vars, ∀ w ∈ vars, v ≠ w → (m (.vecp, v)).toNat ≠ 0 → (m (.vecp, w)).toNat ≠ 0 →
    (m (.vecp, v)).toNat + c.size ≤ (m (.vecp, w)).toNat ∨ (m (.vecp, w)).toNat + c.size ≤ (m (.vecp, v)).toNat

/-- The invariant of a state with respect to its newest choice point. -/
structure Inv (c : Cfg) (csb : Nat) (σ : Int) (m0 : Mem) (t0 : List Ent) (vars0 : List Nat) (st : St) : Prop where
  lev : ∃ seg, st.trail = seg ++ t0 ∧ Lev c csb σ m0 seg st.vars st.mem
  bas : Basic c st.vars st.mem st.cs st.stamp
  cs : csb ≤ st.cs
  sig : σ ≤ st.stamp
  vars : st.vars.filter (fun v => decide (v < csb)) = vars0

/-- A word which can be written. -/
def Safe (csb : Nat) (t0 : List Ent) (st : St) (l : Loc) : Prop :=
  csb ≤ l.2 ∨ l.1 = .ncstr ∨ ∃ seg, st.trail = seg ++ t0 ∧ Cov seg l

theorem Safe.mono {csb t0 st l} (st' : St) (pre : List Ent) (h : Safe csb t0 st l) (e : st'.trail = pre ++ st.trail) :
    Safe csb t0 st' l := by
  rcases h with h | h | ⟨seg, h1, h2⟩
  · exact .inl h
  · exact .inr (.inl h)
  · exact .inr (.inr ⟨pre ++ seg, by rw [e, h1, List.append_assoc], h2.mono⟩)

theorem Safe.of {csb t0 st l} (st' : St) (h : Safe csb t0 st l) (e : st'.trail = st.trail) : Safe csb t0 st' l :=
  h.mono st' [] (by simpa using e)

theorem Safe.cov {csb t0 st l seg} (h : Safe csb t0 st l) (e : st.trail = seg ++ t0) (hb : Below csb l) : Cov seg l := by
  rcases h with h | h | ⟨seg', h1, h2⟩
  · exact absurd hb.1 (by omega)
  · exact absurd h hb.2
  · rw [e] at h1
    rw [List.append_cancel_right h1]
    exact h2

theorem cov_save (ls : List Loc) (st : St) (seg : List Ent) {l : Loc} (h : l ∈ ls) :
    Cov (ls.map (fun l => (l, st.mem l)) :: seg) l :=
  ⟨_, List.mem_cons_self .., st.mem l, List.mem_map.mpr ⟨l, h, rfl⟩⟩

theorem Inv.save {c csb σ m0 t0 vars0 st} (h : Inv c csb σ m0 t0 vars0 st) (ls : List Loc) :
    Inv c csb σ m0 t0 vars0 (st.save ls) := by
  obtain ⟨⟨seg, e, L⟩, b, h1, h2, h3⟩ := h
  refine ⟨⟨ls.map (fun l => (l, st.mem l)) :: seg, by simp [St.save, e], ?_⟩, b, h1, h2, h3⟩
  have cv : ∀ {l}, Cov seg l → Cov (ls.map (fun l => (l, st.mem l)) :: seg) l := fun h => Cov.mono (t := [_]) h
  refine ⟨?_, ?_, L.rngU, ?_, L.chnU⟩
  · intro l hl
    have : undoEnt (ls.map (fun l => (l, st.mem l))) st.mem = st.mem := by
      apply undoEnt_self
      intro a ha
      obtain ⟨k, _, rfl⟩ := List.mem_map.mp ha
      rfl
    show undo seg (undoEnt _ st.mem) l = m0 l
    rw [this]
    exact L.res l hl
  · intro v hv hlt hs
    obtain ⟨h4, h5⟩ := L.rngS v hv hlt hs
    exact ⟨fun l hl => cv (h4 l hl), fun hp l hl => (h5 hp l hl).imp id cv⟩
  · intro v hv hlt hs l hl hn
    exact cv (L.chnS v hv hlt hs l hl hn)

theorem safe_save {csb t0} {st : St} {pre : List Ent} (e : st.trail = pre ++ t0) {ls : List Loc} {l : Loc} (h : l ∈ ls) :
    Safe csb t0 (st.save ls) l :=
  .inr (.inr ⟨ls.map (fun l => (l, st.mem l)) :: pre, by simp [St.save, e], cov_save ls st pre h⟩)

/-- The fields on which the invariant depends. -/
def key : Field → Bool
  | .rstamp | .vecp | .cstamp => true
  | _ => false

theorem Inv.wr {c csb σ m0 t0 vars0 st} (h : Inv c csb σ m0 t0 vars0 st) {l : Loc} (x : Int) (hs : Safe csb t0 st l)
    (hk : key l.1 = false) : Inv c csb σ m0 t0 vars0 (st.wr l x) := by
  obtain ⟨⟨seg, e, L⟩, b, h1, h2, h3⟩ := h
  have n1 : ∀ v, ((Field.rstamp, v) : Loc) ≠ l := fun v e => by subst e; cases hk
  have n2 : ∀ v, ((Field.cstamp, v) : Loc) ≠ l := fun v e => by subst e; cases hk
  have n3 : ∀ v, ((Field.vecp, v) : Loc) ≠ l := fun v e => by subst e; cases hk
  refine ⟨⟨seg, e, ?_⟩, ?_, h1, h2, h3⟩
  · refine ⟨?_, ?_, ?_, ?_, ?_⟩
    · intro k hkb
      rw [← L.res k hkb]
      apply undo_set
      by_cases ek : k = l
      · subst ek
        exact .inl (hs.cov e hkb)
      · exact .inr ek
    · intro v hv hlt hst
      simp only [wr_mem, set_apply, n1, n3, if_false, wr_vars] at hst ⊢ hv
      exact L.rngS v hv hlt hst
    · intro v hv hlt hst
      simp only [wr_mem, set_apply, n1, n3, if_false, wr_vars] at hst ⊢ hv
      exact L.rngU v hv hlt hst
    · intro v hv hlt hst
      simp only [wr_mem, set_apply, n2, if_false, wr_vars] at hst ⊢ hv
      exact L.chnS v hv hlt hst
    · intro v hv hlt hst
      simp only [wr_mem, set_apply, n2, if_false, wr_vars] at hst ⊢ hv
      exact L.chnU v hv hlt hst
  · refine ⟨b.pos, ?_, ?_, b.lt, ?_, ?_⟩
    · intro v hv; simpa [n1] using b.rs v hv
    · intro v hv; simpa [n2] using b.ch v hv
    · intro v hv; simpa [n3] using b.vec v hv
    · intro v hv w hw; simpa [n3] using b.own v hv w hw

/-- A word above the top. -/
theorem Inv.wrNew {c csb σ m0 t0 vars0 st} (h : Inv c csb σ m0 t0 vars0 st) {l : Loc} (x : Int) (hl : st.cs ≤ l.2) :
    Inv c csb σ m0 t0 vars0 (st.wr l x) := by
  obtain ⟨⟨seg, e, L⟩, b, h1, h2, h3⟩ := h
  have n : ∀ v ∈ st.vars, ∀ f, ((f, v) : Loc) ≠ l := fun v hv f e => by
    subst e
    exact absurd (b.lt v hv) (Nat.not_lt.mpr hl)
  refine ⟨⟨seg, e, ?_⟩, ?_, h1, h2, h3⟩
  · refine ⟨?_, ?_, ?_, ?_, ?_⟩
    · intro k hkb
      rw [← L.res k hkb]
      apply undo_set
      refine .inr (fun ek => ?_)
      subst ek
      exact absurd hkb.1 (by omega)
    · intro v hv hlt hst
      simp only [wr_mem, set_apply, n v hv, if_false] at hst ⊢
      exact L.rngS v hv hlt hst
    · intro v hv hlt hst
      simp only [wr_mem, set_apply, n v hv, if_false] at hst ⊢
      exact L.rngU v hv hlt hst
    · intro v hv hlt hst
      simp only [wr_mem, set_apply, n v hv, if_false] at hst ⊢
      exact L.chnS v hv hlt hst
    · intro v hv hlt hst
      simp only [wr_mem, set_apply, n v hv, if_false] at hst ⊢
      exact L.chnU v hv hlt hst
  · refine ⟨b.pos, ?_, ?_, b.lt, ?_, ?_⟩
    · intro v hv; simpa [n v hv] using b.rs v hv
    · intro v hv; simpa [n v hv] using b.ch v hv
    · intro v hv; simpa [n v hv] using b.vec v hv
    · intro v hv w hw; simpa [n v hv, n w hw] using b.own v hv w hw

theorem Inv.top {c csb σ m0 t0 vars0 st} (h : Inv c csb σ m0 t0 vars0 st) (cs' : Nat) (hl : st.cs ≤ cs') :
    Inv c csb σ m0 t0 vars0 { st with cs := cs' } := by
  obtain ⟨l, b, h1, h2, h3⟩ := h
  refine ⟨l, ⟨by have := b.pos; show 0 < cs'; omega, b.rs, b.ch, ?_, ?_, b.own⟩, Nat.le_trans h1 hl, h2, h3⟩
  · intro v hv; exact Nat.lt_of_lt_of_le (b.lt v hv) hl
  · intro v hv hp
    obtain ⟨h4, h5⟩ := b.vec v hv hp
    exact ⟨h4, Nat.le_trans h5 hl⟩

theorem Inv.addVar {c csb σ m0 t0 vars0 st} (h : Inv c csb σ m0 t0 vars0 st) (v : Nat) (h1 : csb ≤ v) (h2 : v < st.cs)
    (h3 : st.mem (.rstamp, v) ≤ st.stamp) (h4 : st.mem (.cstamp, v) ≤ st.stamp) (h5 : (st.mem (.vecp, v)).toNat = 0) :
    Inv c csb σ m0 t0 vars0 { st with vars := v :: st.vars } := by
  obtain ⟨⟨seg, e, L⟩, b, g1, g2, g3⟩ := h
  have hm : ∀ w ∈ v :: st.vars, w < csb → w ∈ st.vars := fun w hw hlt => by
    rcases List.mem_cons.mp hw with rfl | h
    · omega
    · exact h
  refine ⟨⟨seg, e, L.res, ?_, ?_, ?_, ?_⟩, ⟨b.pos, ?_, ?_, ?_, ?_, ?_⟩, g1, g2, ?_⟩
  · exact fun w hw hlt => L.rngS w (hm w hw hlt) hlt
  · exact fun w hw hlt => L.rngU w (hm w hw hlt) hlt
  · exact fun w hw hlt => L.chnS w (hm w hw hlt) hlt
  · exact fun w hw hlt => L.chnU w (hm w hw hlt) hlt
  · intro w hw; rcases List.mem_cons.mp hw with rfl | h
    · exact h3
    · exact b.rs w h
  · intro w hw; rcases List.mem_cons.mp hw with rfl | h
    · exact h4
    · exact b.ch w h
  · intro w hw; rcases List.mem_cons.mp hw with rfl | h
    · exact h2
    · exact b.lt w h
  · intro w hw; rcases List.mem_cons.mp hw with rfl | h
    · exact fun hp => absurd h5 hp
    · exact b.vec w h
  · intro w hw w' hw' hne hp hp'
    rcases List.mem_cons.mp hw with rfl | h
    · exact absurd h5 hp
    · rcases List.mem_cons.mp hw' with rfl | h'
      · exact absurd h5 hp'
      · exact b.own w h w' h' hne hp hp'
  · rw [← g3]
    show List.filter _ (v :: st.vars) = _
    rw [List.filter_cons_of_neg (by simpa using h1)]

/-- The pointer of the vector of a variable. -/
theorem Inv.wrVec {c csb σ m0 t0 vars0 st} (h : Inv c csb σ m0 t0 vars0 st) {v : Nat} (x : Int)
    (hs : Safe csb t0 st (.vecp, v)) (hst : v < csb → σ ≤ st.mem (.rstamp, v))
    (hx : x.toNat ≠ 0 → csb ≤ x.toNat ∧ v < x.toNat ∧ x.toNat + c.size ≤ st.cs)
    (ho : x.toNat ≠ 0 → ∀ w ∈ st.vars, (st.mem (.vecp, w)).toNat ≠ 0 → (st.mem (.vecp, w)).toNat + c.size ≤ x.toNat) :
    Inv c csb σ m0 t0 vars0 (st.wr (.vecp, v) x) := by
  obtain ⟨⟨seg, e, L⟩, b, h1, h2, h3⟩ := h
  have n1 : ∀ w, ((Field.rstamp, w) : Loc) ≠ (Field.vecp, v) := fun w e => by cases e
  have n2 : ∀ w, ((Field.cstamp, w) : Loc) ≠ (Field.vecp, v) := fun w e => by cases e
  refine ⟨⟨seg, e, ?_⟩, ?_, h1, h2, h3⟩
  · refine ⟨?_, ?_, ?_, ?_, ?_⟩
    · intro k hkb
      rw [← L.res k hkb]
      apply undo_set
      by_cases ek : k = (Field.vecp, v)
      · subst ek
        exact .inl (hs.cov e hkb)
      · exact .inr ek
    · intro w hw hlt hsw
      simp only [wr_mem, set_apply, n1, if_false] at hsw ⊢
      obtain ⟨h4, h5⟩ := L.rngS w hw hlt hsw
      refine ⟨h4, fun hp => ?_⟩
      split at hp
      · next ew =>
        rw [if_pos ew]
        intro l hl
        obtain ⟨i, _, rfl⟩ := List.mem_map.mp hl
        exact .inl (by have := (hx hp).1; show csb ≤ x.toNat + i; omega)
      · next ew => rw [if_neg ew]; exact h5 hp
    · intro w hw hlt hsw
      simp only [wr_mem, set_apply, n1, if_false] at hsw ⊢
      by_cases ew : w = v
      · subst ew
        exact absurd (hst hlt) (by omega)
      · rw [if_neg (by simpa using ew)]
        exact L.rngU w hw hlt hsw
    · intro w hw hlt hsw
      simp only [wr_mem, set_apply, n2, if_false] at hsw ⊢
      exact L.chnS w hw hlt hsw
    · intro w hw hlt hsw
      simp only [wr_mem, set_apply, n2, if_false] at hsw ⊢
      exact L.chnU w hw hlt hsw
  · refine ⟨b.pos, ?_, ?_, b.lt, ?_, ?_⟩
    · intro w hw; simpa [n1] using b.rs w hw
    · intro w hw; simpa [n2] using b.ch w hw
    · intro w hw hp
      simp only [wr_mem, set_apply] at hp ⊢
      split at hp
      · next ew => rw [if_pos ew]; cases ew; exact (hx hp).2
      · next ew => rw [if_neg ew]; exact b.vec w hw hp
    · intro w hw w' hw' hne hp hp'
      simp only [wr_mem, set_apply] at hp hp' ⊢
      split at hp
      · next ew =>
        split at hp'
        · next ew' => cases ew; cases ew'; exact absurd rfl hne
        · next ew' => rw [if_pos ew, if_neg ew']; exact .inr (ho hp w' hw' hp')
      · next ew =>
        split at hp'
        · next ew' => rw [if_neg ew, if_pos ew']; exact .inl (ho hp' w hw hp)
        · next ew' => rw [if_neg ew, if_neg ew']; exact b.own w hw w' hw' hne hp hp'

/-- The stamp of the range, after the trailing. -/
theorem Inv.wrRstamp {c csb σ m0 t0 vars0 st} (h : Inv c csb σ m0 t0 vars0 st) {v : Nat}
    (hs : ∀ l ∈ rangeLocs v, Safe csb t0 st l)
    (hv : (st.mem (.vecp, v)).toNat ≠ 0 → ∀ l ∈ vecLocs c.size (st.mem (.vecp, v)).toNat, Safe csb t0 st l) :
    Inv c csb σ m0 t0 vars0 (st.wr (.rstamp, v) st.stamp) := by
  obtain ⟨⟨seg, e, L⟩, b, h1, h2, h3⟩ := h
  have n1 : ∀ w, ((Field.vecp, w) : Loc) ≠ (Field.rstamp, v) := fun w e => by cases e
  have n2 : ∀ w, ((Field.cstamp, w) : Loc) ≠ (Field.rstamp, v) := fun w e => by cases e
  refine ⟨⟨seg, e, ?_⟩, ?_, h1, h2, h3⟩
  · refine ⟨?_, ?_, ?_, ?_, ?_⟩
    · intro k hkb
      rw [← L.res k hkb]
      apply undo_set
      by_cases ek : k = (Field.rstamp, v)
      · subst ek
        exact .inl ((hs _ (by simp [rangeLocs])).cov e hkb)
      · exact .inr ek
    · intro w hw hlt hsw
      simp only [wr_mem, set_apply, n1, if_false] at hsw ⊢
      by_cases ew : w = v
      · subst ew
        refine ⟨fun l hl => (hs l hl).cov e ?_, fun hp => ?_⟩
        · simp only [rangeLocs, List.mem_cons, List.not_mem_nil, or_false] at hl
          rcases hl with rfl | rfl | rfl | rfl | rfl | rfl <;> exact ⟨hlt, fun h => by cases h⟩
        · intro l hl
          rcases hv hp l hl with h5 | h5 | ⟨seg', h5, h6⟩
          · exact .inl h5
          · obtain ⟨i, hi, rfl⟩ := List.mem_map.mp hl
            cases h5
          · rw [e] at h5
            rw [List.append_cancel_right h5]
            exact .inr h6
      · rw [if_neg (by simpa using ew)] at hsw
        exact L.rngS w hw hlt hsw
    · intro w hw hlt hsw
      simp only [wr_mem, set_apply, n1, if_false] at hsw ⊢
      by_cases ew : w = v
      · subst ew
        rw [if_pos rfl] at hsw
        omega
      · rw [if_neg (by simpa using ew)] at hsw ⊢
        exact L.rngU w hw hlt hsw
    · intro w hw hlt hsw
      simp only [wr_mem, set_apply, n2, if_false] at hsw ⊢
      exact L.chnS w hw hlt hsw
    · intro w hw hlt hsw
      simp only [wr_mem, set_apply, n2, if_false] at hsw ⊢
      exact L.chnU w hw hlt hsw
  · refine ⟨b.pos, ?_, ?_, b.lt, ?_, ?_⟩
    · intro w hw
      simp only [wr_mem, set_apply]
      split
      · exact Int.le_refl _
      · exact b.rs w hw
    · intro w hw; simpa [n2] using b.ch w hw
    · intro w hw; simpa [n1] using b.vec w hw
    · intro w hw w' hw'; simpa [n1] using b.own w hw w' hw'

/-- The stamp of the chains, after the trailing. -/
theorem Inv.wrCstamp {c csb σ m0 t0 vars0 st} (h : Inv c csb σ m0 t0 vars0 st) {v : Nat}
    (hs : ∀ l ∈ chainsLocs v, Safe csb t0 st l) : Inv c csb σ m0 t0 vars0 (st.wr (.cstamp, v) st.stamp) := by
  obtain ⟨⟨seg, e, L⟩, b, h1, h2, h3⟩ := h
  have n1 : ∀ w, ((Field.vecp, w) : Loc) ≠ (Field.cstamp, v) := fun w e => by cases e
  have n2 : ∀ w, ((Field.rstamp, w) : Loc) ≠ (Field.cstamp, v) := fun w e => by cases e
  have cl : ∀ l ∈ chainsLocs v, l.2 = v := by
    intro l hl
    simp only [chainsLocs, List.mem_cons, List.not_mem_nil, or_false] at hl
    rcases hl with rfl | rfl | rfl | rfl | rfl | rfl | rfl | rfl <;> rfl
  refine ⟨⟨seg, e, ?_⟩, ?_, h1, h2, h3⟩
  · refine ⟨?_, ?_, ?_, ?_, ?_⟩
    · intro k hkb
      rw [← L.res k hkb]
      apply undo_set
      by_cases ek : k = (Field.cstamp, v)
      · subst ek
        exact .inl ((hs _ (by simp [chainsLocs])).cov e hkb)
      · exact .inr ek
    · intro w hw hlt hsw
      simp only [wr_mem, set_apply, n1, n2, if_false] at hsw ⊢
      exact L.rngS w hw hlt hsw
    · intro w hw hlt hsw
      simp only [wr_mem, set_apply, n1, n2, if_false] at hsw ⊢
      exact L.rngU w hw hlt hsw
    · intro w hw hlt hsw l hl hn
      simp only [wr_mem, set_apply] at hsw
      by_cases ew : w = v
      · subst ew
        exact (hs l hl).cov e ⟨by rw [cl l hl]; exact hlt, hn⟩
      · rw [if_neg (by simpa using ew)] at hsw
        exact L.chnS w hw hlt hsw l hl hn
    · intro w hw hlt hsw
      simp only [wr_mem, set_apply] at hsw ⊢
      by_cases ew : w = v
      · subst ew
        rw [if_pos rfl] at hsw
        omega
      · rw [if_neg (by simpa using ew)] at hsw ⊢
        exact L.chnU w hw hlt hsw
  · refine ⟨b.pos, ?_, ?_, b.lt, ?_, ?_⟩
    · intro w hw; simpa [n2] using b.rs w hw
    · intro w hw
      simp only [wr_mem, set_apply]
      split
      · exact Int.le_refl _
      · exact b.ch w hw
    · intro w hw; simpa [n1] using b.vec w hw
    · intro w hw w' hw'; simpa [n1] using b.own w hw w' hw'

/-! ### The trailing macros -/

/-- The range of the variable can be written. -/
structure RReady (c : Cfg) (csb : Nat) (σ : Int) (t0 : List Ent) (st : St) (v : Nat) : Prop where
  locs : ∀ l ∈ rangeLocs v, Safe csb t0 st l
  stamp : v < csb → σ ≤ st.mem (.rstamp, v)
  vec : st.vecAdr v ≠ 0 → ∀ l ∈ vecLocs c.size (st.vecAdr v), Safe csb t0 st l

theorem locs_above {csb t0 st v} (h : csb ≤ v) : ∀ l ∈ rangeLocs v, Safe csb t0 st l := by
  intro l hl
  simp only [rangeLocs, List.mem_cons, List.not_mem_nil, or_false] at hl
  rcases hl with rfl | rfl | rfl | rfl | rfl | rfl <;> exact .inl h

/-- What the operations on the cells keep. -/
structure Same (st st' : St) : Prop where
  stamp : st'.stamp = st.stamp
  date : st'.date = st.date
  cps : st'.cps = st.cps
  vars : st'.vars = st.vars
  hp : st'.hp = st.hp
  cs : st.cs ≤ st'.cs

theorem Same.rfl {st : St} : Same st st := ⟨Eq.refl _, Eq.refl _, Eq.refl _, Eq.refl _, Eq.refl _, Nat.le_refl _⟩

theorem Same.trans {a b d : St} (h : Same a b) (h' : Same b d) : Same a d :=
  ⟨h'.stamp.trans h.stamp, h'.date.trans h.date, h'.cps.trans h.cps, h'.vars.trans h.vars, h'.hp.trans h.hp,
    Nat.le_trans h.cs h'.cs⟩

theorem Same.wr {a b : St} (h : Same a b) (l : Loc) (x : Int) : Same a (b.wr l x) := ⟨h.1, h.2, h.3, h.4, h.5, h.6⟩
theorem Same.save {a b : St} (h : Same a b) (ls : List Loc) : Same a (b.save ls) := ⟨h.1, h.2, h.3, h.4, h.5, h.6⟩

theorem trailRange_same (c : Cfg) (st : St) (v : Nat) : Same st (trailRange c st v) := by
  unfold trailRange
  split
  · dsimp only
    split
    · exact ((Same.rfl.save _).save _).wr _ _
    · exact (Same.rfl.save _).wr _ _
  · exact Same.rfl

theorem trailInt_same (c : Cfg) (st : St) (v : Nat) : Same st (trailInt c st v) := by
  unfold trailInt
  split
  · exact ((Same.rfl.save _).save _).trans (trailRange_same c _ v)
  · exact Same.rfl

/-- Only the stamp is written by the trailing of a range. -/
theorem trailRange_mem (c : Cfg) (st : St) (v : Nat) (l : Loc) (h : l ≠ (.rstamp, v)) : (trailRange c st v).mem l = st.mem l := by
  unfold trailRange
  split
  · dsimp only
    split <;> simp [h]
  · rfl

theorem trailRange_trail (c : Cfg) (st : St) (v : Nat) : ∃ pre, (trailRange c st v).trail = pre ++ st.trail := by
  unfold trailRange
  split
  · dsimp only
    split
    · exact ⟨[_, _], rfl⟩
    · exact ⟨[_], rfl⟩
  · exact ⟨[], rfl⟩

theorem trailRange_inv {c csb σ m0 t0 vars0 st} (h : Inv c csb σ m0 t0 vars0 st) {v : Nat} (hv : v ∈ st.vars) :
    Inv c csb σ m0 t0 vars0 (trailRange c st v) ∧ RReady c csb σ t0 (trailRange c st v) v := by
  unfold trailRange
  split
  · dsimp only
    obtain ⟨seg, e, L⟩ := h.lev
    have i1 := h.save (rangeLocs v)
    have s1 : ∀ l ∈ rangeLocs v, Safe csb t0 (st.save (rangeLocs v)) l := fun l hl => safe_save e hl
    obtain ⟨seg1, e1, _⟩ := i1.lev
    split
    · next hp =>
      have i2 := i1.save (vecLocs c.size ((st.save (rangeLocs v)).vecAdr v))
      have s2 : ∀ l ∈ rangeLocs v, Safe csb t0 ((st.save (rangeLocs v)).save (vecLocs c.size ((st.save (rangeLocs v)).vecAdr v))) l :=
        fun l hl => (s1 l hl).mono _ [_] rfl
      have s3 : ∀ l ∈ vecLocs c.size (st.vecAdr v), Safe csb t0
          ((st.save (rangeLocs v)).save (vecLocs c.size ((st.save (rangeLocs v)).vecAdr v))) l := fun l hl => safe_save e1 hl
      refine ⟨i2.wrRstamp s2 (fun _ => s3), fun l hl => (s2 l hl).of _ rfl, ?_, ?_⟩
      · intro hlt
        simpa using h.sig
      · intro hp' l hl
        refine (s3 l ?_).of _ rfl
        simpa [St.vecAdr] using hl
    · next hp =>
      have hp0 : (st.mem (.vecp, v)).toNat = 0 := by simpa [St.vecAdr] using hp
      refine ⟨i1.wrRstamp s1 (fun hq => absurd hp0 hq), fun l hl => (s1 l hl).of _ rfl, ?_, ?_⟩
      · intro hlt
        simpa using h.sig
      · intro hp' l hl
        exact absurd hp0 (by simpa [St.vecAdr] using hp')
  · next hst =>
    have hst : st.mem (.rstamp, v) = st.stamp := by simpa using hst
    refine ⟨h, ?_⟩
    obtain ⟨seg, e, L⟩ := h.lev
    by_cases hlt : v < csb
    · obtain ⟨h4, h5⟩ := L.rngS v hv hlt (by rw [hst]; exact h.sig)
      refine ⟨fun l hl => .inr (.inr ⟨seg, e, h4 l hl⟩), fun _ => by rw [hst]; exact h.sig, ?_⟩
      intro hp l hl
      rcases h5 hp l hl with h6 | h6
      · exact .inl h6
      · exact .inr (.inr ⟨seg, e, h6⟩)
    · refine ⟨locs_above (by omega), fun h => absurd h hlt, ?_⟩
      intro hp l hl
      obtain ⟨i, _, rfl⟩ := List.mem_map.mp hl
      have := (h.bas.vec v hv hp).1
      exact .inl (by show csb ≤ st.vecAdr v + i; unfold St.vecAdr; omega)

theorem trailInt_inv {c csb σ m0 t0 vars0 st} (h : Inv c csb σ m0 t0 vars0 st) (hb : csb = st.csb) {v : Nat} (hv : v ∈ st.vars) :
    Inv c csb σ m0 t0 vars0 (trailInt c st v) ∧ (∀ l ∈ rangeLocs v, Safe csb t0 (trailInt c st v) l) ∧
      (v < csb → σ ≤ (trailInt c st v).mem (.rstamp, v)) ∧
      Safe csb t0 (trailInt c st v) (.tag, v) ∧ Safe csb t0 (trailInt c st v) (.date, v) := by
  unfold trailInt
  split
  · obtain ⟨seg, e, _⟩ := h.lev
    have i1 := h.save [(.tag, v)]
    have s1 : Safe csb t0 (st.save [(.tag, v)]) (.tag, v) := safe_save e (by simp)
    obtain ⟨seg1, e1, _⟩ := i1.lev
    have i2 := i1.save [(.date, v)]
    have s2 : Safe csb t0 ((st.save [(.tag, v)]).save [(.date, v)]) (.date, v) := safe_save e1 (by simp)
    have s3 : Safe csb t0 ((st.save [(.tag, v)]).save [(.date, v)]) (.tag, v) := s1.mono _ [_] rfl
    obtain ⟨i3, r⟩ := trailRange_inv i2 hv
    obtain ⟨pre, hpre⟩ := trailRange_trail c ((st.save [(.tag, v)]).save [(.date, v)]) v
    exact ⟨i3, r.locs, r.stamp, s3.mono _ pre hpre, s2.mono _ pre hpre⟩
  · next hn =>
    rw [← hb] at hn
    exact ⟨h, locs_above (by omega), fun hlt => absurd hlt hn, .inl (by simpa using hn), .inl (by simpa using hn)⟩

theorem trailChains_inv {c csb σ m0 t0 vars0 st} (h : Inv c csb σ m0 t0 vars0 st) {v : Nat} (hv : v ∈ st.vars) :
    Inv c csb σ m0 t0 vars0 (trailChains st v) ∧ ∀ l ∈ chainsLocs v, Safe csb t0 (trailChains st v) l := by
  unfold trailChains
  split
  · obtain ⟨seg, e, _⟩ := h.lev
    have i1 := h.save (chainsLocs v)
    have s1 : ∀ l ∈ chainsLocs v, Safe csb t0 (st.save (chainsLocs v)) l := fun l hl => safe_save e hl
    exact ⟨i1.wrCstamp s1, fun l hl => (s1 l hl).of _ rfl⟩
  · next hst =>
    have hst : st.mem (.cstamp, v) = st.stamp := by simpa using hst
    refine ⟨h, fun l hl => ?_⟩
    obtain ⟨seg, e, L⟩ := h.lev
    by_cases hn : l.1 = .ncstr
    · exact .inr (.inl hn)
    by_cases hlt : v < csb
    · exact .inr (.inr ⟨seg, e, L.chnS v hv hlt (by rw [hst]; exact h.sig) l hl hn⟩)
    · refine .inl ?_
      simp only [chainsLocs, List.mem_cons, List.not_mem_nil, or_false] at hl
      rcases hl with rfl | rfl | rfl | rfl | rfl | rfl | rfl | rfl <;> exact Nat.not_lt.mp hlt

theorem trailChains_same (st : St) (v : Nat) : Same st (trailChains st v) := by
  unfold trailChains
  split
  · exact (Same.rfl.save _).wr _ _
  · exact Same.rfl

end Gp.Fd.Trail
