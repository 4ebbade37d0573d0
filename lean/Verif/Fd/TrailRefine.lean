import Verif.Fd.TrailGood
import Verif.Fd.TellSpec
import Verif.FdRange.Range
/-
The operations on the memory and the functions of `Verif.Fd.Tell` on values give the same variable; the other variables are kept.
-/
namespace Gp.Fd.Trail

open Gp.FdRange Gp.Fd

/-! ### Reading and writing vectors -/

theorem readVec_congr {m m' : Mem} {p size : Nat} (h : ∀ i < size, m' (.word, p + i) = m (.word, p + i)) :
    readVec m' p size = readVec m p size := by
  unfold readVec
  apply List.map_congr_left
  intro i hi
  rw [h i (by simpa using hi)]

theorem writeVec_other (ws : List (BitVec 64)) (m : Mem) (p : Nat) (l : Loc) (h : l.1 ≠ .word ∨ l.2 < p ∨ p + ws.length ≤ l.2) :
    writeVec m p ws l = m l := by
  induction ws generalizing m p with
  | nil => rfl
  | cons w ws ih =>
    show writeVec (m.set (.word, p) w.toNat) (p + 1) ws l = m l
    simp only [List.length_cons] at h
    have h' : l.1 ≠ .word ∨ l.2 < p + 1 ∨ p + 1 + ws.length ≤ l.2 := by
      rcases h with h | h | h
      · exact .inl h
      · exact .inr (.inl (by omega))
      · exact .inr (.inr (by omega))
    rw [ih _ _ h', set_apply, if_neg]
    rintro rfl
    rcases h with h | h | h
    · exact h rfl
    · exact absurd h (Nat.lt_irrefl p)
    · have h : p + (ws.length + 1) ≤ p := h
      omega

theorem writeVec_at (ws : List (BitVec 64)) (m : Mem) (p i : Nat) (h : i < ws.length) :
    writeVec m p ws (.word, p + i) = (ws[i].toNat : Int) := by
  induction ws generalizing m p i with
  | nil => cases h
  | cons w ws ih =>
    show writeVec (m.set (.word, p) w.toNat) (p + 1) ws (.word, p + i) = _
    cases i with
    | zero =>
      rw [writeVec_other _ _ _ _ (.inr (.inl (by show p + 0 < p + 1; omega)))]
      simp
    | succ i =>
      rw [show p + (i + 1) = p + 1 + i by omega]
      exact ih _ _ _ (by simpa using h)

theorem ofInt_toNat (w : BitVec 64) : BitVec.ofInt 64 (w.toNat : Int) = w := by
  apply BitVec.eq_of_toNat_eq
  have := w.isLt
  simp

theorem readVec_write (ws : List (BitVec 64)) (m : Mem) (p : Nat) : readVec (writeVec m p ws) p ws.length = ws := by
  apply List.ext_getElem
  · simp [readVec]
  · intro i h1 h2
    simp only [readVec, List.getElem_map, List.getElem_range]
    rw [writeVec_at _ _ _ _ h2, ofInt_toNat]

theorem readVec_length (m : Mem) (p size : Nat) : (readVec m p size).length = size := by simp [readVec]

theorem readVec_set (m : Mem) (p size n : Nat) :
    readVec (m.set (.word, p + n / 64) (((BitVec.ofInt 64 (m (.word, p + n / 64))) &&& ~~~ (1#64 <<< (n % 64))).toNat : Int)) p size
      = resetV (readVec m p size) n := by
  apply List.ext_getElem
  · simp [readVec, resetV]
  · intro i h1 h2
    have hi : i < size := by simpa [readVec] using h1
    simp only [readVec, resetV, List.getElem_map, List.getElem_range, List.getElem_modify, set_apply]
    by_cases e : n / 64 = i
    · subst e
      simp only [if_true]
      rw [ofInt_toNat]
    · rw [if_neg (by simp; omega), if_neg e]

theorem rangeOf_congr {c : Cfg} {m m' : Mem} {v : Nat} (h : ∀ f, f ≠ .word → m' (f, v) = m (f, v))
    (hw : (m (.vecp, v)).toNat ≠ 0 → ∀ i < c.size, m' (.word, (m (.vecp, v)).toNat + i) = m (.word, (m (.vecp, v)).toNat + i)) :
    rangeOf c m' v = rangeOf c m v := by
  unfold rangeOf
  rw [h .extra (by decide), h .min (by decide), h .max (by decide), h .vecp (by decide)]
  by_cases e : (m (.vecp, v)).toNat = 0
  · rw [if_pos e, if_pos e]
  · rw [if_neg e, if_neg e, readVec_congr (hw e)]

theorem fdvOf_congr {c : Cfg} {m m' : Mem} {v : Nat} (h : ∀ f, f ≠ .word → m' (f, v) = m (f, v))
    (hw : (m (.vecp, v)).toNat ≠ 0 → ∀ i < c.size, m' (.word, (m (.vecp, v)).toNat + i) = m (.word, (m (.vecp, v)).toNat + i)) :
    fdvOf c m' v = fdvOf c m v := by
  unfold fdvOf
  rw [h .tag (by decide), h .nb (by decide), rangeOf_congr h hw]

theorem tagOf_int (n : Int) : tagOf (intTag n) = some n := by
  unfold tagOf intTag
  rw [if_pos (by omega)]
  congr 1
  omega

theorem boolInt_ne (b : Bool) : toBool (boolInt b) = b := by cases b <;> rfl

/-! ### The writes on one variable -/

/-- Only the words of the frame of `v` and of its vector (or above the top) are written. -/
def Only (c : Cfg) (st st' : St) (v : Nat) : Prop :=
  ∀ l : Loc, (l.1 ≠ .word → l.2 ≠ v) → (l.1 = .word → l.2 < st.cs ∧
    (st.vecAdr v ≠ 0 → l.2 < st.vecAdr v ∨ st.vecAdr v + c.size ≤ l.2)) → st'.mem l = st.mem l

theorem Only.rfl {c st v} : Only c st st v := fun _ _ _ => Eq.refl _

theorem Only.wr {c} {st st' : St} {v} (h : Only c st st' v) {l : Loc} (hl : l.1 ≠ .word) (hv : l.2 = v) (x : Int) :
    Only c st (st'.wr l x) v := by
  intro k h1 h2
  rw [wr_mem, set_apply, if_neg]
  · exact h k h1 h2
  · rintro e
    subst e
    exact h1 hl hv

theorem Only.save {c} {st st' : St} {v} (h : Only c st st' v) (ls : List Loc) : Only c st (st'.save ls) v := h

theorem Only.frame {c vars stamp} {st st' : St} {v w : Nat} (b : Basic c vars st.mem st.cs stamp) (h : Only c st st' v)
    (hv : v ∈ vars) (hw : w ∈ vars) (hne : w ≠ v) : fdvOf c st'.mem w = fdvOf c st.mem w := by
  apply fdvOf_congr
  · intro f hf
    exact h (f, w) (fun _ => hne) (fun e => absurd e hf)
  · intro hp i hi
    obtain ⟨h1, h2⟩ := b.vec w hw hp
    refine h _ (fun e => absurd (Eq.refl _) e) (fun _ => ⟨by show (st.mem (.vecp, w)).toNat + i < st.cs; omega, fun hq => ?_⟩)
    rcases b.own w hw v hv hne hp hq with h3 | h3
    · left; show (st.mem (.vecp, w)).toNat + i < (st.mem (.vecp, v)).toNat; omega
    · right; show (st.mem (.vecp, v)).toNat + c.size ≤ (st.mem (.vecp, w)).toNat + i; omega

theorem trailRange_only (c : Cfg) (st : St) (v : Nat) : Only c st (trailRange c st v) v :=
  fun l h1 _ => trailRange_mem c st v l (fun e => by subst e; exact h1 (by simp) (Eq.refl _))

theorem trailInt_mem (c : Cfg) (st : St) (v : Nat) (l : Loc) (h : l ≠ (.rstamp, v)) : (trailInt c st v).mem l = st.mem l := by
  unfold trailInt
  split
  · rw [trailRange_mem _ _ _ _ h]; rfl
  · rfl

theorem updInt_only (c : Cfg) (st : St) (v : Nat) (n : Int) : Only c st (updInt c st v n) v := by
  have h : Only c st (trailInt c st v) v :=
    fun l h1 _ => trailInt_mem c st v l (fun e => by subst e; exact h1 (by simp) (Eq.refl _))
  unfold updInt intWrites
  repeat' refine Only.wr ?_ (by simp) (Eq.refl _) _
  exact h

theorem updInt_fdv (c : Cfg) (st : St) (v : Nat) (n : Int) :
    fdvOf c (updInt c st v n).mem v = setInt (fdvOf c st.mem v) n := by
  simp only [updInt, intWrites, fdvOf, rangeOf, setInt, wr_mem, set_apply]
  simp [tagOf_int, trailInt_mem]

theorem trailRange_fdv (c : Cfg) (st : St) (v : Nat) : fdvOf c (trailRange c st v).mem v = fdvOf c st.mem v := by
  have : (trailRange c st v).mem = fun l => if l = (.rstamp, v) then (trailRange c st v).mem l else st.mem l := by
    funext l
    split
    · rfl
    · next h => exact trailRange_mem c st v l h
  rw [this]
  simp [fdvOf, rangeOf, readVec]

theorem updInterval_only (c : Cfg) (st : St) (v : Nat) (nb min max : Int) : Only c st (updInterval c st v nb min max) v := by
  unfold updInterval
  split
  · repeat' refine Only.wr ?_ (by simp) (Eq.refl _) _
    exact trailRange_only c st v
  · exact Only.rfl

theorem updInterval_fdv (c : Cfg) (st : St) (v : Nat) (nb min max : Int) :
    fdvOf c (updInterval c st v nb min max).mem v = setInterval (fdvOf c st.mem v) nb min max := by
  have h := trailRange_fdv c st v
  unfold updInterval setInterval
  by_cases e : st.mem (.nb, v) = nb
  · rw [if_neg (by simpa using e), if_neg (by simpa [fdvOf] using e)]
  · rw [if_pos e, if_pos (by simpa [fdvOf] using e), ← h]
    simp [fdvOf, rangeOf, readVec]

theorem Only.alloc {c} {st st' : St} {v} (h : Only c st st' v) : Only c st (allocVec c st' v) v := by
  unfold allocVec
  split
  · intro l h1 h2
    show (st'.mem.set _ _) l = _
    rw [set_apply, if_neg (fun e => by subst e; exact h1 (by simp) (Eq.refl _))]
    exact h l h1 h2
  · exact h

/-- The words of the vector of `v`, or above the top, can be written. -/
theorem Only.vec {c} {st st' : St} {v} (h : Only c st st' v) (ws : List (BitVec 64)) (p : Nat)
    (hp : st.cs ≤ p ∨ (p = st.vecAdr v ∧ st.vecAdr v ≠ 0 ∧ ws.length ≤ c.size)) :
    Only c st { st' with mem := writeVec st'.mem p ws } v := by
  intro l h1 h2
  show writeVec st'.mem p ws l = st.mem l
  rw [writeVec_other, h l h1 h2]
  by_cases hw : l.1 = .word
  · obtain ⟨h3, h4⟩ := h2 hw
    rcases hp with hp | ⟨hp, hq, hr⟩
    · right; left; omega
    · have := h4 hq
      subst hp
      rcases this with h5 | h5
      · right; left; exact h5
      · right; right; omega
  · exact .inl hw

theorem rangeCopy_only (c : Cfg) (st : St) (v : Nat) (r : Range) (hr : ∀ ws, r.vec = some ws → ws.length = c.size) :
    Only c st (rangeCopy c st v r) v := by
  have h3 : Only c st (((st.wr (.extra, v) (boolInt r.extra)).wr (.min, v) r.min).wr (.max, v) r.max) v := by
    repeat' refine Only.wr ?_ (by simp) (Eq.refl _) _
    exact Only.rfl
  unfold rangeCopy
  dsimp only
  split
  · exact h3.wr (by simp) (Eq.refl _) _
  · next ws hws =>
    have e : (((st.wr (.extra, v) (boolInt r.extra)).wr (.min, v) r.min).wr (.max, v) r.max).vecAdr v = st.vecAdr v := by
      simp [St.vecAdr]
    have ecs : (((st.wr (.extra, v) (boolInt r.extra)).wr (.min, v) r.min).wr (.max, v) r.max).cs = st.cs := rfl
    generalize (((st.wr (.extra, v) (boolInt r.extra)).wr (.min, v) r.min).wr (.max, v) r.max) = st3 at h3 e ecs
    refine h3.alloc.vec ws _ ?_
    by_cases h0 : st3.vecAdr v = 0
    · left
      unfold allocVec
      rw [if_pos h0]
      simp [St.vecAdr, ecs]
    · right
      rw [e] at h0
      refine ⟨?_, h0, Nat.le_of_eq (hr ws hws)⟩
      simp [allocVec, e, h0]

theorem allocVec_mem (c : Cfg) (st : St) (v : Nat) (l : Loc) (h : l ≠ (.vecp, v)) : (allocVec c st v).mem l = st.mem l := by
  unfold allocVec
  split
  · show (st.mem.set _ _) l = _
    rw [set_apply, if_neg h]
  · rfl

theorem rangeCopy_fdv (c : Cfg) (st : St) (v : Nat) (r : Range) (hc : 0 < st.cs)
    (hr : ∀ ws, r.vec = some ws → ws.length = c.size) :
    fdvOf c (rangeCopy c st v r).mem v = ⟨tagOf (st.mem (.tag, v)), st.mem (.nb, v), r⟩ := by
  unfold rangeCopy
  dsimp only
  split
  · next hn =>
    simp only [fdvOf, rangeOf, wr_mem, set_apply]
    obtain ⟨e, mn, mx, vec⟩ := r
    subst hn
    simp [boolInt_ne]
  · next ws hws =>
    obtain ⟨e, mn, mx, vec⟩ := r
    subst hws
    have hl := hr ws rfl
    dsimp only
    generalize h3 : (((st.wr (.extra, v) (boolInt e)).wr (.min, v) mn).wr (.max, v) mx) = st3
    have ht : st3.mem (.tag, v) = st.mem (.tag, v) := by subst h3; simp
    have hnb : st3.mem (.nb, v) = st.mem (.nb, v) := by subst h3; simp
    have he : st3.mem (.extra, v) = boolInt e := by subst h3; simp
    have hmn : st3.mem (.min, v) = mn := by subst h3; simp
    have hmx : st3.mem (.max, v) = mx := by subst h3; simp
    have hcs : st3.cs = st.cs := by subst h3; rfl
    have hp : (allocVec c st3 v).vecAdr v ≠ 0 := by
      unfold allocVec
      split
      · simp [St.vecAdr]; omega
      · next h => exact h
    have hp' : ((allocVec c st3 v).mem (.vecp, v)).toNat ≠ 0 := hp
    unfold fdvOf rangeOf
    simp only [writeVec_other _ _ _ (Field.tag, v) (.inl (by simp)), writeVec_other _ _ _ (Field.nb, v) (.inl (by simp)),
      writeVec_other _ _ _ (Field.extra, v) (.inl (by simp)), writeVec_other _ _ _ (Field.min, v) (.inl (by simp)),
      writeVec_other _ _ _ (Field.max, v) (.inl (by simp)), writeVec_other _ _ _ (Field.vecp, v) (.inl (by simp))]
    rw [if_neg hp', allocVec_mem _ _ _ _ (by simp), allocVec_mem _ _ _ _ (by simp), allocVec_mem _ _ _ _ (by simp),
      allocVec_mem _ _ _ _ (by simp), allocVec_mem _ _ _ _ (by simp), ht, hnb, he, hmn, hmx, boolInt_ne]
    have := readVec_write ws (allocVec c st3 v).mem ((allocVec c st3 v).vecAdr v)
    rw [hl] at this
    unfold St.vecAdr at this ⊢
    rw [this]

theorem updRange_only (c : Cfg) (st : St) (v : Nat) (nb : Int) (r : Range) (hr : ∀ ws, r.vec = some ws → ws.length = c.size) :
    Only c st (updRange c st v nb r) v := by
  unfold updRange
  split
  · have h1 := trailRange_only c st v
    have h2 := h1.wr (l := (.nb, v)) (by simp) rfl nb
    have ecs : ((trailRange c st v).wr (.nb, v) nb).cs = st.cs := by
      rw [wr_cs]; unfold trailRange; split
      · dsimp only; split <;> rfl
      · rfl
    have ev : ((trailRange c st v).wr (.nb, v) nb).vecAdr v = st.vecAdr v := by
      rw [← vecAdr_trailRange c st v v]; simp [St.vecAdr]
    have h3 := rangeCopy_only c ((trailRange c st v).wr (.nb, v) nb) v r hr
    intro l q1 q2
    rw [h3 l q1 (by rw [ecs, ev]; exact q2), h2 l q1 q2]
  · split
    · unfold bindExtra
      dsimp only
      split
      · repeat' refine Only.wr ?_ (by simp) rfl _
        exact Only.rfl.save _
      · repeat' refine Only.wr ?_ (by simp) rfl _
        exact Only.rfl
    · exact Only.rfl

theorem vecAdr_none (c : Cfg) (st : St) (v : Nat) : (fdvOf c st.mem v).r.vec.isNone = decide (st.vecAdr v = 0) := by
  unfold fdvOf rangeOf St.vecAdr
  dsimp only
  split <;> simp [*]

theorem bindExtra_fdv (c : Cfg) (st : St) (v : Nat) (b : Bool) :
    fdvOf c (bindExtra st v b).mem v =
      ⟨(fdvOf c st.mem v).tag, (fdvOf c st.mem v).nb, ⟨b, 0, (fdvOf c st.mem v).r.max, (fdvOf c st.mem v).r.vec⟩⟩ := by
  unfold bindExtra
  dsimp only
  split <;> simp [fdvOf, rangeOf, readVec, boolInt_ne]

theorem trailRange_cs (c : Cfg) (st : St) (v : Nat) : (trailRange c st v).cs = st.cs := by
  unfold trailRange
  split
  · dsimp only; split <;> rfl
  · rfl

theorem updRange_fdv (c : Cfg) (st : St) (v : Nat) (nb : Int) (r : Range) (hc : 0 < st.cs)
    (hr : ∀ ws, r.vec = some ws → ws.length = c.size) :
    fdvOf c (updRange c st v nb r).mem v = (Gp.Fd.updRange (fdvOf c st.mem v) nb r).1 := by
  have cond : (st.mem (.min, v) ≠ r.min ∨ st.mem (.max, v) ≠ r.max ∨ st.mem (.nb, v) ≠ nb ∨ (st.vecAdr v = 0 ∧ r.vec.isSome)) ↔
      ((rangeEv (fdvOf c st.mem v) nb r).any || ((fdvOf c st.mem v).r.vec.isNone && r.vec.isSome)) = true := by
    rw [vecAdr_none]
    simp only [rangeEv, Ev.any, fdvOf, rangeOf]
    simp
    constructor
    · rintro (h | h | h | h) <;> simp [h]
    · intro h
      grind
  unfold updRange Gp.Fd.updRange
  by_cases h : (st.mem (.min, v) ≠ r.min ∨ st.mem (.max, v) ≠ r.max ∨ st.mem (.nb, v) ≠ nb ∨ (st.vecAdr v = 0 ∧ r.vec.isSome))
  · rw [if_pos h, if_pos (cond.mp h)]
    rw [rangeCopy_fdv _ _ _ _ (by rw [wr_cs, trailRange_cs]; exact hc) hr]
    simp only [wr_mem, set_apply, copy, fdvOf]
    simp [trailRange_mem]
  · rw [if_neg h, if_neg (fun h' => h (cond.mpr h'))]
    by_cases h2 : toBool (st.mem (.extra, v)) ≠ r.extra
    · rw [if_pos h2, if_pos (by exact h2)]
      exact bindExtra_fdv c st v r.extra
    · rw [if_neg h2, if_neg (by exact h2)]

theorem toSparse_only (c : Cfg) (hc : c.Ok) (st : St) (v : Nat) (h0 : st.vecAdr v = 0) : Only c st (toSparse c st v) v := by
  have hvn : (rangeOf c (trailRange c st v).mem v).vec = none := by
    have := vecAdr_none c (trailRange c st v) v
    rw [vecAdr_trailRange, h0] at this
    simpa [fdvOf] using this
  obtain ⟨_, ⟨w, hw, hl⟩, _⟩ := becomesSparse_spec c hc _ hvn
  unfold toSparse
  dsimp only
  refine Only.wr ?_ (by simp) rfl _
  have h1 := trailRange_only c st v
  have h3 := rangeCopy_only c (trailRange c st v) v (becomesSparse c (rangeOf c (trailRange c st v).mem v))
    (fun ws h => by rw [hw] at h; cases h; exact hl)
  intro l q1 q2
  rw [h3 l q1 (by rw [trailRange_cs, vecAdr_trailRange]; exact q2), h1 l q1 q2]

theorem toSparse_fdv (c : Cfg) (hc : c.Ok) (st : St) (v : Nat) (hcs : 0 < st.cs) (h0 : st.vecAdr v = 0) :
    fdvOf c (toSparse c st v).mem v = ⟨(fdvOf c st.mem v).tag, (becomesSparse c (fdvOf c st.mem v).r).max -
      (becomesSparse c (fdvOf c st.mem v).r).min + 1, becomesSparse c (fdvOf c st.mem v).r⟩ := by
  have e : rangeOf c (trailRange c st v).mem v = (fdvOf c st.mem v).r := by rw [← trailRange_fdv]; rfl
  have hvn : (fdvOf c st.mem v).r.vec = none := by
    have := vecAdr_none c st v
    rw [h0] at this
    simpa using this
  obtain ⟨_, ⟨w, hw, hl⟩, _⟩ := becomesSparse_spec c hc _ hvn
  unfold toSparse
  dsimp only
  rw [e]
  have h3 := rangeCopy_fdv c (trailRange c st v) v (becomesSparse c (fdvOf c st.mem v).r) (by rw [trailRange_cs]; exact hcs)
    (fun ws h => by rw [hw] at h; cases h; exact hl)
  generalize rangeCopy c (trailRange c st v) v (becomesSparse c (fdvOf c st.mem v).r) = st3 at h3
  have e2 : fdvOf c (st3.wr (.nb, v) ((becomesSparse c (fdvOf c st.mem v).r).max -
      (becomesSparse c (fdvOf c st.mem v).r).min + 1)).mem v =
      ⟨(fdvOf c st3.mem v).tag, (becomesSparse c (fdvOf c st.mem v).r).max -
      (becomesSparse c (fdvOf c st.mem v).r).min + 1, (fdvOf c st3.mem v).r⟩ := by
    simp [fdvOf, rangeOf, readVec]
  rw [e2, h3, trailRange_mem _ _ _ _ (by simp)]
  rfl

theorem remove_only (c : Cfg) (st : St) (v : Nat) (n : Int) (hn : st.vecAdr v ≠ 0 → n.toNat / 64 < c.size) :
    Only c st (remove c st v n) v := by
  have h2 : Only c st (if (trailRange c st v).vecAdr v ≠ 0 then resetWord (trailRange c st v) v n.toNat
      else trailRange c st v) v := by
    split
    · next hp =>
      intro l q1 q2
      show ((trailRange c st v).mem.set _ _) l = _
      rw [set_apply, if_neg]
      · exact trailRange_only c st v l q1 q2
      · rintro rfl
        have := (q2 rfl).2
        rw [vecAdr_trailRange] at hp this
        have h3 := hn hp
        have := this hp
        simp only at this
        omega
    · exact trailRange_only c st v
  unfold remove
  dsimp only
  generalize (if (trailRange c st v).vecAdr v ≠ 0 then resetWord (trailRange c st v) v n.toNat
      else trailRange c st v) = st2 at h2
  have h3 := h2.wr (l := (.nb, v)) (by simp) rfl (st2.mem (.nb, v) - 1)
  split
  · exact h3.wr (by simp) rfl _
  · split
    · exact h3.wr (by simp) rfl _
    · exact h3

theorem remove_fdv (c : Cfg) (st : St) (v : Nat) (n : Int) (h2 : (fdvOf c st.mem v).nb ≠ 2) :
    fdvOf c (remove c st v n).mem v = (removeValue c (fdvOf c st.mem v) n).v := by
  have e2 : fdvOf c (if (trailRange c st v).vecAdr v ≠ 0 then resetWord (trailRange c st v) v n.toNat
      else trailRange c st v).mem v = ⟨(fdvOf c st.mem v).tag, (fdvOf c st.mem v).nb, ⟨(fdvOf c st.mem v).r.extra,
        (fdvOf c st.mem v).r.min, (fdvOf c st.mem v).r.max, (fdvOf c st.mem v).r.vec.map (fun w => resetV w n.toNat)⟩⟩ := by
    rw [← trailRange_fdv c st v]
    generalize trailRange c st v = st1
    by_cases hp : st1.vecAdr v = 0
    · rw [if_neg (by simpa using hp)]
      have hp' : (st1.mem (.vecp, v)).toNat = 0 := hp
      simp [fdvOf, rangeOf, hp']
    · rw [if_pos hp]
      have hp' : (st1.mem (.vecp, v)).toNat ≠ 0 := hp
      have := readVec_set st1.mem (st1.vecAdr v) c.size n.toNat
      simp only [resetWord, fdvOf, rangeOf, wr_mem]
      simp only [set_apply, Prod.mk.injEq, reduceCtorEq, false_and, if_false, if_neg hp', Option.map_some]
      unfold St.vecAdr at this ⊢
      rw [this]
  unfold remove removeValue
  dsimp only
  rw [if_neg h2]
  generalize (if (trailRange c st v).vecAdr v ≠ 0 then resetWord (trailRange c st v) v n.toNat
      else trailRange c st v) = st2 at e2
  generalize hf : fdvOf c st.mem v = f at e2
  have hmin : st.mem (.min, v) = f.r.min := by rw [← hf]; rfl
  have hmax : st.mem (.max, v) = f.r.max := by rw [← hf]; rfl
  rw [hmin, hmax]
  have t1 : tagOf (st2.mem (.tag, v)) = f.tag := congrArg Fdv.tag e2
  have t2 : st2.mem (.nb, v) = f.nb := congrArg Fdv.nb e2
  have t3 : rangeOf c st2.mem v = ⟨f.r.extra, f.r.min, f.r.max, f.r.vec.map (fun w => resetV w n.toNat)⟩ := congrArg Fdv.r e2
  have t4 : toBool (st2.mem (.extra, v)) = f.r.extra := congrArg Range.extra t3
  have t5 : st2.mem (.min, v) = f.r.min := congrArg Range.min t3
  have t6 : st2.mem (.max, v) = f.r.max := congrArg Range.max t3
  have t7 : (if (st2.mem (.vecp, v)).toNat = 0 then none else some (readVec st2.mem (st2.mem (.vecp, v)).toNat c.size)) =
    f.r.vec.map (fun w => resetV w n.toNat) := congrArg Range.vec t3
  have k : ∀ x : Int, readVec (Mem.set st2.mem (.nb, v) x) (st2.mem (.vecp, v)).toNat c.size =
      readVec st2.mem (st2.mem (.vecp, v)).toNat c.size := fun x => by simp [readVec]
  have k2 : ∀ (x y : Int) (g : Field), g ≠ .word → readVec (Mem.set (Mem.set st2.mem (.nb, v) x) (g, v) y) (st2.mem (.vecp, v)).toNat c.size =
      readVec st2.mem (st2.mem (.vecp, v)).toNat c.size := fun x y g hg => by simp [readVec, Ne.symm hg]
  by_cases hp : (st2.mem (.vecp, v)).toNat = 0
  · rw [if_pos hp] at t7
    have hn : f.r.vec = none := by
      cases hv : f.r.vec with
      | none => rfl
      | some w => rw [hv] at t7; cases t7
    have hp2 : (st2.wr (.nb, v) (st2.mem (.nb, v) - 1)).vecAdr v = 0 := by simp [St.vecAdr, hp]
    rw [if_pos hp2, if_pos hp2, hn]
    split
    · simp [fdvOf, rangeOf, t1, t2, t4, t6, hp]
    · split
      · simp [fdvOf, rangeOf, t1, t2, t4, t5, hp]
      · simp [fdvOf, rangeOf, t1, t2, t4, t5, t6, hp]
  · rw [if_neg hp] at t7
    obtain ⟨w, hw⟩ : ∃ w, f.r.vec = some w := by
      cases hv : f.r.vec with
      | none => rw [hv] at t7; cases t7
      | some w => exact ⟨w, rfl⟩
    have hp2 : (st2.wr (.nb, v) (st2.mem (.nb, v) - 1)).vecAdr v ≠ 0 := by simpa [St.vecAdr] using hp
    have ew : readVec st2.mem (st2.mem (.vecp, v)).toNat c.size = resetV w n.toNat := by
      rw [hw] at t7
      exact Option.some.inj t7
    have ew2 : readVec (st2.wr (.nb, v) (st2.mem (.nb, v) - 1)).mem ((st2.wr (.nb, v) (st2.mem (.nb, v) - 1)).vecAdr v) c.size
        = resetV w n.toNat := by
      rw [← ew, ← k (st2.mem (.nb, v) - 1)]
      simp [St.vecAdr]
    rw [if_neg hp2, if_neg hp2, hw, ew2]
    split
    · simp [fdvOf, rangeOf, t1, t2, t4, t6, hp, k2, ew]
    · split
      · simp [fdvOf, rangeOf, t1, t2, t4, t5, hp, k2, ew]
      · simp [fdvOf, rangeOf, t1, t2, t4, t5, t6, hp, k, ew]

/-! ### The tells -/

/-- Some operations of a history. -/
inductive Steps (c : Cfg) : St → St → Prop where
  | refl {st} : Steps c st st
  | step {st st'} (op : Op) : Steps c st st' → OpOk c st' op → (∀ l, snapStep st' l op = l) → Steps c st (Trail.step c st' op)

theorem Steps.one {c} {st : St} (op : Op) (h : OpOk c st op) (hs : ∀ l, snapStep st l op = l) : Steps c st (Trail.step c st op) :=
  .step op .refl h hs

theorem Steps.trans {c} {a b d : St} (h : Steps c a b) (h' : Steps c b d) : Steps c a d := by
  induction h' with
  | refl => exact h
  | step op _ h1 h2 ih => exact .step op ih h1 h2

theorem Steps.reach {c} {st st' : St} {l} (h : Reach c st l) (h' : Steps c st st') : Reach c st' l := by
  induction h' with
  | refl => exact h
  | step op _ h1 h2 ih =>
    have := Reach.step op ih h1
    rw [h2] at this
    exact this

/-- What is proved of a tell: it is a history, it gives the variable `f`, the other variables are kept. -/
structure TellOk (c : Cfg) (st st' : St) (v : Nat) (f : Fdv) : Prop where
  steps : Steps c st st'
  fdv : fdvOf c st'.mem v = f
  others : ∀ w ∈ st.vars, w ≠ v → fdvOf c st'.mem w = fdvOf c st.mem w
  vars : st'.vars = st.vars

theorem TellOk.rfl {c st v} : TellOk c st st v (fdvOf c st.mem v) := ⟨.refl, Eq.refl _, fun _ _ _ => Eq.refl _, Eq.refl _⟩

/-- What is used of a reachable state. -/
structure Base (c : Cfg) (st : St) (v : Nat) : Prop where
  ok : c.Ok
  bas : Basic c st.vars st.mem st.cs st.stamp
  mem : v ∈ st.vars

theorem updInt_ok {c st v} (b : Base c st v) (n : Int) : TellOk c st (updInt c st v n) v (setInt (fdvOf c st.mem v) n) :=
  ⟨Steps.one (.updInt v n) b.mem (fun _ => rfl), updInt_fdv c st v n,
    fun _ hw hne => (updInt_only c st v n).frame b.bas b.mem hw hne, (trailInt_same c st v).vars⟩

theorem updInterval_ok {c st v} (b : Base c st v) (nb min max : Int) :
    TellOk c st (updInterval c st v nb min max) v (setInterval (fdvOf c st.mem v) nb min max) := by
  refine ⟨Steps.one (.updInterval v nb min max) b.mem (fun _ => rfl), updInterval_fdv c st v nb min max,
    fun _ hw hne => (updInterval_only c st v nb min max).frame b.bas b.mem hw hne, ?_⟩
  unfold updInterval
  split
  · exact (trailRange_same c st v).vars
  · rfl

theorem updRange_ok {c st v} (b : Base c st v) (nb : Int) (r : Range) (hr : ∀ ws, r.vec = some ws → ws.length = c.size) :
    TellOk c st (updRange c st v nb r) v (Gp.Fd.updRange (fdvOf c st.mem v) nb r).1 := by
  refine ⟨Steps.one (.updRange v nb r) ⟨b.mem, fun ws h => Nat.le_of_eq (hr ws h)⟩ (fun _ => rfl),
    updRange_fdv c st v nb r b.bas.pos hr, fun _ hw hne => (updRange_only c st v nb r hr).frame b.bas b.mem hw hne, ?_⟩
  unfold updRange
  split
  · exact (rangeCopy_same c _ v r).vars.trans (trailRange_same c st v).vars
  · split
    · unfold bindExtra
      dsimp only
      split <;> rfl
    · rfl

theorem toSparse_vars (c : Cfg) (st : St) (v : Nat) : (toSparse c st v).vars = st.vars :=
  (rangeCopy_same c _ v _).vars.trans (trailRange_same c st v).vars

theorem toSparse_ok {c st v} (b : Base c st v) (h0 : st.vecAdr v = 0) :
    TellOk c st (toSparse c st v) v ⟨(fdvOf c st.mem v).tag, (becomesSparse c (fdvOf c st.mem v).r).max -
      (becomesSparse c (fdvOf c st.mem v).r).min + 1, becomesSparse c (fdvOf c st.mem v).r⟩ :=
  ⟨Steps.one (.toSparse v) ⟨b.mem, h0⟩ (fun _ => rfl), toSparse_fdv c b.ok st v b.bas.pos h0,
    fun _ hw hne => (toSparse_only c b.ok st v h0).frame b.bas b.mem hw hne, toSparse_vars c st v⟩

theorem remove_vars (c : Cfg) (st : St) (v : Nat) (n : Int) : (remove c st v n).vars = st.vars := by
  have e := (trailRange_same c st v).vars
  have e2 : (if (trailRange c st v).vecAdr v ≠ 0 then resetWord (trailRange c st v) v n.toNat
      else trailRange c st v).vars = st.vars := by split <;> exact e
  unfold remove
  dsimp only
  generalize (if (trailRange c st v).vecAdr v ≠ 0 then resetWord (trailRange c st v) v n.toNat
      else trailRange c st v) = st2 at e2
  split
  · exact e2
  · split <;> exact e2

theorem remove_ok {c st v} (b : Base c st v) (n : Int) (hn : st.vecAdr v ≠ 0 → n.toNat / 64 < c.size)
    (h2 : (fdvOf c st.mem v).nb ≠ 2) :
    TellOk c st (remove c st v n) v (removeValue c (fdvOf c st.mem v) n).v :=
  ⟨Steps.one (.remove v n) ⟨b.mem, hn⟩ (fun _ => rfl), remove_fdv c st v n h2,
    fun _ hw hne => (remove_only c st v n hn).frame b.bas b.mem hw hne, remove_vars c st v n⟩

theorem TellOk.trans {c} {st st' st'' : St} {v : Nat} {f f' : Fdv} (h : TellOk c st st' v f) (h' : TellOk c st' st'' v f') :
    TellOk c st st'' v f' :=
  ⟨h.steps.trans h'.steps, h'.fdv, fun w hw hne => by
    rw [h'.others w (by rw [h.vars]; exact hw) hne, h.others w hw hne], h'.vars.trans h.vars⟩

theorem steps_basic {c} {st st' : St} (h : Steps c st st') (l : List Snap) (g : GoodSt c st l) : GoodSt c st' l := by
  induction h with
  | refl => exact g
  | step op _ h1 h2 ih =>
    have := step_good op ih h1
    rw [h2] at this
    exact this

theorem GoodSt.basic {c st l} (g : GoodSt c st l) : Basic c st.vars st.mem st.cs st.stamp := by
  obtain ⟨L, _, _, h⟩ := g
  exact h.basic

theorem vecAdr_of_none {c : Cfg} {st : St} {v : Nat} (h : (fdvOf c st.mem v).r.vec = none) : st.vecAdr v = 0 := by
  have := vecAdr_none c st v
  rw [h] at this
  simpa using this.symm

theorem test_lt {c : Cfg} {r : Range} (hw : WF c r) {n : Int} (h : testValue r n = true) (hs : r.vec ≠ none) (h0 : 0 ≤ r.min) :
    n.toNat / 64 < c.size := by
  unfold testValue at h
  split at h
  · cases h
  · next hb =>
    cases hv : r.vec with
    | none => exact absurd hv hs
    | some w =>
      obtain ⟨hl, hm⟩ := hw.2 w hv
      have hle : r.min ≤ r.max := by omega
      obtain ⟨_, hmx, _⟩ := hm hle
      unfold FdRange.Mem at hmx
      rw [hv] at hmx
      have hlt := bit_lt hmx.2.2
      rw [hl] at hlt
      omega

theorem notBody_ok {c st v} (l : List Snap) (g : GoodSt c st l) (hc : c.Ok) (hv : v ∈ st.vars) (hw : WF c (fdvOf c st.mem v).r)
    (h0 : 0 ≤ (fdvOf c st.mem v).r.min) (n : Int) (again : St → Nat → St) (again' : Fdv → Res)
    (ha : (fdvOf c st.mem v).r.vec = none → testValue (fdvOf c st.mem v).r n = true →
      TellOk c (toSparse c st v) (again (toSparse c st v) v) v (again' (fdvOf c (toSparse c st v).mem v)).v) :
    TellOk c st (notBodyM c n again st v) v (notBody c n again' (fdvOf c st.mem v)).v := by
  have b : Base c st v := ⟨hc, g.basic, hv⟩
  unfold notBodyM notBody
  dsimp only
  by_cases h1 : testValue (fdvOf c st.mem v).r n = false
  · rw [if_pos h1, if_pos h1]; exact TellOk.rfl
  · rw [if_neg h1, if_neg h1]
    have h1 : testValue (fdvOf c st.mem v).r n = true := by simpa using h1
    by_cases h2 : (fdvOf c st.mem v).ground = true
    · rw [if_pos h2, if_pos h2]; exact TellOk.rfl
    · rw [if_neg h2, if_neg h2]
      by_cases h3 : (fdvOf c st.mem v).r.vec = none ∧ n ≠ (fdvOf c st.mem v).r.min ∧ n ≠ (fdvOf c st.mem v).r.max
      · rw [if_pos h3, if_pos h3]
        by_cases h4 : (fdvOf c st.mem v).r.min > c.vmax
        · rw [if_pos h4, if_pos h4]; exact TellOk.rfl
        · rw [if_neg h4, if_neg h4]
          by_cases h5 : (fdvOf c st.mem v).r.min = c.vmax
          · rw [if_pos h5, if_pos h5]; exact updInt_ok b _
          · rw [if_neg h5, if_neg h5]
            have t := toSparse_ok b (vecAdr_of_none h3.1)
            have a := ha h3.1 h1
            rw [t.fdv] at a
            have := t.trans a
            split <;> exact this
      · rw [if_neg h3, if_neg h3]
        by_cases h4 : (fdvOf c st.mem v).nb = 2
        · rw [if_pos h4]
          unfold removeValue
          rw [if_pos h4]
          exact updInt_ok b _
        · rw [if_neg h4]
          refine remove_ok b n (fun hp => test_lt hw h1 (fun e => hp (vecAdr_of_none e)) h0) h4

theorem notBody_sparse {c : Cfg} {n : Int} {f : Fdv} (a a' : Fdv → Res) (h : f.r.vec ≠ none) :
    notBody c n a f = notBody c n a' f := by
  unfold notBody
  rw [if_neg (fun e : f.r.vec = none ∧ _ => h e.1), if_neg (fun e : f.r.vec = none ∧ _ => h e.1)]

theorem rangeRange_ok {c st v} (l : List Snap) (g : GoodSt c st l) (hc : c.Ok) (hv : v ∈ st.vars) (hw : WF c (fdvOf c st.mem v).r)
    (r : Range) (hr : WF c r) : TellOk c st (tellRangeRangeM c st v r) v (tellRangeRange c (fdvOf c st.mem v) r).v := by
  have b : Base c st v := ⟨hc, g.basic, hv⟩
  have hi := inter_wf c hc r _ hr hw
  unfold tellRangeRangeM tellRangeRange
  dsimp only
  generalize inter c r (fdvOf c st.mem v).r = q at hi
  by_cases h1 : q.isEmpty = true
  · rw [if_pos h1, if_pos h1]; exact TellOk.rfl
  · rw [if_neg h1, if_neg h1]
    by_cases h2 : q.min = q.max
    · rw [if_pos h2, if_pos h2]; exact updInt_ok b _
    · rw [if_neg h2, if_neg h2]
      exact updRange_ok b _ _ (fun ws h => (hi.2 ws h).1)

/-- The tells on the memory. -/
theorem tell_ok {c st v} (l : List Snap) (g : GoodSt c st l) (hc : c.Ok) (hv : v ∈ st.vars) (hw : WF c (fdvOf c st.mem v).r)
    (h0 : 0 ≤ (fdvOf c st.mem v).r.min) (op : Gp.Fd.Op) (hr : ∀ r, op = .range r → WF c r)
    (hi : ∀ a b, op = .interval a b → -2147483648 < a) :
    TellOk c st (tellM c st v op) v (tell c (fdvOf c st.mem v) op).v := by
  have b : Base c st v := ⟨hc, g.basic, hv⟩
  cases op with
  | value n =>
    unfold tellM tell tellValueM tellValue
    dsimp only
    by_cases h1 : testValue (fdvOf c st.mem v).r n = false
    · rw [if_pos h1, if_pos h1]; exact TellOk.rfl
    · rw [if_neg h1, if_neg h1]
      by_cases h2 : (fdvOf c st.mem v).ground = true
      · rw [if_pos h2, if_pos h2]; exact TellOk.rfl
      · rw [if_neg h2, if_neg h2]; exact updInt_ok b _
  | notValue n =>
    unfold tellM tell tellNotValueM tellNotValue
    dsimp only
    refine notBody_ok l g hc hv hw h0 n _ _ (fun hn ht => ?_)
    have t := toSparse_ok b (vecAdr_of_none hn)
    have g' := steps_basic t.steps l g
    obtain ⟨hw', ⟨w, hvw, _⟩, _⟩ := becomesSparse_spec c hc _ hn
    have hne : (fdvOf c (toSparse c st v).mem v).r.vec ≠ none := by rw [t.fdv]; simp [hvw]
    have hmin : 0 ≤ (fdvOf c (toSparse c st v).mem v).r.min := by
      rw [t.fdv]
      show 0 ≤ (if (fdvOf c st.mem v).r.min < 0 then 0 else (fdvOf c st.mem v).r.min)
      split <;> omega
    refine notBody_ok l g' hc (by rw [t.vars]; exact hv) (by rw [t.fdv]; exact hw') hmin n _ _ (fun e => absurd e hne)
  | interval min max =>
    unfold tellM tell tellInterval
    dsimp only
    by_cases h2 : (fdvOf c st.mem v).ground = true
    · rw [if_pos h2, if_pos h2]; exact TellOk.rfl
    · rw [if_neg h2, if_neg h2]
      by_cases h3 : (fdvOf c st.mem v).r.vec.isSome = true
      · rw [if_pos h3, if_pos h3]
        exact rangeRange_ok l g hc hv hw _ ⟨hi _ _ rfl, fun _ h => by cases h⟩
      · rw [if_neg h3, if_neg h3]
        unfold tellIntervIntervM tellIntervInterv
        dsimp only
        generalize (if min ≥ (fdvOf c st.mem v).r.min then min else (fdvOf c st.mem v).r.min) = mn
        generalize (if max ≤ (fdvOf c st.mem v).r.max then max else (fdvOf c st.mem v).r.max) = mx
        by_cases h4 : mn > mx
        · rw [if_pos h4, if_pos h4]; exact TellOk.rfl
        · rw [if_neg h4, if_neg h4]
          by_cases h5 : mn = mx
          · rw [if_pos h5, if_pos h5]; exact updInt_ok b _
          · rw [if_neg h5, if_neg h5]; exact updInterval_ok b _ _ _
  | range r =>
    unfold tellM tell tellRange
    dsimp only
    by_cases h2 : (fdvOf c st.mem v).ground = true
    · rw [if_pos h2, if_pos h2]
      unfold tellIntRange
      split <;> exact TellOk.rfl
    · rw [if_neg h2, if_neg h2]
      exact rangeRange_ok l g hc hv hw r (hr r rfl)

end Gp.Fd.Trail
