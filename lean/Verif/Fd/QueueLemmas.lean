import Verif.Fd.QueueSpec
/- Lemmas for the propagation: one tell. -/
namespace Gp.Fd

open Gp.FdRange

/-! ### A tell with no loss -/

theorem noLoss_flag {c : Cfg} {v : Fdv} {r : Range} (hc : c.Ok) (hv : VarOk c v) (hg : v.tag = none) (he : v.r.extra = false)
    (hw : WF c r) (hx : (tellRangeRange c v r).ok = true → (tellRangeRange c v r).v.r.extra = false) : FlagOk c v r := by
  intro hall
  cases hi : (inter c r v.r).extra with
  | false => exact Or.inl he.symm
  | true =>
    exfalso
    have hmem := fun n => inter_mem c hc r v.r hw hv.wf n
    have hwi := inter_wf c hc r v.r hw hv.wf
    have hbv := bounds_mem c v.r hv.wf hv.ne
    have hin : ∀ n, Mem v.r n → Mem (inter c r v.r) n := fun n hn => (hmem n).2 ⟨hall n hn, hn⟩
    have hne : (inter c r v.r).min ≤ (inter c r v.r).max := (hin _ hbv.1).1
    have hb := bounds_mem c _ hwi hne
    have h1 := hb.2.2 _ (hin _ hbv.1)
    have h2 := hb.2.2 _ (hin _ hbv.2.1)
    have hlt := hv.fdv hg
    unfold tellRangeRange at hx
    dsimp only at hx
    rw [if_neg (by rw [(isEmpty_false _).2 hne]; simp), if_neg (by omega)] at hx
    have hx := hx rfl
    unfold updRange at hx
    split at hx
    · simp only [copy] at hx
      rw [hi] at hx; cases hx
    · rw [if_pos (by rw [he, hi]; simp)] at hx
      simp only at hx
      rw [hi] at hx; cases hx

/-- A tell with no loss is exact. -/
theorem tell_exact {c : Cfg} (hc : c.Ok) {v : Fdv} {op : Op} (hv : VarOk c v) (he : v.r.extra = false) (hn : NoLoss c v op) :
    ((tell c v op).ok = false → ∀ n : Nat, Mem v.r n → ¬ opMem op n) ∧
    ((tell c v op).ok = true → VarOk c (tell c v op).v ∧ (∀ n : Nat, Mem (tell c v op).v.r n ↔ Mem v.r n ∧ opMem op n) ∧
      EvOk v (tell c v op).v False (tell c v op).ev) := by
  obtain ⟨hw, hwarn, hext⟩ := hn
  have hT : VRepr c v (fun n => Mem v.r n) := ⟨fun _ h => h, fun _ h => Or.inl h⟩
  have hop : OpOk c v (fun n => opMem op n) op := by
    cases op with
    | value m => exact trivial
    | notValue m => exact trivial
    | interval a b =>
      refine ⟨hw, fun hg hvec => noLoss_flag hc hv hg he (wf_none rfl hw) ?_⟩
      have hgr := (ground_iff v).2 hg
      unfold tell tellInterval at hext
      simp only [hgr, Bool.false_eq_true, if_false] at hext
      rw [if_pos] at hext
      · exact hext
      · cases hx : v.r.vec with
        | none => exact absurd hx hvec
        | some _ => rfl
    | range r =>
      refine ⟨⟨hw, fun _ _ => Iff.rfl, fun hx _ n hn => ?_⟩, fun hg => noLoss_flag hc hv hg he hw ?_⟩
      · cases hr : r.vec with
        | none => exact absurd hr hx
        | some w => exact mem_win hw hr hn
      · have hgr := (ground_iff v).2 hg
        unfold tell tellRange at hext
        simp only [hgr, Bool.false_eq_true, if_false] at hext
        exact hext
  have told := C25_told c hc v _ _ op hv hT hop
  have hset : ∀ n, op.set (fun n => opMem op n) n ↔ opMem op n := by
    intro n; cases op <;> exact Iff.rfl
  refine ⟨fun h n hm hp => ?_, fun h => ⟨told.ok h, fun n => ⟨fun hm => ?_, fun hm => ?_⟩, ?_⟩⟩
  · rcases (told.fail h n hm ((hset n).2 hp)).2 with h' | h'
    · rw [hwarn] at h'; cases h'
    · rw [he] at h'; cases h'.2
  · have := told.sound h n hm
    exact ⟨this.1, (hset n).1 this.2.2⟩
  · rcases (told.repr h hwarn).2 n ⟨hm.1, (hset n).2 hm.2⟩ with h' | h'
    · exact h'
    · rw [hext h] at h'; cases h'.2.1
  · obtain ⟨b1, b2, b3, b4, b5⟩ := told.ev h
    refine ⟨b1, b2, b3, ?_, b5⟩
    rw [b4]
    refine or_congr Iff.rfl ⟨fun hf => ?_, fun hf => hf.elim⟩
    have hfl : ¬ FlagOnly v (tell c v op).v := fun hf => hf.2.1 (by rw [hext h, he])
    cases op with
    | value m => exact hf
    | notValue m => exact hf
    | interval a b => exact hfl hf.2.2
    | range r => exact hfl hf.2

/-! ### Masks -/

theorem any_iff (e : Ev) : e.any = true ↔ ∃ i, e.bit i = true := by
  unfold Ev.any
  constructor
  · intro h
    simp only [Bool.or_eq_true] at h
    rcases h with (((h | h) | h) | h) | h
    · exact ⟨0, h⟩
    · exact ⟨1, h⟩
    · exact ⟨2, h⟩
    · exact ⟨3, h⟩
    · exact ⟨4, h⟩
  · rintro ⟨i, h⟩
    match i, h with
    | 0, h => simp only [Ev.bit] at h; simp [h]
    | 1, h => simp only [Ev.bit] at h; simp [h]
    | 2, h => simp only [Ev.bit] at h; simp [h]
    | 3, h => simp only [Ev.bit] at h; simp [h]
    | 4, h => simp only [Ev.bit] at h; simp [h]

theorem any_false (e : Ev) (h : e.any = false) (i : Fin 5) : e.bit i = false := by
  cases hb : e.bit i with
  | false => rfl
  | true => rw [(any_iff e).2 ⟨i, hb⟩] at h; cases h

theorem bit_or (a b : Ev) (i : Fin 5) : (a.or b).bit i = (a.bit i || b.bit i) := by
  match i with
  | 0 => rfl
  | 1 => rfl
  | 2 => rfl
  | 3 => rfl
  | 4 => rfl

theorem bit_masked (st : QSt) (x : Nat) (ev : Ev) (i : Fin 5) : (st.masked x ev).bit i = (ev.bit i && !(st.chains x i).isEmpty) := by
  match i with
  | 0 => rfl
  | 1 => rfl
  | 2 => rfl
  | 3 => rfl
  | 4 => rfl

theorem bit_empty (i : Fin 5) : Ev.empty.bit i = false := by
  match i with
  | 0 => rfl
  | 1 => rfl
  | 2 => rfl
  | 3 => rfl
  | 4 => rfl

/-- The events of a tell are those which happened. -/
theorem evOk_bit {v v' : Fdv} {ev : Ev} (h : EvOk v v' False ev) (i : Fin 5) : ev.bit i = true ↔ evAt i v v' := by
  match i with
  | 0 => exact h.min
  | 1 => exact h.max
  | 2 => exact h.minMax
  | 3 => exact h.dom.trans (by simp [evAt])
  | 4 => exact h.val

theorem upd_same {α : Type} (f : Nat → α) (x : Nat) (y : α) : upd f x y x = y := by simp [upd]

theorem upd_ne {α : Type} (f : Nat → α) {x z : Nat} (y : α) (h : z ≠ x) : upd f x y z = f z := by simp [upd, h]

/-! ### The queue -/

/-- The queue grows. -/
structure Grow (st : QSt) (q : List Nat) (st' : QSt) (q' : List Nat) : Prop where
  pre : q <+: q'
  isQ : Q st' q'
  hd0 : q = [] → ∀ h, q'.head? = some h → st'.nextD = h
  hd1 : q ≠ [] → st'.nextD = st.nextD

theorem Grow.refl {st : QSt} {q : List Nat} (h : Q st q) : Grow st q st q :=
  ⟨List.prefix_rfl, h, fun hq h hh => (by rw [hq] at hh; cases hh), fun _ => rfl⟩

theorem Grow.trans {a b d : QSt} {q q' q'' : List Nat} (h : Grow a q b q') (h' : Grow b q' d q'') : Grow a q d q'' := by
  refine ⟨h.pre.trans h'.pre, h'.isQ, fun hq x hx => ?_, fun hq => ?_⟩
  · by_cases hq' : q' = []
    · exact h'.hd0 hq' x hx
    · rw [h'.hd1 hq']
      refine h.hd0 hq x ?_
      obtain ⟨t, ht⟩ := h'.pre
      cases q' with
      | nil => exact absurd rfl hq'
      | cons y ys => rw [← ht] at hx; exact hx
  · have hq' : q' ≠ [] := fun hc => hq (List.prefix_nil.1 (hc ▸ h.pre))
    rw [h'.hd1 hq', h.hd1 hq]

/-- The queue depends only on its fields. -/
theorem Q.congr {st st' : QSt} {q : List Nat} (h : Q st q) (h1 : st'.mask = st.mask) (h2 : st'.keep = st.keep) (h3 : st'.next = st.next)
    (h4 : st'.tp = st.tp) : Q st' q := by
  refine ⟨h.nodup, by rw [h4]; exact h.tp, by rw [h3]; exact h.links, fun x => ?_⟩
  unfold QSt.inQ
  rw [h1, h2]; exact h.mem x

theorem Grow.of_same {st st' : QSt} {q : List Nat} (h : Q st q) (h1 : st'.mask = st.mask) (h2 : st'.keep = st.keep)
    (h3 : st'.next = st.next) (h4 : st'.tp = st.tp) (h5 : st'.nextD = st.nextD) : Grow st q st' q :=
  ⟨List.prefix_rfl, h.congr h1 h2 h3 h4, fun hq h hh => (by rw [hq] at hh; cases hh), fun _ => h5⟩

/-- The fields not changed by `All_Propagations`. -/
theorem allProp_frame (st : QSt) (x : Nat) (ev : Ev) :
    (allProp st x ev).dom = st.dom ∧ (allProp st x ev).date = st.date ∧ (allProp st x ev).keep = st.keep ∧
    (allProp st x ev).chains = st.chains ∧ (allProp st x ev).frames = st.frames ∧ (allProp st x ev).now = st.now := by
  unfold allProp
  dsimp only
  split
  · split
    · split <;> exact ⟨rfl, rfl, rfl, rfl, rfl, rfl⟩
    · exact ⟨rfl, rfl, rfl, rfl, rfl, rfl⟩
  · exact ⟨rfl, rfl, rfl, rfl, rfl, rfl⟩

theorem allProp_mask (st : QSt) (x : Nat) (ev : Ev) (y : Nat) (i : Fin 5) :
    ((allProp st x ev).mask y).bit i = true ↔ (st.mask y).bit i = true ∨ (y = x ∧ ev.bit i = true ∧ st.chains x i ≠ []) := by
  have hbm : (st.masked x ev).bit i = true ↔ ev.bit i = true ∧ st.chains x i ≠ [] := by
    rw [bit_masked]; simp [List.isEmpty_iff]
  unfold allProp
  dsimp only
  by_cases h1 : (st.masked x ev).any = true
  · rw [if_pos h1]
    by_cases h2 : st.inQ x = false
    · rw [if_pos h2]
      have hx : (st.mask x).bit i = false := by
        unfold QSt.inQ at h2
        rw [Bool.or_eq_false_iff] at h2
        exact any_false _ h2.1 i
      have key : ((upd st.mask x (st.masked x ev)) y).bit i = true ↔
          (st.mask y).bit i = true ∨ (y = x ∧ ev.bit i = true ∧ st.chains x i ≠ []) := by
        by_cases hy : y = x
        · rw [hy, upd_same, hbm, hx]; simp
        · rw [upd_ne _ _ hy]; simp [hy]
      split <;> exact key
    · rw [if_neg h2]
      dsimp only
      by_cases hy : y = x
      · rw [hy, upd_same, bit_or, Bool.or_eq_true, hbm]; simp
      · rw [upd_ne _ _ hy]; simp [hy]
  · rw [if_neg h1]
    refine ⟨Or.inl, ?_⟩
    rintro (h | ⟨hy, h⟩)
    · exact h
    · exact absurd ((any_iff _).2 ⟨i, hbm.2 h⟩) h1

theorem inQ_upd {st : QSt} {x : Nat} {p : Ev} (hp : p.any = true) (y : Nat) :
    ((upd st.mask x p y).any || st.keep y) = true ↔ y = x ∨ st.inQ y = true := by
  by_cases hy : y = x
  · rw [hy, upd_same, hp]; simp
  · rw [upd_ne _ _ hy]; simp [hy, QSt.inQ]

theorem getLast_mem {q : List Nat} {t : Nat} (h : q.getLast? = some t) : ∃ l, q = l ++ [t] := by
  rw [List.getLast?_eq_some_iff] at h; exact h

theorem allProp_grow {st : QSt} {q : List Nat} (h : Q st q) (x : Nat) (ev : Ev) : ∃ q', Grow st q (allProp st x ev) q' := by
  unfold allProp
  dsimp only
  by_cases h1 : (st.masked x ev).any = true
  · rw [if_pos h1]
    by_cases h2 : st.inQ x = false
    · rw [if_pos h2]
      have hx : x ∉ q := fun hc => by rw [(h.mem x).2 hc] at h2; cases h2
      have hnd : (q ++ [x]).Nodup := by
        rw [List.nodup_append]
        exact ⟨h.nodup, by simp, fun a ha b hb => by simp at hb; rw [hb]; exact fun hc => hx (hc ▸ ha)⟩
      have hmem : ∀ y, ((upd st.mask x (st.masked x ev) y).any || st.keep y) = true ↔ y ∈ q ++ [x] := by
        intro y
        rw [inQ_upd h1, h.mem]; simp [or_comm]
      cases htp : st.tp with
      | none =>
        have hq : q = [] := by
          have := h.tp; rw [htp] at this
          exact List.getLast?_eq_none_iff.1 this.symm
        subst hq
        refine ⟨[x], List.nil_prefix, ⟨by simp, rfl, fun a b l1 l2 he => ?_, hmem⟩, fun _ h' hh => ?_, fun hc => absurd rfl hc⟩
        · have := congrArg List.length he
          simp at this; omega
        · simp at hh; exact hh
      | some t =>
        have hlast := h.tp
        rw [htp] at hlast
        obtain ⟨l, hl⟩ := getLast_mem hlast.symm
        refine ⟨q ++ [x], List.prefix_append q [x], ⟨hnd, by simp, fun a b l1 l2 he => ?_, hmem⟩, fun hq => ?_, fun _ => rfl⟩
        · -- the last link or an old one
          rcases List.eq_nil_or_concat l2 with h3 | ⟨l3, y, h3⟩
          · subst h3
            have he' : q ++ [x] = (l1 ++ [a]) ++ [b] := by rw [he]; simp
            have h4 := List.append_inj' he' rfl
            have h5 : x = b := by simpa using h4.2
            have h6 : a = t := by
              have := h4.1; rw [hl] at this
              have := List.append_inj' this rfl
              simpa using this.2.symm
            rw [h6, h5]; exact upd_same _ _ _
          · subst h3
            have he' : q ++ [x] = (l1 ++ a :: b :: l3) ++ [y] := by rw [he]; simp
            have h4 := List.append_inj' he' rfl
            have hat : a ≠ t := by
              intro hc
              have hn := h.nodup
              rw [h4.1] at hn
              have htl : t ∈ b :: l3 := by
                have h7 : (l1 ++ a :: b :: l3).getLast? = some t := by rw [← h4.1]; exact hlast.symm
                have h8 : (l1 ++ a :: b :: l3).getLast? = (b :: l3).getLast? := by simp [List.getLast?_append, List.getLast?_cons]
                rw [h8] at h7
                exact List.mem_of_getLast? h7
              rw [List.nodup_append] at hn
              have := (List.nodup_cons.1 hn.2.1).1
              exact this (hc ▸ htl)
            show upd st.next t x a = b
            rw [upd_ne _ _ hat]
            exact h.links a b l1 l3 h4.1
        · rw [hq] at hlast; cases hlast
    · rw [if_neg h2]
      refine ⟨q, List.prefix_rfl, ⟨h.nodup, h.tp, h.links, fun y => ?_⟩, fun hq h' hh => (by rw [hq] at hh; cases hh), fun _ => rfl⟩
      show ((upd st.mask x ((st.mask x).or (st.masked x ev)) y).any || st.keep y) = true ↔ y ∈ q
      have hor : ((st.mask x).or (st.masked x ev)).any = true := by
        obtain ⟨i, hi⟩ := (any_iff _).1 h1
        exact (any_iff _).2 ⟨i, by rw [bit_or, hi]; simp⟩
      rw [inQ_upd hor, h.mem]
      refine ⟨?_, Or.inr⟩
      rintro (hy | hy)
      · rw [hy, ← h.mem]; simpa using h2
      · exact hy
  · rw [if_neg h1]; exact ⟨q, Grow.refl h⟩

/-- With no event nothing is changed. -/
theorem allProp_none (st : QSt) (x : Nat) (ev : Ev) (h : ev.any = false) : allProp st x ev = st := by
  unfold allProp
  dsimp only
  rw [if_neg]
  intro hc
  obtain ⟨i, hi⟩ := (any_iff _).1 hc
  rw [bit_masked, any_false _ h i] at hi
  cases hi

end Gp.Fd
