import Verif.Format.Spec
namespace Gp.Format
open Spec

/-! ### Streams -/

theorem Stm.puts_append (o : Stm) (a b : List Nat) : o.puts (a ++ b) = (o.puts a).puts b := List.foldl_append

@[simp] theorem Stm.puts_nil (o : Stm) : o.puts [] = o := rfl

theorem Stm.puts_single (o : Stm) (c : Nat) : o.puts [c] = o.put c := rfl

@[simp] theorem Stm.puts_out (o : Stm) (t : List Nat) : (o.puts t).out = o.out ++ t := by
  induction t generalizing o with
  | nil => simp
  | cons c t ih => rw [← List.singleton_append, puts_append, ih]; simp [puts_single, Stm.put]

theorem Stm.puts_lineCount_le (o : Stm) (t : List Nat) : o.lineCount ≤ (o.puts t).lineCount := by
  induction t generalizing o with
  | nil => exact Nat.le_refl _
  | cons c t ih =>
    rw [← List.singleton_append, puts_append]
    refine Nat.le_trans ?_ (ih _)
    simp only [puts_single, Stm.put, counters]
    split <;> simp

theorem Stm.puts_plain (o : Stm) (t : List Nat) (h : 10 ∉ t) :
    (o.puts t).lineCount = o.lineCount ∧ (o.puts t).linePos = o.linePos + t.length := by
  induction t generalizing o with
  | nil => exact ⟨rfl, rfl⟩
  | cons c t ih =>
    rw [← List.singleton_append, puts_append]
    have hc : c ≠ 10 := fun e => h (by simp [e])
    obtain ⟨h1, h2⟩ := ih (o.puts [c]) (fun e => h (by simp [e]))
    rw [h1, h2]
    simp only [puts_single, Stm.put, counters, if_neg hc, List.length_append, List.length_singleton, true_and]
    omega

def Str.puts (s : Str) (t : List Nat) : Str := t.foldl Str.put s

theorem F.puts_orig (f : F) (t : List Nat) (h : f.onPad = false) : f.puts t = { f with orig := f.orig.puts t } := by
  induction t generalizing f with
  | nil => rfl
  | cons c t ih =>
    show (f.put c).puts t = _
    have e : f.put c = { f with orig := f.orig.put c } := by simp [F.put, h]
    rw [e]
    exact ih { f with orig := f.orig.put c } h

/-- A character that fits. -/
theorem Str.put_fits (s : Str) (c : Nat) (ha : 1024 ≤ s.alloc) (h : s.buf.length < 1023) :
    s.put c = { s with buf := s.buf ++ [c], lineCount := (counters c s.lineCount s.linePos).1,
                       linePos := (counters c s.lineCount s.linePos).2 } := by
  have : ¬ s.buf.length ≥ s.alloc - 1 := by omega
  simp [Str.put, Str.store, this]

/-! ### The padding -/

/-- The entries of the padding points, with their texts. -/
def Match (g : Nat) : Nat → List Pad → List (Nat × List Nat) → Prop
  | _, [], [] => True
  | off, e :: es, p :: ps => e.gen = g ∧ e.off = off ∧ e.fill = p.1 ∧ Match g (off + p.2.length) es ps
  | _, _, _ => False

theorem Match.len {g : Nat} : ∀ {off : Nat} {es : List Pad} {ps : List (Nat × List Nat)}, Match g off es ps → es.length = ps.length
  | _, [], [], _ => rfl
  | _, _ :: _, _ :: _, h => by simp [h.2.2.2.len]

theorem Match.snoc {g : Nat} {x : Pad} {c : Nat} (hg : x.gen = g) (hf : x.fill = c) :
    ∀ {off : Nat} {es : List Pad} {ps : List (Nat × List Nat)}, Match g off es ps → x.off = off + (ps.flatMap (·.2)).length →
      Match g off (es ++ [x]) (ps ++ [(c, [])])
  | off, [], [], _, ho => ⟨hg, by simpa using ho, hf, trivial⟩
  | off, e :: es, p :: ps, h, ho => by
    refine ⟨h.1, h.2.1, h.2.2.1, Match.snoc hg hf h.2.2.2 ?_⟩
    rw [ho, List.flatMap_cons, List.length_append]
    omega

theorem addLast_ne {c : Nat} : ∀ {ps : List (Nat × List Nat)}, ps ≠ [] → addLast c ps ≠ []
  | [_], _ => by simp [addLast]
  | _ :: _ :: _, _ => by simp [addLast]

theorem addLast_length {c : Nat} : ∀ (ps : List (Nat × List Nat)), (addLast c ps).length = ps.length
  | [] => rfl
  | [_] => rfl
  | p :: q :: ps => by rw [addLast, List.length_cons, addLast_length (q :: ps)]; rfl

theorem addLast_flat {c : Nat} : ∀ {ps : List (Nat × List Nat)}, ps ≠ [] →
    (addLast c ps).flatMap (·.2) = ps.flatMap (·.2) ++ [c]
  | [_], _ => by simp [addLast]
  | p :: q :: ps, _ => by
    have := addLast_flat (c := c) (ps := q :: ps) (by simp)
    rw [addLast, List.flatMap_cons, this, List.flatMap_cons (x := p), List.append_assoc]

theorem Match.addLast {g c : Nat} : ∀ {off : Nat} {es : List Pad} {ps : List (Nat × List Nat)}, Match g off es ps →
    Match g off es (addLast c ps)
  | _, [], [], _ => trivial
  | _, [e], [p], h => ⟨h.1, h.2.1, h.2.2.1, trivial⟩
  | _, [_], _ :: _ :: _, h => h.2.2.2.elim
  | _, _ :: _ :: _, [_], h => h.2.2.2.elim
  | _, e :: e' :: es, p :: q :: ps, h => ⟨h.1, h.2.1, h.2.2.1, h.2.2.2.addLast⟩

/-- The layout as the loop of Flush_Padding does it. -/
def lay (spc rem nb : Nat) : Nat → List (Nat × List Nat) → List Nat
  | _, [] => []
  | i, p :: ps =>
    List.replicate (spc + if (i : Int) ≥ (nb : Int) - rem then 1 else 0) p.1 ++ p.2 ++ lay spc rem nb (i + 1) ps

theorem flushLoop_eq (s : Str) (spc rem nb : Nat) : ∀ (es : List Pad) (ps : List (Nat × List Nat)) (i p : Nat) (o : Stm),
    Match s.gen p es ps → s.buf.drop p = ps.flatMap (·.2) →
    flushLoop s spc rem nb i p es o = some (o.puts (lay spc rem nb i ps))
  | [], [], _, _, _, _, _ => rfl
  | [e], [q], i, p, o, h, hb => by
    rw [flushLoop, lay, lay, hb, h.2.2.1, List.append_nil, Stm.puts_append]
    simp
  | [_], _ :: _ :: _, _, _, _, h, _ => h.2.2.2.elim
  | _ :: _ :: _, [_], _, _, _, h, _ => h.2.2.2.elim
  | e :: e' :: es, q :: q' :: ps, i, p, o, h, hb => by
    have hg : e'.gen = s.gen := h.2.2.2.1
    have ho : e'.off = p + q.2.length := h.2.2.2.2.1
    have hm : max p e'.off = p + q.2.length := by omega
    have ht : (s.buf.take e'.off).drop p = q.2 := by
      rw [ho, List.drop_take, hb, List.flatMap_cons, Nat.add_sub_cancel_left, List.take_left]
    rw [flushLoop]
    simp only [hg, ne_eq, not_true_eq_false, if_false]
    rw [flushLoop_eq s spc rem nb (e' :: es) (q' :: ps) (i + 1) _ _ (by rw [hm]; exact h.2.2.2)
      (by rw [hm, ← List.drop_drop, hb, List.flatMap_cons, List.drop_left]), ht, h.2.2.1]
    conv => rhs; rw [lay]
    rw [Stm.puts_append, Stm.puts_append]

theorem lay_zero (nb : Nat) : ∀ (ps : List (Nat × List Nat)) (i : Nat), i + ps.length ≤ nb →
    lay 0 0 nb i ps = ps.flatMap (·.2)
  | [], _, _ => rfl
  | p :: ps, i, h => by
    rw [List.length_cons] at h
    rw [lay, lay_zero nb ps (i + 1) (by omega), if_neg (by omega)]
    simp

theorem share_arith {k free i : Nat} (hi : i < k) :
    (free + i) / k = free / k + if (i : Int) ≥ (k : Int) - (free % k : Nat) then 1 else 0 := by
  have hr : free % k < k := Nat.mod_lt _ (by omega)
  have he : free + i = free % k + i + k * (free / k) := by have := Nat.div_add_mod free k; omega
  rw [he, Nat.add_mul_div_left _ _ (by omega : 0 < k)]
  split
  · have : (free % k + i) / k = 1 := by
      rw [Nat.div_eq_iff (by omega)]
      omega
    omega
  · have : (free % k + i) / k = 0 := Nat.div_eq_of_lt (by omega)
    omega

theorem lay_eq (k free : Nat) : ∀ (ps : List (Nat × List Nat)) (i : Nat), i + ps.length ≤ k →
    lay (free / k) (free % k) k i ps =
      (ps.zip ((List.range' i ps.length).map fun i => (free + i) / k)).flatMap fun (p, n) => List.replicate n p.1 ++ p.2
  | [], _, _ => rfl
  | p :: ps, i, h => by
    rw [List.length_cons] at h
    rw [lay, lay_eq k free ps (i + 1) (by omega), List.length_cons, List.range'_succ, List.map_cons, List.zip_cons_cons,
      List.flatMap_cons, share_arith (by omega : i < k)]

theorem layout_eq (free : Nat) (ps : List (Nat × List Nat)) :
    layout free ps = lay (free / ps.length) (free % ps.length) ps.length 0 ps := by
  rw [lay_eq _ _ _ _ (by omega)]
  simp only [layout, share, List.range_eq_range']

theorem layout_zero (ps : List (Nat × List Nat)) : layout 0 ps = ps.flatMap (·.2) := by
  rw [layout_eq, Nat.zero_div, Nat.zero_mod, lay_zero _ _ _ (by omega)]

theorem layout_length (free : Nat) (ps : List (Nat × List Nat)) :
    (layout free ps).length = (share ps.length free).sum + (ps.flatMap (·.2)).length := by
  have : ∀ (ps : List (Nat × List Nat)) (l : List Nat), l.length = ps.length →
      ((ps.zip l).flatMap fun (p, n) => List.replicate n p.1 ++ p.2).length = l.sum + (ps.flatMap (·.2)).length := by
    intro ps
    induction ps with
    | nil => intro l hl; cases l with | nil => rfl | cons _ _ => simp at hl
    | cons p ps ih =>
      intro l hl
      cases l with
      | nil => simp at hl
      | cons n l =>
        simp only [List.zip_cons_cons, List.flatMap_cons, List.length_append, List.length_replicate, List.sum_cons]
        rw [ih l (by simpa using hl)]
        omega
  exact this ps _ (by simp [share])

/-- The shares are all the free space. -/
theorem share_sum {k : Nat} (hk : 0 < k) (free : Nat) : (share k free).sum = free := by
  have hpre : ∀ j, j ≤ k → ((List.range j).map fun i => (free + i) / k).sum =
      j * (free / k) + (j + free % k - k) := by
    intro j
    have hr : free % k < k := Nat.mod_lt _ hk
    induction j with
    | zero => intro _; simp; omega
    | succ j ih =>
      intro hj
      rw [List.range_succ, List.map_append, List.sum_append, ih (by omega), Nat.succ_mul]
      simp only [List.map_cons, List.map_nil, List.sum_cons, List.sum_nil, Nat.add_zero]
      rw [share_arith (by omega : j < k)]
      split <;> omega
  rw [share, hpre k (Nat.le_refl k)]
  have := Nat.div_add_mod free k
  omega

theorem flush_eq {f : F} {s : Str} {ps : List (Nat × List Nat)} (hp : f.pad = some s) (hm : Match s.gen 0 f.pads ps) (hne : ps ≠ [])
    (hb : s.buf = ps.flatMap (·.2)) (free : Int) :
    flush f free = some { f with orig := f.orig.puts (layout free.toNat ps), pad := some s.rewind } := by
  have hl := hm.len
  have h0 : f.pads.length ≠ 0 := by
    rw [hl]
    cases ps with
    | nil => exact (hne rfl).elim
    | cons _ _ => simp
  have hf : (if free < 0 then 0 else free.toNat) = free.toNat := by split <;> omega
  rw [flush, if_neg h0]
  simp only [hp, hf]
  rw [flushLoop_eq s _ _ _ f.pads ps 0 0 f.orig hm (by simpa using hb), Option.map_some, layout_eq, hl]

end Gp.Format
