import Verif.HashTbl.Lemmas
/-!
Properties C01 and C02: the engine hash tables are finite maps, growth and enumeration lose nothing.

The specification is the last section of this header: a plain function from keys to values updated
by each operation (`specStep`), independent of the chains.
-/
namespace Gp.HashTbl

variable {V : Type}

/-- Operations the engine performs on a table. -/
inductive Op (V : Type) where
  | insert (k : Key) (v : V) (replace : Bool)
  | delete (k : Key)
  | clear
  | resize (n : Int)
  | grow                       -- Pl_Extend_HTBL_If_Needed

/-- Only positive sizes are passed to a resize. -/
def Op.valid : Op V → Prop
  | .resize n => 1 ≤ n
  | _ => True

/-- One operation on the model; a new block gets the next address. -/
def step (t : Tbl V) : Op V → Option (Tbl V)
  | .insert k v r => some (insert t k v r).1
  | .delete k => some (delete t k).1
  | .clear => some (deleteAll t)
  | .resize n => realloc t (t.gen + 1) n
  | .grow => extendIfNeeded t (t.gen + 1)

def run (t : Tbl V) : List (Op V) → Option (Tbl V)
  | [] => some t
  | o :: os => (step t o).bind (run · os)

/-! Specification -/

/-- The abstract map after one operation. -/
def specStep (m : Key → Option V) : Op V → (Key → Option V)
  | .insert k v r => fun k' =>
      if k' = k then (if r then some v else some ((m k).getD v)) else m k'
  | .delete k => fun k' => if k' = k then none else m k'
  | .clear => fun _ => none
  | .resize _ => m
  | .grow => m

def specRun (m : Key → Option V) : List (Op V) → (Key → Option V)
  | [] => m
  | o :: os => specRun (specStep m o) os

/-- `n` is the number of keys of the map `m`. -/
def CountsKeys (m : Key → Option V) (n : Int) : Prop :=
  ∃ ks : List Key, ks.Nodup ∧ (∀ k, k ∈ ks ↔ m k ≠ none) ∧ (ks.length : Int) = n

/-! Simulation -/

/-- The table represents the map. -/
structure Rep (t : Tbl V) (m : Key → Option V) : Prop where
  wf : WF t
  look : ∀ k, (find t k).map (·.val) = m k

theorem step_rep {t : Tbl V} {m : Key → Option V} (r : Rep t m) (o : Op V) (hv : o.valid) :
    ∃ t', step t o = some t' ∧ Rep t' (specStep m o) := by
  have hre : ∀ n : Int, 1 ≤ n → ∃ t', realloc t (t.gen + 1) n = some t' ∧ Rep t' m := by
    intro n hn
    have : ∃ t', realloc t (t.gen + 1) n = some t' := by
      unfold realloc alloc
      have h : ¬ n < 1 := by omega
      simp [h]
    obtain ⟨t', ht⟩ := this
    obtain ⟨h1, h2, _⟩ := realloc_spec r.wf ht
    exact ⟨t', ht, h1, fun k => by rw [find_perm r.wf h1 h2]; exact r.look k⟩
  cases o with
  | insert k v rep =>
    refine ⟨_, rfl, insert_wf r.wf k v rep, fun k' => ?_⟩
    rw [find_insert r.wf, r.look, r.look]; rfl
  | delete k =>
    refine ⟨_, rfl, delete_wf r.wf k, fun k' => ?_⟩
    rw [find_delete r.wf]
    simp only [specStep]
    split
    · rfl
    · exact r.look k'
  | clear =>
    refine ⟨_, rfl, deleteAll_wf r.wf, fun k' => ?_⟩
    rw [find_deleteAll]; rfl
  | resize n => exact hre n hv
  | grow =>
    simp only [step, extendIfNeeded]
    split
    · exact hre _ (by have := r.wf.pos; omega)
    · exact ⟨t, rfl, r⟩

theorem run_rep {t : Tbl V} {m : Key → Option V} (r : Rep t m) (os : List (Op V))
    (hv : ∀ o ∈ os, o.valid) : ∃ t', run t os = some t' ∧ Rep t' (specRun m os) := by
  induction os generalizing t m with
  | nil => exact ⟨t, rfl, r⟩
  | cons o os ih =>
    obtain ⟨t1, h1, r1⟩ := step_rep r o (hv o (by simp))
    obtain ⟨t2, h2, r2⟩ := ih r1 (fun o' ho' => hv o' (by simp [ho']))
    exact ⟨t2, by simp [run, h1, h2], r2⟩

theorem alloc_rep {n : Int} (hn : 1 ≤ n) :
    ∃ t : Tbl V, alloc 0 0 n = some t ∧ Rep t (fun _ => none) := by
  have : ∃ t : Tbl V, alloc 0 0 n = some t := by
    unfold alloc; have : ¬ n < 1 := by omega
    simp [this]
  obtain ⟨t, ht⟩ := this
  exact ⟨t, ht, alloc_wf ht, fun k => by rw [find_alloc ht]; rfl⟩

theorem rep_mem {t : Tbl V} {m : Key → Option V} (r : Rep t m) (k : Key) (v : V) :
    (∃ p ∈ t.arr.flatten, p.key = k ∧ p.val = v) ↔ m k = some v := by
  rw [← r.look k, find_eq, Option.map_eq_some_iff]
  constructor
  · rintro ⟨p, hp, h1, h2⟩
    exact ⟨p, (cfind_iff r.wf.pos r.wf.awf k p).2 ⟨hp, h1⟩, h2⟩
  · rintro ⟨p, hp, h2⟩
    obtain ⟨h3, h4⟩ := (cfind_iff r.wf.pos r.wf.awf k p).1 hp
    exact ⟨p, h3, h4, h2⟩

/-- **C01**. After any history of operations on a table of any positive initial size, the table is
defined (no undefined behaviour), a lookup returns exactly what the specification map says, the
returned element carries the looked-up key, and the element counter is the number of keys present. -/
theorem C01_table_is_finite_map (n : Int) (hn : 1 ≤ n) (os : List (Op V))
    (hv : ∀ o ∈ os, o.valid) :
    ∃ t0 t : Tbl V, alloc 0 0 n = some t0 ∧ run t0 os = some t ∧
      (∀ k, (find t k).map (·.val) = specRun (fun _ => none) os k) ∧
      (∀ k p, find t k = some p → p.key = k) ∧
      CountsKeys (specRun (fun _ => none) os) t.nb := by
  obtain ⟨t0, h0, r0⟩ := alloc_rep (V := V) hn
  obtain ⟨t, h, r⟩ := run_rep r0 os hv
  refine ⟨t0, t, h0, h, r.look, ?_, t.arr.flatten.map (·.key), flatten_keys_nodup r.wf.awf, ?_, ?_⟩
  · intro k p hp
    exact ((cfind_iff r.wf.pos r.wf.awf k p).1 hp).2
  · intro k
    constructor
    · intro hk
      obtain ⟨p, hp, he⟩ := List.mem_map.1 hk
      have := (rep_mem r k p.val).1 ⟨p, hp, he, rfl⟩
      rw [this]; simp
    · intro hk
      obtain ⟨v, hv⟩ := Option.ne_none_iff_exists'.1 hk
      obtain ⟨p, hp, he, _⟩ := (rep_mem r k v).2 hv
      exact List.mem_map.2 ⟨p, hp, he⟩
  · rw [r.wf.count, total_eq_flatten, List.length_map]

/-- A history with a collision (keys 1, 3, 5 in a table of size 2), a replacement, an ignored
insertion, a deletion in the middle of a chain and two growths. -/
example : ∃ os : List (Op Nat), (∀ o ∈ os, o.valid) ∧ os.length = 8 ∧
    specRun (fun _ => none) os 1#64 = some 11 ∧ specRun (fun _ => none) os 3#64 = none ∧
    specRun (fun _ => none) os 5#64 = some 50 :=
  ⟨[.insert 1#64 10 true, .insert 3#64 30 true, .insert 5#64 50 true, .insert 1#64 11 true,
    .insert 5#64 51 false, .delete 3#64, .grow, .resize 7], by
      intro o ho; simp at ho; rcases ho with rfl | rfl | rfl | rfl | rfl | rfl | rfl | rfl <;> simp [Op.valid],
    rfl, by decide, by decide, by decide⟩

/-- **C01** (results of the operations). In a reachable table, an insertion returns an element holding
the value the key has afterwards, and a deletion tells whether the key was present. -/
theorem C01_operation_results (n : Int) (hn : 1 ≤ n) (os : List (Op V)) (hv : ∀ o ∈ os, o.valid)
    (k : Key) (v : V) (r : Bool) :
    ∃ t0 t : Tbl V, alloc 0 0 n = some t0 ∧ run t0 os = some t ∧
      (insert t k v r).2.key = k ∧
      some (insert t k v r).2.val = specStep (specRun (fun _ => none) os) (.insert k v r) k ∧
      ((delete t k).2 = true ↔ specRun (fun _ => none) os k ≠ none) := by
  obtain ⟨t0, h0, r0⟩ := alloc_rep (V := V) hn
  obtain ⟨t, h, rp⟩ := run_rep r0 os hv
  refine ⟨t0, t, h0, h, ?_⟩
  have hl := rp.look k
  cases hc : cfind (t.chain k) k with
  | none =>
    have hf : find t k = none := hc
    rw [hf] at hl
    rw [insert_none hc, delete_none hc]
    simp only [specStep, if_true, ← hl]
    simp
  | some p =>
    have hf : find t k = some p := hc
    rw [hf] at hl
    rw [insert_some hc, delete_some hc]
    simp only [specStep, if_true, ← hl]
    cases r
    · simp; exact (cfind_some hc).2
    · simp

example : (1 : Int) ≤ 4 ∧ ∀ o ∈ [Op.insert 7#64 'a' true, .clear, .grow], o.valid := by
  refine ⟨by decide, ?_⟩
  intro o ho; simp at ho; rcases ho with rfl | rfl | rfl <;> simp [Op.valid]

/-- **C02** (growth). In a reachable table, changing the size to any positive size succeeds, gives a
table of that size with the same counter, and every lookup answers as before; the same for the
automatic growth, after which the load is below the number of cells. -/
theorem C02_resize_preserves (n : Int) (hn : 1 ≤ n) (os : List (Op V)) (hv : ∀ o ∈ os, o.valid)
    (m : Int) (hm : 1 ≤ m) :
    ∃ t0 t t' t'' : Tbl V, alloc 0 0 n = some t0 ∧ run t0 os = some t ∧
      realloc t (t.gen + 1) m = some t' ∧ (t'.size : Int) = m ∧ t'.nb = t.nb ∧
      (∀ k, find t' k = find t k) ∧
      extendIfNeeded t (t.gen + 1) = some t'' ∧ (∀ k, find t'' k = find t k) ∧ t''.nb = t.nb ∧
      (t''.size = t.size ∨ (t.nb ≥ t.size ∧ t''.size = 2 * t.size)) ∧
      (t.nb ≤ t.size → t''.nb < t''.size) := by
  obtain ⟨t0, h0, r0⟩ := alloc_rep (V := V) hn
  obtain ⟨t, h, rp⟩ := run_rep r0 os hv
  have key : ∀ m : Int, 1 ≤ m → ∃ t', realloc t (t.gen + 1) m = some t' ∧ (t'.size : Int) = m ∧
      t'.nb = t.nb ∧ (∀ k, find t' k = find t k) := by
    intro m hm
    have : ∃ t', realloc t (t.gen + 1) m = some t' := by
      unfold realloc alloc
      have h : ¬ m < 1 := by omega
      simp [h]
    obtain ⟨t', ht'⟩ := this
    obtain ⟨h1, h2, h3, h4, _⟩ := realloc_spec rp.wf ht'
    exact ⟨t', ht', h3, h4, fun k => find_perm rp.wf h1 h2 k⟩
  obtain ⟨t', h1, h2, h3, h4⟩ := key m hm
  have hpos := rp.wf.pos
  by_cases hnb : t.nb ≥ (t.size : Int)
  · obtain ⟨t'', g1, g2, g3, g4⟩ := key ((t.size : Int) * 2) (by omega)
    refine ⟨t0, t, t', t'', h0, h, h1, h2, h3, h4, ?_, g4, g3, Or.inr ⟨hnb, by omega⟩, ?_⟩
    · simp only [extendIfNeeded, hnb, if_true, g1]
    · intro hle; rw [g3, g2]; omega
  · refine ⟨t0, t, t', t, h0, h, h1, h2, h3, h4, ?_, fun _ => rfl, rfl, Or.inl rfl, ?_⟩
    · simp only [extendIfNeeded, hnb, if_false]
    · intro _; omega

example : (1 : Int) ≤ 2 ∧ (1 : Int) ≤ 5 ∧
    (∀ o ∈ [Op.insert 1#64 'a' true, .insert 2#64 'b' true, .insert 3#64 'c' false], o.valid) := by
  refine ⟨by decide, by decide, ?_⟩
  intro o ho; simp at ho; rcases ho with rfl | rfl | rfl <;> simp [Op.valid]

/-- **C02** (enumeration). In a reachable table the first/next loop, run for as many steps as the
element counter says, ends without undefined behaviour, returns each key once, and returns exactly
the key/value pairs of the map. -/
theorem C02_scan_enumerates_once (n : Int) (hn : 1 ≤ n) (os : List (Op V))
    (hv : ∀ o ∈ os, o.valid) :
    ∃ (t0 t : Tbl V) (l : List (Node V)), alloc 0 0 n = some t0 ∧ run t0 os = some t ∧
      scanAll t t.nb.toNat = some l ∧ (l.map (·.key)).Nodup ∧
      ∀ k v, (∃ p ∈ l, p.key = k ∧ p.val = v) ↔ specRun (fun _ => none) os k = some v := by
  obtain ⟨t0, h0, r0⟩ := alloc_rep (V := V) hn
  obtain ⟨t, h, rp⟩ := run_rep r0 os hv
  refine ⟨t0, t, t.arr.flatten, h0, h, ?_, flatten_keys_nodup rp.wf.awf, fun k v => rep_mem rp k v⟩
  have : t.nb.toNat = t.arr.flatten.length := by
    rw [rp.wf.count, total_eq_flatten]; simp
  rw [this]
  exact scanAll_eq rp.wf

example : (1 : Int) ≤ 3 ∧ (∀ o ∈ [Op.insert 1#64 'a' true, .insert 4#64 'b' true, .delete 1#64], o.valid) := by
  refine ⟨by decide, ?_⟩
  intro o ho; simp at ho; rcases ho with rfl | rfl | rfl <;> simp [Op.valid]

/-- **C02** (enumeration with removal). If the loop body deletes the element it was just given (as
when a stream is closed and its aliases dropped), the loop still visits every original element
exactly once without touching freed memory, and afterwards exactly the non-deleted ones remain. -/
theorem C02_scan_with_delete (n : Int) (hn : 1 ≤ n) (os : List (Op V)) (hv : ∀ o ∈ os, o.valid)
    (sel : Node V → Bool) :
    ∃ (t0 t t' : Tbl V) (l : List (Node V)), alloc 0 0 n = some t0 ∧ run t0 os = some t ∧
      scanAll t t.nb.toNat = some l ∧
      scanDel sel t t.nb.toNat = some (l, t') ∧
      ∀ k, find t' k = (find t k).filter (fun p => !sel p) := by
  obtain ⟨t0, h0, r0⟩ := alloc_rep (V := V) hn
  obtain ⟨t, h, rp⟩ := run_rep r0 os hv
  have hnb : t.nb.toNat = t.arr.flatten.length := by
    rw [rp.wf.count, total_eq_flatten]; simp
  obtain ⟨t', h1, h2, h3⟩ := scanDel_eq rp.wf sel
  refine ⟨t0, t, t', t.arr.flatten, h0, h, by rw [hnb]; exact scanAll_eq rp.wf, by rw [hnb]; exact h1, ?_⟩
  intro k
  apply Option.ext
  intro p
  rw [find_eq, cfind_iff h2.pos h2.awf, h3, List.mem_filter]
  rw [Option.filter_eq_some_iff, find_eq, cfind_iff rp.wf.pos rp.wf.awf]
  constructor
  · rintro ⟨⟨a, b⟩, c⟩; exact ⟨⟨a, c⟩, b⟩
  · rintro ⟨⟨a, c⟩, b⟩; exact ⟨⟨a, b⟩, c⟩

example : ∃ sel : Node Char → Bool, sel ⟨0, 1#64, 'a'⟩ = true ∧ sel ⟨1, 4#64, 'b'⟩ = false :=
  ⟨fun p => p.val == 'a', by decide, by decide⟩

/-- The full claim "enumeration survives any update made between two solutions" is false of the
code: current_op/3 keeps a scan in a choice point; defining operators in between can reallocate the
table, and the next step then reads the freed array (`none`). Here: a table of 1 cell, scan started,
growth, scan continued. -/
theorem C02_scan_across_growth_is_undefined :
    ∃ (t t' : Tbl Nat) (p : Node Nat) (s : Scan),
      (alloc 0 0 1).bind (run · [.insert 1#64 10 true]) = some t ∧
      first t = some (some (p, s)) ∧
      run t [.grow, .insert 2#64 20 true] = some t' ∧
      next t' s = none := by
  refine ⟨_, _, _, _, rfl, rfl, rfl, ?_⟩
  decide

/-- Likewise deleting the element *after* the current one (op(0,...) on the next operator of the
chain) leaves the scan with a dangling pointer. -/
theorem C02_scan_across_delete_of_next_is_undefined :
    ∃ (t t' : Tbl Nat) (p : Node Nat) (s : Scan),
      (alloc 0 0 1).bind (run · [.insert 1#64 10 true, .insert 2#64 20 true]) = some t ∧
      first t = some (some (p, s)) ∧ p.key = 1#64 ∧
      run t [.delete 2#64] = some t' ∧
      next t' s = none := by
  refine ⟨_, _, _, _, rfl, rfl, rfl, rfl, ?_⟩
  decide

end Gp.HashTbl
