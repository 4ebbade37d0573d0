import Verif.HashTbl.Model
/-! Helper lemmas about the hash table model. -/
namespace Gp.HashTbl

variable {V : Type}

theorem locate_le (c : Chain V) (k : Key) : locate c k ≤ c.length := by
  induction c with
  | nil => simp [locate]
  | cons p c ih => simp only [locate]; split <;> simp <;> omega

/-- chain lookup -/
def cfind (c : Chain V) (k : Key) : Option (Node V) := c[locate c k]?

@[simp] theorem cfind_nil (k : Key) : cfind ([] : Chain V) k = none := by simp [cfind, locate]

theorem cfind_cons (p : Node V) (c : Chain V) (k : Key) :
    cfind (p :: c) k = if p.key = k then some p else cfind c k := by
  unfold cfind
  simp only [locate]
  split <;> simp

theorem cfind_eq_none {c : Chain V} {k : Key} : cfind c k = none ↔ ∀ p ∈ c, p.key ≠ k := by
  induction c with
  | nil => simp
  | cons p c ih => rw [cfind_cons]; split <;> simp_all

theorem locate_of_none {c : Chain V} {k : Key} (h : cfind c k = none) : locate c k = c.length := by
  induction c with
  | nil => simp [locate]
  | cons p c ih =>
    rw [cfind_cons] at h
    simp only [locate]
    split <;> simp_all

theorem cfind_some {c : Chain V} {k : Key} {p} (h : cfind c k = some p) : p ∈ c ∧ p.key = k := by
  induction c with
  | nil => simp at h
  | cons q c ih =>
    rw [cfind_cons] at h
    split at h <;> simp_all

theorem cfind_append (c d : Chain V) (k : Key) :
    cfind (c ++ d) k = (cfind c k).or (cfind d k) := by
  induction c with
  | nil => simp
  | cons q c ih => simp only [List.cons_append, cfind_cons]; split <;> simp [ih]

theorem cfind_set {c : Chain V} {k : Key} {p p' : Node V} (h : cfind c k = some p)
    (hp : p'.key = k) (k' : Key) :
    cfind (c.set (locate c k) p') k' = if k' = k then some p' else cfind c k' := by
  induction c with
  | nil => simp at h
  | cons q c ih =>
    rw [cfind_cons] at h
    simp only [locate]
    by_cases hq : q.key = k
    · simp [hq, cfind_cons]; split <;> split <;> simp_all
    · simp [hq] at h
      simp only [hq, if_false, List.set_cons_succ, cfind_cons, ih h]
      grind

theorem cfind_eraseIdx {c : Chain V} {k : Key} {p : Node V} (h : cfind c k = some p)
    (hn : (c.map (·.key)).Nodup) (k' : Key) :
    cfind (c.eraseIdx (locate c k)) k' = if k' = k then none else cfind c k' := by
  induction c with
  | nil => simp at h
  | cons q c ih =>
    rw [cfind_cons] at h
    simp only [List.map_cons, List.nodup_cons] at hn
    simp only [locate]
    by_cases hq : q.key = k
    · simp only [hq, if_true, List.eraseIdx_cons_zero, cfind_cons]
      by_cases hk : k' = k
      · subst hk
        simp only [if_true]
        rw [cfind_eq_none]
        intro p hp hpk
        apply hn.1
        rw [hq, ← hpk]
        exact List.mem_map_of_mem hp
      · simp [hk, Ne.symm hk]
    · simp [hq] at h
      simp only [hq, if_false, List.eraseIdx_cons_succ, cfind_cons, ih h hn.2]
      grind

/-- Total number of nodes. -/
def total : List (Chain V) → Nat
  | [] => 0
  | c :: cs => c.length + total cs

theorem total_eq_flatten (a : List (Chain V)) : total a = a.flatten.length := by
  induction a with
  | nil => rfl
  | cons c cs ih => simp [total, ih]

theorem total_set (a : List (Chain V)) (i : Nat) (h : i < a.length) (c : Chain V) :
    total (a.set i c) + a[i].length = total a + c.length := by
  induction a generalizing i with
  | nil => simp at h
  | cons d ds ih =>
    cases i with
    | zero => simp [total]; omega
    | succ i =>
      simp only [List.set_cons_succ, total, List.getElem_cons_succ]
      have := ih i (by simpa using h)
      omega

/-- Representation invariant of an array of `n` cells. -/
structure AWF (n : Nat) (a : List (Chain V)) : Prop where
  len : a.length = n
  home : ∀ (i : Nat) (h : i < a.length), ∀ p ∈ a[i], hashFn p.key n = i
  nodup : ∀ (i : Nat) (h : i < a.length), (a[i].map (·.key)).Nodup

/-- Representation invariant of the table. -/
structure WF (t : Tbl V) : Prop where
  pos : 0 < t.size
  awf : AWF t.size t.arr
  count : t.nb = total t.arr
  ids : (t.arr.flatten.map (·.id)).Nodup
  idLt : ∀ p ∈ t.arr.flatten, p.id < t.fresh

theorem hash_lt {k : Key} {n : Nat} (h : 0 < n) : hashFn k n < n := Nat.mod_lt _ h

def achain (n : Nat) (a : List (Chain V)) (k : Key) : Chain V := (a[hashFn k n]?).getD []

theorem achain_eq {n : Nat} {a : List (Chain V)} (hn : 0 < n) (hl : a.length = n) (k : Key) :
    achain n a k = a[hashFn k n]'(by rw [hl]; exact hash_lt hn) := by
  simp [achain, hl, hash_lt hn]

theorem AWF.set {n : Nat} {a : List (Chain V)} (w : AWF n a) (i : Nat) (c : Chain V)
    (hc : ∀ p ∈ c, hashFn p.key n = i) (hd : (c.map (·.key)).Nodup) : AWF n (a.set i c) := by
  refine ⟨by simp [w.len], ?_, ?_⟩
  · intro j hj p hp
    rw [List.getElem_set] at hp
    split at hp
    · subst_vars; exact hc p hp
    · exact w.home j (by simpa using hj) p hp
  · intro j hj
    rw [List.getElem_set]
    split
    · exact hd
    · exact w.nodup j (by simpa using hj)

theorem achain_set {n : Nat} {a : List (Chain V)} (hn : 0 < n) (hl : a.length = n) (k k' : Key)
    (c : Chain V) :
    achain n (a.set (hashFn k n) c) k' = if hashFn k' n = hashFn k n then c else achain n a k' := by
  have h1 := hash_lt (k := k) hn
  unfold achain
  rw [List.getElem?_set]
  grind

theorem achain_home {n : Nat} {a : List (Chain V)} (hn : 0 < n) (w : AWF n a) (k : Key) :
    ∀ p ∈ achain n a k, hashFn p.key n = hashFn k n := by
  rw [achain_eq hn w.len]
  exact fun p hp => w.home _ _ p hp

theorem achain_nodup {n : Nat} {a : List (Chain V)} (hn : 0 < n) (w : AWF n a) (k : Key) :
    ((achain n a k).map (·.key)).Nodup := by
  rw [achain_eq hn w.len]
  exact w.nodup _ _

theorem mem_achain {n : Nat} {a : List (Chain V)} (hn : 0 < n) (w : AWF n a) (p : Node V) :
    p ∈ a.flatten ↔ p ∈ achain n a p.key := by
  rw [achain_eq hn w.len]
  constructor
  · intro h
    obtain ⟨c, hc, hp⟩ := List.mem_flatten.1 h
    obtain ⟨i, hi, rfl⟩ := List.mem_iff_getElem.1 hc
    have := w.home i hi p hp
    subst this
    exact hp
  · intro h
    exact List.mem_flatten.2 ⟨_, List.getElem_mem _, h⟩

theorem inj_of_nodup_map {α β : Type} {f : α → β} {l : List α} (hn : (l.map f).Nodup) {p q : α}
    (hp : p ∈ l) (hq : q ∈ l) (h : f p = f q) : p = q := by
  induction l with
  | nil => simp at hp
  | cons x l ih =>
    simp only [List.map_cons, List.nodup_cons] at hn
    rw [List.mem_cons] at hp hq
    rcases hp with rfl | hp <;> rcases hq with rfl | hq
    · rfl
    · exact absurd (h ▸ List.mem_map_of_mem hq) hn.1
    · exact absurd (h ▸ List.mem_map_of_mem hp) hn.1
    · exact ih hn.2 hp hq

/-- A lookup gives the unique node with that key. -/
theorem cfind_iff {n : Nat} {a : List (Chain V)} (hn : 0 < n) (w : AWF n a) (k : Key) (p : Node V) :
    cfind (achain n a k) k = some p ↔ p ∈ a.flatten ∧ p.key = k := by
  constructor
  · intro h
    obtain ⟨h1, h2⟩ := cfind_some h
    exact ⟨(mem_achain hn w p).2 (h2 ▸ h1), h2⟩
  · rintro ⟨h1, h2⟩
    have hm := (mem_achain hn w p).1 h1
    rw [h2] at hm
    cases hc : cfind (achain n a k) k with
    | none => exact absurd h2 (cfind_eq_none.1 hc p hm)
    | some q =>
      obtain ⟨q1, q2⟩ := cfind_some hc
      have hd := achain_nodup hn w k
      have : q = p := inj_of_nodup_map hd q1 hm (q2.trans h2.symm)
      rw [this]

theorem flatten_keys_nodup {n : Nat} {a : List (Chain V)} (w : AWF n a) :
    (a.flatten.map (·.key)).Nodup := by
  have key : ∀ (a : List (Chain V)) (off : Nat),
      (∀ (i : Nat) (h : i < a.length), ∀ p ∈ a[i], hashFn p.key n = off + i) →
      (∀ (i : Nat) (h : i < a.length), (a[i].map (·.key)).Nodup) →
      (a.flatten.map (·.key)).Nodup ∧ ∀ p ∈ a.flatten, off ≤ hashFn p.key n := by
    intro a
    induction a with
    | nil => intro off _ _; simp
    | cons c cs ih =>
      intro off h1 h2
      have ih' := ih (off + 1)
        (fun i h p hp => by have := h1 (i+1) (by simpa using h) p (by simpa using hp); omega)
        (fun i h => by have := h2 (i+1) (by simpa using h); simpa using this)
      have hc := h1 0 (by simp)
      simp only [List.getElem_cons_zero] at hc
      refine ⟨?_, ?_⟩
      · simp only [List.flatten_cons, List.map_append]
        rw [List.nodup_append]
        refine ⟨h2 0 (by simp), ih'.1, ?_⟩
        intro x hx y hy hxy
        obtain ⟨p, hp, rfl⟩ := List.mem_map.1 hx
        obtain ⟨q, hq, rfl⟩ := List.mem_map.1 hy
        have := hc p hp
        have := ih'.2 q hq
        rw [hxy] at *
        omega
      · intro p hp
        simp only [List.flatten_cons, List.mem_append] at hp
        rcases hp with hp | hp
        · have := hc p hp; omega
        · have := ih'.2 p hp; omega
  exact (key a 0 (fun i h p hp => by simpa using w.home i h p hp) w.nodup).1

theorem set_flatten_perm (a : List (Chain V)) (i : Nat) (h : i < a.length) (c : Chain V) :
    (a.set i c ).flatten.Perm (c ++ (a.set i []).flatten) ∧
    a.flatten.Perm (a[i] ++ (a.set i []).flatten) := by
  induction a generalizing i with
  | nil => simp at h
  | cons d ds ih =>
    cases i with
    | zero => simp
    | succ i =>
      simp only [List.set_cons_succ, List.flatten_cons, List.getElem_cons_succ]
      obtain ⟨h1, h2⟩ := ih i (by simpa using h)
      constructor
      · refine (List.Perm.append_left d h1).trans ?_
        rw [← List.append_assoc, ← List.append_assoc]
        exact List.Perm.append_right _ List.perm_append_comm
      · refine (List.Perm.append_left d h2).trans ?_
        rw [← List.append_assoc, ← List.append_assoc]
        exact List.Perm.append_right _ List.perm_append_comm

/-- Replacing a chain by a chain with one node more. -/
theorem set_flatten_snoc (a : List (Chain V)) (i : Nat) (h : i < a.length) (p : Node V) :
    (a.set i (a[i] ++ [p])).flatten.Perm (p :: a.flatten) := by
  obtain ⟨h1, h2⟩ := set_flatten_perm a i h (a[i] ++ [p])
  refine h1.trans ?_
  refine List.Perm.trans ?_ (List.Perm.cons p h2.symm)
  rw [List.append_assoc]
  simp

/-! ### Node identity -/

theorem nodup_map_perm {α β : Type} {f : α → β} {l l' : List α} (h : l.Perm l')
    (hn : (l.map f).Nodup) : (l'.map f).Nodup := (h.map f).nodup_iff.1 hn

/-! ### WF is preserved -/

theorem chain_eq (t : Tbl V) (k : Key) : t.chain k = achain t.size t.arr k := rfl

theorem alloc_wf {g f : Nat} {n : Int} {t : Tbl V} (h : alloc g f n = some t) : WF t := by
  unfold alloc at h
  split at h
  · simp at h
  · simp only [Option.some.injEq] at h
    subst h
    have hf : (List.replicate n.toNat ([] : Chain V)).flatten = [] := by simp
    refine ⟨by simp [Tbl.size]; omega, ⟨by simp [Tbl.size], by simp, by simp⟩, ?_, ?_, ?_⟩
    · simp [total_eq_flatten, hf]
    · simp [hf]
    · simp [hf]

theorem insert_none {t : Tbl V} {k : Key} {v : V} {r : Bool} (h : cfind (t.chain k) k = none) :
    insert t k v r = ({ (t.setChain k (t.chain k ++ [⟨t.fresh, k, v⟩])) with
         nb := t.nb + 1, fresh := t.fresh + 1 }, ⟨t.fresh, k, v⟩) := by
  unfold insert
  have h' : (t.chain k)[locate (t.chain k) k]? = none := h
  simp only [h']
  rw [locate_of_none h]; simp

theorem insert_some {t : Tbl V} {k : Key} {v : V} {r : Bool} {p : Node V}
    (h : cfind (t.chain k) k = some p) :
    insert t k v r = if r then
      (t.setChain k ((t.chain k).set (locate (t.chain k) k) { p with key := k, val := v }),
        { p with key := k, val := v }) else (t, p) := by
  unfold insert
  have h' : (t.chain k)[locate (t.chain k) k]? = some p := h
  simp only [h']

theorem setChain_size (t : Tbl V) (k : Key) (c : Chain V) : (t.setChain k c).size = t.size := by
  simp [Tbl.setChain, Tbl.size]

theorem locate_lt {c : Chain V} {k : Key} {p : Node V} (h : cfind c k = some p) :
    locate c k < c.length := by
  unfold cfind at h
  exact (List.getElem?_eq_some_iff.1 h).1

theorem set_same_map {β : Type} (f : Node V → β) (c : Chain V) (i : Nat) (p' : Node V)
    (h : ∀ p, c[i]? = some p → f p' = f p) : (c.set i p').map f = c.map f := by
  apply List.ext_getElem?
  intro j
  simp only [List.getElem?_map, List.getElem?_set]
  grind

theorem setChain_wf_snoc {t : Tbl V} (w : WF t) (k : Key) (v : V)
    (h : cfind (t.chain k) k = none) :
    WF { (t.setChain k (t.chain k ++ [⟨t.fresh, k, v⟩])) with
         nb := t.nb + 1, fresh := t.fresh + 1 } := by
  have hi : hashFn k t.size < t.arr.length := hash_lt w.pos
  have hc : t.chain k = t.arr[hashFn k t.size] := by rw [chain_eq, achain_eq w.pos rfl]
  have hperm := set_flatten_snoc t.arr _ hi ⟨t.fresh, k, v⟩
  rw [← hc] at hperm
  refine ⟨?_, ?_, ?_, ?_, ?_⟩
  · simp [Tbl.setChain, Tbl.size]; exact w.pos
  · have : AWF t.size (t.arr.set (hashFn k t.size) (t.chain k ++ [⟨t.fresh, k, v⟩])) := by
      apply w.awf.set
      · intro p hp
        rw [List.mem_append] at hp
        rcases hp with hp | hp
        · exact achain_home w.pos w.awf k p hp
        · simp only [List.mem_singleton] at hp; subst hp; rfl
      · rw [List.map_append, List.nodup_append]
        refine ⟨achain_nodup w.pos w.awf k, by simp, ?_⟩
        intro a ha b hb hab
        simp only [List.map_cons, List.map_nil, List.mem_singleton] at hb
        obtain ⟨p, hp, rfl⟩ := List.mem_map.1 ha
        exact cfind_eq_none.1 h p hp (hab.trans hb)
    simpa [Tbl.setChain, Tbl.size] using this
  · have := hperm.length_eq
    have hcount := w.count
    simp only [total_eq_flatten, Tbl.setChain] at *
    simp only [List.length_cons] at this
    omega
  · have := nodup_map_perm (f := (·.id)) hperm.symm
    simp only [Tbl.setChain]
    apply this
    simp only [List.map_cons, List.nodup_cons]
    refine ⟨?_, w.ids⟩
    intro hm
    obtain ⟨p, hp, he⟩ := List.mem_map.1 hm
    have := w.idLt p hp
    omega
  · intro p hp
    simp only [Tbl.setChain] at hp
    have := hperm.mem_iff.1 hp
    rw [List.mem_cons] at this
    rcases this with rfl | h'
    · simp
    · have := w.idLt p h'; simp only; omega

theorem setChain_wf_set {t : Tbl V} (w : WF t) (k : Key) (v : V) {p : Node V}
    (h : cfind (t.chain k) k = some p) :
    WF (t.setChain k ((t.chain k).set (locate (t.chain k) k) { p with key := k, val := v })) := by
  have hi : hashFn k t.size < t.arr.length := hash_lt w.pos
  have hc : t.chain k = t.arr[hashFn k t.size] := by rw [chain_eq, achain_eq w.pos rfl]
  have hp := cfind_some h
  have hkeys := set_same_map (·.key) (t.chain k) (locate (t.chain k) k) { p with key := k, val := v }
    (by intro q hq; have : cfind (t.chain k) k = some q := hq; rw [h] at this; simp at this; rw [← this, hp.2])
  have hids := set_same_map (·.id) (t.chain k) (locate (t.chain k) k) { p with key := k, val := v }
    (by intro q hq; have : cfind (t.chain k) k = some q := hq; rw [h] at this; simp at this; rw [← this])
  generalize hcc : (t.chain k).set (locate (t.chain k) k) { p with key := k, val := v } = c' at *
  have hlen : c'.length = (t.chain k).length := by rw [← hcc]; simp
  obtain ⟨h1, h2⟩ := set_flatten_perm t.arr _ hi c'
  have hidsAll : ((t.arr.set (hashFn k t.size) c').flatten.map (·.id)).Perm
      (t.arr.flatten.map (·.id)) := by
    refine (h1.map _).trans ?_
    refine List.Perm.trans ?_ (h2.map _).symm
    rw [List.map_append, List.map_append, hids, hc]
  refine ⟨by rw [setChain_size]; exact w.pos, ?_, ?_, ?_, ?_⟩
  · rw [setChain_size]
    apply w.awf.set
    · intro q hq
      have hqk : q.key ∈ c'.map (·.key) := List.mem_map_of_mem hq
      rw [hkeys] at hqk
      obtain ⟨r, hr, he⟩ := List.mem_map.1 hqk
      rw [← he]
      exact achain_home w.pos w.awf k r hr
    · rw [hkeys]; exact achain_nodup w.pos w.awf k
  · have := total_set t.arr _ hi c'
    have hcount := w.count
    rw [← hc, hlen] at this
    simp only [Tbl.setChain]
    omega
  · exact hidsAll.symm.nodup_iff.1 w.ids
  · intro q hq
    have : q.id ∈ (t.arr.set (hashFn k t.size) c').flatten.map (·.id) := List.mem_map_of_mem hq
    have := hidsAll.mem_iff.1 this
    obtain ⟨r, hr, he⟩ := List.mem_map.1 this
    have := w.idLt r hr
    simp only [Tbl.setChain]
    omega

theorem insert_wf {t : Tbl V} (w : WF t) (k : Key) (v : V) (r : Bool) : WF (insert t k v r).1 := by
  cases h : cfind (t.chain k) k with
  | none => rw [insert_none h]; exact setChain_wf_snoc w k v h
  | some p =>
    rw [insert_some h]
    cases r
    · exact w
    · exact setChain_wf_set w k v h

theorem delete_none {t : Tbl V} {k : Key} (h : cfind (t.chain k) k = none) :
    delete t k = (t, false) := by
  unfold delete
  have h' : (t.chain k)[locate (t.chain k) k]? = none := h
  simp only [h']

theorem delete_some {t : Tbl V} {k : Key} {p : Node V} (h : cfind (t.chain k) k = some p) :
    delete t k = ({ (t.setChain k ((t.chain k).eraseIdx (locate (t.chain k) k))) with
      nb := t.nb - 1 }, true) := by
  unfold delete
  have h' : (t.chain k)[locate (t.chain k) k]? = some p := h
  simp only [h']

theorem set_flatten_sublist (a : List (Chain V)) (i : Nat) (h : i < a.length) (c : Chain V)
    (hs : c.Sublist a[i]) : (a.set i c).flatten.Sublist a.flatten := by
  induction a generalizing i with
  | nil => simp at h
  | cons d ds ih =>
    cases i with
    | zero => simpa using hs
    | succ i =>
      simp only [List.set_cons_succ, List.flatten_cons]
      exact List.Sublist.append_left (ih i (by simpa using h) (by simpa using hs)) _

theorem delete_wf {t : Tbl V} (w : WF t) (k : Key) : WF (delete t k).1 := by
  cases h : cfind (t.chain k) k with
  | none => rw [delete_none h]; exact w
  | some p =>
    rw [delete_some h]
    have hi : hashFn k t.size < t.arr.length := hash_lt w.pos
    have hc : t.chain k = t.arr[hashFn k t.size] := by rw [chain_eq, achain_eq w.pos rfl]
    have hsub := List.eraseIdx_sublist (t.chain k) (locate (t.chain k) k)
    have hlt := locate_lt h
    generalize hcc : (t.chain k).eraseIdx (locate (t.chain k) k) = c' at *
    have hlen : c'.length + 1 = (t.chain k).length := by
      rw [← hcc, List.length_eraseIdx]; split <;> omega
    have hfs := set_flatten_sublist t.arr _ hi c' (hc ▸ hsub)
    refine ⟨?_, ?_, ?_, ?_, ?_⟩
    · simp [Tbl.setChain, Tbl.size]; exact w.pos
    · have : AWF t.size (t.arr.set (hashFn k t.size) c') := by
        apply w.awf.set
        · intro q hq
          exact achain_home w.pos w.awf k q (hsub.subset hq)
        · exact (hsub.map _).nodup (achain_nodup w.pos w.awf k)
      simpa [Tbl.setChain, Tbl.size] using this
    · have := total_set t.arr _ hi c'
      have hcount := w.count
      rw [← hc] at this
      simp only [Tbl.setChain]
      omega
    · exact (hfs.map _).nodup w.ids
    · intro q hq
      exact w.idLt q (hfs.subset hq)

theorem map_nil_flatten (a : List (Chain V)) : (a.map (fun _ => ([] : Chain V))).flatten = [] := by
  induction a <;> simp_all

theorem deleteAll_wf {t : Tbl V} (w : WF t) : WF (deleteAll t) := by
  refine ⟨?_, ⟨by simp [deleteAll, Tbl.size], by simp [deleteAll], by simp [deleteAll]⟩, ?_, ?_, ?_⟩
  · have := w.pos; simpa [deleteAll, Tbl.size] using this
  · simp [deleteAll, total_eq_flatten, map_nil_flatten]
  · simp [deleteAll, map_nil_flatten]
  · simp [deleteAll, map_nil_flatten]

/-! ### Lookup after each operation -/

theorem find_eq (t : Tbl V) (k : Key) : find t k = cfind (achain t.size t.arr k) k := rfl

theorem find_setChain {t : Tbl V} (hp : 0 < t.size) (k k' : Key) (c : Chain V) (nb : Int) (f : Nat) :
    find { t.setChain k c with nb := nb, fresh := f } k' =
      if hashFn k' t.size = hashFn k t.size then cfind c k' else find t k' := by
  have := achain_set (n := t.size) (a := t.arr) hp rfl k k' c
  have h2 : find { t.setChain k c with nb := nb, fresh := f } k' =
      cfind (achain t.size (t.arr.set (hashFn k t.size) c) k') k' := by
    simp [find_eq, Tbl.setChain, Tbl.size]
  rw [h2, this]
  split <;> rfl

theorem find_insert {t : Tbl V} (w : WF t) (k : Key) (v : V) (r : Bool) (k' : Key) :
    (find (insert t k v r).1 k').map (·.val) =
      if k' = k then
        (if r then some v else some (((find t k).map (·.val)).getD v))
      else (find t k').map (·.val) := by
  cases h : cfind (t.chain k) k with
  | none =>
    rw [insert_none h]
    have hf : find t k = none := h
    simp only [hf]
    rw [find_setChain w.pos, cfind_append]
    by_cases hk : k' = k
    · subst hk
      simp [h, cfind_cons]
    · simp only [hk, if_false]
      split
      · rename_i hh
        simp only [cfind_cons, Ne.symm hk, if_false, cfind_nil, Option.or_none]
        rw [find_eq, chain_eq]; unfold achain; rw [hh]
      · rfl
  | some p =>
    rw [insert_some h]
    have hf : find t k = some p := h
    cases r
    · simp only [Bool.false_eq_true, if_false, hf]
      split
      · subst_vars; simp [hf]
      · rfl
    · simp only [if_true]
      have := find_setChain (t := t) w.pos k k'
        ((t.chain k).set (locate (t.chain k) k) { p with key := k, val := v }) t.nb t.fresh
      have h3 : ({ t.setChain k ((t.chain k).set (locate (t.chain k) k) { p with key := k, val := v })
        with nb := t.nb, fresh := t.fresh } : Tbl V) =
        t.setChain k ((t.chain k).set (locate (t.chain k) k) { p with key := k, val := v }) := rfl
      rw [h3] at this
      rw [this, cfind_set h rfl]
      by_cases hk : k' = k
      · subst hk; simp
      · simp only [hk, if_false]
        split
        · rename_i hh
          rw [find_eq, chain_eq]; unfold achain; rw [hh]
        · rfl

theorem find_delete {t : Tbl V} (w : WF t) (k k' : Key) :
    find (delete t k).1 k' = if k' = k then none else find t k' := by
  cases h : cfind (t.chain k) k with
  | none =>
    rw [delete_none h]
    split
    · subst_vars; exact h
    · rfl
  | some p =>
    rw [delete_some h]
    have := find_setChain (t := t) w.pos k k'
      ((t.chain k).eraseIdx (locate (t.chain k) k)) (t.nb - 1) t.fresh
    have h3 : ({ t.setChain k ((t.chain k).eraseIdx (locate (t.chain k) k))
        with nb := t.nb - 1, fresh := t.fresh } : Tbl V) =
        { t.setChain k ((t.chain k).eraseIdx (locate (t.chain k) k)) with nb := t.nb - 1 } := rfl
    rw [h3] at this
    rw [this, cfind_eraseIdx h (achain_nodup w.pos w.awf k)]
    by_cases hk : k' = k
    · subst hk; simp
    · simp only [hk, if_false]
      split
      · rename_i hh
        rw [find_eq, chain_eq]; unfold achain; rw [hh]
      · rfl

theorem find_deleteAll (t : Tbl V) (k : Key) : find (deleteAll t) k = none := by
  rw [find_eq]
  have : achain (deleteAll t).size (deleteAll t).arr k = [] := by
    unfold achain deleteAll
    simp only [List.getElem?_map]
    cases t.arr[hashFn k _]? <;> simp
  rw [this]; simp

theorem find_alloc {g f : Nat} {n : Int} {t : Tbl V} (h : alloc g f n = some t) (k : Key) :
    find t k = none := by
  unfold alloc at h
  split at h
  · simp at h
  · simp only [Option.some.injEq] at h
    subst h
    rw [find_eq]
    have : ∀ i : Nat, ((List.replicate n.toNat ([] : Chain V))[i]?).getD [] = [] := by
      intro i; rw [List.getElem?_replicate]; split <;> rfl
    unfold achain
    simp [this]

/-! ### Realloc -/

theorem relink_fold {n : Nat} (hn : 0 < n) (ps : List (Node V)) (a : List (Chain V))
    (w : AWF n a) (hd : ((ps ++ a.flatten).map (·.key)).Nodup) :
    AWF n (ps.foldl (relink n) a) ∧ (ps.foldl (relink n) a).flatten.Perm (ps ++ a.flatten) := by
  induction ps generalizing a with
  | nil => exact ⟨w, List.Perm.refl _⟩
  | cons p ps ih =>
    simp only [List.foldl_cons]
    have hd' := hd
    simp only [List.cons_append, List.map_cons, List.nodup_cons] at hd
    have hnone : cfind (achain n a p.key) p.key = none := by
      rw [cfind_eq_none]
      intro q hq he
      apply hd.1
      rw [← he]
      apply List.mem_map_of_mem
      apply List.mem_append_right
      have := (mem_achain hn w q).2
      rw [he] at this
      exact this hq
    have hi : hashFn p.key n < a.length := by rw [w.len]; exact hash_lt hn
    have hre : relink n a p = a.set (hashFn p.key n) (a[hashFn p.key n] ++ [p]) := by
      unfold relink
      have h1 : (a[hashFn p.key n]?).getD [] = achain n a p.key := rfl
      simp only [h1, locate_of_none hnone, List.take_length]
      rw [achain_eq hn w.len]
    have hperm := set_flatten_snoc a _ hi p
    rw [← hre] at hperm
    have hw : AWF n (relink n a p) := by
      rw [hre]
      apply w.set
      · intro q hq
        rw [List.mem_append] at hq
        rcases hq with hq | hq
        · exact w.home _ hi q hq
        · simp only [List.mem_singleton] at hq; subst hq; rfl
      · rw [← achain_eq hn w.len, List.map_append, List.nodup_append]
        refine ⟨achain_nodup hn w _, by simp, ?_⟩
        intro x hx y hy hxy
        simp only [List.map_cons, List.map_nil, List.mem_singleton] at hy
        obtain ⟨q, hq, rfl⟩ := List.mem_map.1 hx
        exact cfind_eq_none.1 hnone q hq (hxy.trans hy)
    have hperm2 : (ps ++ (relink n a p).flatten).Perm (p :: (ps ++ a.flatten)) :=
      (List.Perm.append_left ps hperm).trans List.perm_middle
    have := ih (relink n a p) hw (nodup_map_perm (f := (·.key)) hperm2.symm (by simpa using hd'))
    exact ⟨this.1, this.2.trans (by simpa using hperm2)⟩

theorem foldl_foldl_flatten {β : Type} (f : β → Node V → β) (a : List (Chain V)) (b : β) :
    a.foldl (fun a c => c.foldl f a) b = a.flatten.foldl f b := by
  induction a generalizing b with
  | nil => rfl
  | cons c cs ih => simp [ih]

theorem realloc_spec {t t' : Tbl V} {g : Nat} {n : Int} (w : WF t) (h : realloc t g n = some t') :
    WF t' ∧ t'.arr.flatten.Perm t.arr.flatten ∧ (t'.size : Int) = n ∧ t'.nb = t.nb ∧
      t'.gen = g ∧ t'.fresh = t.fresh := by
  unfold realloc at h
  unfold alloc at h
  by_cases hn : n < 1
  · simp [hn] at h
  · simp only [hn, if_false, Option.bind_eq_bind, Option.bind_some, Option.some.injEq] at h
    have hpos : 0 < n.toNat := by omega
    rw [foldl_foldl_flatten] at h
    have hf : (List.replicate n.toNat ([] : Chain V)).flatten = [] := by simp
    have w0 : AWF n.toNat (List.replicate n.toNat ([] : Chain V)) := ⟨by simp, by simp, by simp⟩
    have := relink_fold hpos t.arr.flatten (List.replicate n.toNat []) w0
      (by rw [hf, List.append_nil]; exact flatten_keys_nodup w.awf)
    obtain ⟨h1, h2⟩ := this
    rw [hf, List.append_nil] at h2
    subst h
    refine ⟨⟨?_, ?_, ?_, ?_, ?_⟩, h2, ?_, rfl, rfl, rfl⟩
    · simp [Tbl.size, h1.len, hpos]
    · simpa [Tbl.size, h1.len] using h1
    · have := w.count
      have h3 := h2.length_eq
      simp only [total_eq_flatten] at *
      omega
    · exact nodup_map_perm h2.symm w.ids
    · intro p hp
      exact w.idLt p (h2.mem_iff.1 hp)
    · simp [Tbl.size, h1.len]; omega

/-- Two well-formed tables with the same nodes answer the same. -/
theorem find_perm {t t' : Tbl V} (w : WF t) (w' : WF t') (h : t'.arr.flatten.Perm t.arr.flatten)
    (k : Key) : find t' k = find t k := by
  apply Option.ext
  intro p
  have a := cfind_iff w.pos w.awf k p
  have b := cfind_iff w'.pos w'.awf k p
  rw [find_eq, find_eq, a, b, h.mem_iff]

/-! ### Scan -/

theorem deref_mem {c : Chain V} {i : Nat} {r} (h : deref c i = some r) : r.1 ∈ c ∧ r.1.id = i := by
  induction c with
  | nil => simp [deref] at h
  | cons p c ih =>
    simp only [deref] at h
    split at h
    · simp only [Option.some.injEq] at h; subst h; simp_all
    · have := ih h; exact ⟨List.mem_cons_of_mem _ this.1, this.2⟩

theorem deref_none {c : Chain V} {i : Nat} (h : ∀ p ∈ c, p.id ≠ i) : deref c i = none := by
  induction c with
  | nil => rfl
  | cons p c ih => simp only [deref]; simp_all

theorem deref_append {c d : Chain V} {p : Node V} (h : ∀ q ∈ c, q.id ≠ p.id) :
    deref (c ++ p :: d) p.id = some (p, d.head?.map (·.id)) := by
  induction c with
  | nil => simp [deref]
  | cons q c ih => simp only [List.cons_append, deref]; simp_all

theorem findSome_deref {t : Tbl V} (w : WF t) (pre post : List (Chain V)) (c d : Chain V) (p : Node V)
    (h : t.arr = pre ++ (c ++ p :: d) :: post) :
    t.arr.findSome? (fun c => deref c p.id) = some (p, d.head?.map (·.id)) := by
  have hid := w.ids
  rw [h] at hid ⊢
  simp only [List.flatten_append, List.flatten_cons, List.map_append, List.map_cons] at hid
  rw [List.findSome?_append]
  have h1 : pre.findSome? (fun c => deref c p.id) = none := by
    rw [List.findSome?_eq_none_iff]
    intro e he
    apply deref_none
    intro q hq hqe
    have hqm : q.id ∈ (pre.flatten).map (·.id) :=
      List.mem_map_of_mem (List.mem_flatten.2 ⟨e, he, hq⟩)
    rw [List.nodup_append] at hid
    exact hid.2.2 _ hqm _ (by simp [hqe]) rfl
  rw [h1, Option.none_or, List.findSome?_cons]
  have h2 : deref (c ++ p :: d) p.id = some (p, d.head?.map (·.id)) := by
    apply deref_append
    intro q hq hqe
    rw [List.nodup_append] at hid
    have := hid.2.1
    rw [List.append_assoc, List.nodup_append] at this
    exact this.2.2 q.id (List.mem_map_of_mem hq) p.id (by simp) hqe
  rw [h2]

/-- What remains to be enumerated from a scan state: nodes of the current chain, then later cells. -/
theorem scan_rest {t : Tbl V} (w : WF t) (n : Nat) :
    ∀ (pre post : List (Chain V)) (done rest : Chain V) (fuel : Nat),
      t.arr = pre ++ (done ++ rest) :: post → rest.length + (post.flatten).length = n → n ≤ fuel →
      scanFrom t fuel (next t ⟨t.gen, pre.length, rest.head?.map (·.id)⟩)
        = some (rest ++ post.flatten) := by
  induction n with
  | zero =>
    intro pre post done rest fuel h hl hf
    have hr : rest = [] := List.eq_nil_of_length_eq_zero (by omega)
    have hp : post.flatten = [] := List.eq_nil_of_length_eq_zero (by omega)
    subst hr
    have : next t ⟨t.gen, pre.length, none⟩ = some none := by
      unfold next
      simp only [ne_eq, not_true_eq_false, if_false]
      have hdrop : t.arr.drop (pre.length + 1) = post := by
        rw [h, List.drop_append]; simp
      rw [hdrop]
      have : ∀ (l : List (Chain V)) i, l.flatten = [] → nextCells l i = none := by
        intro l
        induction l with
        | nil => intro i _; rfl
        | cons c cs ih =>
          intro i hl
          simp only [List.flatten_cons, List.append_eq_nil_iff] at hl
          rw [hl.1]; simp only [nextCells]; exact ih _ hl.2
      rw [this post _ hp]
    simp only [List.head?_nil, Option.map_none, this, hp]
    cases fuel <;> rfl
  | succ n ih =>
    intro pre post done rest fuel h hl hf
    obtain ⟨fuel, rfl⟩ : ∃ f, fuel = f + 1 := ⟨fuel - 1, by omega⟩
    cases rest with
    | cons p d =>
      have hn : next t ⟨t.gen, pre.length, some p.id⟩
          = some (some (p, ⟨t.gen, pre.length, d.head?.map (·.id)⟩)) := by
        unfold next
        simp only [findSome_deref w pre post done d p h]
      simp only [List.head?_cons, Option.map_some, hn, scanFrom]
      have := ih pre post (done ++ [p]) d fuel (by simpa using h)
        (by simp only [List.length_cons] at hl; omega) (by omega)
      rw [this]; simp
    | nil =>
      simp only [List.length_nil, Nat.zero_add] at hl
      -- find the first non-empty cell of post
      have key : ∀ (q : List (Chain V)) (i : Nat), q.flatten ≠ [] →
          ∃ q1 p d q2, q = q1 ++ (p :: d) :: q2 ∧ q1.flatten = [] ∧
            nextCells q i = some (p, i + q1.length, d.head?.map (·.id)) := by
        intro q
        induction q with
        | nil => intro i h; simp at h
        | cons c cs ihq =>
          intro i hne
          cases c with
          | nil =>
            obtain ⟨q1, p, d, q2, h1, h2, h3⟩ := ihq (i + 1) (by simpa using hne)
            refine ⟨[] :: q1, p, d, q2, by simp [h1], by simpa using h2, ?_⟩
            simp only [nextCells, h3, List.length_cons]
            congr 3; omega
          | cons p d => exact ⟨[], p, d, cs, by simp, by simp, by simp [nextCells]⟩
      have hne : post.flatten ≠ [] := by intro he; rw [he] at hl; simp at hl
      obtain ⟨q1, p, d, q2, h1, h2, h3⟩ := key post (pre.length + 1) hne
      have hdrop : t.arr.drop (pre.length + 1) = post := by
        rw [h, List.drop_append]; simp
      have hn : next t ⟨t.gen, pre.length, none⟩
          = some (some (p, ⟨t.gen, pre.length + 1 + q1.length, d.head?.map (·.id)⟩)) := by
        unfold next
        simp only [ne_eq, not_true_eq_false, if_false, hdrop, h3]
      simp only [List.head?_nil, Option.map_none, hn, scanFrom]
      have hplen : (pre ++ (done ++ []) :: q1).length = pre.length + 1 + q1.length := by
        simp; omega
      have hpost : post.flatten = p :: (d ++ q2.flatten) := by
        rw [h1]; simp [h2]
      have := ih (pre ++ (done ++ []) :: q1) q2 [p] d fuel (by rw [h, h1]; simp)
        (by rw [hpost] at hl; simp only [List.length_cons, List.length_append] at hl; omega) (by omega)
      rw [hplen] at this
      rw [this, hpost]; simp

theorem scanAll_eq {t : Tbl V} (w : WF t) : scanAll t t.arr.flatten.length = some t.arr.flatten := by
  unfold scanAll first
  have hp := w.pos
  cases ha : t.arr with
  | nil => simp [Tbl.size, ha] at hp
  | cons c cs =>
    have := scan_rest w (t.arr.flatten.length) [] cs [] c t.arr.flatten.length
      (by simpa using ha) (by simp [ha]) (Nat.le_refl _)
    rw [ha] at this
    simpa using this

/-! ### Scan with deletion of the current element -/

theorem locate_append {done d : Chain V} {p : Node V} (h : ∀ q ∈ done, q.key ≠ p.key) :
    locate (done ++ p :: d) p.key = done.length := by
  induction done with
  | nil => simp [locate]
  | cons q c ih => simp only [List.cons_append, locate]; simp_all

theorem delete_cur {t : Tbl V} (w : WF t) {pre post : List (Chain V)} {done d : Chain V} {p : Node V}
    (h : t.arr = pre ++ (done ++ p :: d) :: post) :
    (delete t p.key).1.arr = pre ++ (done ++ d) :: post ∧ (delete t p.key).1.gen = t.gen := by
  have hlt : pre.length < t.arr.length := by rw [h]; simp
  have hget : t.arr[pre.length]'hlt = done ++ p :: d := by simp [h]
  have hhome : hashFn p.key t.size = pre.length := w.awf.home pre.length hlt p (by rw [hget]; simp)
  have hc : t.chain p.key = done ++ p :: d := by
    unfold Tbl.chain; rw [hhome, h]; simp
  have hnd := w.awf.nodup pre.length hlt
  rw [hget, List.map_append, List.nodup_append] at hnd
  have hl : locate (done ++ p :: d) p.key = done.length := by
    apply locate_append
    intro q hq he
    exact hnd.2.2 _ (List.mem_map_of_mem hq) p.key (by simp) he
  have hf : cfind (t.chain p.key) p.key = some p := by
    unfold cfind; rw [hc, hl]; simp
  rw [delete_some hf]
  refine ⟨?_, rfl⟩
  simp only [Tbl.setChain, hc, hl, hhome]
  rw [List.eraseIdx_append_of_length_le (Nat.le_refl _), h]
  simp

theorem scanDel_rest (sel : Node V → Bool) (n : Nat) :
    ∀ (t : Tbl V), WF t → ∀ (pre post : List (Chain V)) (done rest : Chain V) (fuel : Nat),
      t.arr = pre ++ (done ++ rest) :: post → rest.length + (post.flatten).length = n → n ≤ fuel →
      ∃ t', scanDelFrom sel fuel t (next t ⟨t.gen, pre.length, rest.head?.map (·.id)⟩)
          = some (rest ++ post.flatten, t') ∧ WF t' ∧
        t'.arr.flatten = pre.flatten ++ done ++ (rest ++ post.flatten).filter (fun p => !sel p) := by
  induction n with
  | zero =>
    intro t w pre post done rest fuel h hl hf
    have hr : rest = [] := List.eq_nil_of_length_eq_zero (by omega)
    have hp : post.flatten = [] := List.eq_nil_of_length_eq_zero (by omega)
    subst hr
    have hnx : next t ⟨t.gen, pre.length, none⟩ = some none := by
      unfold next
      simp only [ne_eq, not_true_eq_false, if_false]
      have hdrop : t.arr.drop (pre.length + 1) = post := by
        rw [h, List.drop_append]; simp
      rw [hdrop]
      have : ∀ (l : List (Chain V)) i, l.flatten = [] → nextCells l i = none := by
        intro l
        induction l with
        | nil => intro i _; rfl
        | cons c cs ih =>
          intro i hl
          simp only [List.flatten_cons, List.append_eq_nil_iff] at hl
          rw [hl.1]; simp only [nextCells]; exact ih _ hl.2
      rw [this post _ hp]
    refine ⟨t, ?_, w, ?_⟩
    · simp only [List.head?_nil, Option.map_none, hnx, hp]
      cases fuel <;> rfl
    · rw [h]; simp only [List.append_nil, List.flatten_append, List.flatten_cons, hp]; simp
  | succ n ih =>
    intro t w pre post done rest fuel h hl hf
    obtain ⟨fuel, rfl⟩ : ∃ f, fuel = f + 1 := ⟨fuel - 1, by omega⟩
    cases rest with
    | cons p d =>
      have hn : next t ⟨t.gen, pre.length, some p.id⟩
          = some (some (p, ⟨t.gen, pre.length, d.head?.map (·.id)⟩)) := by
        unfold next
        simp only [findSome_deref w pre post done d p h]
      simp only [List.head?_cons, Option.map_some, hn, scanDelFrom]
      by_cases hs : sel p
      · simp only [hs, if_true]
        obtain ⟨ha, hg⟩ := delete_cur w h
        have := ih (delete t p.key).1 (delete_wf w p.key) pre post done d fuel ha
          (by simp only [List.length_cons] at hl; omega) (by omega)
        obtain ⟨t', h1, h2, h3⟩ := this
        rw [hg] at h1
        refine ⟨t', by rw [h1]; simp, h2, ?_⟩
        rw [h3]; simp [hs]
      · simp only [hs, if_false, Bool.false_eq_true]
        have := ih t w pre post (done ++ [p]) d fuel (by simpa using h)
          (by simp only [List.length_cons] at hl; omega) (by omega)
        obtain ⟨t', h1, h2, h3⟩ := this
        refine ⟨t', by rw [h1]; simp, h2, ?_⟩
        rw [h3]; simp [hs]
    | nil =>
      simp only [List.length_nil, Nat.zero_add] at hl
      have key : ∀ (q : List (Chain V)) (i : Nat), q.flatten ≠ [] →
          ∃ q1 p d q2, q = q1 ++ (p :: d) :: q2 ∧ q1.flatten = [] ∧
            nextCells q i = some (p, i + q1.length, d.head?.map (·.id)) := by
        intro q
        induction q with
        | nil => intro i h; simp at h
        | cons c cs ihq =>
          intro i hne
          cases c with
          | nil =>
            obtain ⟨q1, p, d, q2, h1, h2, h3⟩ := ihq (i + 1) (by simpa using hne)
            refine ⟨[] :: q1, p, d, q2, by simp [h1], by simpa using h2, ?_⟩
            simp only [nextCells, h3, List.length_cons]
            congr 3; omega
          | cons p d => exact ⟨[], p, d, cs, by simp, by simp, by simp [nextCells]⟩
      have hne : post.flatten ≠ [] := by intro he; rw [he] at hl; simp at hl
      obtain ⟨q1, p, d, q2, h1, h2, h3⟩ := key post (pre.length + 1) hne
      have hdrop : t.arr.drop (pre.length + 1) = post := by
        rw [h, List.drop_append]; simp
      have hplen : (pre ++ (done ++ []) :: q1).length = pre.length + 1 + q1.length := by
        simp; omega
      have hn : next t ⟨t.gen, pre.length, none⟩
          = some (some (p, ⟨t.gen, (pre ++ (done ++ []) :: q1).length, d.head?.map (·.id)⟩)) := by
        unfold next
        simp only [ne_eq, not_true_eq_false, if_false, hdrop, h3, hplen]
      simp only [List.head?_nil, Option.map_none, hn, scanDelFrom]
      have hpost : post.flatten = p :: (d ++ q2.flatten) := by
        rw [h1]; simp [h2]
      have harr : t.arr = (pre ++ (done ++ []) :: q1) ++ ([] ++ p :: d) :: q2 := by rw [h, h1]; simp
      have hlen : d.length + q2.flatten.length = n := by
        rw [hpost] at hl; simp only [List.length_cons, List.length_append] at hl; omega
      by_cases hs : sel p
      · simp only [hs, if_true]
        obtain ⟨ha, hg⟩ := delete_cur w harr
        obtain ⟨t', g1, g2, g3⟩ := ih (delete t p.key).1 (delete_wf w p.key) (pre ++ (done ++ []) :: q1) q2 [] d fuel ha hlen
          (by omega)
        rw [hg] at g1
        refine ⟨t', by rw [g1, hpost]; simp, g2, ?_⟩
        rw [g3, hpost]; simp [hs, h2]
      · simp only [hs, if_false, Bool.false_eq_true]
        obtain ⟨t', g1, g2, g3⟩ := ih t w (pre ++ (done ++ []) :: q1) q2 [p] d fuel (by simpa using harr) hlen (by omega)
        refine ⟨t', by rw [g1, hpost]; simp, g2, ?_⟩
        rw [g3, hpost]; simp [hs, h2]

theorem scanDel_eq {t : Tbl V} (w : WF t) (sel : Node V → Bool) :
    ∃ t', scanDel sel t t.arr.flatten.length = some (t.arr.flatten, t') ∧ WF t' ∧
      t'.arr.flatten = t.arr.flatten.filter (fun p => !sel p) := by
  unfold scanDel first
  have hp := w.pos
  cases ha : t.arr with
  | nil => simp [Tbl.size, ha] at hp
  | cons c cs =>
    have := scanDel_rest sel (t.arr.flatten.length) t w [] cs [] c t.arr.flatten.length
      (by simpa using ha) (by simp [ha]) (Nat.le_refl _)
    rw [ha] at this
    simpa using this

end Gp.HashTbl
