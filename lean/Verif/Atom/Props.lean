import Verif.Atom.Lemmas
/-
C03: atoms are interned.
-/
namespace Gp.Atom

variable {P : Par}

/-- Specification: the name of an atom. -/
def St.name (s : St) (a : Nat) : Option Name := (s.tbl a).map (·.name)

/-- The states of the table: after Pl_Init_Atom, after any creation of an atom by its name or by new_atom/2. -/
inductive Reach (P : Par) : St → Prop where
  | init (as : List Nat) (s : St) : 0 < P.max → createAll P empty initNames = .ok (as, s) → Reach P s
  | create (s : St) (name : Name) (a : Nat) (s' : St) : Reach P s → create P s name = .ok (a, s') → Reach P s'
  | genNew (s : St) (r : Nat) (pre : Name) (a r' : Nat) (s' : St) : Reach P s → genNew P s r pre = .ok (a, r', s') → Reach P s'

/-- What a creation does: the other names are kept. -/
def Extends (s s' : St) : Prop := ∀ a n, s.name a = some n → s'.name a = some n

theorem Extends.refl (s : St) : Extends s s := fun _ _ h => h
theorem Extends.trans {s s' s'' : St} (h : Extends s s') (h' : Extends s' s'') : Extends s s'' := fun a n hn => h' a n (h a n hn)

theorem name_some {s : St} {a : Nat} {n : Name} : s.name a = some n ↔ ∃ i, s.tbl a = some i ∧ i.name = n := by
  unfold St.name
  cases s.tbl a <;> simp

theorem create_inv {s : St} (hi : Inv P s) {n : Name} {a : Nat} {s' : St} (h : create P s n = .ok (a, s')) :
    Inv P s' ∧ Extends s s' ∧ s'.name a = some n ∧ (∀ b m, s'.name b = some m → s.name b = some m ∨ (b = a ∧ m = n)) := by
  rcases create_spec hi n with ⟨p, i, h1, h2, h3⟩ | ⟨p, t, h1, h2, h3, h4, h5⟩ | ⟨h1, _⟩
  · rw [h1] at h
    simp only [Res.ok.injEq, Prod.mk.injEq] at h
    obtain ⟨rfl, rfl⟩ := h
    exact ⟨hi, Extends.refl _, name_some.2 ⟨i, h2, h3⟩, fun b m hb => .inl hb⟩
  · rw [h1] at h
    simp only [Res.ok.injEq, Prod.mk.injEq] at h
    obtain ⟨rfl, rfl⟩ := h
    refine ⟨h4, ?_, ?_, ?_⟩
    · intro b m hb
      obtain ⟨i, hi1, hi2⟩ := name_some.1 hb
      refine name_some.2 ⟨i, ?_, hi2⟩
      rw [h5]
      simp only
      rw [if_neg (by rintro rfl; rw [h3] at hi1; simp at hi1)]
      exact hi1
    · refine name_some.2 ⟨⟨n, hashString P n, n.length % 65536⟩, ?_, ?_⟩
      · rw [h5]; simp only [if_true]
      · rfl
    · intro b m hb
      obtain ⟨i, hi1, hi2⟩ := name_some.1 hb
      rw [h5] at hi1
      simp only at hi1
      by_cases hbp : b = p
      · rw [if_pos hbp] at hi1
        simp only [Option.some.injEq] at hi1
        subst hi1
        exact .inr ⟨hbp, hi2.symm⟩
      · rw [if_neg hbp] at hi1
        exact .inl (name_some.2 ⟨i, hi1, hi2⟩)
  · rw [h1] at h
    simp at h

theorem createAll_inv {s : St} (hi : Inv P s) {l : List Name} {as : List Nat} {s' : St} (h : createAll P s l = .ok (as, s')) :
    Inv P s' ∧ Extends s s' ∧ as.map s'.name = l.map some := by
  induction l generalizing s as s' with
  | nil =>
    simp only [createAll, Res.ok.injEq, Prod.mk.injEq] at h
    obtain ⟨rfl, rfl⟩ := h
    exact ⟨hi, Extends.refl _, rfl⟩
  | cons n l ih =>
    rw [createAll] at h
    cases hc : create P s n with
    | ok r =>
      obtain ⟨a, s1⟩ := r
      rw [hc] at h
      simp only at h
      cases hr : createAll P s1 l with
      | ok r =>
        obtain ⟨as', s2⟩ := r
        rw [hr] at h
        simp only [Res.ok.injEq, Prod.mk.injEq] at h
        obtain ⟨rfl, rfl⟩ := h
        obtain ⟨c1, c2, c3, _⟩ := create_inv hi hc
        obtain ⟨i1, i2, i3⟩ := ih c1 hr
        refine ⟨i1, c2.trans i2, ?_⟩
        rw [List.map_cons, List.map_cons, i3, i2 a n c3]
      | _ => rw [hr] at h; simp at h
    | _ => rw [hc] at h; simp at h

/-! new_atom -/

theorem genLoop_spec {s : St} (hi : Inv P s) (r : Nat) (buf : Name) :
    (∀ a r' s', genLoop P s r buf = .ok (a, r', s') → ∃ n, create P s n = .ok (a, s') ∧ (∀ b, s.name b ≠ some n) ∧
      ∃ x, x ≠ [] ∧ n = buf ++ x) ∧
    genLoop P s r buf ≠ .loop ∧ (s.nb < P.max → (∃ L, buf.length < L ∧ L < 1024 ∧ ∀ a n, s.name a = some n → n.length ≠ L) →
      ∃ a r' s', genLoop P s r buf = .ok (a, r', s')) := by
  generalize hk : 1024 - buf.length = k
  induction k using Nat.strongRecOn generalizing buf r with
  | _ k ih =>
  rw [genLoop]
  by_cases hl : buf.length + 2 ≤ 1024
  · rw [dif_pos hl]
    simp only
    generalize hn : buf ++ [genChar (rand r)] = name
    rcases locate_cases hi name with ⟨p, i, h1, h2, h3⟩ | ⟨k', hk', h1, h2, h3, h4⟩ | ⟨h1, h2, h3⟩
    · simp only [h1, h2]
      have hlen : name.length = buf.length + 1 := by rw [← hn]; simp
      obtain ⟨i1, i2, i3⟩ := ih (1024 - name.length) (by omega) (rand r) name rfl
      refine ⟨?_, i2, ?_⟩
      · intro a r' s' h
        obtain ⟨n, g1, g2, x, g3, rfl⟩ := i1 a r' s' h
        exact ⟨_, g1, g2, genChar (rand r) :: x, by simp, by rw [← hn]; simp⟩
      · intro hnb ⟨L, hL1, hL2, hL3⟩
        refine i3 hnb ⟨L, ?_, hL2, hL3⟩
        have : name.length ≠ L := hL3 p name (name_some.2 ⟨i, h2, h3⟩)
        omega
    · have hcr : create P s name = addAtom s name (hashString P name) (some (cell P.max (home P name) k')) := by
        unfold create
        simp only [h1]
      simp only [h1, h2, addAtom]
      refine ⟨?_, by simp, fun _ _ => ⟨_, _, _, rfl⟩⟩
      intro a r' s' h
      simp only [Res.ok.injEq, Prod.mk.injEq] at h
      obtain ⟨rfl, rfl, rfl⟩ := h
      refine ⟨name, ?_, ?_, [genChar (rand r)], by simp, hn.symm⟩
      · rw [hcr]; simp only [addAtom, h2]
      · intro b hb
        obtain ⟨i, hi1, hi2⟩ := name_some.1 hb
        exact h3 b i hi1 hi2
    · simp only [h1]
      exact ⟨by simp, by simp, fun h => by omega⟩
  · rw [dif_neg hl]
    exact ⟨by simp, by simp, fun _ ⟨L, h1, h2, _⟩ => by omega⟩

theorem genNew_ok {s : St} (hi : Inv P s) {r : Nat} {pre : Name} {a r' : Nat} {s' : St} (h : genNew P s r pre = .ok (a, r', s')) :
    ∃ n, create P s n = .ok (a, s') ∧ (∀ b, s.name b ≠ some n) ∧ ∃ x, x ≠ [] ∧ n = pre ++ x := by
  unfold genNew at h
  by_cases hf : s.nb ≥ P.max
  · rw [if_pos hf] at h; simp at h
  · rw [if_neg hf] at h
    exact (genLoop_spec hi r pre).1 a r' s' h

theorem Reach.inv {s : St} (h : Reach P s) : Inv P s := by
  induction h with
  | init as s hN h => exact (createAll_inv (inv_empty hN) h).1
  | create s n a s' _ h ih => exact (create_inv ih h).1
  | genNew s r pre a r' s' _ h ih =>
    obtain ⟨n, h', _⟩ := genNew_ok ih h
    exact (create_inv ih h').1

/-! The theorems -/

/-- C03: two atoms with the same name are the same atom. -/
theorem C03_unique {s : St} (h : Reach P s) (a b : Nat) (n : Name) (ha : s.name a = some n) (hb : s.name b = some n) : a = b := by
  obtain ⟨i, hi1, hi2⟩ := name_some.1 ha
  obtain ⟨j, hj1, hj2⟩ := name_some.1 hb
  exact h.inv.unique hi1 hj1 (hi2.trans hj2.symm)

/-- C03: a creation gives an atom with this name (an existing one if there is one), no other atom is changed, and the only error
is when the table is full and the name is new. In particular the search in the table always ends. -/
theorem C03_create {s : St} (h : Reach P s) (n : Name) :
    (∃ a s', create P s n = .ok (a, s') ∧ a < P.max ∧ s'.name a = some n ∧
      ∀ b, b ≠ a → s'.name b = s.name b) ∨
    (create P s n = .full ∧ (∀ a, s.name a ≠ some n) ∧ ∀ a, a < P.max → ∃ m, s.name a = some m) := by
  have hi := h.inv
  rcases create_spec hi n with ⟨p, i, h1, h2, h3⟩ | ⟨p, t, h1, h2, h3, h4, h5⟩ | ⟨h1, h2, h3⟩
  · exact .inl ⟨p, s, h1, hi.lt h2, name_some.2 ⟨i, h2, h3⟩, fun _ _ => rfl⟩
  · have ht : t.tbl p = some ⟨n, hashString P n, n.length % 65536⟩ := by rw [h5]; simp only [if_true]
    refine .inl ⟨p, t, h1, h4.lt ht, name_some.2 ⟨_, ht, rfl⟩, fun b hb => ?_⟩
    unfold St.name
    rw [h5]
    simp only [if_neg hb]
  · refine .inr ⟨h1, ?_, ?_⟩
    · intro a ha
      obtain ⟨i, hi1, hi2⟩ := name_some.1 ha
      exact h2 a i hi1 hi2
    · intro a ha
      cases hta : s.tbl a with
      | none =>
        have := used_lt_of_free ha hta
        rw [← hi.nb] at this
        omega
      | some i => exact ⟨i.name, name_some.2 ⟨i, hta, rfl⟩⟩

/-- C03: the search of a name finds its atom iff it exists; it ends even when the table is full. -/
theorem C03_find {s : St} (h : Reach P s) (n : Name) :
    ∃ r, find P s n = .ok r ∧ ∀ a, r = some a ↔ s.name a = some n := by
  have hi := h.inv
  unfold find
  rcases locate_cases hi n with ⟨p, i, h1, h2, h3⟩ | ⟨k, hk, h1, h2, h3, _⟩ | ⟨h1, h2, _⟩
  · refine ⟨some p, by simp only [h1, h2], fun a => ?_⟩
    constructor
    · intro he
      simp only [Option.some.injEq] at he
      subst he
      exact name_some.2 ⟨i, h2, h3⟩
    · intro ha
      obtain ⟨j, hj1, hj2⟩ := name_some.1 ha
      rw [hi.unique h2 hj1 (h3.trans hj2.symm)]
  · refine ⟨none, by simp only [h1, h2], fun a => ?_⟩
    constructor
    · intro he; simp at he
    · intro ha
      obtain ⟨j, hj1, hj2⟩ := name_some.1 ha
      exact absurd hj2 (h3 a j hj1)
  · refine ⟨none, by simp only [h1], fun a => ?_⟩
    constructor
    · intro he; simp at he
    · intro ha
      obtain ⟨j, hj1, hj2⟩ := name_some.1 ha
      exact absurd hj2 (h2 a j hj1)

/-- C03: in any sequence of creations, two results are the same atom iff the names are the same. -/
theorem C03_history {s : St} (h : Reach P s) (l : List Name) (as : List Nat) (s' : St) (hc : createAll P s l = .ok (as, s')) :
    as.length = l.length ∧ ∀ (i j a b : Nat) (n m : Name), as[i]? = some a → as[j]? = some b → l[i]? = some n → l[j]? = some m →
      (a = b ↔ n = m) := by
  obtain ⟨hi, _, hm⟩ := createAll_inv h.inv hc
  have hlen : as.length = l.length := by simpa using congrArg List.length hm
  refine ⟨hlen, ?_⟩
  intro i j a b n m ha hb hn hm'
  have key : ∀ (i a : Nat) (n : Name), as[i]? = some a → l[i]? = some n → s'.name a = some n := by
    intro i a n ha hn
    have := congrArg (·[i]?) hm
    simp only [List.getElem?_map, ha, hn, Option.map_some] at this
    exact Option.some.inj this
  have h1 := key i a n ha hn
  have h2 := key j b m hb hm'
  constructor
  · rintro rfl
    rw [h1] at h2
    exact Option.some.inj h2
  · rintro rfl
    obtain ⟨x, hx1, hx2⟩ := name_some.1 h1
    obtain ⟨y, hy1, hy2⟩ := name_some.1 h2
    exact hi.unique hx1 hy1 (hx2.trans hy2.symm)

/-- C03: new_atom/2 gives an atom which did not exist, whose name begins with the prefix. -/
theorem C03_new_atom {s : St} (h : Reach P s) (r : Nat) (pre : Name) (a r' : Nat) (s' : St)
    (hg : genNew P s r pre = .ok (a, r', s')) :
    s.name a = none ∧ (∃ n, s'.name a = some n ∧ (∀ b, s.name b ≠ some n) ∧ ∃ x, x ≠ [] ∧ n = pre ++ x) ∧
    ∀ b, b ≠ a → s'.name b = s.name b := by
  obtain ⟨n, hc, hne, x, hx⟩ := genNew_ok h.inv hg
  rcases C03_create h n with ⟨a', s'', h1, h2, h3, h4⟩ | ⟨h1, _⟩
  · rw [hc] at h1
    simp only [Res.ok.injEq, Prod.mk.injEq] at h1
    obtain ⟨rfl, rfl⟩ := h1
    refine ⟨?_, ⟨n, h3, hne, x, hx⟩, h4⟩
    cases hs : s.name a with
    | none => rfl
    | some m =>
      have := (create_inv h.inv hc).2.1 a m hs
      rw [h3] at this
      rw [Option.some.inj this] at hne
      exact absurd hs (hne a)
  · rw [hc] at h1; simp at h1

/-- C03: new_atom/2 ends, and succeeds if the table is not full and there is a length between the length of the prefix and the
size of the buffer (1024) which is not the length of an atom. -/
theorem C03_new_atom_succeeds {s : St} (h : Reach P s) (r : Nat) (pre : Name) :
    genNew P s r pre ≠ .loop ∧
    (s.nb < P.max → (∃ L, pre.length < L ∧ L < 1024 ∧ ∀ a n, s.name a = some n → n.length ≠ L) →
      ∃ a r' s', genNew P s r pre = .ok (a, r', s')) := by
  obtain ⟨_, h2, h3⟩ := genLoop_spec h.inv r pre
  unfold genNew
  constructor
  · by_cases hf : s.nb ≥ P.max
    · rw [if_pos hf]; simp
    · rw [if_neg hf]; exact h2
  · intro hnb hL
    rw [if_neg (by omega)]
    exact h3 hnb hL

/-- The code violates C03: new_atom/2 with a prefix of more than 1022 characters writes after the end of the buffer. -/
theorem C03_new_atom_long_prefix_overflows (s : St) (hnb : s.nb < P.max) (r : Nat) (pre : Name) (hp : 1022 < pre.length) :
    genNew P s r pre = .crash := by
  unfold genNew
  rw [if_neg (by omega), genLoop, dif_neg (by omega)]

/-! Enumeration -/

theorem findNext_spec (P : Par) (s : St) (i : Nat) :
    match findNext P s i with
    | some a => i ≤ a ∧ a < P.max ∧ (∃ n, s.name a = some n) ∧ ∀ b, i ≤ b → b < a → s.name b = none
    | none => ∀ b, i ≤ b → b < P.max → s.name b = none := by
  fun_induction findNext P s i with
  | case1 i h hs =>
    refine ⟨by omega, h, ?_, fun b _ _ => by omega⟩
    rw [Option.isSome_iff_exists] at hs
    obtain ⟨x, hx⟩ := hs
    exact ⟨x.name, name_some.2 ⟨x, hx, rfl⟩⟩
  | case2 i h hs ih =>
    have hnone : s.name i = none := by
      unfold St.name
      rw [Option.not_isSome_iff_eq_none.1 hs]; rfl
    generalize findNext P s (i + 1) = r at ih
    cases r with
    | none =>
      intro b hb1 hb2
      by_cases hbi : b = i
      · rw [hbi]; exact hnone
      · exact ih b (by omega) hb2
    | some a =>
      obtain ⟨h1, h2, h3, h4⟩ := ih
      refine ⟨by omega, h2, h3, fun b hb1 hb2 => ?_⟩
      by_cases hbi : b = i
      · rw [hbi]; exact hnone
      · exact h4 b (by omega) hb2
  | case3 i h => intro b _ _; omega

/-- The answers of current_atom(X): the state of the table may be extended between two answers (`ss` are the states at each
step, `last + 1` the number of cells already seen). -/
def enumAtoms (P : Par) : List St → Nat → List Nat
  | [], _ => []
  | s :: ss, i =>
    match findNext P s i with
    | none => []
    | some a => a :: enumAtoms P ss (a + 1)

/-- C03: the enumeration of the atoms gives increasing, therefore distinct, atoms; whatever atoms are created between the answers,
an atom which existed at the beginning is given if the enumeration is complete (it does not stop for lack of states). -/
theorem C03_enumeration (P : Par) (ss : List St) (s0 : St) (i : Nat) (hext : ∀ s ∈ ss, Extends s0 s)
    (hmono : ss.Pairwise Extends) :
    (enumAtoms P ss i).Pairwise (· < ·) ∧ (∀ a ∈ enumAtoms P ss i, i ≤ a ∧ ∃ s ∈ ss, ∃ n, s.name a = some n) ∧
    ((enumAtoms P ss i).length < ss.length → ∀ a n, s0.name a = some n → i ≤ a → a < P.max → a ∈ enumAtoms P ss i) := by
  induction ss generalizing i with
  | nil => exact ⟨List.Pairwise.nil, by simp [enumAtoms], by simp [enumAtoms]⟩
  | cons s ss ih =>
    have hf := findNext_spec P s i
    rw [List.pairwise_cons] at hmono
    rw [enumAtoms]
    cases hfn : findNext P s i with
    | none =>
      rw [hfn] at hf
      refine ⟨List.Pairwise.nil, by simp, fun _ a n ha h1 h2 => ?_⟩
      have := hext s (by simp) a n ha
      rw [hf a h1 h2] at this
      simp at this
    | some a =>
      rw [hfn] at hf
      obtain ⟨f1, f2, f3, f4⟩ := hf
      obtain ⟨i1, i2, i3⟩ := ih (a + 1) (fun s hs => hext s (by simp [hs])) hmono.2
      refine ⟨?_, ?_, ?_⟩
      · rw [List.pairwise_cons]
        exact ⟨fun b hb => by have := (i2 b hb).1; omega, i1⟩
      · intro b hb
        rcases List.mem_cons.1 hb with rfl | hb
        · exact ⟨f1, s, by simp, f3⟩
        · obtain ⟨h1, s', hs', h2⟩ := i2 b hb
          exact ⟨by omega, s', by simp [hs'], h2⟩
      · intro hlen b n hb h1 h2
        simp only [List.length_cons] at hlen
        rcases Nat.lt_trichotomy b a with hba | hba | hba
        · have := hext s (by simp) b n hb
          rw [f4 b h1 hba] at this
          simp at this
        · simp [hba]
        · exact List.mem_cons_of_mem _ (i3 (by omega) b n hb (by omega) h2)

/-! The length -/

/-- C03: `prop.length` is the length of the name if it is less than 65536. -/
theorem C03_length_partial {s : St} (h : Reach P s) (a : Nat) (i : Inf) (ha : s.tbl a = some i) (hl : i.name.length < 65536) :
    i.length = i.name.length := by
  rw [(h.inv.reach a i ha).2.1, Nat.mod_eq_of_lt hl]

/-- The code violates this for longer names: the length is a field of 16 bits, atom_length/2 gives 0 for an atom of 65536
characters (and atom_concat/3 allocates a buffer which is too short). -/
theorem C03_length_truncated {s : St} (h : Reach P s) (n : Name) (hl : n.length = 65536) (a : Nat) (s' : St)
    (hc : create P s n = .ok (a, s')) : ∃ i, s'.tbl a = some i ∧ i.name = n ∧ i.length = 0 := by
  obtain ⟨hi, _, hn, _⟩ := create_inv h.inv hc
  obtain ⟨i, h1, h2⟩ := name_some.1 hn
  refine ⟨i, h1, h2, ?_⟩
  rw [(hi.reach a i h1).2.1, h2, hl]

/-! The initial table -/

theorem create_at_home {s : St} {n : Name} (hN : 0 < P.max) (h : s.tbl (home P n) = none) :
    create P s n = .ok (home P n, { tbl := fun x => if x = home P n then some ⟨n, hashString P n, n.length % 65536⟩ else s.tbl x,
                                    nb := s.nb + 1 }) := by
  have : locate P s n (hashString P n) = some (some (home P n)) := by
    unfold locate
    obtain ⟨m, hm⟩ : ∃ m, P.max = m + 1 := ⟨P.max - 1, by omega⟩
    conv => lhs; rw [hm]
    unfold home at h ⊢
    rw [probe]
    rw [← hm, h]
  unfold create
  simp only [this, addAtom, h]

theorem createAll_append (s : St) (l l' : List Name) : createAll P s (l ++ l') =
    match createAll P s l with
    | .ok (as, s') =>
      match createAll P s' l' with
      | .ok (bs, s'') => .ok (as ++ bs, s'')
      | .full => .full
      | .loop => .loop
      | .crash => .crash
    | .full => .full
    | .loop => .loop
    | .crash => .crash := by
  induction l generalizing s with
  | nil =>
    simp only [List.nil_append, createAll]
    cases createAll P s l' <;> simp
  | cons n l ih =>
    rw [List.cons_append, createAll, createAll]
    cases hc : create P s n with
    | ok r =>
      simp only
      rw [ih]
      cases createAll P r.2 l with
      | ok r1 =>
        simp only
        cases createAll P r1.2 l' <;> simp
      | _ => rfl
    | _ => rfl

theorem hash_char {i : Nat} : hashString P (strChar i) = i := by
  unfold strChar
  by_cases h : i = 0
  · rw [if_pos h, h]; rfl
  · rw [if_neg h]; rfl

/-- The creation of the characters. -/
theorem create_chars (hN : 256 < P.max) (k : Nat) (hk : k ≤ 256) :
    ∃ s, createAll P empty ((List.range k).map strChar) = .ok (List.range k, s) ∧ s.nb = k ∧
      ∀ p, k ≤ p → s.tbl p = none := by
  induction k with
  | zero => exact ⟨empty, rfl, rfl, fun _ _ => rfl⟩
  | succ k ih =>
    obtain ⟨s, h1, h2, h3⟩ := ih (by omega)
    have hh : home P (strChar k) = k := by
      unfold home
      rw [hash_char, Nat.mod_eq_of_lt (by omega)]
    have hc := create_at_home (P := P) (s := s) (n := strChar k) (by omega) (by rw [hh]; exact h3 k (by omega))
    rw [hh] at hc
    refine ⟨{ tbl := fun x => if x = k then some ⟨strChar k, hashString P (strChar k), (strChar k).length % 65536⟩ else s.tbl x,
              nb := s.nb + 1 }, ?_, ?_, ?_⟩
    · rw [List.range_succ, List.map_append, createAll_append, h1]
      simp only [List.map_cons, List.map_nil, createAll, hc]
    · simp only [h2]
    · intro p hp
      simp only
      rw [if_neg (by omega)]
      exact h3 p (by omega)

/-- C03: the initialisation succeeds if the table has place for its 261 atoms (`pl_max_atom`, adjusted); after it and for ever,
the atom of the character `c` is `c`, '' is 0 and [] is 256. -/
theorem C03_init (hN : 261 ≤ P.max) : ∃ as s, createAll P empty initNames = .ok (as, s) ∧ Reach P s ∧
    (∀ c, c < 256 → s.name (atomChar c) = some (strChar c)) ∧ s.name ATOM_NIL = some nilName ∧ s.name 0 = some [] ∧ s.nb ≤ 261 := by
  obtain ⟨s1, h1, h2, h3⟩ := create_chars (P := P) (by omega) 256 (by omega)
  obtain ⟨i1, _, i3⟩ := createAll_inv (inv_empty (by omega)) h1
  have hchar : ∀ c, c < 256 → s1.name c = some (strChar c) := by
    intro c hc
    have := congrArg (·[c]?) i3
    simpa [hc] using this
  -- []
  have hh : home P nilName = 256 := by
    have : hashString P nilName = 256 := rfl
    unfold home
    rw [this]
    exact Nat.mod_eq_of_lt (by omega)
  have hc2 := create_at_home (P := P) (s := s1) (n := nilName) (by omega) (by rw [hh]; exact h3 256 (by omega))
  rw [hh] at hc2
  -- the others
  have step : ∀ (s : St) (n : Name), Inv P s → s.nb < P.max → ∃ a s', create P s n = .ok (a, s') ∧ Inv P s' ∧ Extends s s' ∧
      s'.nb ≤ s.nb + 1 := by
    intro s n hi hnb
    rcases create_spec hi n with ⟨p, i, g1, g2, g3⟩ | ⟨p, t, g1, g2, g3, g4, g5⟩ | ⟨g1, g2, g3⟩
    · exact ⟨p, s, g1, hi, Extends.refl _, by omega⟩
    · refine ⟨p, t, g1, g4, (create_inv hi g1).2.1, ?_⟩
      have hp : p < P.max := g4.lt (a := ⟨n, hashString P n, n.length % 65536⟩) (by rw [g5]; simp only [if_true])
      rw [g4.nb, g5, used_add hp g3, hi.nb]
      omega
    · omega
  obtain ⟨j1, j2, j3, _⟩ := create_inv i1 hc2
  generalize hs2 : (St.mk (fun x => if x = 256 then some ⟨nilName, hashString P nilName, List.length nilName % 65536⟩ else s1.tbl x)
      (s1.nb + 1)) = s2 at hc2 j1 j2 j3
  have hnb2 : s2.nb = 257 := by rw [← hs2, h2]
  have he : create P s2 [] = .ok (0, s2) := by
    have h0 : s2.name 0 = some [] := j2 0 [] (hchar 0 (by omega))
    rcases create_spec j1 [] with ⟨p, i, g1, g2, g3⟩ | ⟨p, t, g1, g2, g3, g4, g5⟩ | ⟨g1, g2, g3⟩
    · obtain ⟨i', k1, k2⟩ := name_some.1 h0
      rw [j1.unique g2 k1 (g3.trans k2.symm)] at g1
      exact g1
    · obtain ⟨i', k1, k2⟩ := name_some.1 h0
      exact absurd k2 (g2 0 i' k1)
    · obtain ⟨i', k1, k2⟩ := name_some.1 h0
      exact absurd k2 (g2 0 i' k1)
  obtain ⟨a3, s3, k1, k2, k3, k4⟩ := step s2 [123, 125] j1 (by omega)
  obtain ⟨a4, s4, l1, l2, l3, l4⟩ := step s3 [102, 97, 108, 115, 101] k2 (by omega)
  obtain ⟨a5, s5, m1, m2, m3, m4⟩ := step s4 [116, 114, 117, 101] l2 (by omega)
  obtain ⟨a6, s6, n1, n2, n3, n4⟩ := step s5 [101, 110, 100, 95, 111, 102, 95, 102, 105, 108, 101] m2 (by omega)
  have hall : createAll P empty initNames = .ok (List.range 256 ++ [256, 0, a3, a4, a5, a6], s6) := by
    unfold initNames
    rw [createAll_append, h1]
    simp only [createAll, hc2, hs2, he, k1, l1, m1, n1]
  have hext : Extends s1 s6 := j2.trans (k3.trans (l3.trans (m3.trans n3)))
  have hext2 : Extends s2 s6 := k3.trans (l3.trans (m3.trans n3))
  refine ⟨_, s6, hall, .init _ s6 (by omega) hall, ?_, hext2 _ _ j3, hext _ _ (hchar 0 (by omega)), by omega⟩
  intro c hc
  unfold atomChar
  rw [Nat.mod_eq_of_lt hc]
  exact hext _ _ (hchar c hc)

theorem reach_extends {s : St} (h : Reach P s) : (∃ as, createAll P empty initNames = .ok (as, s)) ∨
    ∃ as s0, createAll P empty initNames = .ok (as, s0) ∧ Extends s0 s := by
  induction h with
  | init as s _ h => exact .inl ⟨as, h⟩
  | create s n a s' hr h ih =>
    have he := (create_inv hr.inv h).2.1
    rcases ih with ⟨as, h0⟩ | ⟨as, s0, h0, h1⟩
    · exact .inr ⟨as, s, h0, he⟩
    · exact .inr ⟨as, s0, h0, h1.trans he⟩
  | genNew s r pre a r' s' hr h ih =>
    obtain ⟨n, h', _⟩ := genNew_ok hr.inv h
    have he := (create_inv hr.inv h').2.1
    rcases ih with ⟨as, h0⟩ | ⟨as, s0, h0, h1⟩
    · exact .inr ⟨as, s, h0, he⟩
    · exact .inr ⟨as, s0, h0, h1.trans he⟩

/-- C03: in all the states, one-character atoms are their code, '' is 0, [] is 256 (as used by `ATOM_CHAR` and `NIL_WORD`). -/
theorem C03_fixed_atoms {s : St} (h : Reach P s) (hN : 261 ≤ P.max) :
    (∀ c, c < 256 → s.name (atomChar c) = some (strChar c)) ∧ s.name ATOM_NIL = some nilName ∧ s.name 0 = some [] := by
  obtain ⟨as0, s0, h0, _, h1, h2, h3, _⟩ := C03_init hN
  rcases reach_extends h with ⟨as, h'⟩ | ⟨as, s1, h', he⟩
  · rw [h0] at h'
    simp only [Res.ok.injEq, Prod.mk.injEq] at h'
    rw [← h'.2]
    exact ⟨h1, h2, h3⟩
  · rw [h0] at h'
    simp only [Res.ok.injEq, Prod.mk.injEq] at h'
    rw [← h'.2] at he
    exact ⟨fun c hc => he _ _ (h1 c hc), he _ _ h2, he _ _ h3⟩

/-- `pl_max_atom` after the adjustment is more than 256 and the atoms fit in `ATOM_MAX_BITS` bits. -/
theorem C03_adjust (m : Nat) : 257 ≤ adjust m ∧ adjust m ≤ 2 ^ 54 := by
  unfold adjust
  simp only
  split <;> split <;> split <;> omega

/-- A table of 1000 atoms where all the long names have the same hash code. -/
def exP : Par := ⟨1000, fun _ => 7⟩

example : ∃ s, Reach exP s ∧ s.name 102 = some [102] ∧ s.nb < exP.max := by
  obtain ⟨as, s, h, hr, h1, _, _, h2⟩ := C03_init (P := exP) (by decide)
  exact ⟨s, hr, h1 102 (by decide), by simp only [exP]; omega⟩

end Gp.Atom
