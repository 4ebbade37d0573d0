import Verif.CopyTerm.Lemmas
/-
Proof of `Pl_Copy_Term`: invariant of the copy.
-/
namespace Gp.CopyTerm
open Gp.Heap
open Gp.Unify (set_same set_other deref_ref deref_nonref)

/-- The address to which a variable is bound. -/
def img (m : Mem) (a : Adr) : Adr :=
  match m a with
  | .ref d => d
  | _ => a

/-- The variables already copied. -/
def CS.keys (s : CS) : List Adr := s.vars.map (·.1)

theorem FdAt.strength {vs : Nat} {ok ok' : Adr → Prop} {m : Mem} {a : Adr} {d : Dom} (h : FdAt vs ok m a d)
    (hok : ∀ x, ok x → (x = a ∨ ∀ b, m x ≠ .ref b ∧ m x ≠ .fdv b) → ok' x) : FdAt vs ok' m a d where
  tag := h.tag
  nb := h.nb
  r0 := h.r0
  r1 := h.r1
  oks := by
    obtain ⟨h1, h2, h3, h4, h5⟩ := h.oks
    refine ⟨hok _ h1 (.inl rfl), hok _ h2 (.inr ?_), hok _ h3 (.inr ?_), hok _ h4 (.inr ?_), hok _ h5 (.inr ?_)⟩
    · rw [h.nb]; simp
    · rw [h.r0]; simp
    · rw [h.r1]; simp
    · have hv := h.vec
      cases hd : d.vec with
      | none => rw [hd] at hv; simp only at hv; rw [hv]; simp
      | some l => rw [hd] at hv; obtain ⟨v, h1, _⟩ := hv; rw [h1]; simp
  vec := by
    have hv := h.vec
    cases hd : d.vec with
    | none => rw [hd] at hv; exact hv
    | some l =>
      rw [hd] at hv
      obtain ⟨v, h1, h2, h3⟩ := hv
      exact ⟨v, h1, h2, fun i hi => ⟨(h3 i hi).1, hok _ (h3 i hi).2 (.inr (by rw [(h3 i hi).1]; simp))⟩⟩

theorem FdAt.unique {vs : Nat} {ok ok' : Adr → Prop} {m : Mem} {a : Adr} {d d' : Dom} (h : FdAt vs ok m a d)
    (h' : FdAt vs ok' m a d') : d = d' := by
  have e1 := h.nb.symm.trans h'.nb
  have e2 := h.r0.symm.trans h'.r0
  have e3 := h.r1.symm.trans h'.r1
  have e4 : d.vec = d'.vec := by
    have hv := h.vec
    have hv' := h'.vec
    cases hd : d.vec with
    | none =>
      cases hd' : d'.vec with
      | none => rfl
      | some l' =>
        rw [hd] at hv; rw [hd'] at hv'
        obtain ⟨v, h1, _⟩ := hv'
        simp only at hv
        rw [hv] at h1; simp at h1
    | some l =>
      rw [hd] at hv
      obtain ⟨v, h1, h2, h3⟩ := hv
      cases hd' : d'.vec with
      | none =>
        rw [hd'] at hv'
        simp only at hv'
        rw [hv'] at h1; simp at h1
      | some l' =>
        rw [hd'] at hv'
        obtain ⟨v', k1, k2, k3⟩ := hv'
        rw [h1] at k1
        simp only [Cell.int.injEq, Int.natCast_inj] at k1
        subst k1
        congr 1
        apply List.ext_getElem (by omega)
        intro i hi hi'
        have := (h3 i hi).1.symm.trans (k3 i hi').1
        simpa using this
  cases d; cases d'
  simp_all

/-- The words, except the first one, of the frames of the FD variables already copied. -/
def Fr (vs : Nat) (m0 : Mem) (s : CS) (x : Adr) : Prop :=
  ∃ a ∈ s.keys, ∃ e d, s.mem a = .ref e ∧ FdAt vs (fun _ => True) m0 a d ∧ e < x ∧ x < e + d.len vs

theorem Fr.congr {vs : Nat} {m0 : Mem} {s s' : CS} {x : Adr} (h : Fr vs m0 s x) (hk : ∀ a ∈ s.keys, a ∈ s'.keys)
    (hm : ∀ a ∈ s.keys, s'.mem a = s.mem a) : Fr vs m0 s' x := by
  obtain ⟨a, ha, e, d, h1, h2, h3⟩ := h
  exact ⟨a, hk a ha, e, d, by rw [hm a ha]; exact h1, h2, h3⟩

/-- Invariant of the copy: `m0` is the memory before the copy, `D` the cells of the copy already written,
the others cells of the copy are not yet written. -/
structure Inv (c : Cfg) (base L : Adr) (m0 : Mem) (s : CS) (D : Adr → Prop) : Prop where
  out : ∀ x, Out' base L x → x ∉ s.keys → s.mem x = m0 x
  key : ∀ a w, (a, w) ∈ s.vars → w = m0 a ∧ Out' base L a ∧ ∃ d, s.mem a = .ref d ∧ D d ∧
    ((m0 a = .ref a ∧ s.mem d = .ref d) ∨
     (m0 a = .fdv a ∧ (∃ dom, FdAt c.vs (Out' base L) m0 a dom ∧ FdAt c.vs D s.mem d dom) ∧ NoCstr D s.mem d))
  nodup : s.keys.Nodup
  inj : ∀ a ∈ s.keys, ∀ b ∈ s.keys, ∀ d, s.mem a = .ref d → s.mem b = .ref d → a = b
  dom : ∀ x, D x → Seg base s.p x
  fr : ∀ x, Fr c.vs m0 s x → D x
  imgs : ∀ a ∈ s.keys, ∀ d, s.mem a = .ref d → ¬ Fr c.vs m0 s d
  le : s.p ≤ L
  cap : s.vars.length ≤ c.maxVars

theorem Inv.key' {c : Cfg} {base L : Adr} {m0 : Mem} {s : CS} {D : Adr → Prop} (h : Inv c base L m0 s D) {a : Adr}
    (ha : a ∈ s.keys) : Out' base L a ∧ ∃ d, s.mem a = .ref d ∧ D d ∧
    ((m0 a = .ref a ∧ s.mem d = .ref d) ∨
     (m0 a = .fdv a ∧ (∃ dom, FdAt c.vs (Out' base L) m0 a dom ∧ FdAt c.vs D s.mem d dom) ∧ NoCstr D s.mem d)) := by
  simp only [CS.keys, List.mem_map] at ha
  obtain ⟨⟨a', w⟩, h1, h2⟩ := ha
  simp only at h2
  subst h2
  exact (h.key _ _ h1).2

theorem NoCstr.mono {ok ok' : Adr → Prop} {m m' : Mem} {a : Adr} (h : NoCstr ok m a)
    (hok : ∀ x, ok x → ok' x) (hm : ∀ x, ok x → m' x = m x) : NoCstr ok' m' a := by
  intro i h1 h2
  obtain ⟨k1, k2⟩ := h i h1 h2
  exact ⟨by rw [hm _ k2]; exact k1, hok _ k2⟩

/-- The invariant is kept when cells of the copy not in `D` are changed, and `p` and `D` grow. -/
theorem Inv.grow {c : Cfg} {base L : Adr} {m0 : Mem} {s : CS} {D : Adr → Prop} (h : Inv c base L m0 s D) (m' : Mem)
    (p' : Adr) (D' : Adr → Prop) (hm : ∀ x, Out' base L x ∨ D x → m' x = s.mem x) (hD : ∀ x, D x → D' x)
    (hD' : ∀ x, D' x → Seg base p' x) (hp : p' ≤ L) : Inv c base L m0 { s with mem := m', p := p' } D' where
  out := fun x hx hk => by simp only; rw [hm x (.inl hx)]; exact h.out x hx hk
  key := by
    intro a w ha
    obtain ⟨h1, h2, d, h3, h4, h5⟩ := h.key a w ha
    refine ⟨h1, h2, d, by simp only; rw [hm a (.inl h2)]; exact h3, hD d h4, ?_⟩
    rcases h5 with ⟨k1, k2⟩ | ⟨k1, ⟨dom, k2, k3⟩, k4⟩
    · exact .inl ⟨k1, by simp only; rw [hm d (.inr h4)]; exact k2⟩
    · exact .inr ⟨k1, ⟨dom, k2, k3.mono hD (fun x hx => hm x (.inr hx))⟩, k4.mono hD (fun x hx => hm x (.inr hx))⟩
  nodup := h.nodup
  inj := by
    intro a ha b hb d h1 h2
    have ha' := (h.key' ha).1
    have hb' := (h.key' hb).1
    simp only at h1 h2
    rw [hm a (.inl ha')] at h1
    rw [hm b (.inl hb')] at h2
    exact h.inj a ha b hb d h1 h2
  dom := hD'
  fr := fun x hx => hD x (h.fr x (hx.congr (fun _ h => h) (fun a ha => (hm a (.inl (h.key' ha).1)).symm)))
  imgs := by
    intro a ha d had hd
    simp only at had
    rw [hm a (.inl (h.key' ha).1)] at had
    exact h.imgs a ha d had (hd.congr (fun _ h => h) (fun a ha => (hm a (.inl (h.key' ha).1)).symm))
  le := hp
  cap := h.cap

/-- A new variable `a` is bound to `d`, a new cell of the copy. -/
theorem Inv.bind {c : Cfg} {base L : Adr} {m0 : Mem} {s : CS} {D : Adr → Prop} (h : Inv c base L m0 s D) {a d : Adr}
    (ha : Out' base L a) (hk : a ∉ s.keys) (hd : D d) (hcap : s.vars.length < c.maxVars)
    (hfresh : ∀ b ∈ s.keys, s.mem b ≠ .ref d) (hnfr : ¬ Fr c.vs m0 s d)
    (hfr : ∀ dom, FdAt c.vs (fun _ => True) m0 a dom → ∀ x, d < x → x < d + dom.len c.vs →
      D x ∧ ∀ b ∈ s.keys, s.mem b ≠ .ref x)
    (hval : (m0 a = .ref a ∧ s.mem d = .ref d) ∨
     (m0 a = .fdv a ∧ (∃ dom, FdAt c.vs (Out' base L) m0 a dom ∧ FdAt c.vs D s.mem d dom) ∧ NoCstr D s.mem d)) :
    Inv c base L m0 { s with mem := s.mem.set a (.ref d), vars := (a, m0 a) :: s.vars } D := by
  have hDa : ∀ x, D x → x ≠ a := by
    rintro x hx rfl
    have h1 := h.dom x hx
    have h2 := h.le
    exact ha ⟨h1.1, Nat.lt_of_lt_of_le h1.2 h2⟩
  have hm : ∀ x, D x → s.mem.set a (.ref d) x = s.mem x := fun x hx => set_other _ _ _ _ (hDa x hx)
  have hmk : ∀ x ∈ s.keys, s.mem.set a (.ref d) x = s.mem x :=
    fun x hx => set_other _ _ _ _ (by rintro rfl; exact hk hx)
  have hFr : ∀ x, Fr c.vs m0 { s with mem := s.mem.set a (.ref d), vars := (a, m0 a) :: s.vars } x →
      Fr c.vs m0 s x ∨ ∃ dom, FdAt c.vs (fun _ => True) m0 a dom ∧ d < x ∧ x < d + dom.len c.vs := by
    rintro x ⟨b, hb, e, dom, k1, k2, k3⟩
    simp only [CS.keys, List.map_cons, List.mem_cons] at hb
    simp only at k1
    rcases hb with rfl | hb
    · rw [set_same] at k1
      simp only [Cell.ref.injEq] at k1
      subst k1
      exact .inr ⟨dom, k2, k3⟩
    · rw [hmk b hb] at k1
      exact .inl ⟨b, hb, e, dom, k1, k2, k3⟩
  refine ⟨?_, ?_, ?_, ?_, h.dom, ?_, ?_, h.le, by simp only [List.length_cons]; omega⟩
  · intro x hx hxk
    simp only [CS.keys, List.map_cons, List.mem_cons, not_or] at hxk
    simp only
    rw [set_other _ _ _ _ hxk.1]
    exact h.out x hx hxk.2
  · intro a' w ha'
    simp only [List.mem_cons, Prod.mk.injEq] at ha'
    rcases ha' with ⟨rfl, rfl⟩ | ha'
    · refine ⟨rfl, ha, d, set_same _ _ _, hd, ?_⟩
      rcases hval with ⟨k1, k2⟩ | ⟨k1, ⟨dom, k2, k3⟩, k4⟩
      · exact .inl ⟨k1, by simp only; rw [hm d hd]; exact k2⟩
      · exact .inr ⟨k1, ⟨dom, k2, k3.mono (fun _ h => h) hm⟩, k4.mono (fun _ h => h) hm⟩
    · have hin : a' ∈ s.keys := List.mem_map.mpr ⟨(a', w), ha', rfl⟩
      obtain ⟨h1, h2, e, h3, h4, h5⟩ := h.key a' w ha'
      refine ⟨h1, h2, e, by simp only; rw [hmk a' hin]; exact h3, h4, ?_⟩
      rcases h5 with ⟨k1, k2⟩ | ⟨k1, ⟨dom, k2, k3⟩, k4⟩
      · exact .inl ⟨k1, by simp only; rw [hm e h4]; exact k2⟩
      · exact .inr ⟨k1, ⟨dom, k2, k3.mono (fun _ h => h) hm⟩, k4.mono (fun _ h => h) hm⟩
  · simp only [CS.keys, List.map_cons, List.nodup_cons]
    exact ⟨hk, h.nodup⟩
  · intro x hx y hy e h1 h2
    simp only [CS.keys, List.map_cons, List.mem_cons] at hx hy
    simp only at h1 h2
    rcases hx with rfl | hx
    · rcases hy with rfl | hy
      · rfl
      · rw [set_same] at h1
        rw [hmk y hy] at h2
        simp only [Cell.ref.injEq] at h1
        subst h1
        exact absurd h2 (hfresh y hy)
    · rcases hy with rfl | hy
      · rw [set_same] at h2
        rw [hmk x hx] at h1
        simp only [Cell.ref.injEq] at h2
        subst h2
        exact absurd h1 (hfresh x hx)
      · rw [hmk x hx] at h1
        rw [hmk y hy] at h2
        exact h.inj x hx y hy e h1 h2
  · intro x hx
    rcases hFr x hx with hx | ⟨dom, k1, k2, k3⟩
    · exact h.fr x hx
    · exact (hfr dom k1 x k2 k3).1
  · intro b hb e hbe he
    simp only [CS.keys, List.map_cons, List.mem_cons] at hb
    simp only at hbe
    rcases hb with rfl | hb
    · rw [set_same] at hbe
      simp only [Cell.ref.injEq] at hbe
      subst hbe
      rcases hFr _ he with he | ⟨dom, k1, k2, k3⟩
      · exact hnfr he
      · omega
    · rw [hmk b hb] at hbe
      rcases hFr e he with he | ⟨dom, k1, k2, k3⟩
      · exact h.imgs b hb e hbe he
      · exact (hfr dom k1 e k2 k3).2 b hb hbe

/-- One step of the copy: the cells `E` have been filled, and `k` new words at most have been used, exactly
`k` if `F`; `V` are the variables copied. -/
structure Step (c : Cfg) (base L : Adr) (m0 : Mem) (s : CS) (D : Adr → Prop) (E : Adr → Prop) (V : List Adr) (k : Nat)
    (F : Prop) (s' : CS) (D' : Adr → Prop) : Prop where
  inv : Inv c base L m0 s' D'
  hD : ∀ x, D' x ↔ D x ∨ E x ∨ Seg s.p s'.p x
  keep : ∀ x, Seg base s.p x → ¬ E x → s'.mem x = s.mem x
  keys : ∀ a, a ∈ s'.keys ↔ a ∈ s.keys ∨ a ∈ V
  keepKey : ∀ a ∈ s.keys, s'.mem a = s.mem a
  fr : ∀ x, Fr c.vs m0 s' x → Fr c.vs m0 s x ∨ Seg s.p s'.p x
  le : s.p ≤ s'.p
  size : s'.p ≤ s.p + k
  sizeEq : F → s'.p = s.p + k

theorem Step.trans {c : Cfg} {base L : Adr} {m0 : Mem} {s s1 s2 : CS} {D D1 D2 E1 E2 : Adr → Prop} {V1 V2 : List Adr}
    {k1 k2 : Nat} {F1 F2 : Prop} (h1 : Step c base L m0 s D E1 V1 k1 F1 s1 D1)
    (h2 : Step c base L m0 s1 D1 E2 V2 k2 F2 s2 D2) :
    Step c base L m0 s D (fun x => E1 x ∨ E2 x) (V1 ++ V2) (k1 + k2) (F1 ∧ F2) s2 D2 where
  inv := h2.inv
  hD := by
    intro x
    rw [h2.hD, h1.hD]
    have a1 := h1.le
    have a2 := h2.le
    have : Seg s.p s2.p x ↔ Seg s.p s1.p x ∨ Seg s1.p s2.p x := by simp only [Seg]; omega
    rw [this]
    constructor
    · rintro ((h | h | h) | h | h) <;> simp [h]
    · rintro (h | (h | h) | (h | h)) <;> simp [h]
  keep := by
    intro x hx hE
    have a1 := h1.le
    rw [h2.keep x ⟨hx.1, by have := hx.2; omega⟩ (fun h => hE (.inr h)), h1.keep x hx (fun h => hE (.inl h))]
  keys := by
    intro a
    rw [h2.keys, h1.keys, List.mem_append]
    constructor
    · rintro ((h | h) | h) <;> simp [h]
    · rintro (h | h | h) <;> simp [h]
  keepKey := by
    intro a ha
    rw [h2.keepKey a ((h1.keys a).mpr (.inl ha)), h1.keepKey a ha]
  fr := by
    intro x hx
    have a1 := h1.le
    have a2 := h2.le
    rcases h2.fr x hx with hx | hx
    · rcases h1.fr x hx with hx | hx
      · exact .inl hx
      · exact .inr ⟨hx.1, by have := hx.2; omega⟩
    · exact .inr ⟨by have := hx.1; omega, hx.2⟩
  le := Nat.le_trans h1.le h2.le
  size := by have := h1.size; have := h2.size; omega
  sizeEq := fun h => by have := h1.sizeEq h.1; have := h2.sizeEq h.2; omega

/-- What has been copied is not changed by a later step. -/
theorem Step.carry {c : Cfg} {base L : Adr} {m0 : Mem} {s s1 : CS} {D D1 E : Adr → Prop} {V : List Adr} {k : Nat}
    {F : Prop} (h : Step c base L m0 s D E V k F s1 D1) (hi : Inv c base L m0 s D) (hE : ∀ x, E x → ¬ D x) {x : Adr} {t : CT}
    (hx : D x) (hV : ∀ a ∈ t.vars, a ∈ s.keys) (hr : Rd c.vs D s.mem (s.mem x) (t.rename (img s.mem))) :
    Rd c.vs D1 s1.mem (s1.mem x) (t.rename (img s1.mem)) := by
  have hm : ∀ x, D x → s1.mem x = s.mem x := fun x hx => h.keep x (hi.dom x hx) (fun he => hE x he hx)
  have : t.rename (img s1.mem) = t.rename (img s.mem) := by
    apply rename_congr
    intro a ha
    simp only [img]
    rw [h.keepKey a (hV a ha)]
  rw [this, hm x hx]
  exact hr.mono (fun x hx => (h.hD x).mpr (.inl hx)) hm

/-- The error: there are too many variables, `s'` is the state when the error is raised. -/
def TooMany (c : Cfg) (base L : Adr) (m0 : Mem) (s : CS) (V : List Adr) (s' : CS) : Prop :=
  (∃ K : List Adr, K.Nodup ∧ (∀ a ∈ K, a ∈ s.keys ∨ a ∈ V) ∧ c.maxVars < K.length) ∧
  (∃ D, Inv c base L m0 s' D) ∧ c.maxVars ≤ s'.vars.length

/-- No FD variables in the term. -/
def CT.NoFd : CT → Prop
  | .fd _ _ => False
  | .lst h t => h.NoFd ∧ t.NoFd
  | .app _ l => ∀ t ∈ l, t.NoFd
  | _ => True

/-- The copies of the new variables of `V` are cells of the term at one of the cells `E`. -/
def Home (s s' : CS) (E : Adr → Prop) (V : List Adr) : Prop :=
  ∀ a ∈ V, a ∈ s.keys ∨ ∃ y, E y ∧ TC s'.mem y (img s'.mem a)

/-- The term at the cell `y` does not use the words of frames, and a reference leads to a variable. -/
def Clean (m : Mem) (fr : Adr → Prop) (y : Adr) : Prop :=
  ∀ z, TC m y z → ¬ fr z ∧ (∀ x, fr x → m z ≠ .stc x ∧ m z ≠ .flt x) ∧ (∀ a, m z = .ref a → m a = .ref a ∨ m a = .fdv a)

theorem TC.inv {m : Mem} {y z : Adr} (h : TC m y z) : z = y ∨ ∃ y', Sub m y y' ∧ TC m y' z := by
  cases h with
  | self => exact .inl rfl
  | step h1 h2 => exact .inr ⟨_, h1, h2⟩

theorem TC.leaf {m : Mem} {y z : Adr} (h : TC m y z) (hl : ∀ a, m y ≠ .lst a) (hs : ∀ a, m y ≠ .stc a)
    (hr : ∀ a, m y = .ref a → a ≤ y) : z = y := by
  rcases h.inv with h | ⟨y', h1, h2⟩
  · exact h
  · cases h1 with
    | car h => exact absurd h (hl _)
    | cdr h => exact absurd h (hl _)
    | arg h => exact absurd h (hs _)
    | fwd h h' => have := hr _ h; omega

/-- A cell with a constant. -/
theorem Clean.const {m : Mem} {fr : Adr → Prop} {y : Adr} (hf : ¬ fr y) (hl : ∀ a, m y ≠ .lst a) (hs : ∀ a, m y ≠ .stc a)
    (hr : ∀ a, m y ≠ .ref a) (hx : ∀ x, fr x → m y ≠ .flt x) : Clean m fr y := by
  intro z hz
  obtain rfl := hz.leaf hl hs (fun a h => absurd h (hr a))
  exact ⟨hf, fun x h => ⟨hs x, hx x h⟩, fun a h => absurd h (hr a)⟩

/-- A reference to a variable. -/
theorem Clean.ref {m : Mem} {fr : Adr → Prop} {y a : Adr} (hy : m y = .ref a) (hf : ¬ fr y) (ha : ¬ fr a)
    (hv : m a = .ref a ∨ m a = .fdv a) : Clean m fr y := by
  have h1 : ∀ z, TC m a z → z = a := by
    intro z hz
    refine hz.leaf ?_ ?_ ?_
    · rcases hv with h | h <;> rw [h] <;> simp
    · rcases hv with h | h <;> rw [h] <;> simp
    · rcases hv with h | h <;> rw [h] <;> simp
  intro z hz
  have : z = y ∨ z = a := by
    rcases hz.inv with h | ⟨y', h2, h3⟩
    · exact .inl h
    · cases h2 with
      | car h => rw [hy] at h; simp at h
      | cdr h => rw [hy] at h; simp at h
      | arg h => rw [hy] at h; simp at h
      | fwd h h' =>
        rw [hy] at h
        simp only [Cell.ref.injEq] at h
        subst h
        exact .inr (h1 z h3)
  rcases this with rfl | rfl
  · refine ⟨hf, fun x _ => by rw [hy]; simp, fun b hb => ?_⟩
    rw [hy] at hb
    simp only [Cell.ref.injEq] at hb
    subst hb
    exact hv
  · refine ⟨ha, fun x _ => ?_, fun b hb => ?_⟩
    · rcases hv with h | h <;> rw [h] <;> simp
    · rcases hv with h | h <;> rw [h] at hb <;> simp at hb
      subst hb
      exact .inl h

/-- What has been copied remains clean. -/
theorem Clean.mono {vs : Nat} {D : Adr → Prop} {m m' : Mem} {fr fr' : Adr → Prop} {y : Adr} {t : CT} (h : Clean m fr y)
    (hr : Rd vs D m (m y) t) (hy : D y) (hm : ∀ x, D x → m' x = m x) (hf : ∀ x, D x → fr' x → fr x) : Clean m' fr' y := by
  intro z hz
  have hr' : Rd vs D m' (m' y) t := by rw [hm y hy]; exact hr.mono (fun _ h => h) hm
  have hz' : TC m y z := hz.mono hr' hy (fun x hx => (hm x hx).symm)
  obtain ⟨k1, k2, k3⟩ := h z hz'
  obtain ⟨hDz, t', ht'⟩ := hz'.rd hr hy
  refine ⟨fun h => k1 (hf z hDz h), fun x hx => ?_, fun a ha => ?_⟩
  · rw [hm z hDz]
    refine ⟨fun h => ?_, fun h => ?_⟩
    · rw [h] at ht'
      exact (k2 x (hf x ht'.fn_ok hx)).1 h
    · rw [h] at ht'
      cases ht' with
      | flt j1 j2 => exact (k2 x (hf x j1 hx)).2 h
  · rw [hm z hDz] at ha
    rw [ha] at ht'
    have hDa : D a := by
      cases ht' with
      | var j1 _ => exact j1
      | bound j1 => exact j1
    rw [hm a hDa]
    exact k3 a ha

/-- Specification of one copy. -/
def CopyOk (c : Cfg) (base L : Adr) (m0 : Mem) (s : CS) (D : Adr → Prop) (dst : Adr) (t : CT) (o : Out CS) : Prop :=
  (∃ s' D', o = .ok s' ∧ Step c base L m0 s D (fun x => x = dst) t.vars (t.size c.vs - 1) t.NoFd s' D' ∧
    Rd c.vs D' s'.mem (s'.mem dst) (t.rename (img s'.mem)) ∧ OwnFd s'.mem dst ∧ Home s s' (fun x => x = dst) t.vars ∧
    Clean s'.mem (Fr c.vs m0 s') dst) ∨
  (∃ s', o = .err s' ∧ TooMany c base L m0 s t.vars s')

/-- Specification of the copy of `k` cells. -/
def ArgsOk (c : Cfg) (base L : Adr) (m0 : Mem) (s : CS) (D : Adr → Prop) (q k : Nat) (g : Nat → CT) (o : Out CS) : Prop :=
  (∃ s' D', o = .ok s' ∧ Step c base L m0 s D (Seg q (q + k)) ((List.range k).flatMap fun i => (g i).vars)
      (((List.range k).map fun i => (g i).size c.vs).sum - k) (∀ i, i < k → (g i).NoFd) s' D' ∧
    (∀ i, i < k → Rd c.vs D' s'.mem (s'.mem (q + i)) ((g i).rename (img s'.mem)) ∧ OwnFd s'.mem (q + i) ∧
      Clean s'.mem (Fr c.vs m0 s') (q + i)) ∧
    Home s s' (Seg q (q + k)) ((List.range k).flatMap fun i => (g i).vars)) ∨
  (∃ s', o = .err s' ∧ TooMany c base L m0 s ((List.range k).flatMap fun i => (g i).vars) s')

theorem sum_size_ge (vs k : Nat) (g : Nat → CT) : k ≤ ((List.range k).map fun i => (g i).size vs).sum := by
  induction k generalizing g with
  | zero => omega
  | succ k ih =>
    rw [sum_range_succ' (fun i => (g i).size vs)]
    have := ih (fun i => g (i + 1))
    have := size_pos vs (g 0)
    omega

theorem flatMap_range_succ (k : Nat) (g : Nat → List Adr) :
    (List.range (k + 1)).flatMap g = g 0 ++ (List.range k).flatMap fun i => g (i + 1) := by
  rw [List.range_succ_eq_map]
  simp [List.flatMap_map]

theorem copyArgs_spec {c : Cfg} {base L : Adr} {m0 : Mem} (rec : CS → Adr → Adr → Out CS) (k : Nat) (hk : 0 < k)
    (g : Nat → CT) (s : CS) (D : Adr → Prop) (q a : Adr) (hi : Inv c base L m0 s D)
    (hq : base ≤ q ∧ q + k ≤ s.p) (hD : ∀ x, Seg q (q + k) x → ¬ D x)
    (hsz : s.p + ((List.range k).map fun i => (g i).size c.vs).sum ≤ L + k)
    (hrec : ∀ i, i < k → ∀ (s : CS) (D : Adr → Prop), Inv c base L m0 s D → q + k ≤ s.p → ¬ D (q + i) →
      s.p + (g i).size c.vs ≤ L + 1 → CopyOk c base L m0 s D (q + i) (g i) (rec s (q + i) (a + i))) :
    ArgsOk c base L m0 s D q k g (copyArgs rec k s q a) := by
  induction k generalizing g s D q a with
  | zero => omega
  | succ k ih =>
    rw [sum_range_succ' (fun i => (g i).size c.vs)] at hsz
    have hge := sum_size_ge c.vs k (fun i => g (i + 1))
    have hpos := size_pos c.vs (g 0)
    have h0 := hrec 0 (by omega) s D hi hq.2 (hD _ ⟨by omega, by omega⟩) (by omega)
    by_cases hk0 : k = 0
    · subst hk0
      simp only [copyArgs]
      rcases h0 with ⟨s', D', h1, h2, h3, h4, h5, h6⟩ | ⟨s', h1, ⟨K, k1, k2, k3⟩, k4⟩
      · refine .inl ⟨s', D', h1, ?_, ?_, ?_⟩
        · have hEq : (fun x => x = q + 0) = Seg q (q + (0 + 1)) := by
            funext x; simp only [Seg, eq_iff_iff]; omega
          rw [hEq] at h2
          have hV : ((List.range (0 + 1)).flatMap fun i => (g i).vars) = (g 0).vars := by simp [List.range_succ]
          have hS : (((List.range (0 + 1)).map fun i => (g i).size c.vs).sum - (0 + 1)) = (g 0).size c.vs - 1 := by
            simp [List.range_succ]
          rw [hV, hS]
          exact { h2 with sizeEq := fun h => h2.sizeEq (h 0 (by omega)) }
        · intro i hi
          have : i = 0 := by omega
          subst this
          exact ⟨h3, h4, h6⟩
        · have hV : ((List.range (0 + 1)).flatMap fun i => (g i).vars) = (g 0).vars := by simp [List.range_succ]
          rw [hV]
          intro b hb
          rcases h5 b hb with h | ⟨y, rfl, h⟩
          · exact .inl h
          · exact .inr ⟨_, ⟨by omega, by omega⟩, h⟩
      · refine .inr ⟨s', h1, ⟨K, k1, ?_, k3⟩, k4⟩
        have hV : ((List.range (0 + 1)).flatMap fun i => (g i).vars) = (g 0).vars := by simp [List.range_succ]
        rw [hV]; exact k2
    · obtain ⟨k', rfl⟩ : ∃ k', k = k' + 1 := ⟨k - 1, by omega⟩
      simp only [copyArgs]
      rcases h0 with ⟨s1, D1, h1, h2, h3, h4, h5, h6⟩ | ⟨s', h1, ⟨K, k1, k2, k3⟩, k4⟩
      · simp only [Nat.add_zero] at h1 h2 h3 h4 h5 h6
        rw [h1]
        simp only [Out.bind]
        have hle := h2.le
        have hs2 := h2.size
        have := ih (by omega) (fun i => g (i + 1)) s1 D1 (q + 1) (a + 1) h2.inv ⟨by omega, by omega⟩
          (by
            intro x hx hx'
            rcases (h2.hD x).mp hx' with h | h | h
            · exact hD x ⟨by have := hx.1; omega, by have := hx.2; omega⟩ h
            · have := hx.1; omega
            · have := hx.2; have := h.1; omega)
          (by omega)
          (by
            intro i hi s D hs hp hd hz
            have := hrec (i + 1) (by omega) s D hs (by omega) (by rw [show q + (i + 1) = q + 1 + i by omega]; exact hd) hz
            rw [show q + (i + 1) = q + 1 + i by omega, show a + (i + 1) = a + 1 + i by omega] at this
            exact this)
        rcases this with ⟨s2, D2, m1, m2, m3, m4⟩ | ⟨s', m1, ⟨K, k1, k2, k3⟩, k4⟩
        · refine .inl ⟨s2, D2, m1, ?_, ?_, ?_⟩
          · have tr := h2.trans m2
            have hEq : (fun x => x = q ∨ Seg (q + 1) (q + 1 + (k' + 1)) x) = Seg q (q + (k' + 1 + 1)) := by
              funext x; simp only [Seg, eq_iff_iff]; omega
            rw [hEq] at tr
            rw [flatMap_range_succ (k' + 1) (fun i => (g i).vars), sum_range_succ' (fun i => (g i).size c.vs)]
            have hS : (g 0).size c.vs + ((List.range (k' + 1)).map fun i => (g (i + 1)).size c.vs).sum - (k' + 1 + 1) =
              (g 0).size c.vs - 1 + (((List.range (k' + 1)).map fun i => (g (i + 1)).size c.vs).sum - (k' + 1)) := by omega
            rw [hS]
            exact { tr with sizeEq := fun h => tr.sizeEq ⟨h 0 (by omega), fun i hi => h (i + 1) (by omega)⟩ }
          · intro i hi
            have hE : ∀ x, Seg (q + 1) (q + 1 + (k' + 1)) x → ¬ D1 x := by
              intro x hx hx'
              rcases (h2.hD x).mp hx' with h | h | h
              · exact hD x ⟨by have := hx.1; omega, by have := hx.2; omega⟩ h
              · have := hx.1; omega
              · have := hx.2; have := h.1; omega
            cases i with
            | zero =>
              have hDq : D1 q := (h2.hD q).mpr (.inr (.inl rfl))
              refine ⟨m2.carry h2.inv hE hDq (fun a ha => (h2.keys a).mpr (.inr ha)) h3, ?_, ?_⟩
              · refine h4.congr ?_
                exact m2.keep q (h2.inv.dom q hDq) (fun h => by have := h.1; omega)
              · refine h6.mono h3 hDq (fun x hx => m2.keep x (h2.inv.dom x hx) (fun h => hE x h hx)) ?_
                intro x hx hf
                rcases m2.fr x hf with h | h
                · exact h
                · have := (h2.inv.dom x hx).2; have := h.1; omega
            | succ i =>
              have := m3 i (by omega)
              rw [show q + 1 + i = q + (i + 1) by omega] at this
              exact this
          · have hDq : D1 q := (h2.hD q).mpr (.inr (.inl rfl))
            have hmD : ∀ x, D1 x → s2.mem x = s1.mem x := by
              intro x hx'
              refine m2.keep x (h2.inv.dom x hx') (fun hx => ?_)
              rcases (h2.hD x).mp hx' with h | h | h
              · exact hD x ⟨by have := hx.1; omega, by have := hx.2; omega⟩ h
              · have := hx.1; omega
              · have := hx.2; have := h.1; omega
            have hz : ∀ b ∈ (g 0).vars, b ∈ s.keys ∨ ∃ y, Seg q (q + (k' + 1 + 1)) y ∧ TC s2.mem y (img s2.mem b) := by
              intro b hb
              rcases h5 b hb with h | ⟨y, rfl, h⟩
              · exact .inl h
              · refine .inr ⟨y, ⟨by omega, by omega⟩, ?_⟩
                have e : img s2.mem b = img s1.mem b := by
                  simp only [img]; rw [m2.keepKey b ((h2.keys b).mpr (.inr hb))]
                rw [e]
                exact h.mono h3 hDq hmD
            intro b hb
            rw [flatMap_range_succ (k' + 1) (fun i => (g i).vars), List.mem_append] at hb
            rcases hb with hb | hb
            · exact hz b hb
            · rcases m4 b hb with h | ⟨y, h, h'⟩
              · rcases (h2.keys b).mp h with h | h
                · exact .inl h
                · exact hz b h
              · exact .inr ⟨y, ⟨by have := h.1; omega, by have := h.2; omega⟩, h'⟩
        · refine .inr ⟨s', m1, ⟨K, k1, ?_, k3⟩, k4⟩
          intro b hb
          rw [flatMap_range_succ (k' + 1) (fun i => (g i).vars), List.mem_append]
          rcases k2 b hb with h | h
          · rcases (h2.keys b).mp h with h | h
            · exact .inl h
            · exact .inr (.inl h)
          · exact .inr (.inr h)
      · simp only [Nat.add_zero] at h1
        rw [h1]
        refine .inr ⟨s', rfl, ⟨K, k1, ?_, k3⟩, k4⟩
        intro b hb
        rw [flatMap_range_succ (k' + 1) (fun i => (g i).vars), List.mem_append]
        rcases k2 b hb with h | h
        · exact .inl h
        · exact .inr (.inl h)

/-- The cell `dst` is filled and `k` new cells are written; no new variable. -/
theorem Step.fill {c : Cfg} {base L : Adr} {m0 : Mem} {s : CS} {D : Adr → Prop} (h : Inv c base L m0 s D) (m' : Mem)
    (dst k : Nat) (V : List Adr) (F : Prop) (hdst : Seg base s.p dst) (hnd : ¬ D dst)
    (hm : ∀ x, Out' base L x ∨ (Seg base s.p x ∧ x ≠ dst) → m' x = s.mem x) (hL : s.p + k ≤ L)
    (hV : ∀ a ∈ V, a ∈ s.keys) :
    Step c base L m0 s D (fun x => x = dst) V k F { s with mem := m', p := s.p + k }
      (fun x => D x ∨ x = dst ∨ Seg s.p (s.p + k) x) where
  inv := by
    refine h.grow m' (s.p + k) _ ?_ (fun x hx => .inl hx) ?_ hL
    · intro x hx
      apply hm
      rcases hx with hx | hx
      · exact .inl hx
      · exact .inr ⟨h.dom x hx, by rintro rfl; exact hnd hx⟩
    · rintro x (hx | rfl | hx)
      · have := h.dom x hx; exact ⟨this.1, by have := this.2; omega⟩
      · exact ⟨hdst.1, by have := hdst.2; omega⟩
      · exact ⟨by have := hx.1; have := hdst.1; have := hdst.2; omega, hx.2⟩
  hD := fun x => Iff.rfl
  keep := fun x hx hne => hm x (.inr ⟨hx, hne⟩)
  keys := by
    intro a
    constructor
    · intro h; exact .inl h
    · rintro (h | h)
      · exact h
      · exact hV a h
  keepKey := fun a ha => hm a (.inl (h.key' ha).1)
  fr := fun x hx => .inl (hx.congr (fun _ h => h) (fun a ha => (hm a (.inl (h.key' ha).1)).symm))
  le := Nat.le_add_right _ _
  size := Nat.le_refl _
  sizeEq := fun _ => rfl

/-- First the cell `dst` and some new cells are written, then the other new cells are filled. -/
theorem Step.wrap {c : Cfg} {base L : Adr} {m0 : Mem} {s : CS} {D : Adr → Prop} (h : Inv c base L m0 s D) {m1 : Mem}
    {p1 q k K dst : Nat} {V : List Adr} {F : Prop} {s' : CS} {D1 D' : Adr → Prop} (hdst : Seg base s.p dst)
    (hD1 : ∀ x, D1 x ∨ Seg q (q + k) x ↔ D x ∨ x = dst ∨ Seg s.p p1 x)
    (hm : ∀ x, Out' base L x ∨ (Seg base s.p x ∧ x ≠ dst) → m1 x = s.mem x) (hp : s.p ≤ q) (hq : q + k ≤ p1)
    (hst : Step c base L m0 { s with mem := m1, p := p1 } D1 (Seg q (q + k)) V K F s' D') :
    Step c base L m0 s D (fun x => x = dst) V (p1 - s.p + K) F s' D' where
  inv := hst.inv
  hD := by
    intro x
    have hle := hst.le
    simp only at hle
    have e : Seg s.p s'.p x ↔ Seg s.p p1 x ∨ Seg p1 s'.p x := by simp only [Seg]; omega
    rw [hst.hD, ← or_assoc, hD1, e, or_assoc, or_assoc]
  keep := by
    intro x hx hne
    rw [hst.keep x ⟨hx.1, by have := hx.2; simp only; omega⟩ (fun h => by have := h.1; have := hx.2; omega)]
    exact hm x (.inr ⟨hx, hne⟩)
  keys := hst.keys
  keepKey := by
    intro a ha
    rw [hst.keepKey a ha]
    exact hm a (.inl (h.key' ha).1)
  fr := by
    intro x hx
    rcases hst.fr x hx with hx | hx
    · exact .inl (hx.congr (fun _ h => h) (fun a ha => (hm a (.inl (h.key' ha).1)).symm))
    · exact .inr ⟨by have := hx.1; simp only at this; omega, hx.2⟩
  le := by have := hst.le; simp only at this; omega
  size := by have := hst.size; simp only at this; omega
  sizeEq := fun hF => by have := hst.sizeEq hF; simp only at this; omega

theorem Inv.not_key {c : Cfg} {base L : Adr} {m0 : Mem} {s : CS} {D : Adr → Prop} (h : Inv c base L m0 s D) {x : Adr}
    (h1 : m0 x ≠ .ref x) (h2 : m0 x ≠ .fdv x) : x ∉ s.keys := by
  intro hx
  obtain ⟨_, d, _, _, h5⟩ := h.key' hx
  rcases h5 with ⟨k, _⟩ | ⟨k, _⟩
  · exact h1 k
  · exact h2 k

theorem out_ne {base L p x y : Adr} (hx : Out' base L x) (hp : p ≤ L) (hy : Seg base p y) : x ≠ y := by
  rintro rfl
  exact hx ⟨hy.1, by have := hy.2; omega⟩

theorem out_not {base L p x : Adr} (hx : Out' base L x) (hp : p ≤ L) : ¬ (x < p ∧ base ≤ x) :=
  fun h => hx ⟨h.2, by omega⟩

theorem TooMany.new {c : Cfg} {base L : Adr} {m0 : Mem} {s : CS} {D : Adr → Prop} (h : Inv c base L m0 s D) {a : Adr}
    {V : List Adr} (ha : a ∉ s.keys) (hV : a ∈ V) (hc : c.maxVars ≤ s.vars.length) : TooMany c base L m0 s V s := by
  refine ⟨⟨a :: s.keys, ?_, ?_, ?_⟩, ⟨D, h⟩, hc⟩
  · simp only [List.nodup_cons]; exact ⟨ha, h.nodup⟩
  · intro b hb
    simp only [List.mem_cons] at hb
    rcases hb with rfl | hb
    · exact .inr hV
    · exact .inl hb
  · simp only [CS.keys, List.length_cons, List.length_map]; omega

theorem CopyOk.of {c : Cfg} {base L : Adr} {m0 : Mem} {s : CS} {D : Adr → Prop} {dst : Adr} {t : CT} {o : Out CS}
    {V : List Adr} {k : Nat} {F : Prop} (hV : t.vars = V) (hk : t.size c.vs - 1 = k) (hF : t.NoFd → F)
    (h : (∃ s' D', o = .ok s' ∧ Step c base L m0 s D (fun x => x = dst) V k F s' D' ∧
        Rd c.vs D' s'.mem (s'.mem dst) (t.rename (img s'.mem)) ∧ OwnFd s'.mem dst ∧ Home s s' (fun x => x = dst) V ∧
        Clean s'.mem (Fr c.vs m0 s') dst) ∨
      (∃ s', o = .err s' ∧ TooMany c base L m0 s V s')) : CopyOk c base L m0 s D dst t o := by
  subst hV hk
  rcases h with ⟨s', D', h1, h2, h3⟩ | h
  · exact .inl ⟨s', D', h1, { h2 with sizeEq := fun h => h2.sizeEq (hF h) }, h3⟩
  · exact .inr h

/-- `Copy_Term_Rec`. -/
theorem copyRec_spec {c : Cfg} {base L : Adr} {m0 : Mem} {w : Cell} {t : CT} (h : Rd c.vs (Out' base L) m0 w t) :
    ∀ (n : Nat) (s : CS) (D : Adr → Prop) (dst src : Adr), t.size c.vs ≤ n → Inv c base L m0 s D → m0 src = w →
      Out' base L src → (OwnFd m0 src ∨ s.vars = []) → Seg base s.p dst → ¬ D dst → s.p + t.size c.vs ≤ L + 1 →
      CopyOk c base L m0 s D dst t (copyRec c base n s dst src) := by
  induction h with
  | @var a hoa ha =>
    intro n s D dst src hn hi hsrc hos how hdst hnd hL
    obtain ⟨n, rfl⟩ : ∃ k, n = k + 1 := ⟨n - 1, by simp only [CT.size] at hn; omega⟩
    refine CopyOk.of (V := [a]) (k := 0) (F := True) (by simp only [CT.vars]) (by simp only [CT.size]) (fun _ => trivial) ?_
    have hle := hi.le
    have had : a ≠ dst := out_ne hoa hle hdst
    by_cases hk : a ∈ s.keys
    · obtain ⟨_, d, h1, h2, h3⟩ := hi.key' hk
      replace h3 : s.mem d = .ref d := by
        rcases h3 with ⟨_, h3⟩ | ⟨h3, _⟩
        · exact h3
        · rw [ha] at h3; simp at h3
      have hdd := hi.dom d h2
      have hde : a ≠ d := out_ne hoa hle hdd
      have hder : deref s.mem (s.mem src) = some (.ref d) := by
        have e1 : deref s.mem (.ref d) = some (.ref d) := by rw [deref_ref, if_pos h3]
        by_cases hsa : src = a
        · subst hsa; rw [h1]; exact e1
        · have : src ∉ s.keys := by
            apply hi.not_key
            · rw [hsrc]; simp; exact fun h => hsa h.symm
            · rw [hsrc]; simp
          rw [hi.out src hos this, hsrc, deref_ref, if_neg (by rw [h1]; simp; exact fun h => hde h.symm), h1]
          exact e1
      have hm : ∀ x, Out' base L x ∨ (Seg base s.p x ∧ x ≠ dst) → s.mem.set dst (.ref d) x = s.mem x := by
        rintro x (hx | hx)
        · exact set_other _ _ _ _ (out_ne hx hle hdst)
        · exact set_other _ _ _ _ hx.2
      left
      refine ⟨{ s with mem := s.mem.set dst (.ref d) }, _, ?_, Step.fill hi (s.mem.set dst (.ref d)) dst 0 [a] _ hdst hnd hm hle
        (by simpa using hk), ?_, ?_⟩
      · rw [copyRec, hder]; simp only; rw [if_pos ⟨hdd.2, hdd.1⟩]
      · simp only [set_same, CT.rename]
        have : img (s.mem.set dst (.ref d)) a = d := by
          simp only [img]; rw [set_other _ _ _ _ had, h1]
        rw [this]
        refine .var (.inl h2) ?_
        rw [set_other _ _ _ _ (by rintro rfl; exact hnd h2)]; exact h3
      · refine ⟨by intro b hb; simp [set_same] at hb, fun b hb => .inl (by simp only [List.mem_singleton] at hb; subst hb; exact hk), ?_⟩
        have hF : ∀ x, Fr c.vs m0 { s with mem := s.mem.set dst (.ref d) } x → Fr c.vs m0 s x :=
          fun x h => h.congr (fun _ h => h) (fun b hb => (hm b (.inl (hi.key' hb).1)).symm)
        refine Clean.ref (a := d) (set_same _ _ _) (fun h => hnd (hi.fr dst (hF _ h))) (fun h => hi.imgs a hk d h1 (hF _ h)) (.inl ?_)
        simp only
        rw [set_other _ _ _ _ (by rintro rfl; exact hnd h2)]; exact h3
    · have hsk : src ∉ s.keys := by
        by_cases hsa : src = a
        · subst hsa; exact hk
        · apply hi.not_key
          · rw [hsrc]; simp; exact fun h => hsa h.symm
          · rw [hsrc]; simp
      have hma : s.mem a = .ref a := by rw [hi.out a hoa hk]; exact ha
      have hder : deref s.mem (s.mem src) = some (.ref a) := by
        rw [hi.out src hos hsk, hsrc, deref_ref, if_pos hma]
      by_cases hc : c.maxVars ≤ s.vars.length
      · right
        refine ⟨s, ?_, TooMany.new hi hk (by simp [CT.vars]) hc⟩
        rw [copyRec, hder]; simp only
        rw [if_neg (out_not hoa hle), if_pos hc]
      · left
        have hm : ∀ x, Out' base L x ∨ (Seg base s.p x ∧ x ≠ dst) → s.mem.set dst (.ref dst) x = s.mem x := by
          rintro x (hx | hx)
          · exact set_other _ _ _ _ (out_ne hx hle hdst)
          · exact set_other _ _ _ _ hx.2
        have st := Step.fill hi (s.mem.set dst (.ref dst)) dst 0 [] True hdst hnd hm hle (by simp)
        have hb := st.inv.bind hoa hk (.inr (.inl rfl)) (by simp only; omega)
          (by
            intro b hb
            obtain ⟨k1, e, k2, k3, _⟩ := hi.key' hb
            simp only
            rw [hm b (.inl k1), k2]
            simp only [ne_eq, Cell.ref.injEq]
            rintro rfl
            exact hnd k3)
          (fun h => hnd (hi.fr dst (h.congr (fun _ h => h) (fun b hb => (hm b (.inl (hi.key' hb).1)).symm))))
          (fun dom h => by have := h.tag; rw [ha] at this; simp at this)
          (.inl ⟨ha, set_same _ _ _⟩)
        simp only [ha] at hb
        have hF : ∀ x, Fr c.vs m0 { s with mem := (s.mem.set dst (.ref dst)).set a (.ref dst), vars := (a, .ref a) :: s.vars } x →
            Fr c.vs m0 s x := by
          rintro x ⟨b, hb', e, dom, k1, k2, k3⟩
          simp only [CS.keys, List.map_cons, List.mem_cons] at hb'
          rcases hb' with rfl | hb'
          · have := k2.tag; rw [ha] at this; simp at this
          · refine ⟨b, hb', e, dom, ?_, k2, k3⟩
            simp only at k1
            rw [set_other _ _ _ _ (by rintro rfl; exact hk hb'), hm b (.inl (hi.key' hb').1)] at k1
            exact k1
        refine ⟨_, _, ?_, ⟨hb, st.hD, ?_, ?_, ?_, ?_, st.le, st.size, fun _ => rfl⟩, ?_, ?_⟩
        · rw [copyRec, hder]; simp only
          rw [if_neg (out_not hoa hle), if_neg hc]
          rfl
        · intro x hx hne
          simp only
          rw [set_other _ _ _ _ (out_ne hoa hle hx).symm]
          exact st.keep x hx hne
        · intro b
          simp only [CS.keys, List.map_cons, List.mem_cons, CT.vars, List.not_mem_nil, or_false]
          exact or_comm
        · intro b hb'
          simp only
          rw [set_other _ _ _ _ (by rintro rfl; exact hk hb')]
          exact st.keepKey b hb'
        · exact fun x hx => .inl (hF x hx)
        · simp only [CT.rename]
          have e1 : img ((s.mem.set dst (.ref dst)).set a (.ref dst)) a = dst := by simp only [img]; rw [set_same]
          have e2 : (s.mem.set dst (.ref dst)).set a (.ref dst) dst = .ref dst := by
            rw [set_other _ _ _ _ had.symm, set_same]
          rw [e1, e2]
          exact .var (.inr (.inl rfl)) e2
        · refine ⟨?_, fun b hb => .inr ⟨dst, rfl, ?_⟩, ?_⟩
          · intro b hb
            simp only at hb
            rw [set_other _ _ _ _ had.symm, set_same] at hb
            simp at hb
          · simp only [List.mem_singleton] at hb
            subst hb
            have e1 : img ((s.mem.set dst (.ref dst)).set b (.ref dst)) b = dst := by simp only [img]; rw [set_same]
            simp only
            rw [e1]
            exact .self
          · have e2 : (s.mem.set dst (.ref dst)).set a (.ref dst) dst = .ref dst := by
              rw [set_other _ _ _ _ had.symm, set_same]
            have nf : ¬ Fr c.vs m0 s dst := fun h => hnd (hi.fr dst h)
            exact Clean.ref e2 (fun h => nf (hF _ h)) (fun h => nf (hF _ h)) (.inl e2)
  | @bound a t hoa hne hown hr ih =>
    intro n s D dst src hn hi hsrc hos how hdst hnd hL
    obtain ⟨n, rfl⟩ : ∃ k, n = k + 1 := ⟨n - 1, by have := size_pos c.vs t; omega⟩
    have hsk : src ∉ s.keys := by
      apply hi.not_key
      · rw [hsrc]
        simp only [ne_eq, Cell.ref.injEq]
        rintro rfl
        exact hne hsrc
      · rw [hsrc]; simp
    have hder : deref s.mem (s.mem src) = deref s.mem (s.mem a) := by
      rw [hi.out src hos hsk, hsrc, deref_ref, if_neg]
      by_cases hk : a ∈ s.keys
      · obtain ⟨_, d, h1, h2, h3⟩ := hi.key' hk
        rw [h1]
        simp only [Cell.ref.injEq]
        exact (out_ne hoa hi.le (hi.dom d h2)).symm
      · rw [hi.out a hoa hk]; exact hne
    have := ih (n + 1) s D dst a hn hi rfl hoa (.inl hown) hdst hnd hL
    have e : copyRec c base (n + 1) s dst src = copyRec c base (n + 1) s dst a := by
      rw [copyRec, copyRec, hder]
    rw [e]; exact this
  | @fd a d hfd =>
    intro n s D dst src hn hi hsrc hos how hdst hnd hL
    obtain ⟨n, rfl⟩ : ∃ k, n = k + 1 := ⟨n - 1, by have := size_pos c.vs (CT.fd a d); omega⟩
    refine CopyOk.of (V := [a]) (k := (CT.fd a d).size c.vs - 1) (F := False) (by simp only [CT.vars]) rfl
      (fun h => by simp only [CT.NoFd] at h) ?_
    have hle := hi.le
    have hoa := hfd.oks.1
    have had : a ≠ dst := out_ne hoa hle hdst
    have hsame : s.keys ≠ [] → src = a := by
      intro hk
      rcases how with h | h
      · exact (h a hsrc).symm
      · exact absurd (by simp [CS.keys, h]) hk
    by_cases hk : a ∈ s.keys
    · have hsa : src = a := hsame (by intro h; rw [h] at hk; simp at hk)
      subst hsa
      obtain ⟨_, e, h1, h2, h3⟩ := hi.key' hk
      replace h3 : ∃ d', FdAt c.vs (Out' base L) m0 src d' ∧ FdAt c.vs D s.mem e d' := by
        rcases h3 with ⟨h3, _⟩ | ⟨_, h3, h5⟩
        · rw [hfd.tag] at h3; simp at h3
        · exact h3
      obtain ⟨d', h3, h4⟩ := h3
      have hdd : d = d' := hfd.unique h3
      subst hdd
      have hde := hi.dom e h2
      have hder : deref s.mem (s.mem src) = some (.fdv e) := by
        rw [h1, deref_ref, if_neg (by rw [h4.tag]; simp), h4.tag, deref_nonref (by simp)]
      have hm : ∀ x, Out' base L x ∨ (Seg base s.p x ∧ x ≠ dst) → s.mem.set dst (.ref e) x = s.mem x := by
        rintro x (hx | hx)
        · exact set_other _ _ _ _ (out_ne hx hle hdst)
        · exact set_other _ _ _ _ hx.2
      have hmD : ∀ x, D x → s.mem.set dst (.ref e) x = s.mem x :=
        fun x hx => set_other _ _ _ _ (by rintro rfl; exact hnd hx)
      left
      have st := Step.fill hi (s.mem.set dst (.ref e)) dst 0 [src] True hdst hnd hm hle (by simpa using hk)
      refine ⟨{ s with mem := s.mem.set dst (.ref e) }, _, ?_, { st with
                size := Nat.le_add_right _ _
                sizeEq := fun hF => hF.elim }, ?_, ?_⟩
      · rw [copyRec, hder]; simp only; rw [if_pos ⟨hde.2, hde.1⟩]
      · simp only [set_same, CT.rename]
        have : img (s.mem.set dst (.ref e)) src = e := by
          simp only [img]; rw [set_other _ _ _ _ had, h1]
        rw [this]
        have hee : s.mem.set dst (.ref e) e = .fdv e := by rw [hmD e h2]; exact h4.tag
        refine .bound (.inl h2) (by rw [hee]; simp) ?_ ?_
        · intro b hb; rw [hee] at hb; simpa using hb.symm
        · rw [hee]
          exact .fd (h4.mono (fun x hx => .inl hx) hmD)
      · refine ⟨by intro b hb; simp [set_same] at hb, fun b hb => .inl (by simp only [List.mem_singleton] at hb; subst hb; exact hk), ?_⟩
        have hF : ∀ x, Fr c.vs m0 { s with mem := s.mem.set dst (.ref e) } x → Fr c.vs m0 s x :=
          fun x h => h.congr (fun _ h => h) (fun b hb => (hm b (.inl (hi.key' hb).1)).symm)
        refine Clean.ref (a := e) (set_same _ _ _) (fun h => hnd (hi.fr dst (hF _ h))) (fun h => hi.imgs src hk e h1 (hF _ h)) (.inr ?_)
        simp only
        rw [hmD e h2]; exact h4.tag
    · have hsk : src ∉ s.keys := by
        intro h
        have := hsame (by intro h'; rw [h'] at h; simp at h)
        subst this; exact hk h
      have hder : deref s.mem (s.mem src) = some (.fdv a) := by
        rw [hi.out src hos hsk, hsrc, deref_nonref (by simp)]
      by_cases hc : c.maxVars ≤ s.vars.length
      · right
        refine ⟨s, ?_, TooMany.new hi hk (by simp [CT.vars]) hc⟩
        rw [copyRec, hder]; simp only
        rw [if_neg (out_not hoa hle), if_pos hc]
      · left
        have hfd' : FdAt c.vs (Out' s.p L) s.mem a d := by
          have h1 : FdAt c.vs (fun x => Out' base L x ∧ x ∉ s.keys) m0 a d := by
            refine hfd.strength ?_
            rintro x hx (rfl | hx')
            · exact ⟨hx, hk⟩
            · exact ⟨hx, hi.not_key (hx' x).1 (hx' x).2⟩
          refine h1.mono ?_ ?_
          · rintro x ⟨hx, _⟩ ⟨k1, k2⟩
            exact hx ⟨by have := hdst.1; have := hdst.2; omega, k2⟩
          · rintro x ⟨hx, hx'⟩
            exact hi.out x hx hx'
        have hsp := size_pos c.vs (CT.fd a d)
        obtain ⟨c1, c2, c3, c4⟩ := fdCopy_spec hfd' (by omega)
        generalize hmm : (fdCopy c s.mem s.p a).1 = m1 at c2 c3 c4
        generalize hss : (fdCopy c s.mem s.p a).2 = sz at c1 c2 c3 c4
        have hm : ∀ x, Out' base L x ∨ (Seg base s.p x ∧ x ≠ dst) → m1.set dst (.ref s.p) x = s.mem x := by
          rintro x (hx | hx)
          · rw [set_other _ _ _ _ (out_ne hx hle hdst)]
            apply c2
            intro hs
            exact hx ⟨by have := hs.1; have := hdst.1; have := hdst.2; omega, by have := hs.2; omega⟩
          · rw [set_other _ _ _ _ hx.2]
            apply c2
            intro hs
            have := hs.1; have := hx.1.2; omega
        have hm1 : ∀ x, Seg s.p (s.p + sz) x → m1.set dst (.ref s.p) x = m1 x := by
          intro x hx
          exact set_other _ _ _ _ (by rintro rfl; have := hx.1; have := hdst.2; omega)
        have hlen : ∀ dom, FdAt c.vs (fun _ => True) m0 a dom → dom.len c.vs = sz := by
          intro dom hdom
          have : dom = d := hdom.unique hfd
          subst this
          rw [c1]; simp only [CT.size, Dom.len]; omega
        have st := Step.fill hi (m1.set dst (.ref s.p)) dst sz [] True hdst hnd hm (by omega) (by simp)
        have hb := st.inv.bind (d := s.p) hoa hk (.inr (.inr ⟨Nat.le_refl _, by
            have : 0 < (CT.fd a d).size c.vs - 1 := by simp only [CT.size]; omega
            omega⟩)) (by simp only; omega)
          (by
            intro b hb
            obtain ⟨k1, e, k2, k3, _⟩ := hi.key' hb
            simp only
            rw [hm b (.inl k1), k2]
            simp only [ne_eq, Cell.ref.injEq]
            rintro rfl
            have := (hi.dom _ k3).2
            omega)
          (fun h => by
            have := (hi.dom _ (hi.fr _ (h.congr (fun _ h => h) (fun b hb => (hm b (.inl (hi.key' hb).1)).symm)))).2
            omega)
          (by
            intro dom hdom x hx1 hx2
            have := hlen dom hdom
            refine ⟨.inr (.inr ⟨by omega, by omega⟩), ?_⟩
            intro b hb
            obtain ⟨k1, e, k2, k3, _⟩ := hi.key' hb
            simp only
            rw [hm b (.inl k1), k2]
            simp only [ne_eq, Cell.ref.injEq]
            rintro rfl
            have := (hi.dom _ k3).2
            omega)
          (.inr ⟨hfd.tag, ⟨d, hfd, c3.mono (fun x hx => .inr (.inr hx)) hm1⟩, c4.mono (fun x hx => .inr (.inr hx)) hm1⟩)
        simp only [hfd.tag] at hb
        have hF : ∀ x, Fr c.vs m0 { mem := (m1.set dst (.ref s.p)).set a (.ref s.p), p := s.p + sz, vars := (a, .fdv a) :: s.vars } x →
            Fr c.vs m0 s x ∨ (s.p < x ∧ x < s.p + sz) := by
          rintro x ⟨b, hb', e, dom, k1, k2, k3⟩
          simp only [CS.keys, List.map_cons, List.mem_cons] at hb'
          simp only at k1
          rcases hb' with rfl | hb'
          · rw [set_same] at k1
            simp only [Cell.ref.injEq] at k1
            subst k1
            have := hlen dom k2
            exact .inr ⟨by omega, by omega⟩
          · refine .inl ⟨b, hb', e, dom, ?_, k2, k3⟩
            rw [set_other _ _ _ _ (by rintro rfl; exact hk hb'), hm b (.inl (hi.key' hb').1)] at k1
            exact k1
        have hpd : s.p ≠ dst := by have := hdst.2; omega
        have hap : ∀ x, base ≤ x → x < s.p + sz → x ≠ a := by
          rintro x h1 h2 rfl
          exact hoa ⟨h1, by omega⟩
        have hbs := hdst.1
        have hds := hdst.2
        refine ⟨_, _, ?_, ⟨hb, st.hD, ?_, ?_, ?_, ?_, st.le, ?_, fun hF => hF.elim⟩, ?_, ?_⟩
        · rw [copyRec, hder]; simp only
          rw [if_neg (out_not hoa hle), if_neg hc, hmm, hss]
        · intro x hx hne
          simp only
          rw [set_other _ _ _ _ (out_ne hoa hle hx).symm]
          exact st.keep x hx hne
        · intro b
          simp only [CS.keys, List.map_cons, List.mem_cons, CT.vars, List.not_mem_nil, or_false]
          exact or_comm
        · intro b hb'
          simp only
          rw [set_other _ _ _ _ (by rintro rfl; exact hk hb')]
          exact st.keepKey b hb'
        · intro x hx
          rcases hF x hx with h | h
          · exact .inl h
          · exact .inr ⟨by omega, h.2⟩
        · simp only; omega
        · simp only [CT.rename]
          have e1 : img ((m1.set dst (.ref s.p)).set a (.ref s.p)) a = s.p := by simp only [img]; rw [set_same]
          have e2 : (m1.set dst (.ref s.p)).set a (.ref s.p) dst = .ref s.p := by
            rw [set_other _ _ _ _ had.symm, set_same]
          have hmF : ∀ x, Seg s.p (s.p + sz) x → (m1.set dst (.ref s.p)).set a (.ref s.p) x = m1 x := by
            intro x hx
            rw [set_other _ _ _ _ (hap x (by have := hx.1; omega) hx.2), hm1 x hx]
          have e3 : (m1.set dst (.ref s.p)).set a (.ref s.p) s.p = .fdv s.p := by
            rw [hmF _ c3.oks.1]; exact c3.tag
          rw [e1, e2]
          refine .bound (.inr (.inr c3.oks.1)) (by rw [e3]; simp) ?_ ?_
          · intro b hb; rw [e3] at hb; simpa using hb.symm
          · rw [e3]
            exact .fd (c3.mono (fun x hx => .inr (.inr hx)) hmF)
        · refine ⟨?_, fun b hb => .inr ⟨dst, rfl, ?_⟩, ?_⟩
          · intro b hb
            simp only at hb
            rw [set_other _ _ _ _ had.symm, set_same] at hb
            simp at hb
          · simp only [List.mem_singleton] at hb
            subst hb
            have e1 : img ((m1.set dst (.ref s.p)).set b (.ref s.p)) b = s.p := by simp only [img]; rw [set_same]
            have e2 : (m1.set dst (.ref s.p)).set b (.ref s.p) dst = .ref s.p := by
              rw [set_other _ _ _ _ had.symm, set_same]
            simp only
            rw [e1]
            exact .step (.fwd e2 hds) .self
          · have e2 : (m1.set dst (.ref s.p)).set a (.ref s.p) dst = .ref s.p := by
              rw [set_other _ _ _ _ had.symm, set_same]
            refine Clean.ref e2 (fun h => ?_) (fun h => ?_) (.inr ?_)
            · rcases hF _ h with h | h
              · exact hnd (hi.fr dst h)
              · omega
            · rcases hF _ h with h | h
              · have := (hi.dom _ (hi.fr _ h)).2; omega
              · omega
            · simp only
              rw [set_other _ _ _ _ (hap s.p (by omega) (by have := c3.oks.1.2; omega)), hm1 _ c3.oks.1]
              exact c3.tag
  | @atm i =>
    intro n s D dst src hn hi hsrc hos how hdst hnd hL
    obtain ⟨n, rfl⟩ : ∃ k, n = k + 1 := ⟨n - 1, by simp only [CT.size] at hn; omega⟩
    refine CopyOk.of (V := []) (k := 0) (F := True) (by simp only [CT.vars]) (by simp only [CT.size]) (fun _ => trivial) ?_
    have hsk : src ∉ s.keys := by apply hi.not_key <;> rw [hsrc] <;> simp
    have hm : ∀ x, Out' base L x ∨ (Seg base s.p x ∧ x ≠ dst) → s.mem.set dst (.atm i) x = s.mem x := by
      rintro x (hx | hx)
      · exact set_other _ _ _ _ (out_ne hx hi.le hdst)
      · exact set_other _ _ _ _ hx.2
    left
    refine ⟨_, _, ?_, Step.fill hi (s.mem.set dst (.atm i)) dst 0 [] _ hdst hnd hm hi.le (by simp), ?_, ?_⟩
    · rw [copyRec, hi.out src hos hsk, hsrc, deref_nonref (by simp)]
      rfl
    · simp only [set_same, CT.rename]; exact .atm
    · refine ⟨by intro b hb; simp [set_same] at hb, by intro b hb; simp at hb, ?_⟩
      refine Clean.const (fun h => hnd (hi.fr dst (h.congr (fun _ h => h) (fun b hb => (hm b (.inl (hi.key' hb).1)).symm)))) ?_ ?_ ?_ ?_ <;> simp [set_same]
  | @int i =>
    intro n s D dst src hn hi hsrc hos how hdst hnd hL
    obtain ⟨n, rfl⟩ : ∃ k, n = k + 1 := ⟨n - 1, by simp only [CT.size] at hn; omega⟩
    refine CopyOk.of (V := []) (k := 0) (F := True) (by simp only [CT.vars]) (by simp only [CT.size]) (fun _ => trivial) ?_
    have hsk : src ∉ s.keys := by apply hi.not_key <;> rw [hsrc] <;> simp
    have hm : ∀ x, Out' base L x ∨ (Seg base s.p x ∧ x ≠ dst) → s.mem.set dst (.int i) x = s.mem x := by
      rintro x (hx | hx)
      · exact set_other _ _ _ _ (out_ne hx hi.le hdst)
      · exact set_other _ _ _ _ hx.2
    left
    refine ⟨_, _, ?_, Step.fill hi (s.mem.set dst (.int i)) dst 0 [] _ hdst hnd hm hi.le (by simp), ?_, ?_⟩
    · rw [copyRec, hi.out src hos hsk, hsrc, deref_nonref (by simp)]
      rfl
    · simp only [set_same, CT.rename]; exact .int
    · refine ⟨by intro b hb; simp [set_same] at hb, by intro b hb; simp at hb, ?_⟩
      refine Clean.const (fun h => hnd (hi.fr dst (h.congr (fun _ h => h) (fun b hb => (hm b (.inl (hi.key' hb).1)).symm)))) ?_ ?_ ?_ ?_ <;> simp [set_same]
  | @flt a x hoa hx =>
    intro n s D dst src hn hi hsrc hos how hdst hnd hL
    obtain ⟨n, rfl⟩ : ∃ k, n = k + 1 := ⟨n - 1, by simp only [CT.size] at hn; omega⟩
    refine CopyOk.of (V := []) (k := 1) (F := True) (by simp only [CT.vars]) (by simp only [CT.size]) (fun _ => trivial) ?_
    have hsk : src ∉ s.keys := by apply hi.not_key <;> rw [hsrc] <;> simp
    have hak : a ∉ s.keys := by apply hi.not_key <;> rw [hx] <;> simp
    have hle := hi.le
    simp only [CT.size] at hL
    have hds := hdst.2
    have hbs := hdst.1
    have hm : ∀ x, Out' base L x ∨ (Seg base s.p x ∧ x ≠ dst) →
        (s.mem.set s.p (s.mem a)).set dst (.flt s.p) x = s.mem x := by
      rintro x (hx | hx)
      · rw [set_other _ _ _ _ (out_ne hx hi.le hdst), set_other]
        rintro rfl; exact hx ⟨by omega, by omega⟩
      · rw [set_other _ _ _ _ hx.2, set_other]
        rintro rfl; have := hx.1.2; omega
    left
    refine ⟨_, _, ?_, Step.fill hi ((s.mem.set s.p (s.mem a)).set dst (.flt s.p)) dst 1 [] _ hdst hnd hm (by omega)
      (by simp), ?_, ?_⟩
    · rw [copyRec, hi.out src hos hsk, hsrc, deref_nonref (by simp)]
    · simp only [set_same, CT.rename]
      refine .flt (.inr (.inr ⟨by omega, by omega⟩)) ?_
      rw [set_other _ _ _ _ (by omega), set_same, hi.out a hoa hak, hx]
    · refine ⟨by intro b hb; simp [set_same] at hb, by intro b hb; simp at hb, ?_⟩
      refine Clean.const (fun h => hnd (hi.fr dst (h.congr (fun _ h => h) (fun b hb => (hm b (.inl (hi.key' hb).1)).symm)))) ?_ ?_ ?_ ?_
      · simp [set_same]
      · simp [set_same]
      · simp [set_same]
      · intro x hf
        simp only [set_same, ne_eq, Cell.flt.injEq]
        rintro rfl
        have := (hi.dom _ (hi.fr _ (hf.congr (fun _ h => h) (fun b hb => (hm b (.inl (hi.key' hb).1)).symm)))).2
        omega
  | @lst a t1 t2 ho1 ho2 hw1 hw2 _ _ ih1 ih2 =>
    intro n s D dst src hn hi hsrc hos how hdst hnd hL
    obtain ⟨n, rfl⟩ : ∃ k, n = k + 1 := ⟨n - 1, by simp only [CT.size] at hn; omega⟩
    refine CopyOk.of (V := t1.vars ++ t2.vars) (k := (CT.lst t1 t2).size c.vs - 1) (F := t1.NoFd ∧ t2.NoFd)
      (by simp only [CT.vars]) rfl (fun h => by simpa only [CT.NoFd] using h) ?_
    have hsk : src ∉ s.keys := by apply hi.not_key <;> rw [hsrc] <;> simp
    simp only [CT.size] at hn hL
    have p1 := size_pos c.vs t1
    have p2 := size_pos c.vs t2
    have hle := hi.le
    have hds := hdst.2
    have hbs := hdst.1
    have hcall : copyRec c base (n + 1) s dst src =
        copyArgs (copyRec c base n) 2 { s with mem := s.mem.set dst (.lst s.p), p := s.p + 2 } s.p a := by
      rw [copyRec, hi.out src hos hsk, hsrc, deref_nonref (by simp)]
      rfl
    rw [hcall]
    have hm : ∀ x, Out' base L x ∨ (Seg base s.p x ∧ x ≠ dst) → s.mem.set dst (.lst s.p) x = s.mem x := by
      rintro x (hx | hx)
      · exact set_other _ _ _ _ (out_ne hx hi.le hdst)
      · exact set_other _ _ _ _ hx.2
    have hi1 : Inv c base L m0 { s with mem := s.mem.set dst (.lst s.p), p := s.p + 2 } (fun x => D x ∨ x = dst) := by
      refine hi.grow _ _ _ ?_ (fun x hx => .inl hx) ?_ (by omega)
      · rintro x (hx | hx)
        · exact hm x (.inl hx)
        · exact hm x (.inr ⟨hi.dom x hx, by rintro rfl; exact hnd hx⟩)
      · rintro x (hx | rfl)
        · have := hi.dom x hx; exact ⟨this.1, by have := this.2; omega⟩
        · exact ⟨by omega, by omega⟩
    let g : Nat → CT := fun i => if i = 0 then t1 else t2
    have hsum : ((List.range 2).map fun i => (g i).size c.vs).sum = t1.size c.vs + t2.size c.vs := by
      simp [List.range_succ, g]
    have hfl : ((List.range 2).flatMap fun i => (g i).vars) = t1.vars ++ t2.vars := by
      simp [List.range_succ, g]
    have hargs := copyArgs_spec (copyRec c base n) 2 (by omega) g _ _ s.p a hi1 ⟨by omega, by simp only; omega⟩
      (by
        rintro x hx (h | rfl)
        · have := (hi.dom x h).2; have := hx.1; omega
        · have := hx.1; omega)
      (by simp only; rw [hsum]; omega)
      (by
        intro i hik s2 D2 hs2 hp2 hd2 hz2
        have : i = 0 ∨ i = 1 := by omega
        rcases this with rfl | rfl
        · exact ih1 n s2 D2 _ _ (by omega) hs2 rfl ho1 (.inl hw1) ⟨by omega, by omega⟩ hd2 hz2
        · exact ih2 n s2 D2 _ _ (by omega) hs2 rfl ho2 (.inl hw2) ⟨by omega, by omega⟩ hd2 hz2)
    rcases hargs with ⟨s', D', h1, h2, h3, h4⟩ | ⟨s', h1, ⟨K, k1, k2, k3⟩, k4⟩
    · left
      rw [hsum, hfl] at h2
      rw [hfl] at h4
      have hkd : s'.mem dst = .lst s.p := by
        rw [h2.keep dst ⟨by omega, by simp only; omega⟩ (fun h => by have := h.1; omega)]
        simp only [set_same]
      have w := Step.wrap hi hdst (by
        intro x
        have : Seg s.p (s.p + 2) x ↔ Seg s.p (s.p + 2) x := Iff.rfl
        simp only [or_assoc]) hm (Nat.le_refl _) (Nat.le_refl _) h2
      refine ⟨s', D', h1, ?_, ?_, ?_⟩
      · have e : s.p + 2 - s.p + (t1.size c.vs + t2.size c.vs - 2) = (CT.lst t1 t2).size c.vs - 1 := by
          simp only [CT.size]; omega
        rw [e] at w
        refine { w with sizeEq := fun hF => w.sizeEq ?_ }
        intro i hik
        simp only [g]
        split
        · exact hF.1
        · exact hF.2
      · rw [hkd]
        simp only [CT.rename]
        have q0 := h3 0 (by omega)
        have q1 := h3 1 (by omega)
        refine .lst ?_ ?_ q0.2.1 q1.2.1 q0.1 q1.1
        · exact (h2.hD _).mpr (.inr (.inl ⟨by omega, by omega⟩))
        · exact (h2.hD _).mpr (.inr (.inl ⟨by omega, by omega⟩))
      · refine ⟨by intro b hb; rw [hkd] at hb; simp at hb, ?_, ?_⟩
        · intro b hb
          rcases h4 b hb with h | ⟨y, h, h'⟩
          · exact .inl h
          refine .inr ⟨dst, rfl, ?_⟩
          have : y = s.p ∨ y = s.p + 1 := by have := h.1; have := h.2; omega
          rcases this with rfl | rfl
          · exact .step (.car hkd) h'
          · exact .step (.cdr hkd) h'
        · intro z hz
          have hFr : ∀ x, Fr c.vs m0 s' x → x ≠ dst ∧ ¬ (s.p ≤ x ∧ x < s.p + 2) := by
            intro x hx
            rcases h2.fr x hx with h | h
            · have hs := h.congr (s' := s) (fun _ h => h) (fun b hb => (hm b (.inl (hi.key' hb).1)).symm)
              have hx' := hi.fr x hs
              have := (hi.dom x hx').2
              exact ⟨fun he => hnd (he ▸ hx'), by omega⟩
            · have := h.1
              simp only at this
              exact ⟨by omega, by omega⟩
          rcases hz.inv with rfl | ⟨y', j1, j2⟩
          · refine ⟨fun h => (hFr _ h).1 rfl, fun x hx => ?_, by rw [hkd]; simp⟩
            rw [hkd]; simp
          · cases j1 with
            | car h =>
              rw [hkd] at h; simp only [Cell.lst.injEq] at h; subst h
              exact (h3 0 (by omega)).2.2 z j2
            | cdr h =>
              rw [hkd] at h; simp only [Cell.lst.injEq] at h; subst h
              exact (h3 1 (by omega)).2.2 z j2
            | arg h => rw [hkd] at h; simp at h
            | fwd h => rw [hkd] at h; simp at h
    · right
      refine ⟨s', h1, ⟨K, k1, ?_, k3⟩, k4⟩
      rw [hfl] at k2
      exact k2
  | @stc a f k g ho hf hk ho' hw _ ih =>
    intro n s D dst src hn hi hsrc hos how hdst hnd hL
    obtain ⟨n, rfl⟩ : ∃ k, n = k + 1 := ⟨n - 1, by simp only [CT.size] at hn; omega⟩
    have hsk : src ∉ s.keys := by apply hi.not_key <;> rw [hsrc] <;> simp
    have hak : a ∉ s.keys := by apply hi.not_key <;> rw [hf] <;> simp
    have hsz : (CT.app f ((List.range k).map g)).size c.vs = 2 + ((List.range k).map fun i => (g i).size c.vs).sum := by
      simp only [CT.size, List.map_map, Function.comp_def]
    have hvs : (CT.app f ((List.range k).map g)).vars = (List.range k).flatMap fun i => (g i).vars := by
      simp only [CT.vars, List.flatMap_map]
    have hge := sum_size_ge c.vs k g
    rw [hsz] at hn hL
    have hle := hi.le
    have hds := hdst.2
    have hbs := hdst.1
    have hcall : copyRec c base (n + 1) s dst src =
        copyArgs (copyRec c base n) k
          { s with mem := (s.mem.set dst (.stc s.p)).set s.p (.fn f k), p := s.p + 1 + k } (s.p + 1) (a + 1) := by
      rw [copyRec, hi.out src hos hsk, hsrc, deref_nonref (by simp)]
      simp only
      rw [hi.out a ho hak, hf]
    rw [hcall]
    have hm : ∀ x, Out' base L x ∨ (Seg base s.p x ∧ x ≠ dst) →
        (s.mem.set dst (.stc s.p)).set s.p (.fn f k) x = s.mem x := by
      rintro x (hx | hx)
      · rw [set_other _ _ _ _ (by rintro rfl; exact hx ⟨by omega, by omega⟩), set_other _ _ _ _ (out_ne hx hi.le hdst)]
      · rw [set_other _ _ _ _ (by rintro rfl; have := hx.1.2; omega), set_other _ _ _ _ hx.2]
    have hi1 : Inv c base L m0 { s with mem := (s.mem.set dst (.stc s.p)).set s.p (.fn f k), p := s.p + 1 + k }
        (fun x => D x ∨ x = dst ∨ x = s.p) := by
      refine hi.grow _ _ _ ?_ (fun x hx => .inl hx) ?_ (by omega)
      · rintro x (hx | hx)
        · exact hm x (.inl hx)
        · exact hm x (.inr ⟨hi.dom x hx, by rintro rfl; exact hnd hx⟩)
      · rintro x (hx | rfl | rfl)
        · have := hi.dom x hx; exact ⟨this.1, by have := this.2; omega⟩
        · exact ⟨by omega, by omega⟩
        · exact ⟨by omega, by omega⟩
    have hargs := copyArgs_spec (copyRec c base n) k hk g _ _ (s.p + 1) (a + 1) hi1 ⟨by omega, by simp only; omega⟩
      (by
        rintro x hx (h | rfl | rfl)
        · have := (hi.dom x h).2; have := hx.1; omega
        · have := hx.1; omega
        · have := hx.1; omega)
      (by simp only; omega)
      (by
        intro i hik s2 D2 hs2 hp2 hd2 hz2
        have := le_sum (fun i => (g i).size c.vs) k i hik
        exact ih i hik n s2 D2 _ _ (by omega) hs2 rfl (ho' i hik) (.inl (hw i hik)) ⟨by omega, by omega⟩ hd2 hz2)
    rcases hargs with ⟨s', D', h1, h2, h3, h4⟩ | ⟨s', h1, ⟨K, k1, k2, k3⟩, k4⟩
    · left
      have w := Step.wrap hi hdst (by
        intro x
        have : Seg s.p (s.p + 1 + k) x ↔ x = s.p ∨ Seg (s.p + 1) (s.p + 1 + k) x := by simp only [Seg]; omega
        simp only [this, or_assoc]) hm (Nat.le_add_right _ _) (Nat.le_refl _) h2
      have hkd : s'.mem dst = .stc s.p := by
        rw [h2.keep dst ⟨by omega, by simp only; omega⟩ (fun h => by have := h.1; omega)]
        simp only
        rw [set_other _ _ _ _ (by omega), set_same]
      have hkp : s'.mem s.p = .fn f k := by
        rw [h2.keep s.p ⟨by omega, by simp only; omega⟩ (fun h => by have := h.1; omega)]
        exact set_same _ _ _
      refine ⟨s', D', h1, ?_, ?_, ?_⟩
      · rw [hsz, hvs]
        have e : s.p + 1 + k - s.p + (((List.range k).map fun i => (g i).size c.vs).sum - k) =
          2 + ((List.range k).map fun i => (g i).size c.vs).sum - 1 := by omega
        rw [e] at w
        refine { w with sizeEq := fun hF => w.sizeEq ?_ }
        intro i hik
        simp only [CT.NoFd] at hF
        exact hF (g i) (List.mem_map.mpr ⟨i, List.mem_range.mpr hik, rfl⟩)
      · rw [hkd]
        simp only [CT.rename, List.map_map]
        refine .stc (g := fun i => (g i).rename (img s'.mem)) ?_ hkp hk ?_ (fun i hik => (h3 i hik).2.1) (fun i hik => (h3 i hik).1)
        · exact (h2.hD _).mpr (.inl (.inr (.inr rfl)))
        · intro i hik
          exact (h2.hD _).mpr (.inr (.inl ⟨by omega, by omega⟩))
      · refine ⟨by intro b hb; rw [hkd] at hb; simp at hb, ?_, ?_⟩
        · intro b hb
          rw [hvs] at hb
          rcases h4 b hb with h | ⟨y, h, h'⟩
          · exact .inl h
          refine .inr ⟨dst, rfl, ?_⟩
          have e : y = s.p + 1 + (y - (s.p + 1)) := by have := h.1; omega
          have l : y - (s.p + 1) < k := by have := h.1; have := h.2; omega
          rw [e] at h'
          exact .step (.arg hkd hkp l) h'
        · intro z hz
          have hFr : ∀ x, Fr c.vs m0 s' x → x ≠ dst ∧ ¬ (s.p ≤ x ∧ x < s.p + 1 + k) := by
            intro x hx
            rcases h2.fr x hx with h | h
            · have hs := h.congr (s' := s) (fun _ h => h) (fun b hb => (hm b (.inl (hi.key' hb).1)).symm)
              have hx' := hi.fr x hs
              have := (hi.dom x hx').2
              exact ⟨fun he => hnd (he ▸ hx'), by omega⟩
            · have := h.1
              simp only at this
              exact ⟨by omega, by omega⟩
          rcases hz.inv with rfl | ⟨y', j1, j2⟩
          · refine ⟨fun h => (hFr _ h).1 rfl, fun x hx => ?_, by rw [hkd]; simp⟩
            rw [hkd]
            simp only [ne_eq, Cell.stc.injEq, reduceCtorEq, not_false_eq_true, and_true, true_and]
            rintro rfl
            exact (hFr _ hx).2 ⟨Nat.le_refl _, by omega⟩
          · cases j1 with
            | car h => rw [hkd] at h; simp at h
            | cdr h => rw [hkd] at h; simp at h
            | fwd h => rw [hkd] at h; simp at h
            | @arg b f' n' i h h' h'' =>
              rw [hkd] at h; simp only [Cell.stc.injEq] at h; subst h
              rw [hkp] at h'; simp only [Cell.fn.injEq] at h'
              exact (h3 i (by omega)).2.2 z j2
    · right
      refine ⟨s', h1, ⟨K, k1, ?_, k3⟩, k4⟩
      rw [hvs]
      exact k2

end Gp.CopyTerm
