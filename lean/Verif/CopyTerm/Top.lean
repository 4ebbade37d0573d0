import Verif.CopyTerm.Contig
/-
`Pl_Copy_Term`, `Pl_Term_Size`: lemmas for the theorems of Props.
-/
namespace Gp.CopyTerm
open Gp.Heap
open Gp.Unify (set_same set_other deref_ref deref_nonref)

/-! Terms -/

theorem vars_rename (φ : Adr → Adr) (t : CT) : (t.rename φ).vars = t.vars.map φ := by
  induction t using CT.rename.induct with
  | case1 | case2 | case3 | case4 | case5 => simp [CT.rename, CT.vars]
  | case6 x y ih1 ih2 => simp only [CT.rename, CT.vars, List.map_append, ih1, ih2]
  | case7 f l ih =>
    simp only [CT.rename, CT.vars, List.flatMap_map, List.map_flatMap]
    rw [List.flatMap_def, List.flatMap_def]
    congr 1
    apply List.map_congr_left
    intro t ht
    exact ih t ht

theorem rename_rename (φ ψ : Adr → Adr) (t : CT) : (t.rename φ).rename ψ = t.rename (ψ ∘ φ) := by
  induction t using CT.rename.induct with
  | case1 | case2 | case3 | case4 | case5 => simp [CT.rename]
  | case6 x y ih1 ih2 => simp only [CT.rename, ih1, ih2]
  | case7 f l ih =>
    simp only [CT.rename, List.map_map]
    congr 1
    apply List.map_congr_left
    intro t ht
    exact ih t ht

theorem size_rename (vs : Nat) (φ : Adr → Adr) (t : CT) : (t.rename φ).size vs = t.size vs := by
  induction t using CT.rename.induct with
  | case1 | case2 | case3 | case4 | case5 => simp [CT.rename, CT.size]
  | case6 x y ih1 ih2 => simp only [CT.rename, CT.size, ih1, ih2]
  | case7 f l ih =>
    simp only [CT.rename, CT.size, List.map_map]
    congr 2
    apply List.map_congr_left
    intro t ht
    exact ih t ht

theorem Rd.vars_ok {vs : Nat} {ok : Adr → Prop} {m : Mem} {w : Cell} {t : CT} (h : Rd vs ok m w t) :
    ∀ a ∈ t.vars, ok a ∧ (m a = .ref a ∨ ∃ d, FdAt vs ok m a d) := by
  induction h with
  | var h1 h2 => intro a ha; simp only [CT.vars, List.mem_singleton] at ha; subst ha; exact ⟨h1, .inl h2⟩
  | bound _ _ _ _ ih => exact ih
  | fd h => intro a ha; simp only [CT.vars, List.mem_singleton] at ha; subst ha; exact ⟨h.oks.1, .inr ⟨_, h⟩⟩
  | atm | int | flt => intro a ha; simp [CT.vars] at ha
  | lst _ _ _ _ _ _ ih1 ih2 =>
    intro a ha
    simp only [CT.vars, List.mem_append] at ha
    rcases ha with ha | ha
    · exact ih1 a ha
    · exact ih2 a ha
  | stc _ _ _ _ _ _ ih =>
    intro a ha
    simp only [CT.vars, List.flatMap_map, List.mem_flatMap, List.mem_range] at ha
    obtain ⟨i, hi, ha⟩ := ha
    exact ih i hi a ha

/-- The variable to which a cell of the term refers is a variable of the term. -/
theorem Rd.var_mem {vs : Nat} {ok : Adr → Prop} {m : Mem} {w : Cell} {t : CT} (h : Rd vs ok m w t) (y z : Adr)
    (hy : m y = w) (htc : TC m y z) (a : Adr)
    (ha : m z = .fdv a ∨ m z = .ref a ∧ (m a = .ref a ∨ m a = .fdv a)) : a ∈ t.vars := by
  induction h generalizing y z with
  | @var b h1 h2 =>
    have key : ∀ z, m z = .ref b → (m z = .fdv a ∨ m z = .ref a ∧ (m a = .ref a ∨ m a = .fdv a)) → a = b := by
      intro z hz ha
      rw [hz] at ha
      rcases ha with ha | ⟨ha, _⟩
      · simp at ha
      · simpa using ha.symm
    simp only [CT.vars, List.mem_singleton]
    rcases htc.inv with rfl | ⟨y', k1, k2⟩
    · exact key z hy ha
    · cases k1 with
      | car h => rw [hy] at h; simp at h
      | cdr h => rw [hy] at h; simp at h
      | arg h => rw [hy] at h; simp at h
      | fwd h h' =>
        rw [hy] at h; simp only [Cell.ref.injEq] at h; subst h
        have : z = b := k2.leaf (by rw [h2]; simp) (by rw [h2]; simp) (by rw [h2]; simp)
        subst this
        exact key z h2 ha
  | @bound b t h1 h2 h3 h4 ih =>
    rcases htc.inv with rfl | ⟨y', k1, k2⟩
    · rw [hy] at ha
      rcases ha with ha | ⟨ha, hv⟩
      · simp at ha
      · simp only [Cell.ref.injEq] at ha
        subst ha
        rcases hv with hv | hv
        · exact absurd hv h2
        · exact ih b b rfl .self (.inl hv)
    · cases k1 with
      | car h => rw [hy] at h; simp at h
      | cdr h => rw [hy] at h; simp at h
      | arg h => rw [hy] at h; simp at h
      | fwd h h' =>
        rw [hy] at h; simp only [Cell.ref.injEq] at h; subst h
        exact ih b z rfl k2 ha
  | @fd b d h =>
    have : z = y := htc.leaf (by rw [hy]; simp) (by rw [hy]; simp) (by rw [hy]; simp)
    subst this
    rw [hy] at ha
    simp only [CT.vars, List.mem_singleton]
    rcases ha with ha | ⟨ha, _⟩
    · simpa using ha.symm
    · simp at ha
  | atm | int | flt =>
    have : z = y := htc.leaf (by rw [hy]; simp) (by rw [hy]; simp) (by rw [hy]; simp)
    subst this
    rw [hy] at ha
    simp at ha
  | @lst b t1 t2 _ _ _ _ _ _ ih1 ih2 =>
    simp only [CT.vars, List.mem_append]
    rcases htc.inv with rfl | ⟨y', k1, k2⟩
    · rw [hy] at ha; simp at ha
    · cases k1 with
      | car h =>
        rw [hy] at h; simp only [Cell.lst.injEq] at h; subst h
        exact .inl (ih1 _ z rfl k2 ha)
      | cdr h =>
        rw [hy] at h; simp only [Cell.lst.injEq] at h; subst h
        exact .inr (ih2 _ z rfl k2 ha)
      | arg h => rw [hy] at h; simp at h
      | fwd h => rw [hy] at h; simp at h
  | @stc b f n g _ hf _ _ _ _ ih =>
    simp only [CT.vars, List.flatMap_map, List.mem_flatMap, List.mem_range]
    rcases htc.inv with rfl | ⟨y', k1, k2⟩
    · rw [hy] at ha; simp at ha
    · cases k1 with
      | car h => rw [hy] at h; simp at h
      | cdr h => rw [hy] at h; simp at h
      | fwd h => rw [hy] at h; simp at h
      | @arg b' f' n' i h h' h'' =>
        rw [hy] at h; simp only [Cell.stc.injEq] at h; subst h
        rw [hf] at h'; simp only [Cell.fn.injEq] at h'
        exact ⟨i, by omega, ih i (by omega) _ z rfl k2 ha⟩

theorem nodup_len {K l : List Adr} (hK : K.Nodup) (h : ∀ a ∈ K, a ∈ l) : K.length ≤ l.length := by
  induction K generalizing l with
  | nil => simp
  | cons a K ih =>
    simp only [List.nodup_cons] at hK
    have ha := h a (by simp)
    have := ih (l := l.erase a) hK.2 (by
      intro b hb
      rw [List.mem_erase_of_ne (by rintro rfl; exact hK.1 hb)]
      exact h b (by simp [hb]))
    rw [List.length_erase_of_mem ha] at this
    have : 0 < l.length := List.length_pos_of_mem ha
    simp only [List.length_cons]; omega

/-! Pl_Copy_Term -/

theorem restore_spec (m0 : Mem) (vars : List (Adr × Cell)) (m : Mem) (hv : ∀ a w, (a, w) ∈ vars → w = m0 a) (x : Adr) :
    (x ∈ vars.map (·.1) → restore m vars x = m0 x) ∧ (x ∉ vars.map (·.1) → restore m vars x = m x) := by
  induction vars generalizing m with
  | nil => simp [restore]
  | cons p l ih =>
    obtain ⟨a, w⟩ := p
    obtain ⟨h1, h2⟩ := ih (m.set a w) (fun a w h => hv a w (by simp [h]))
    simp only [restore, List.map_cons, List.mem_cons, not_or]
    constructor
    · intro h
      by_cases hx : x ∈ l.map (·.1)
      · exact h1 hx
      · rw [h2 hx]
        rcases h with rfl | h
        · rw [set_same]; exact hv _ _ (by simp)
        · exact absurd h hx
    · rintro ⟨h, h'⟩
      rw [h2 h', set_other _ _ _ _ h]

theorem init_inv (c : Cfg) (dst L : Adr) (m : Mem) (h : dst + 1 ≤ L) :
    Inv c dst L m { mem := m, p := dst + 1, vars := [] } (fun _ => False) where
  out := fun _ _ _ => rfl
  key := by intro a w h; simp at h
  nodup := by simp [CS.keys]
  inj := by intro a h; simp [CS.keys] at h
  dom := fun _ h => h.elim
  fr := by rintro x ⟨a, h, _⟩; simp [CS.keys] at h
  imgs := by intro a h; simp [CS.keys] at h
  le := h
  cap := by simp

/-- The result of the copy before and after the restoration. -/
structure CopyRes (c : Cfg) (m : Mem) (dst L : Adr) (t : CT) (s1 s : CS) : Prop where
  inv : Inv c dst L m s1 (Seg dst s1.p)
  keys : ∀ a, a ∈ s1.keys ↔ a ∈ t.vars
  p : s.p = s1.p
  le : s.p ≤ dst + t.size c.vs
  eq : t.NoFd → s.p = dst + t.size c.vs
  pos : dst < s.p
  out : ∀ x, Out' dst L x → s.mem x = m x
  seg : ∀ x, Seg dst L x → s.mem x = s1.mem x
  rd : Rd c.vs (Seg dst s.p) s.mem (s.mem dst) (t.rename (img s1.mem))
  own : OwnFd s.mem dst
  home : ∀ a ∈ t.vars, TC s.mem dst (img s1.mem a)
  clean : Clean s.mem (Fr c.vs m s1) dst

theorem copyTerm_res {c : Cfg} {n : Nat} {m : Mem} {dst src : Adr} {t : CT}
    (h : Rd c.vs (Out' dst (dst + t.size c.vs)) m (m src) t) (hs : Out' dst (dst + t.size c.vs) src)
    (hn : t.size c.vs ≤ n) :
    (∃ s1 s, copyTerm c n m dst src = .ok s ∧ CopyRes c m dst (dst + t.size c.vs) t s1 s) ∨
    (∃ s, copyTerm c n m dst src = .err s ∧
      TooMany c dst (dst + t.size c.vs) m { mem := m, p := dst + 1, vars := [] } t.vars s) := by
  have hpos := size_pos c.vs t
  have := copyRec_spec h n { mem := m, p := dst + 1, vars := [] } (fun _ => False) dst src hn
    (init_inv c dst _ m (by omega)) rfl hs (.inr rfl) ⟨Nat.le_refl _, by simp⟩ (fun h => h) (by simp only; omega)
  rcases this with ⟨s1, D, h1, h2, h3, h4, h5, h6⟩ | ⟨s1, h1, h2⟩
  · left
    have hD : D = Seg dst s1.p := by
      funext x
      have := h2.hD x
      have hle := h2.le
      simp only [false_or] at this hle
      rw [eq_iff_iff, this]
      simp only [Seg]; omega
    subst hD
    have hinv := h2.inv
    have hle := hinv.le
    have hp := h2.le
    simp only at hp
    have hr := fun x => restore_spec m s1.vars s1.mem (fun a w h => (hinv.key a w h).1) x
    have hseg : ∀ x, Seg dst (dst + t.size c.vs) x → restore s1.mem s1.vars x = s1.mem x := by
      intro x hx
      refine (hr x).2 (fun hk => ?_)
      exact (hinv.key' hk).1 hx
    have hseg' : ∀ x, Seg dst s1.p x → restore s1.mem s1.vars x = s1.mem x :=
      fun x hx => hseg x ⟨hx.1, by have := hx.2; omega⟩
    have hd : Seg dst s1.p dst := ⟨Nat.le_refl _, by omega⟩
    refine ⟨s1, { s1 with mem := restore s1.mem s1.vars }, by rw [copyTerm, h1], hinv, ?_, rfl, ?_, ?_, ?_, ?_, hseg, ?_, ?_, ?_, ?_⟩
    · intro a
      rw [h2.keys]
      simp [CS.keys]
    · have := h2.size; simp only at this ⊢; omega
    · intro hf
      have := h2.sizeEq hf
      simp only at this ⊢; omega
    · simp only; omega
    · intro x hx
      by_cases hk : x ∈ s1.keys
      · exact (hr x).1 hk
      · simp only
        rw [(hr x).2 hk]; exact hinv.out x hx hk
    · simp only
      rw [hseg' dst hd]
      exact h3.mono (fun _ h => h) hseg'
    · exact h4.congr (hseg' dst hd)
    · intro a ha
      rcases h5 a ha with h | ⟨y, hy, h'⟩
      · simp [CS.keys] at h
      · rw [hy] at h'
        exact h'.mono h3 hd hseg'
    · exact h6.mono h3 hd hseg' (fun _ _ h => h)
  · right
    exact ⟨s1, by rw [copyTerm, h1], h2⟩

theorem img_of {m : Mem} {a d : Adr} (h : m a = .ref d) : img m a = d := by simp only [img]; rw [h]

theorem CopyRes.inj {c : Cfg} {m : Mem} {dst L : Adr} {t : CT} {s1 s : CS} (R : CopyRes c m dst L t s1 s) :
    ∀ a ∈ t.vars, ∀ b ∈ t.vars, img s1.mem a = img s1.mem b → a = b := by
  intro a ha b hb h
  have ka := (R.keys a).mpr ha
  have kb := (R.keys b).mpr hb
  obtain ⟨_, d, h1, _⟩ := R.inv.key' ka
  obtain ⟨_, e, h2, _⟩ := R.inv.key' kb
  rw [img_of h1, img_of h2] at h
  subst h
  exact R.inv.inj a ka b kb d h1 h2

/-- The copy is a contiguous term. -/
theorem CopyRes.contig {c : Cfg} {m : Mem} {dst L : Adr} {t : CT} {s1 s : CS} (R : CopyRes c m dst L t s1 s) :
    Contig c.vs s.mem dst s.p (t.rename (img s1.mem)) := by
  have hd : Seg dst s.p dst := ⟨Nat.le_refl _, R.pos⟩
  have hle := R.inv.le
  have hpe := R.p
  have hsame : ∀ x, Seg dst s.p x → s.mem x = s1.mem x :=
    fun x hx => R.seg x ⟨hx.1, by have := hx.2; omega⟩
  -- a variable of the copy
  have hvar : ∀ b, b ∈ (t.rename (img s1.mem)).vars → ∃ a ∈ t.vars, s1.mem a = .ref b := by
    intro b hb
    rw [vars_rename, List.mem_map] at hb
    obtain ⟨a, ha, hab⟩ := hb
    obtain ⟨_, d, h1, _⟩ := R.inv.key' ((R.keys a).mpr ha)
    rw [img_of h1] at hab
    subst hab
    exact ⟨a, ha, h1⟩
  have hframe : ∀ y, TC s.mem dst y → ∀ d, FdAt c.vs (Seg dst s.p) s.mem y d → ∀ x, y < x → x < y + d.len c.vs →
      Fr c.vs m s1 x := by
    intro y hy d hfd x h1 h2
    have hmem := R.rd.var_mem dst y rfl hy y (.inl hfd.tag)
    obtain ⟨a, ha, hab⟩ := hvar y hmem
    have ka := (R.keys a).mpr ha
    obtain ⟨_, e, k1, k2, k3⟩ := R.inv.key' ka
    rw [hab] at k1
    simp only [Cell.ref.injEq] at k1
    subst k1
    rcases k3 with ⟨_, k3⟩ | ⟨_, ⟨dom, k4, k5⟩, _⟩
    · rw [← hsame y (by rw [hpe]; exact k2), hfd.tag] at k3; simp at k3
    · have : d = dom := by
        refine hfd.unique (k5.mono (fun _ h => h) (fun x hx => ?_))
        exact hsame x (by rw [hpe]; exact hx)
      subst this
      exact ⟨a, ka, y, d, hab, k4.mono (fun _ _ => trivial) (fun _ _ => rfl), h1, h2⟩
  refine ⟨R.pos, R.rd, ?_, ?_, ?_⟩
  · intro y a hy hya
    have hv := (R.clean y hy).2.2 a hya
    refine ⟨?_, hv⟩
    have hmem := R.rd.var_mem dst y rfl hy a (.inr ⟨hya, hv⟩)
    rw [vars_rename, List.mem_map] at hmem
    obtain ⟨b, hb, rfl⟩ := hmem
    exact R.home b hb
  · intro y a hy hya
    have hown : a = y := by
      -- FDV words are only at their own address
      rcases hy.inv with rfl | _
      · exact R.own a hya
      · have hmem := R.rd.var_mem dst y rfl hy a (.inl hya)
        obtain ⟨hz, t', ht'⟩ := hy.rd R.rd hd
        have key : ∀ y z, TC s.mem y z → OwnFd s.mem y → (∃ t, Rd c.vs (Seg dst s.p) s.mem (s.mem y) t) → OwnFd s.mem z := by
          intro y z h
          induction h with
          | self => intro h _; exact h
          | step hs _ ih =>
            rintro _ ⟨t, ht⟩
            obtain ⟨k1, t2, k2⟩ := ht.sub rfl hs
            refine ih ?_ ⟨t2, k2⟩
            cases hs with
            | car h => rw [h] at ht; cases ht with | lst _ _ j3 j4 => exact j3
            | cdr h => rw [h] at ht; cases ht with | lst _ _ j3 j4 => exact j4
            | arg h h' h'' =>
              rw [h] at ht
              cases ht with
              | stc j1 j2 j3 j4 j5 =>
                rw [h'] at j2; simp only [Cell.fn.injEq] at j2
                exact j5 _ (by omega)
            | fwd h h' =>
              rw [h] at ht
              cases ht with
              | var j1 j2 => intro b hb; rw [j2] at hb; simp at hb
              | bound j1 j2 j3 => exact j3
        exact key dst y hy R.own ⟨_, R.rd⟩ a hya
    subst hown
    refine ⟨rfl, ?_⟩
    intro d hfd
    have hf := hframe a hy d hfd (a + (d.len c.vs - 1)) (by simp only [Dom.len]; omega) (by simp only [Dom.len]; omega)
    have := (R.inv.fr _ hf).2
    simp only [Dom.len] at *; omega
  · intro y d hy hfd x h1 h2
    have hf := hframe y hy d hfd x h1 h2
    refine ⟨fun h => (R.clean x h).1 hf, fun z hz => (R.clean z hz).2.1 x hf⟩

/-! Pl_Term_Size -/

theorem sizeArgs_spec (rec : Cell → Option Nat) (m : Mem) (k : Nat) (hk : 0 < k) (a : Adr) (f : Nat → Nat)
    (h : ∀ i, i < k → rec (m (a + i)) = some (f i)) : sizeArgs rec m k a = some ((List.range k).map f).sum := by
  induction k generalizing a f with
  | zero => omega
  | succ k ih =>
    by_cases hk0 : k = 0
    · subst hk0
      simp only [sizeArgs]
      rw [show m a = m (a + 0) from rfl, h 0 (by omega)]
      simp [List.range_succ]
    · obtain ⟨k', rfl⟩ : ∃ k', k = k' + 1 := ⟨k - 1, by omega⟩
      simp only [sizeArgs]
      rw [show m a = m (a + 0) from rfl, h 0 (by omega),
        ih (by omega) (a + 1) (fun i => f (i + 1)) (fun i hi => by
          rw [show a + 1 + i = a + (i + 1) by omega]; exact h (i + 1) (by omega))]
      simp only
      rw [sum_range_succ' f (k' + 1)]

theorem fdSize_eq {c : Cfg} {ok : Adr → Prop} {m : Mem} {a : Adr} {d : Dom} (h : FdAt c.vs ok m a d) :
    fdSize c m a = d.len c.vs := by
  have hv := h.vec
  simp only [fdSize, Dom.len, Dom.vecWords]
  cases hd : d.vec with
  | none =>
    rw [hd] at hv
    simp only at hv
    rw [if_pos hv]; rfl
  | some l =>
    rw [hd] at hv
    obtain ⟨v, h1, _⟩ := hv
    rw [if_neg (by rw [h1]; simp)]

theorem termSize_spec {c : Cfg} {ok : Adr → Prop} {m : Mem} {w : Cell} {t : CT} (h : Rd c.vs ok m w t) :
    ∀ n, t.size c.vs ≤ n → termSize c m n w = some (t.size c.vs) := by
  have hlst : ∀ {a : Adr} {t1 t2 : CT} (n : Nat), termSize c m n (m a) = some (t1.size c.vs) →
      termSize c m n (m (a + 1)) = some (t2.size c.vs) →
      termSize c m (n + 1) (.lst a) = some (1 + t1.size c.vs + t2.size c.vs) := by
    intro a t1 t2 n h1 h2
    rw [termSize, deref_nonref (by simp)]
    simp only
    rw [h1, h2]
  induction h with
  | @var a _ h =>
    intro n hn
    simp only [CT.size] at hn ⊢
    obtain ⟨n, rfl⟩ : ∃ k, n = k + 1 := ⟨n - 1, by omega⟩
    rw [termSize, deref_ref, if_pos h]
  | @bound a t _ h _ hr ih =>
    intro n hn
    have := ih n hn
    have hp := size_pos c.vs t
    obtain ⟨n, rfl⟩ : ∃ k, n = k + 1 := ⟨n - 1, by omega⟩
    rw [termSize] at this ⊢
    rw [deref_ref, if_neg h]
    exact this
  | @fd a d h =>
    intro n hn
    have hp := size_pos c.vs (CT.fd a d)
    obtain ⟨n, rfl⟩ : ∃ k, n = k + 1 := ⟨n - 1, by omega⟩
    rw [termSize, deref_nonref (by simp)]
    simp only
    rw [fdSize_eq h]
    simp only [CT.size, Dom.len, Option.some.injEq]; omega
  | atm | int =>
    intro n hn
    simp only [CT.size] at hn ⊢
    obtain ⟨n, rfl⟩ : ∃ k, n = k + 1 := ⟨n - 1, by omega⟩
    rw [termSize, deref_nonref (by simp)]
  | flt =>
    intro n hn
    simp only [CT.size] at hn ⊢
    obtain ⟨n, rfl⟩ : ∃ k, n = k + 1 := ⟨n - 1, by omega⟩
    rw [termSize, deref_nonref (by simp)]
  | @lst a t1 t2 _ _ _ _ _ _ ih1 ih2 =>
    intro n hn
    simp only [CT.size] at hn ⊢
    obtain ⟨n, rfl⟩ : ∃ k, n = k + 1 := ⟨n - 1, by omega⟩
    exact hlst n (ih1 n (by omega)) (ih2 n (by omega))
  | @stc a f k g _ hf hk _ _ _ ih =>
    intro n hn
    have hsz : (CT.app f ((List.range k).map g)).size c.vs = 2 + ((List.range k).map fun i => (g i).size c.vs).sum := by
      simp only [CT.size, List.map_map, Function.comp_def]
    rw [hsz] at hn ⊢
    obtain ⟨n, rfl⟩ : ∃ k, n = k + 1 := ⟨n - 1, by omega⟩
    rw [termSize, deref_nonref (by simp)]
    simp only
    rw [hf]
    simp only
    rw [sizeArgs_spec _ m k hk (a + 1) (fun i => (g i).size c.vs)]
    · rfl
    · intro i hi
      have := le_sum (fun i => (g i).size c.vs) k i hi
      exact ih i hi n (by omega)

end Gp.CopyTerm
