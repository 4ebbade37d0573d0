import Verif.CopyTerm.Copy
/-
Proof of `Pl_Copy_Contiguous_Term`.
-/
namespace Gp.CopyTerm
open Gp.Heap
open Gp.Unify (set_same set_other)

/-- The new address of a cell. -/
def sA (src dst a : Adr) : Adr := dst + a - src

/-- The relocated word. -/
def shC (src dst : Adr) : Cell → Cell
  | .ref a => .ref (sA src dst a)
  | .lst a => .lst (sA src dst a)
  | .stc a => .stc (sA src dst a)
  | .flt a => .flt (sA src dst a)
  | w => w

section
variable {vs : Nat} {m : Mem} {src hi dst : Adr} {t0 : CT}

/-- The address belongs to the copy of the frame of a FD variable. -/
def InFrame (vs : Nat) (m : Mem) (src hi dst x : Adr) : Prop :=
  ∃ z d, TC m src z ∧ FdAt vs (Seg src hi) m z d ∧ Seg (sA src dst z) (sA src dst z + d.len vs) x

/-- The changes made by the copy. -/
structure Ch (vs : Nat) (m : Mem) (src hi dst : Adr) (M M' : Mem) : Prop where
  out : ∀ x, ¬ InFrame vs m src hi dst x → M' x = M x ∨ ∃ z, Seg src hi z ∧ x = sA src dst z ∧ M' x = shC src dst (m z)
  frame : ∀ z d, TC m src z → FdAt vs (Seg src hi) m z d →
    (∀ x, Seg (sA src dst z) (sA src dst z + d.len vs) x → M' x = M x) ∨
    FdAt vs (Seg (sA src dst z) (sA src dst z + d.len vs)) M' (sA src dst z) d
  ext : ∀ x, ¬ Seg dst (dst + (hi - src)) x → M' x = M x

/-- The cell `z` has been copied. -/
structure Done (vs : Nat) (m : Mem) (src hi dst : Adr) (M : Mem) (z : Adr) : Prop where
  cell : (∀ a, m z ≠ .fdv a) → M (sA src dst z) = shC src dst (m z)
  stc : ∀ a, m z = .stc a → M (sA src dst a) = m a
  flt : ∀ a, m z = .flt a → M (sA src dst a) = m a
  fd : ∀ d, FdAt vs (Seg src hi) m z d → FdAt vs (Seg (sA src dst z) (sA src dst z + d.len vs)) M (sA src dst z) d

theorem Ch.refl (M : Mem) : Ch vs m src hi dst M M :=
  ⟨fun _ _ => .inl rfl, fun _ _ _ _ => .inl fun _ _ => rfl, fun _ _ => rfl⟩

theorem Ch.trans {M1 M2 M3 : Mem} (h1 : Ch vs m src hi dst M1 M2) (h2 : Ch vs m src hi dst M2 M3) :
    Ch vs m src hi dst M1 M3 where
  out := by
    intro x hx
    rcases h2.out x hx with h | h
    · rcases h1.out x hx with h' | ⟨z, k1, k2, k3⟩
      · exact .inl (h.trans h')
      · exact .inr ⟨z, k1, k2, h.trans k3⟩
    · exact .inr h
  frame := by
    intro z d hz hd
    rcases h2.frame z d hz hd with h | h
    · rcases h1.frame z d hz hd with h' | h'
      · exact .inl fun x hx => (h x hx).trans (h' x hx)
      · exact .inr (h'.mono (fun _ h => h) h)
    · exact .inr h
  ext := fun x hx => (h2.ext x hx).trans (h1.ext x hx)

theorem sA_inj {a b : Adr} (ha : src ≤ a) (hb : src ≤ b) (h : sA src dst a = sA src dst b) : a = b := by
  simp only [sA] at h; omega

/-- A cell not in a frame keeps its copied value. -/
theorem Ch.keep {M M' : Mem} (h : Ch vs m src hi dst M M') {z : Adr} (hz : Seg src hi z)
    (hf : ¬ InFrame vs m src hi dst (sA src dst z)) (hv : M (sA src dst z) = shC src dst (m z)) :
    M' (sA src dst z) = shC src dst (m z) := by
  rcases h.out _ hf with h | ⟨z', k1, k2, k3⟩
  · rw [h, hv]
  · have := sA_inj hz.1 k1.1 k2
    subst this
    exact k3

variable (C : Contig vs m src hi t0)
include C

theorem Contig.cells {z : Adr} (h : TC m src z) : Seg src hi z ∧ ∃ t, Rd vs (Seg src hi) m (m z) t :=
  h.rd C.rd ⟨Nat.le_refl _, C.lt⟩

theorem Contig.notFrame {z : Adr} (hz : Seg src hi z)
    (h : (TC m src z ∧ ∀ a, m z ≠ .fdv a) ∨ (∃ y, TC m src y ∧ (m y = .stc z ∨ m y = .flt z)) ∧ ∀ a, m z ≠ .fdv a) :
    ¬ InFrame vs m src hi dst (sA src dst z) := by
  rintro ⟨y, d, h1, h2, h3⟩
  have hy := (C.cells h1).1
  have hlt : y < z := by
    have := h3.1
    have hne : y ≠ z := by
      rintro rfl
      rcases h with ⟨_, h⟩ | ⟨_, h⟩ <;> exact h _ h2.tag
    have := hy.1; have := hz.1
    simp only [sA] at *; omega
  have hlt' : z < y + d.len vs := by
    have := h3.2
    have := hy.1; have := hz.1
    simp only [sA] at *; omega
  obtain ⟨d1, d2⟩ := C.disj y d h1 h2 z hlt hlt'
  rcases h with ⟨h, _⟩ | ⟨⟨w, hw, h⟩, _⟩
  · exact d1 h
  · rcases h with h | h
    · exact (d2 w hw).1 h
    · exact (d2 w hw).2 h

theorem Done.keep {M M' : Mem} {z : Adr} (hz : TC m src z) (h : Done vs m src hi dst M z) (hc : Ch vs m src hi dst M M') :
    Done vs m src hi dst M' z where
  cell := by
    intro hn
    exact hc.keep (C.cells hz).1 (C.notFrame (C.cells hz).1 (.inl ⟨hz, hn⟩)) (h.cell hn)
  stc := by
    intro a ha
    obtain ⟨t, ht⟩ := (C.cells hz).2
    rw [ha] at ht
    cases ht with
    | stc k1 k2 =>
      have e : shC src dst (m a) = m a := by rw [k2]; rfl
      rw [← e]
      refine hc.keep k1 (C.notFrame k1 (.inr ⟨⟨z, hz, .inl ha⟩, ?_⟩)) ?_
      · rw [k2]; simp
      · rw [e]; exact h.stc a ha
  flt := by
    intro a ha
    obtain ⟨t, ht⟩ := (C.cells hz).2
    rw [ha] at ht
    cases ht with
    | flt k1 k2 =>
      have e : shC src dst (m a) = m a := by rw [k2]; rfl
      rw [← e]
      refine hc.keep k1 (C.notFrame k1 (.inr ⟨⟨z, hz, .inr ha⟩, ?_⟩)) ?_
      · rw [k2]; simp
      · rw [e]; exact h.flt a ha
  fd := by
    intro d hd
    rcases hc.frame z d hz hd with h' | h'
    · exact (h.fd d hd).mono (fun _ h => h) h'
    · exact h'

/-- Copy of one word. -/
theorem Contig.set {M : Mem} {z : Adr} (hz : Seg src hi z) (hf : ¬ InFrame vs m src hi dst (sA src dst z)) :
    Ch vs m src hi dst M (M.set (sA src dst z) (shC src dst (m z))) where
  out := by
    intro x hx
    by_cases h : x = sA src dst z
    · subst h; exact .inr ⟨z, hz, rfl, set_same _ _ _⟩
    · exact .inl (set_other _ _ _ _ h)
  frame := by
    intro y d hy hd
    left
    intro x hx
    exact set_other _ _ _ _ (by rintro rfl; exact hf ⟨y, d, hy, hd, hx⟩)
  ext := by
    intro x hx
    refine set_other _ _ _ _ ?_
    rintro rfl
    apply hx
    have := hz.1; have := hz.2
    simp only [Seg, sA]; omega

theorem Contig.frames {y z : Adr} {d e : Dom} (hy : TC m src y) (hz : TC m src z) (hd : FdAt vs (Seg src hi) m y d)
    (he : FdAt vs (Seg src hi) m z e) (hne : y ≠ z) {x : Adr} (hx : Seg (sA src dst y) (sA src dst y + d.len vs) x) :
    ¬ Seg (sA src dst z) (sA src dst z + e.len vs) x := by
  intro hx'
  have h1 := (C.cells hy).1.1
  have h2 := (C.cells hz).1.1
  have k1 : ¬ (y < z ∧ z < y + d.len vs) := fun h => (C.disj y d hy hd z h.1 h.2).1 hz
  have k2 : ¬ (z < y ∧ y < z + e.len vs) := fun h => (C.disj z e hz he y h.1 h.2).1 hy
  simp only [Seg, sA] at hx hx'
  omega

/-- Agreement with the source. -/
theorem Ch.agree {M M' : Mem} (h : Ch vs m src hi dst M M') (hdis : dst + (hi - src) ≤ src ∨ hi ≤ dst)
    (hM : ∀ x, Seg src hi x → M x = m x) : ∀ x, Seg src hi x → M' x = m x := by
  intro x hx
  rw [h.ext x (by have := hx.1; have := hx.2; simp only [Seg]; omega), hM x hx]

end

theorem TC.snoc {m : Mem} {x y z : Adr} (h : TC m x y) (hs : Sub m y z) : TC m x z := h.trans (.step hs .self)

theorem contigArgs_spec {vs : Nat} {m : Mem} {src hi dst : Adr} {t0 : CT} (C : Contig vs m src hi t0)
    (hdis : dst + (hi - src) ≤ src ∨ hi ≤ dst) (rec : Mem → Adr → Adr → Option Mem) (k : Nat) (hk : 0 < k) (M : Mem) (a : Adr)
    (ha : ∀ i, i < k → TC m src (a + i)) (hM : ∀ x, Seg src hi x → M x = m x)
    (hrec : ∀ i, i < k → ∀ M, (∀ x, Seg src hi x → M x = m x) →
      ∃ M', rec M (sA src dst (a + i)) (a + i) = some M' ∧ Ch vs m src hi dst M M' ∧
        ∀ z, TC m (a + i) z → Done vs m src hi dst M' z) :
    ∃ M', contigArgs rec k M (sA src dst a) a = some M' ∧ Ch vs m src hi dst M M' ∧
      ∀ i, i < k → ∀ z, TC m (a + i) z → Done vs m src hi dst M' z := by
  induction k generalizing M a with
  | zero => omega
  | succ k ih =>
    obtain ⟨M1, h1, h2, h3⟩ := hrec 0 (by omega) M hM
    simp only [Nat.add_zero] at h1 h3
    by_cases hk0 : k = 0
    · subst hk0
      refine ⟨M1, by simp only [contigArgs]; exact h1, h2, ?_⟩
      intro i hi z hz
      have : i = 0 := by omega
      subst this
      exact h3 z hz
    · obtain ⟨k', rfl⟩ : ∃ k', k = k' + 1 := ⟨k - 1, by omega⟩
      have hs := (C.cells (ha 0 (by omega))).1.1
      have e : sA src dst a + 1 = sA src dst (a + 1) := by simp only [sA]; omega
      obtain ⟨M2, m1, m2, m3⟩ := ih (by omega) M1 (a + 1)
        (fun i hi => by rw [show a + 1 + i = a + (i + 1) by omega]; exact ha _ (by omega)) (h2.agree C hdis hM)
        (fun i hi => by rw [show a + 1 + i = a + (i + 1) by omega]; exact hrec _ (by omega))
      refine ⟨M2, ?_, h2.trans m2, ?_⟩
      · simp only [contigArgs]; rw [h1]; simp only; rw [e]; exact m1
      · intro i hi z hz
        cases i with
        | zero => exact Done.keep C ((ha 0 (by omega)).trans hz) (h3 z hz) m2
        | succ i => exact m3 i (by omega) z (by rw [show a + 1 + i = a + (i + 1) by omega]; exact hz)

/-- `Pl_Copy_Contiguous_Term`. -/
theorem contig_spec {c : Cfg} {m : Mem} {src hi dst : Adr} {t0 : CT} (C : Contig c.vs m src hi t0)
    (hdis : dst + (hi - src) ≤ src ∨ hi ≤ dst) {w : Cell} {t : CT} (h : Rd c.vs (Seg src hi) m w t) :
    ∀ (n : Nat) (y : Adr) (M : Mem), t.size c.vs + 1 ≤ n → m y = w → TC m src y → (∀ x, Seg src hi x → M x = m x) →
      ∃ M', contig c n M (sA src dst y) y = some M' ∧ Ch c.vs m src hi dst M M' ∧
        ∀ z, TC m y z → Done c.vs m src hi dst M' z := by
  -- a FD variable
  have hfdv : ∀ (n : Nat) (y : Adr) (M : Mem) (a : Adr) (d : Dom), m y = .fdv a → FdAt c.vs (Seg src hi) m a d →
      TC m src y → (∀ x, Seg src hi x → M x = m x) →
      ∃ M', contig c (n + 1) M (sA src dst y) y = some M' ∧ Ch c.vs m src hi dst M M' ∧
        ∀ z, TC m y z → Done c.vs m src hi dst M' z := by
    intro n y M a d hy hfd hty hM
    obtain ⟨rfl, hlen⟩ := C.fd y a hty hy
    have hlen := hlen d hfd
    have hys := (C.cells hty).1
    have hsz : (CT.fd a d).size c.vs - 1 = d.len c.vs := by simp only [CT.size, Dom.len]; omega
    have hsp := size_pos c.vs (CT.fd a d)
    have hfd' : FdAt c.vs (Out' (sA src dst a) (dst + (hi - src))) M a d := by
      refine hfd.mono ?_ hM
      intro x hx hx'
      have h1 := hx.1; have h2 := hx.2; have h3 := hx'.1; have h4 := hx'.2; have h5 := hys.1
      simp only [sA] at h3; omega
    obtain ⟨c1, c2, c3, _⟩ := fdCopy_spec hfd' (by rw [Nat.add_sub_assoc hsp, hsz]; have := hys.1; simp only [sA]; omega)
    rw [hsz] at c1
    rw [c1] at c2 c3
    refine ⟨_, by rw [contig, hM a hys, hy], ⟨?_, ?_, ?_⟩, ?_⟩
    · intro x hx
      exact .inl (c2 x (fun h => hx ⟨a, d, hty, hfd, h⟩))
    · intro z e hz he
      by_cases hne : a = z
      · subst hne
        have : d = e := hfd.unique he
        subst this
        exact .inr c3
      · left
        intro x hx
        exact c2 x (C.frames hz hty he hfd (fun h => hne h.symm) hx)
    · intro x hx
      refine c2 x ?_
      intro h
      apply hx
      have h1 := h.1; have h2 := h.2; have h3 := hys.1
      simp only [Seg, sA] at *; omega
    · intro z hz
      obtain rfl := hz.leaf (by rw [hy]; simp) (by rw [hy]; simp) (by rw [hy]; simp)
      exact ⟨fun h => absurd hy (h _), by rw [hy]; simp, by rw [hy]; simp, fun e he => by
        have : d = e := hfd.unique he
        subst this
        exact c3⟩
  -- a cell without FD variable
  have hnf : ∀ y, TC m src y → (∀ a, m y ≠ .fdv a) → Seg src hi y ∧ ¬ InFrame c.vs m src hi dst (sA src dst y) :=
    fun y h1 h2 => ⟨(C.cells h1).1, C.notFrame (C.cells h1).1 (.inl ⟨h1, h2⟩)⟩
  have hrel : ∀ y a, src ≤ y → sA src dst y + a - y = sA src dst a := by
    intro y a h; simp only [sA]; omega
  -- a constant
  have hcst : ∀ (n : Nat) (y : Adr) (M : Mem), TC m src y → (∀ x, Seg src hi x → M x = m x) →
      (∀ a, m y ≠ .fdv a) → (∀ a, m y ≠ .lst a) → (∀ a, m y ≠ .stc a) → (∀ a, m y ≠ .flt a) → (∀ a, m y = .ref a → a ≤ y) →
      contig c (n + 1) M (sA src dst y) y = some (M.set (sA src dst y) (shC src dst (m y))) →
      ∃ M', contig c (n + 1) M (sA src dst y) y = some M' ∧ Ch c.vs m src hi dst M M' ∧
        ∀ z, TC m y z → Done c.vs m src hi dst M' z := by
    intro n y M hty hM h1 h2 h3 h4 h5 hc
    refine ⟨_, hc, C.set (hnf y hty h1).1 (hnf y hty h1).2, ?_⟩
    intro z hz
    obtain rfl := hz.leaf h2 h3 h5
    exact ⟨fun _ => set_same _ _ _, fun a h => absurd h (h3 a), fun a h => absurd h (h4 a),
      fun d h => absurd h.tag (h1 _)⟩
  -- a reference
  have href : ∀ (n : Nat) (y : Adr) (M : Mem) (a : Adr), m y = .ref a → TC m src y → (∀ x, Seg src hi x → M x = m x) →
      (y < a → ∀ M, (∀ x, Seg src hi x → M x = m x) → ∃ M', contig c n M (sA src dst a) a = some M' ∧
        Ch c.vs m src hi dst M M' ∧ ∀ z, TC m a z → Done c.vs m src hi dst M' z) →
      ∃ M', contig c (n + 1) M (sA src dst y) y = some M' ∧ Ch c.vs m src hi dst M M' ∧
        ∀ z, TC m y z → Done c.vs m src hi dst M' z := by
    intro n y M a hy hty hM hrec
    have hys := (C.cells hty).1
    by_cases hlt : y < a
    · have hset := C.set (M := M) hys (C.notFrame hys (dst := dst) (.inl ⟨hty, by rw [hy]; simp⟩))
      obtain ⟨M', h1, h2, h3⟩ := hrec hlt _ (hset.agree C hdis hM)
      refine ⟨M', ?_, hset.trans h2, ?_⟩
      · rw [contig, hM y hys, hy]
        simp only
        rw [if_pos hlt, hrel y a hys.1]
        rw [hy] at h1
        exact h1
      · intro z hz
        rcases hz.inv with rfl | ⟨y', k1, k2⟩
        · refine Done.keep C hty ⟨fun _ => set_same _ _ _, by rw [hy]; simp, by rw [hy]; simp, fun d h => ?_⟩ h2
          have := h.tag; rw [hy] at this; simp at this
        · cases k1 with
          | car h => rw [hy] at h; simp at h
          | cdr h => rw [hy] at h; simp at h
          | arg h => rw [hy] at h; simp at h
          | fwd h h' =>
            rw [hy] at h
            simp only [Cell.ref.injEq] at h
            subst h
            exact h3 z k2
    · refine hcst n y M hty hM (by rw [hy]; simp) (by rw [hy]; simp) (by rw [hy]; simp) (by rw [hy]; simp) ?_ ?_
      · intro b hb
        rw [hy] at hb
        simp only [Cell.ref.injEq] at hb
        omega
      · rw [contig, hM y hys, hy]
        simp only
        rw [if_neg hlt, hrel y a hys.1]
        rfl
  induction h with
  | @var a hoa ha =>
    intro n y M hn hy hty hM
    simp only [CT.size] at hn
    obtain ⟨n, rfl⟩ : ∃ k, n = k + 2 := ⟨n - 2, by omega⟩
    refine href (n + 1) y M a hy hty hM ?_
    intro hlt M' hM'
    refine href n a M' a ha (hty.snoc (.fwd hy hlt)) hM' (fun h => ?_)
    omega
  | @bound a t hoa hne hown hr ih =>
    intro n y M hn hy hty hM
    have hsp := size_pos c.vs t
    obtain ⟨n, rfl⟩ : ∃ k, n = k + 2 := ⟨n - 2, by omega⟩
    refine href (n + 1) y M a hy hty hM ?_
    intro hlt M' hM'
    have hta := hty.snoc (.fwd hy hlt)
    rcases (C.home y a hty hy).2 with h | h
    · exact absurd h hne
    · rw [h] at hr
      cases hr with
      | fd hfd => exact hfdv n a M' a _ h hfd hta hM'
  | @fd a d hfd =>
    intro n y M hn hy hty hM
    obtain ⟨n, rfl⟩ : ∃ k, n = k + 1 := ⟨n - 1, by omega⟩
    exact hfdv n y M a d hy hfd hty hM
  | @atm i =>
    intro n y M hn hy hty hM
    obtain ⟨n, rfl⟩ : ∃ k, n = k + 1 := ⟨n - 1, by omega⟩
    refine hcst n y M hty hM (by rw [hy]; simp) (by rw [hy]; simp) (by rw [hy]; simp) (by rw [hy]; simp) (by rw [hy]; simp) ?_
    rw [contig, hM y (C.cells hty).1, hy]; rfl
  | @int i =>
    intro n y M hn hy hty hM
    obtain ⟨n, rfl⟩ : ∃ k, n = k + 1 := ⟨n - 1, by omega⟩
    refine hcst n y M hty hM (by rw [hy]; simp) (by rw [hy]; simp) (by rw [hy]; simp) (by rw [hy]; simp) (by rw [hy]; simp) ?_
    rw [contig, hM y (C.cells hty).1, hy]; rfl
  | @flt a x hoa hx =>
    intro n y M hn hy hty hM
    obtain ⟨n, rfl⟩ : ∃ k, n = k + 1 := ⟨n - 1, by omega⟩
    have hys := (C.cells hty).1
    have hna : ¬ InFrame c.vs m src hi dst (sA src dst a) :=
      C.notFrame hoa (.inr ⟨⟨y, hty, .inr hy⟩, by rw [hx]; simp⟩)
    have hny := C.notFrame hys (dst := dst) (.inl ⟨hty, by rw [hy]; simp⟩)
    have e : shC src dst (m a) = m a := by rw [hx]; rfl
    have s1 := C.set (M := M) hoa hna
    have s2 := C.set (M := M.set (sA src dst a) (shC src dst (m a))) hys hny
    refine ⟨_, ?_, s1.trans s2, ?_⟩
    · rw [contig, hM y hys, hy]
      simp only
      rw [hrel y a hys.1, hM a hoa, e]
      rfl
    · intro z hz
      obtain rfl := hz.leaf (by rw [hy]; simp) (by rw [hy]; simp) (by rw [hy]; simp)
      refine ⟨fun _ => set_same _ _ _, by rw [hy]; simp, ?_, fun d h => by have := h.tag; rw [hy] at this; simp at this⟩
      intro b hb
      rw [hy] at hb
      simp only [Cell.flt.injEq] at hb
      subst hb
      exact (s2.keep hoa hna (set_same _ _ _)).trans e
  | @lst a t1 t2 ho1 ho2 hw1 hw2 _ _ ih1 ih2 =>
    intro n y M hn hy hty hM
    simp only [CT.size] at hn
    have p1 := size_pos c.vs t1
    have p2 := size_pos c.vs t2
    obtain ⟨n, rfl⟩ : ∃ k, n = k + 1 := ⟨n - 1, by omega⟩
    have hys := (C.cells hty).1
    have hset := C.set (M := M) hys (C.notFrame hys (dst := dst) (.inl ⟨hty, by rw [hy]; simp⟩))
    have hT1 := hty.snoc (.car hy)
    have hT2 := hty.snoc (.cdr hy)
    obtain ⟨M', h1, h2, h3⟩ := contigArgs_spec C hdis (contig c n) 2 (by omega) _ a
      (by
        intro i hi
        have : i = 0 ∨ i = 1 := by omega
        rcases this with rfl | rfl
        · exact hT1
        · exact hT2)
      (hset.agree C hdis hM)
      (by
        intro i hi M hM
        have : i = 0 ∨ i = 1 := by omega
        rcases this with rfl | rfl
        · exact ih1 n a M (by omega) rfl hT1 hM
        · exact ih2 n (a + 1) M (by omega) rfl hT2 hM)
    refine ⟨M', ?_, hset.trans h2, ?_⟩
    · rw [contig, hM y hys, hy]
      simp only
      rw [hrel y a hys.1]
      simp only [contigArgs, hy, shC] at h1
      exact h1
    · intro z hz
      rcases hz.inv with rfl | ⟨y', k1, k2⟩
      · refine Done.keep C hty ⟨fun _ => set_same _ _ _, by rw [hy]; simp, by rw [hy]; simp, fun d h => ?_⟩ h2
        have := h.tag; rw [hy] at this; simp at this
      · cases k1 with
        | car h =>
          rw [hy] at h; simp only [Cell.lst.injEq] at h; subst h
          exact h3 0 (by omega) z k2
        | cdr h =>
          rw [hy] at h; simp only [Cell.lst.injEq] at h; subst h
          exact h3 1 (by omega) z k2
        | arg h => rw [hy] at h; simp at h
        | fwd h h' => rw [hy] at h; simp at h
  | @stc a f k g ho hf hk ho' hw _ ih =>
    intro n y M hn hy hty hM
    have hsz : (CT.app f ((List.range k).map g)).size c.vs = 2 + ((List.range k).map fun i => (g i).size c.vs).sum := by
      simp only [CT.size, List.map_map, Function.comp_def]
    rw [hsz] at hn
    obtain ⟨n, rfl⟩ : ∃ k, n = k + 1 := ⟨n - 1, by omega⟩
    have hys := (C.cells hty).1
    have hna : ¬ InFrame c.vs m src hi dst (sA src dst a) :=
      C.notFrame ho (.inr ⟨⟨y, hty, .inl hy⟩, by rw [hf]; simp⟩)
    have e : shC src dst (m a) = m a := by rw [hf]; rfl
    have s1 := C.set (M := M) hys (C.notFrame hys (dst := dst) (.inl ⟨hty, by rw [hy]; simp⟩))
    have s2 := C.set (M := M.set (sA src dst y) (shC src dst (m y))) ho hna
    have hT : ∀ i, i < k → TC m src (a + 1 + i) := fun i hi => hty.snoc (.arg hy hf hi)
    obtain ⟨M', h1, h2, h3⟩ := contigArgs_spec C hdis (contig c n) k hk _ (a + 1) hT
      ((s1.trans s2).agree C hdis hM)
      (by
        intro i hi M hM
        have := le_sum (fun i => (g i).size c.vs) k i hi
        exact ih i hi n (a + 1 + i) M (by omega) rfl (hT i hi) hM)
    refine ⟨M', ?_, (s1.trans s2).trans h2, ?_⟩
    · rw [contig, hM y hys, hy]
      simp only
      rw [hM a ho, hf]
      simp only
      rw [hrel y a hys.1]
      have e2 : sA src dst a + 1 = sA src dst (a + 1) := by have := ho.1; simp only [sA]; omega
      rw [e2]
      rw [e, hf, hy] at h1
      exact h1
    · intro z hz
      rcases hz.inv with rfl | ⟨y', k1, k2⟩
      · refine Done.keep C hty ⟨fun _ => ?_, ?_, by rw [hy]; simp, fun d h => ?_⟩ h2
        · exact s2.keep hys (C.notFrame hys (.inl ⟨hty, by rw [hy]; simp⟩)) (set_same _ _ _)
        · intro b hb
          rw [hy] at hb
          simp only [Cell.stc.injEq] at hb
          subst hb
          rw [set_same, e]
        · have := h.tag; rw [hy] at this; simp at this
      · cases k1 with
        | car h => rw [hy] at h; simp at h
        | cdr h => rw [hy] at h; simp at h
        | fwd h h' => rw [hy] at h; simp at h
        | @arg b f' n' i h h' h'' =>
          rw [hy] at h; simp only [Cell.stc.injEq] at h; subst h
          rw [hf] at h'; simp only [Cell.fn.injEq] at h'
          exact h3 i (by omega) z k2

/-- A contiguous term depends only on its block. -/
theorem Contig.congr {vs : Nat} {m m2 : Mem} {src hi : Adr} {t : CT} (C : Contig vs m src hi t)
    (hm : ∀ x, Seg src hi x → m2 x = m x) : Contig vs m2 src hi t := by
  have hsrc : Seg src hi src := ⟨Nat.le_refl _, C.lt⟩
  have hrd : Rd vs (Seg src hi) m2 (m2 src) t := by rw [hm src hsrc]; exact C.rd.mono (fun _ h => h) hm
  have hb : ∀ {z}, TC m2 src z → TC m src z := fun h => h.mono hrd hsrc (fun x hx => (hm x hx).symm)
  have hf : ∀ {z}, TC m src z → TC m2 src z := fun h => h.mono C.rd hsrc hm
  have he : ∀ {z}, TC m2 src z → m2 z = m z := fun h => hm _ (C.cells (hb h)).1
  refine ⟨C.lt, hrd, ?_, ?_, ?_⟩
  · intro y a hy hya
    rw [he hy] at hya
    obtain ⟨h1, h2⟩ := C.home y a (hb hy) hya
    exact ⟨hf h1, by rw [he (hf h1)]; exact h2⟩
  · intro y a hy hya
    rw [he hy] at hya
    obtain ⟨h1, h2⟩ := C.fd y a (hb hy) hya
    exact ⟨h1, fun d hd => h2 d (hd.mono (fun _ h => h) (fun x hx => (hm x hx).symm))⟩
  · intro y d hy hd x h1 h2
    obtain ⟨k1, k2⟩ := C.disj y d (hb hy) (hd.mono (fun _ h => h) (fun x hx => (hm x hx).symm)) x h1 h2
    refine ⟨fun h => k1 (hb h), fun z hz => ?_⟩
    rw [he hz]
    exact k2 z (hb hz)

/-- The term read in the copy. -/
theorem Done.rd {vs : Nat} {m M : Mem} {src hi dst : Adr} {t0 : CT} (C : Contig vs m src hi t0)
    (hD : ∀ z, TC m src z → Done vs m src hi dst M z) {w : Cell} {t : CT} (h : Rd vs (Seg src hi) m w t) :
    ∀ y, m y = w → TC m src y → (∀ a, w ≠ .fdv a) →
      Rd vs (Seg dst (dst + (hi - src))) M (shC src dst w) (t.rename (sA src dst)) := by
  have hseg : ∀ a, Seg src hi a → Seg dst (dst + (hi - src)) (sA src dst a) := by
    intro a ha
    have := ha.1; have := ha.2
    simp only [Seg, sA]; omega
  have hfd : ∀ a, TC m src a → ∀ d, FdAt vs (Seg src hi) m a d → FdAt vs (Seg dst (dst + (hi - src))) M (sA src dst a) d := by
    intro a ha d hd
    refine ((hD a ha).fd d hd).mono ?_ (fun _ _ => rfl)
    intro x hx
    have h1 := (C.fd a a ha hd.tag).2 d hd
    have h2 := (C.cells ha).1.1
    have := hx.1; have := hx.2
    simp only [Seg, sA] at *; omega
  -- a cell, given the result for a cell which is not a FD variable
  have hcell : ∀ x t, TC m src x → Rd vs (Seg src hi) m (m x) t →
      ((∀ a, m x ≠ .fdv a) → Rd vs (Seg dst (dst + (hi - src))) M (shC src dst (m x)) (t.rename (sA src dst))) →
      OwnFd M (sA src dst x) ∧ Rd vs (Seg dst (dst + (hi - src))) M (M (sA src dst x)) (t.rename (sA src dst)) := by
    intro x t hx hr hrec
    by_cases hf : ∃ a, m x = .fdv a
    · obtain ⟨a, ha⟩ := hf
      obtain ⟨rfl, _⟩ := C.fd x a hx ha
      rw [ha] at hr
      cases hr with
      | fd hd =>
        have h1 := hfd a hx _ hd
        refine ⟨?_, ?_⟩
        · intro b hb; rw [h1.tag] at hb; simpa using hb.symm
        · rw [h1.tag]; simp only [CT.rename]; exact .fd h1
    · have hf' : ∀ a, m x ≠ .fdv a := fun a ha => hf ⟨a, ha⟩
      have e := (hD x hx).cell hf'
      rw [e]
      refine ⟨?_, hrec hf'⟩
      intro b hb
      rw [e] at hb
      cases hm : m x <;> rw [hm] at hb <;> simp [shC] at hb
      subst hb
      exact absurd hm (hf' _)
  induction h with
  | @var a hoa ha =>
    intro y hy hty _
    simp only [shC, CT.rename]
    have hta := (C.home y a hty hy).1
    refine .var (hseg a hoa) ?_
    rw [(hD a hta).cell (by rw [ha]; simp), ha]; rfl
  | @bound a t hoa hne hown hr ih =>
    intro y hy hty _
    simp only [shC]
    obtain ⟨hta, h⟩ := C.home y a hty hy
    have h : m a = .fdv a := by
      rcases h with h | h
      · exact absurd h hne
      · exact h
    obtain ⟨h1, h2⟩ := hcell a t hta hr (fun hf => absurd h (hf a))
    refine .bound (hseg a hoa) ?_ h1 h2
    rw [h] at hr
    cases hr with
    | fd hd => rw [(hfd a hta _ hd).tag]; simp
  | fd => intro y hy hty hne; exact absurd rfl (hne _)
  | atm => intro y hy hty _; simp only [shC, CT.rename]; exact .atm
  | int => intro y hy hty _; simp only [shC, CT.rename]; exact .int
  | @flt a x hoa hx =>
    intro y hy hty _
    simp only [shC, CT.rename]
    exact .flt (hseg a hoa) (by rw [(hD y hty).flt a hy]; exact hx)
  | @lst a t1 t2 ho1 ho2 hw1 hw2 hr1 hr2 ih1 ih2 =>
    intro y hy hty _
    simp only [shC, CT.rename]
    have hT1 := hty.snoc (.car hy)
    have hT2 := hty.snoc (.cdr hy)
    have e : sA src dst (a + 1) = sA src dst a + 1 := by have := ho1.1; simp only [sA]; omega
    obtain ⟨k1, k2⟩ := hcell a t1 hT1 hr1 (fun h => ih1 a rfl hT1 h)
    obtain ⟨l1, l2⟩ := hcell (a + 1) t2 hT2 hr2 (fun h => ih2 (a + 1) rfl hT2 h)
    rw [e] at l1 l2
    exact .lst (hseg a ho1) (by rw [← e]; exact hseg _ ho2) k1 l1 k2 l2
  | @stc a f k g ho hf hk ho' hw hr ih =>
    intro y hy hty _
    have hT : ∀ i, i < k → TC m src (a + 1 + i) := fun i hi => hty.snoc (.arg hy hf hi)
    have e : ∀ i, sA src dst (a + 1 + i) = sA src dst a + 1 + i := by intro i; have := ho.1; simp only [sA]; omega
    simp only [shC, CT.rename, List.map_map]
    refine .stc (g := fun i => (g i).rename (sA src dst)) (hseg a ho) (by rw [(hD y hty).stc a hy]; exact hf) hk ?_ ?_ ?_
    · intro i hi; rw [← e]; exact hseg _ (ho' i hi)
    · intro i hi; rw [← e]; exact (hcell _ _ (hT i hi) (hr i hi) (fun h => ih i hi _ rfl (hT i hi) h)).1
    · intro i hi; rw [← e]; exact (hcell _ _ (hT i hi) (hr i hi) (fun h => ih i hi _ rfl (hT i hi) h)).2

end Gp.CopyTerm
