import Verif.CopyTerm.Top
/-
Properties C16 (copy_term) and C17 (relocation of contiguous terms). The specification (the term read at a word,
variants, contiguous terms) is in Spec.
-/
namespace Gp.CopyTerm
open Gp.Heap

/-! ## A memory for the examples

`f(g(X), X, F, 1.0)` with a FD variable `F`, the word of the term is at 0. -/

def exDom : Dom := ⟨2, 0, 1, none⟩

def exM : Mem := fun x =>
  match x with
  | 0 => .stc 10
  | 10 => .fn 7 4
  | 11 => .stc 20
  | 12 => .ref 21
  | 13 => .ref 30
  | 14 => .flt 25
  | 20 => .fn 8 1
  | 21 => .ref 21
  | 25 => .raw 5
  | 30 => .fdv 30
  | 35 => .raw 2
  | 37 => .raw 1
  | _ => .raw 0

def exG : Nat → CT := fun i =>
  match i with
  | 0 => .app 8 ((List.range 1).map fun _ => .var 21)
  | 1 => .var 21
  | 2 => .fd 30 exDom
  | _ => .flt 5

def exT : CT := .app 7 ((List.range 4).map exG)

theorem exT_size (vs : Nat) : exT.size vs = 26 := by
  simp [exT, exG, CT.size, List.range_succ, Dom.vecWords, exDom]

theorem exFd (vs : Nat) (ok : Adr → Prop) (hok : ∀ x, x < 40 → ok x) : FdAt vs ok exM 30 exDom :=
  ⟨rfl, rfl, rfl, rfl, ⟨hok _ (by omega), hok _ (by omega), hok _ (by omega), hok _ (by omega), hok _ (by omega)⟩, rfl⟩

theorem exRd (vs : Nat) (ok : Adr → Prop) (hok : ∀ x, x < 40 → ok x) : Rd vs ok exM (exM 0) exT := by
  have h0 : exM 0 = .stc 10 := rfl
  rw [h0]
  have own : ∀ x a, x < 30 → exM x ≠ .fdv a := by
    intro x a hx
    simp only [exM]
    split <;> simp
    omega
  refine Rd.stc (f := 7) (n := 4) (g := exG) (hok _ (by omega)) rfl (by omega) (fun i hi => hok _ (by omega))
    (fun i hi a h => absurd h (own _ a (by omega))) ?_
  intro i hi
  have : i = 0 ∨ i = 1 ∨ i = 2 ∨ i = 3 := by omega
  rcases this with rfl | rfl | rfl | rfl
  · refine Rd.stc (a := 20) (f := 8) (n := 1) (g := fun _ => .var 21) (hok _ (by omega)) rfl (by omega) (fun i hi => hok _ (by omega))
      (fun i hi a h => absurd h (own _ a (by omega))) ?_
    intro i hi
    have : i = 0 := by omega
    subst this
    exact Rd.var (a := 21) (hok _ (by omega)) rfl
  · exact Rd.var (a := 21) (hok _ (by omega)) rfl
  · refine Rd.bound (a := 30) (hok _ (by omega)) (by simp [exM]) ?_ (Rd.fd (exFd vs ok hok))
    intro a h
    simp only [exM] at h
    simpa using h.symm
  · exact Rd.flt (a := 25) (x := 5) (hok _ (by omega)) rfl

/-! ## C16 -/

/-- `copy_term`: the term `t` at `src` is copied to the cells from `dst` (there is room for its size above, as computed by
`Pl_Term_Size`). If it has at most `maxVars` distinct variables then the copy is a variant of `t` whose cells,
variables included, are all new (from `dst` to `s.p`), at most `Pl_Term_Size` words are used, the domains of the FD variables
are copied but without their constraints, and all the other cells, the source term included, are unchanged. -/
theorem C16_copy_term {c : Cfg} {n : Nat} {m : Mem} {dst src : Adr} {t : CT}
    (h : Rd c.vs (Out' dst (dst + t.size c.vs)) m (m src) t) (hs : Out' dst (dst + t.size c.vs) src)
    (hn : t.size c.vs ≤ n) (hv : ∀ K : List Adr, K.Nodup → (∀ a ∈ K, a ∈ t.vars) → K.length ≤ c.maxVars) :
    ∃ s t', copyTerm c n m dst src = .ok s ∧
      Variant t t' ∧ Rd c.vs (Seg dst s.p) s.mem (s.mem dst) t' ∧
      (∀ a ∈ t'.vars, Seg dst s.p a) ∧
      (∀ a ∈ t'.vars, s.mem a = .fdv a → NoCstr (Seg dst s.p) s.mem a) ∧
      s.p ≤ dst + t.size c.vs ∧ (t.NoFd → s.p = dst + t.size c.vs) ∧
      (∀ x, Out' dst (dst + t.size c.vs) x → s.mem x = m x) ∧
      Rd c.vs (Out' dst (dst + t.size c.vs)) s.mem (s.mem src) t := by
  rcases copyTerm_res h hs hn with ⟨s1, s, h1, R⟩ | ⟨s, h1, ⟨K, k1, k2, k3⟩, _⟩
  · refine ⟨s, _, h1, ⟨img s1.mem, R.inj, rfl⟩, R.rd, fun a ha => (R.rd.vars_ok a ha).1, ?_, R.le, R.eq, R.out, ?_⟩
    · intro a ha hfd
      rw [vars_rename, List.mem_map] at ha
      obtain ⟨b, hb, hab⟩ := ha
      obtain ⟨_, d, e1, e2, e3⟩ := R.inv.key' ((R.keys b).mpr hb)
      rw [img_of e1] at hab
      subst hab
      have hle := R.inv.le
      have hsame : ∀ x, Seg dst s1.p x → s.mem x = s1.mem x := fun x hx => R.seg x ⟨hx.1, by have := hx.2; omega⟩
      rw [R.p]
      rcases e3 with ⟨_, e3⟩ | ⟨_, _, e3⟩
      · rw [hsame d e2, e3] at hfd; simp at hfd
      · exact e3.mono (fun _ h => h) hsame
    · rw [R.out src hs]
      exact h.mono (fun _ h => h) R.out
  · have := hv K k1 (fun a ha => by
      rcases k2 a ha with h | h
      · simp [CS.keys] at h
      · exact h)
    omega

/-- The hypotheses are satisfied by the example. -/
example : ∃ s t', copyTerm ⟨1000, 4, 0⟩ 26 exM 100 0 = .ok s ∧ Variant exT t' ∧ Rd 4 (Seg 100 s.p) s.mem (s.mem 100) t' := by
  have hsz := exT_size 4
  have hout : ∀ x, x < 40 → Out' 100 (100 + exT.size 4) x := by
    intro x hx h; have := h.1; omega
  obtain ⟨s, t', h1, h2, h3, _⟩ := C16_copy_term (c := ⟨1000, 4, 0⟩) (n := 26) (dst := 100) (src := 0) (exRd 4 _ hout) (hout 0 (by omega))
    (by simp only [hsz]; omega)
    (by
      intro K hK h
      refine Nat.le_trans (nodup_len (l := exT.vars) hK h) ?_
      simp [exT, exG, CT.vars, List.range_succ])
  exact ⟨s, t', h1, h2, h3⟩

/-- The copy raises a representation error exactly when the term has more than `maxVars` (MAX_VAR_IN_TERM) distinct
variables. -/
theorem C16_too_many_iff {c : Cfg} {n : Nat} {m : Mem} {dst src : Adr} {t : CT}
    (h : Rd c.vs (Out' dst (dst + t.size c.vs)) m (m src) t) (hs : Out' dst (dst + t.size c.vs) src)
    (hn : t.size c.vs ≤ n) :
    (∃ s, copyTerm c n m dst src = .err s) ↔ ∃ K : List Adr, K.Nodup ∧ (∀ a ∈ K, a ∈ t.vars) ∧ c.maxVars < K.length := by
  constructor
  · rintro ⟨s, he⟩
    rcases copyTerm_res h hs hn with ⟨s1, s, h1, R⟩ | ⟨s, h1, ⟨K, k1, k2, k3⟩, _⟩
    · rw [h1] at he; cases he
    · refine ⟨K, k1, fun a ha => ?_, k3⟩
      rcases k2 a ha with h | h
      · simp [CS.keys] at h
      · exact h
  · rintro ⟨K, k1, k2, k3⟩
    rcases copyTerm_res h hs hn with ⟨s1, s, h1, R⟩ | ⟨s, h1, _⟩
    · have := nodup_len (l := s1.keys) k1 (fun a ha => (R.keys a).mpr (k2 a ha))
      have := R.inv.cap
      simp only [CS.keys, List.length_map] at *
      omega
    · exact ⟨s, h1⟩

example : ∃ s, copyTerm ⟨1, 4, 0⟩ 26 exM 100 0 = .err s := by
  have hsz := exT_size 4
  have hout : ∀ x, x < 40 → Out' 100 (100 + exT.size 4) x := by
    intro x hx h; have := h.1; omega
  refine (C16_too_many_iff (c := ⟨1, 4, 0⟩) (exRd 4 _ hout) (hout 0 (by omega)) (by simp only [hsz]; omega)).mpr
    ⟨[21, 30], by simp, ?_, by simp⟩
  simp [exT, exG, CT.vars, List.range_succ]

/-- When this error is raised the source term is left modified: `maxVars` distinct variables of the source, which were
unbound, are bound to cells of the unfinished copy. (The error is raised in the middle of the copy, the restoration at
the end is not done; these bindings are not in the trail.) -/
theorem C16_too_many_source_modified {c : Cfg} {n : Nat} {m : Mem} {dst src : Adr} {t : CT}
    (h : Rd c.vs (Out' dst (dst + t.size c.vs)) m (m src) t) (hs : Out' dst (dst + t.size c.vs) src)
    (hn : t.size c.vs ≤ n) {s : CS} (he : copyTerm c n m dst src = .err s) :
    ∃ K : List Adr, K.Nodup ∧ K.length = c.maxVars ∧
      ∀ a ∈ K, Out' dst (dst + t.size c.vs) a ∧ (m a = .ref a ∨ m a = .fdv a) ∧
        ∃ d, Seg dst (dst + t.size c.vs) d ∧ s.mem a = .ref d := by
  rcases copyTerm_res h hs hn with ⟨s1, s, h1, R⟩ | ⟨s', h1, _, ⟨D, hi⟩, hc⟩
  · rw [h1] at he; cases he
  · rw [h1] at he
    cases he
    refine ⟨s.keys, hi.nodup, ?_, ?_⟩
    · have := hi.cap
      simp only [CS.keys, List.length_map]; omega
    · intro a ha
      obtain ⟨k1, d, k2, k3, k4⟩ := hi.key' ha
      have hd := hi.dom d k3
      have hl := hi.le
      refine ⟨k1, ?_, d, ⟨hd.1, by have := hd.2; omega⟩, k2⟩
      rcases k4 with ⟨k4, _⟩ | ⟨k4, _⟩
      · exact .inl k4
      · exact .inr k4

/-- So the source is not the same term any more: with `maxVars` at least 1, the error changes a cell of the source. -/
theorem C16_too_many_not_restored {c : Cfg} {n : Nat} {m : Mem} {dst src : Adr} {t : CT}
    (h : Rd c.vs (Out' dst (dst + t.size c.vs)) m (m src) t) (hs : Out' dst (dst + t.size c.vs) src)
    (hn : t.size c.vs ≤ n) (hv : 0 < c.maxVars) {s : CS} (he : copyTerm c n m dst src = .err s) :
    ∃ a, Out' dst (dst + t.size c.vs) a ∧ s.mem a ≠ m a := by
  obtain ⟨K, _, k2, k3⟩ := C16_too_many_source_modified h hs hn he
  obtain ⟨a, ha⟩ : ∃ a, a ∈ K := by
    cases K with
    | nil => simp at k2; omega
    | cons a _ => exact ⟨a, by simp⟩
  obtain ⟨h1, h2, d, h3, h4⟩ := k3 a ha
  refine ⟨a, h1, ?_⟩
  rw [h4]
  rcases h2 with h2 | h2 <;> rw [h2]
  · simp only [ne_eq, Cell.ref.injEq]
    rintro rfl
    exact h1 h3
  · simp

/-- `Pl_Term_Size` computes the size of the term (the room reserved for its copy). -/
theorem C16_term_size {c : Cfg} {ok : Adr → Prop} {m : Mem} {w : Cell} {t : CT} (h : Rd c.vs ok m w t) {n : Nat}
    (hn : t.size c.vs ≤ n) : termSize c m n w = some (t.size c.vs) := termSize_spec h n hn

example : termSize ⟨1000, 4, 0⟩ exM 26 (exM 0) = some 26 := by
  have := C16_term_size (c := ⟨1000, 4, 0⟩) (exRd 4 (fun _ => True) (fun _ _ => trivial)) (n := 26) (by simp only [exT_size]; omega)
  simp only [exT_size] at this
  exact this

/-! ## C17 -/

/-- Relocation: the copy of a contiguous term (from `src` to `hi`) to a block of the same length at `dst`, elsewhere, is
the same term where each variable is the one at the same place in the new block; nothing else is modified. -/
theorem C17_relocate {c : Cfg} {m : Mem} {src hi dst : Adr} {t : CT} (C : Contig c.vs m src hi t)
    (hdis : dst + (hi - src) ≤ src ∨ hi ≤ dst) {n : Nat} (hn : t.size c.vs < n) :
    ∃ m', contig c n m dst src = some m' ∧
      Rd c.vs (Seg dst (dst + (hi - src))) m' (m' dst) (t.rename fun a => dst + (a - src)) ∧
      (∀ x, ¬ Seg dst (dst + (hi - src)) x → m' x = m x) ∧ Rd c.vs (Seg src hi) m' (m' src) t := by
  have e : sA src dst src = dst := by simp only [sA]; omega
  obtain ⟨m', h1, h2, h3⟩ := contig_spec C hdis C.rd n src m hn rfl .self (fun _ _ => rfl)
  have hagree := h2.agree C hdis (fun _ _ => rfl)
  have hsrc : Seg src hi src := ⟨Nat.le_refl _, C.lt⟩
  rw [e] at h1
  refine ⟨m', h1, ?_, h2.ext, ?_⟩
  · have hren : t.rename (fun a => dst + (a - src)) = t.rename (sA src dst) := by
      apply rename_congr
      intro a ha
      have := (C.rd.vars_ok a ha).1.1
      simp only [sA]; omega
    rw [hren]
    by_cases hf : ∃ a, m src = .fdv a
    · obtain ⟨a, ha⟩ := hf
      have hr := C.rd
      obtain ⟨rfl, hlen⟩ := C.fd src a .self ha
      rw [ha] at hr
      cases hr with
      | fd hd =>
        have hd' := (h3 a .self).fd _ hd
        have hl := hlen _ hd
        rw [e] at hd'
        rw [hd'.tag]
        simp only [CT.rename, e]
        refine .fd (hd'.mono ?_ (fun _ _ => rfl))
        intro x hx
        exact ⟨hx.1, by have := hx.2; have := C.lt; omega⟩
    · have hf' : ∀ a, m src ≠ .fdv a := fun a ha => hf ⟨a, ha⟩
      have := Done.rd C h3 C.rd src rfl .self hf'
      have hc := (h3 src .self).cell hf'
      rw [e] at hc
      rw [hc]
      exact this
  · rw [hagree src hsrc]
    exact C.rd.mono (fun _ h => h) hagree

/-- The result of `Pl_Copy_Term` is a contiguous term. -/
theorem C17_copy_contiguous {c : Cfg} {n : Nat} {m : Mem} {dst src : Adr} {t : CT}
    (h : Rd c.vs (Out' dst (dst + t.size c.vs)) m (m src) t) (hs : Out' dst (dst + t.size c.vs) src)
    (hn : t.size c.vs ≤ n) {s : CS} (ho : copyTerm c n m dst src = .ok s) :
    ∃ t', Variant t t' ∧ Contig c.vs s.mem dst s.p t' := by
  rcases copyTerm_res h hs hn with ⟨s1, s2, h1, R⟩ | ⟨s2, h1, _⟩
  · rw [h1] at ho
    cases ho
    exact ⟨_, ⟨img s1.mem, R.inj, rfl⟩, R.contig⟩
  · rw [h1] at ho; cases ho

/-- A term stored (`Pl_Copy_Term` to a block at `d1`) and later copied back to `d2` (`Pl_Copy_Contiguous_Term`) is a variant
of the original term, whatever has happened to the rest of the memory, and the stored term is left unchanged. -/
theorem C17_store_retrieve {c : Cfg} {n : Nat} {m : Mem} {d1 src : Adr} {t : CT}
    (h : Rd c.vs (Out' d1 (d1 + t.size c.vs)) m (m src) t) (hs : Out' d1 (d1 + t.size c.vs) src)
    (hn : t.size c.vs ≤ n) {s : CS} (ho : copyTerm c n m d1 src = .ok s)
    {m2 : Mem} (hm2 : ∀ x, Seg d1 s.p x → m2 x = s.mem x) {d2 : Adr} (hdis : d2 + (s.p - d1) ≤ d1 ∨ s.p ≤ d2)
    {n2 : Nat} (hn2 : t.size c.vs < n2) :
    ∃ m3 t', contig c n2 m2 d2 d1 = some m3 ∧ Variant t t' ∧ Rd c.vs (Seg d2 (d2 + (s.p - d1))) m3 (m3 d2) t' ∧
      (∀ a ∈ t'.vars, Seg d2 (d2 + (s.p - d1)) a) ∧
      (∀ x, ¬ Seg d2 (d2 + (s.p - d1)) x → m3 x = m2 x) := by
  obtain ⟨t1, ⟨φ, v1, rfl⟩, C⟩ := C17_copy_contiguous h hs hn ho
  have C2 : Contig c.vs m2 d1 s.p (t.rename φ) := C.congr hm2
  obtain ⟨m3, k1, k2, k3, _⟩ := C17_relocate (c := c) C2 hdis (n := n2) (by rw [size_rename]; exact hn2)
  refine ⟨m3, _, k1, ⟨(fun a => d2 + (a - d1)) ∘ φ, ?_, rename_rename _ _ _⟩, k2, fun a ha => (k2.vars_ok a ha).1, k3⟩
  intro a ha b hb hab
  refine v1 a ha b hb ?_
  have ok := fun x hx => (C.rd.vars_ok (φ x) (by rw [vars_rename]; exact List.mem_map.mpr ⟨x, hx, rfl⟩)).1.1
  have := ok a ha
  have := ok b hb
  simp only [Function.comp_apply] at hab
  omega

/-- The hypotheses are satisfied by the example. -/
example : ∃ s m3 t', copyTerm ⟨1000, 4, 0⟩ 26 exM 100 0 = .ok s ∧ contig ⟨1000, 4, 0⟩ 27 s.mem 500 100 = some m3 ∧
    Variant exT t' ∧ Rd 4 (Seg 500 (500 + (s.p - 100))) m3 (m3 500) t' := by
  have hsz := exT_size 4
  have hout : ∀ x, x < 40 → Out' 100 (100 + exT.size 4) x := by
    intro x hx h; have := h.1; omega
  obtain ⟨s, t', h1, h2, h3, _, _, h6, _⟩ := C16_copy_term (c := ⟨1000, 4, 0⟩) (n := 26) (dst := 100) (src := 0) (exRd 4 _ hout)
    (hout 0 (by omega)) (by simp only [hsz]; omega)
    (by
      intro K hK h
      refine Nat.le_trans (nodup_len (l := exT.vars) hK h) ?_
      simp [exT, exG, CT.vars, List.range_succ])
  simp only [hsz] at h6
  obtain ⟨m3, t2, k1, k2, k3, _⟩ := C17_store_retrieve (c := ⟨1000, 4, 0⟩) (exRd 4 _ hout) (hout 0 (by omega))
    (by simp only [hsz]; omega) h1 (m2 := s.mem) (fun _ _ => rfl) (d2 := 500) (.inr (by omega)) (n2 := 27) (by simp only [hsz]; omega)
  exact ⟨s, m3, t2, h1, k1, k2, k3⟩

end Gp.CopyTerm
