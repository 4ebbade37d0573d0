/-
The assignment of the temporaries separates the incompatible registers and never fails.
-/
import Verif.RegAlloc.Sim

namespace Gp.RegAlloc

/-! ### Bindings -/

/-- The effect of a binding on a dereferenced register. -/
def sub1 (t : Nat) (r : Reg) (z : Reg) : Reg := if z = .tmp t then r else z

theorem ap_bind (s : Sub) (t : Nat) (r x : Reg) : ap (bind s t r) x = sub1 t r (ap s x) := by
  cases x with
  | arg k => simp [ap, sub1]
  | tmp n => rfl

theorem map_bind (s : Sub) (t : Nat) (r : Reg) (l : List Reg) :
    l.map (ap (bind s t r)) = (l.map (ap s)).map (sub1 t r) := by
  rw [List.map_map]; exact List.map_congr_left (fun x _ => ap_bind s t r x)

theorem mem_map_bind {s : Sub} {t : Nat} {r z : Reg} {l : List Reg} (h : z ∈ l.map (ap s)) :
    sub1 t r z ∈ l.map (ap (bind s t r)) := by
  rw [map_bind]; exact List.mem_map.2 ⟨z, h, rfl⟩

/-! ### The relations between the registers -/

section
variable (lt0 : List Tmp)

/-- The two registers are incompatible. -/
def Cf (x y : Reg) : Prop := ∃ m, (x = .tmp m ∧ Imp lt0 m y) ∨ (y = .tmp m ∧ Imp lt0 m x)

/-- One of the registers wants the other one. -/
def Wi (x y : Reg) : Prop := ∃ m, x = .tmp m ∧ Wsh lt0 m y

end

variable {lt0 : List Tmp}

theorem Cf.symm {x y : Reg} (h : Cf lt0 x y) : Cf lt0 y x := by
  obtain ⟨m, h | h⟩ := h
  · exact ⟨m, .inr h⟩
  · exact ⟨m, .inl h⟩

theorem Cf.imp {m : Nat} {y : Reg} (hd : DInv lt0) (h : Cf lt0 (.tmp m) y) : Imp lt0 m y := by
  obtain ⟨n, ⟨e, h⟩ | ⟨e, h⟩⟩ := h
  · cases e; exact h
  · subst e; exact hd.sym n m h

theorem Cf.ne {x y : Reg} (hd : DInv lt0) (h : Cf lt0 x y) : x ≠ y := by
  obtain ⟨n, ⟨e, h⟩ | ⟨e, h⟩⟩ := h
  · subst e; exact fun e => hd.irr n y h e.symm
  · subst e; exact hd.irr n x h

theorem Wi.symm {x : Reg} {m : Nat} (hw : WSym lt0) (h : Wi lt0 x (.tmp m)) :
    Wi lt0 (.tmp m) x := by
  obtain ⟨n, rfl, h⟩ := h
  exact ⟨m, rfl, hw n m h⟩

/-- Entries still to be assigned. -/
abbrev Ents := List (Nat × List Reg)

/-- What holds during the assignment: incompatible registers are bound to different registers,
    and the entry of an unbound temporary tells with what it is incompatible. -/
structure PInv (lt0 : List Tmp) (s : Sub) (E : Ents) : Prop where
  sep : ∀ x y, Cf lt0 x y → ap s x ≠ ap s y
  cover : ∀ e ∈ E, ∀ x, ap s x = .tmp e.1 → ∀ y, Cf lt0 x y → ap s y ∈ e.2.map (ap s)
  nodup : (E.map (·.1)).Nodup
  unb : ∀ e ∈ E, s e.1 = .tmp e.1
  all : ∀ n, Key lt0 n → ∀ t, s n = .tmp t → t ∈ E.map (·.1)

theorem PInv.perm {s : Sub} {E E' : Ents} (h : PInv lt0 s E) (hp : E.Perm E') :
    PInv lt0 s E' :=
  ⟨h.sep, fun e he => h.cover e (hp.mem_iff.2 he), (hp.map _).nodup_iff.1 h.nodup,
    fun e he => h.unb e (hp.mem_iff.2 he),
    fun n hn t ht => (hp.map _).mem_iff.1 (h.all n hn t ht)⟩

theorem sub1_ne {t : Nat} {r z : Reg} (h : z ≠ .tmp t) : sub1 t r z = z := if_neg h

theorem sub1_eq {t : Nat} {r : Reg} : sub1 t r (.tmp t) = r := if_pos rfl

/-- Giving an integer to a temporary. -/
theorem PInv.bind_arg {s : Sub} {t k : Nat} {im : List Reg} {E : Ents}
    (h : PInv lt0 s ((t, im) :: E)) (hk : Reg.arg k ∉ im.map (ap s)) :
    PInv lt0 (bind s t (.arg k)) E := by
  have hc := h.cover (t, im) (List.mem_cons_self ..)
  have hnt : ∀ e ∈ E, e.1 ≠ t := by
    intro e he e'
    have := h.nodup
    simp only [List.map_cons, List.nodup_cons] at this
    exact this.1 (List.mem_map.2 ⟨e, he, e'⟩)
  have one : ∀ x y, Cf lt0 x y → ap s x = .tmp t → ap (bind s t (.arg k)) x ≠
      ap (bind s t (.arg k)) y := by
    intro x y hxy hx
    have hy := hc x hx y hxy
    rw [ap_bind, ap_bind, hx, sub1_eq]
    by_cases hyt : ap s y = .tmp t
    · exact absurd (hx.trans hyt.symm) (h.sep x y hxy)
    · rw [sub1_ne hyt]
      exact fun e => hk (e ▸ hy)
  refine ⟨?_, ?_, ?_, ?_, ?_⟩
  · intro x y hxy
    by_cases hx : ap s x = .tmp t
    · exact one x y hxy hx
    · by_cases hy : ap s y = .tmp t
      · exact (one y x hxy.symm hy).symm
      · rw [ap_bind, ap_bind, sub1_ne hx, sub1_ne hy]; exact h.sep x y hxy
  · intro e he x hx y hxy
    rw [ap_bind] at hx
    have hx' : ap s x = .tmp e.1 := by
      unfold sub1 at hx
      split at hx
      · cases hx
      · exact hx
    rw [ap_bind]
    exact mem_map_bind (h.cover e (List.mem_cons_of_mem _ he) x hx' y hxy)
  · have := h.nodup
    simp only [List.map_cons, List.nodup_cons] at this
    exact this.2
  · intro e he
    simp only [bind, h.unb e (List.mem_cons_of_mem _ he), Reg.tmp.injEq, hnt e he, if_false]
  · intro n hn u hu
    simp only [bind] at hu
    split at hu
    · cases hu
    next hne =>
      have := h.all n hn u hu
      simp only [List.map_cons, List.mem_cons] at this
      rcases this with rfl | this
      · exact absurd hu hne
      · exact this

/-- Collapsing two temporaries. -/
theorem PInv.merge {s : Sub} {t n : Nat} {im im1 : List Reg} {E : Ents}
    (h : PInv lt0 s ((t, im) :: (n, im1) :: E)) (hk : Reg.tmp n ∉ im.map (ap s)) :
    PInv lt0 (bind s n (.tmp t)) ((t, setUnion s im im1) :: E) := by
  have hct := h.cover (t, im) (List.mem_cons_self ..)
  have hcn := h.cover (n, im1) (List.mem_cons_of_mem _ (List.mem_cons_self ..))
  have hnd := h.nodup
  simp only [List.map_cons, List.nodup_cons, List.mem_cons, not_or] at hnd
  obtain ⟨⟨htn, htE⟩, hnE, hE⟩ := hnd
  have one : ∀ x y, Cf lt0 x y → ap s x = .tmp n → ap (bind s n (.tmp t)) x ≠
      ap (bind s n (.tmp t)) y := by
    intro x y hxy hx
    rw [ap_bind, ap_bind, hx, sub1_eq]
    by_cases hyn : ap s y = .tmp n
    · exact absurd (hx.trans hyn.symm) (h.sep x y hxy)
    · rw [sub1_ne hyn]
      intro e
      exact hk (hx ▸ hct y e.symm x hxy.symm)
  refine ⟨?_, ?_, ?_, ?_, ?_⟩
  · intro x y hxy
    by_cases hx : ap s x = .tmp n
    · exact one x y hxy hx
    · by_cases hy : ap s y = .tmp n
      · exact (one y x hxy.symm hy).symm
      · rw [ap_bind, ap_bind, sub1_ne hx, sub1_ne hy]; exact h.sep x y hxy
  · intro e he x hx y hxy
    rw [ap_bind] at hx
    rw [ap_bind]
    rcases List.mem_cons.1 he with rfl | he'
    · apply mem_map_bind
      rw [mem_setUnion]
      unfold sub1 at hx
      split at hx
      next e => exact .inr (hcn x e y hxy)
      next e => exact .inl (hct x hx y hxy)
    · apply mem_map_bind
      refine h.cover e (List.mem_cons_of_mem _ (List.mem_cons_of_mem _ he')) x ?_ y hxy
      unfold sub1 at hx
      split at hx
      next e' =>
        cases hx
        exact absurd (List.mem_map.2 ⟨e, he', rfl⟩) htE
      next e' => exact hx
  · simp only [List.map_cons, List.nodup_cons]; exact ⟨htE, hE⟩
  · intro e he
    rcases List.mem_cons.1 he with rfl | he
    · have : s t = .tmp t := h.unb (t, im) (List.mem_cons_self ..)
      simp only [bind, this, Reg.tmp.injEq, htn, if_false]
    · have : s e.1 = .tmp e.1 :=
        h.unb e (List.mem_cons_of_mem _ (List.mem_cons_of_mem _ he))
      have hne : e.1 ≠ n := fun e' => hnE (List.mem_map.2 ⟨e, he, e'⟩)
      simp only [bind, this, Reg.tmp.injEq, hne, if_false]
  · intro m hm u hu
    simp only [bind] at hu
    split at hu
    next => cases hu; simp
    next hne =>
      have := h.all m hm u hu
      simp only [List.map_cons, List.mem_cons] at this ⊢
      rcases this with e | e | e
      · exact .inl e
      · subst e; exact absurd hu hne
      · exact .inr e

/-! ### `find_hole` -/

theorem mem_insReg {x z : Reg} {l : List Reg} : z ∈ insReg x l ↔ z = x ∨ z ∈ l := by
  induction l with
  | nil => simp [insReg]
  | cons y l ih =>
    simp only [insReg]
    split
    next e => subst e; simp
    next =>
      split
      · simp
      · simp only [List.mem_cons, ih]
        constructor
        · rintro (h | h | h)
          · exact .inr (.inl h)
          · exact .inl h
          · exact .inr (.inr h)
        · rintro (h | h | h)
          · exact .inr (.inl h)
          · exact .inl h
          · exact .inr (.inr h)

theorem mem_sortRegs {z : Reg} {l : List Reg} : z ∈ sortRegs l ↔ z ∈ l := by
  induction l with
  | nil => simp [sortRegs]
  | cons y l ih => simp [sortRegs, mem_insReg, ih]

theorem Reg.le_trans {a b c : Reg} (h1 : a.le b = true) (h2 : b.le c = true) :
    a.le c = true := by
  cases a <;> cases b <;> cases c <;> simp_all [Reg.le] <;> omega

theorem Reg.le_total {a b : Reg} (h : ¬ a.le b = true) : b.le a = true := by
  cases a <;> cases b <;> simp_all [Reg.le] <;> omega

theorem insReg_sorted {x : Reg} {l : List Reg} (h : l.Pairwise (fun a b => a.le b = true)) :
    (insReg x l).Pairwise (fun a b => a.le b = true) := by
  induction l with
  | nil => simp [insReg]
  | cons y l ih =>
    simp only [List.pairwise_cons] at h
    simp only [insReg]
    split
    · simp only [List.pairwise_cons]; exact h
    · split
      next hxy =>
        simp only [List.pairwise_cons]
        refine ⟨?_, h⟩
        intro z hz
        rcases List.mem_cons.1 hz with rfl | hz
        · exact hxy
        · exact Reg.le_trans hxy (h.1 z hz)
      next hxy =>
        simp only [List.pairwise_cons]
        refine ⟨?_, ih h.2⟩
        intro z hz
        rcases mem_insReg.1 hz with rfl | hz
        · exact Reg.le_total hxy
        · exact h.1 z hz

theorem sortRegs_sorted (l : List Reg) :
    (sortRegs l).Pairwise (fun a b => a.le b = true) := by
  induction l with
  | nil => simp [sortRegs]
  | cons y l ih => exact insReg_sorted ih

theorem findHole_ge (l : List Reg) (nb : Nat) : nb ≤ findHole l nb := by
  induction l generalizing nb with
  | nil => exact Nat.le_refl _
  | cons x l ih =>
    cases x with
    | tmp n => exact ih nb
    | arg k =>
      simp only [findHole]
      split
      · exact Nat.le_refl _
      · split
        · have := ih (nb + 1); omega
        · exact ih nb

theorem findHole_not_mem (l : List Reg) (nb : Nat)
    (h : l.Pairwise (fun a b => a.le b = true)) : Reg.arg (findHole l nb) ∉ l := by
  induction l generalizing nb with
  | nil => simp
  | cons x l ih =>
    simp only [List.pairwise_cons] at h
    cases x with
    | tmp n => simp only [findHole, List.mem_cons, not_or]; exact ⟨by simp, ih nb h.2⟩
    | arg k =>
      simp only [findHole]
      split
      next hk =>
        simp only [List.mem_cons, not_or, Reg.arg.injEq]
        refine ⟨by omega, ?_⟩
        intro hm
        have := h.1 _ hm
        simp only [Reg.le, decide_eq_true_eq] at this
        omega
      next hk =>
        simp only [List.mem_cons, not_or, Reg.arg.injEq]
        refine ⟨?_, ih _ h.2⟩
        have := findHole_ge l (if k = nb then nb + 1 else nb)
        split at this <;> simp_all <;> omega

theorem assignValues_spec {s : Sub} {l : Ents} (h : PInv lt0 s l) :
    (∀ x y, Cf lt0 x y → ap (assignValues s l) x ≠ ap (assignValues s l) y) ∧
    ∀ n, Key lt0 n → ∃ k, assignValues s l n = .arg k := by
  induction l generalizing s with
  | nil =>
    refine ⟨h.sep, ?_⟩
    intro n hn
    cases e : s n with
    | arg k => exact ⟨k, e⟩
    | tmp t => have := h.all n hn t e; simp at this
  | cons e l ih =>
    obtain ⟨t, im⟩ := e
    simp only [assignValues]
    refine ih (h.bind_arg ?_)
    intro hm
    rw [← mem_sortRegs] at hm
    exact findHole_not_mem _ 0 (sortRegs_sorted _) hm

/-! ### Wishes -/

/-- The wishes of the entries which have not been considered. -/
structure WInv (lt0 : List Tmp) (s : Sub) (lt : List Tmp) : Prop where
  imp : ∀ t ∈ lt, ∀ z ∈ t.imposs, ∃ x, ap s x = .tmp t.reg ∧ Cf lt0 x z
  cover : ∀ t ∈ lt, ∀ x, ap s x = .tmp t.reg → ∀ y, Wi lt0 x y → ap s y ∈ t.wish.map (ap s)
  sound : ∀ t ∈ lt, ∀ z ∈ t.wish, ∃ x, ap s x = .tmp t.reg ∧ Wi lt0 x z

/-- The wishes of a temporary have been considered. -/
def Done (s : Sub) (t : Nat) (im : List Reg) (y : Reg) : Prop :=
  ap s y = .tmp t ∨ ap s y ∈ im.map (ap s) ∨ (ap s y).isVar = false

/-- The wishes of the entries which have been considered. -/
structure OInv (lt0 : List Tmp) (s : Sub) (out : Ents) : Prop where
  imp : ∀ e ∈ out, ∀ z ∈ e.2, ∃ x, ap s x = .tmp e.1 ∧ Cf lt0 x z
  done : ∀ e ∈ out, ∀ x, ap s x = .tmp e.1 → ∀ y, Wi lt0 x y → Done s e.1 e.2 y

/-- The wishes of the temporary being considered. -/
structure CInv (lt0 : List Tmp) (s : Sub) (t : Nat) (im wish : List Reg) : Prop where
  imp : ∀ z ∈ im, ∃ x, ap s x = .tmp t ∧ Cf lt0 x z
  cover : ∀ x, ap s x = .tmp t → ∀ y, Wi lt0 x y →
    ap s y ∈ wish.map (ap s) ∨ Done s t im y
  sound : ∀ z ∈ wish, ∃ x, ap s x = .tmp t ∧ Wi lt0 x z

/-- A binding which does not touch the class of `u`. -/
theorem class_bind {s : Sub} {n u : Nat} {r x : Reg} (hn : u ≠ n) (hr : r ≠ .tmp u) :
    ap (bind s n r) x = .tmp u ↔ ap s x = .tmp u := by
  rw [ap_bind, sub1]
  split
  next e =>
    rw [e]
    constructor
    · intro h; exact absurd h hr
    · intro h; cases h; exact absurd rfl hn
  next => exact Iff.rfl

theorem Done.bind {s : Sub} {n u : Nat} {r y : Reg} {im : List Reg} (hn : u ≠ n)
    (hr : r ≠ .tmp u) (h : Done s u im y) : Done (bind s n r) u im y := by
  rcases h with h | h | h
  · exact .inl ((class_bind hn hr).2 h)
  · right; left; rw [ap_bind]; exact mem_map_bind h
  · right; right
    rw [ap_bind, sub1_ne]
    · exact h
    · intro e; rw [e] at h; simp [Reg.isVar] at h

theorem WInv.bind {s : Sub} {n : Nat} {r : Reg} {lt : List Tmp} (h : WInv lt0 s lt)
    (hn : ∀ t ∈ lt, t.reg ≠ n) (hr : ∀ t ∈ lt, r ≠ .tmp t.reg) :
    WInv lt0 (bind s n r) lt := by
  refine ⟨?_, ?_, ?_⟩
  · intro t ht z hz
    obtain ⟨x, h1, h2⟩ := h.imp t ht z hz
    exact ⟨x, (class_bind (hn t ht) (hr t ht)).2 h1, h2⟩
  · intro t ht x hx y hy
    rw [ap_bind]
    exact mem_map_bind (h.cover t ht x ((class_bind (hn t ht) (hr t ht)).1 hx) y hy)
  · intro t ht z hz
    obtain ⟨x, h1, h2⟩ := h.sound t ht z hz
    exact ⟨x, (class_bind (hn t ht) (hr t ht)).2 h1, h2⟩

theorem OInv.bind {s : Sub} {n : Nat} {r : Reg} {out : Ents} (h : OInv lt0 s out)
    (hn : ∀ t ∈ out, t.1 ≠ n) (hr : ∀ t ∈ out, r ≠ .tmp t.1) :
    OInv lt0 (bind s n r) out := by
  refine ⟨?_, ?_⟩
  · intro t ht z hz
    obtain ⟨x, h1, h2⟩ := h.imp t ht z hz
    exact ⟨x, (class_bind (hn t ht) (hr t ht)).2 h1, h2⟩
  · intro t ht x hx y hy
    exact (h.done t ht x ((class_bind (hn t ht) (hr t ht)).1 hx) y hy).bind (hn t ht) (hr t ht)

theorem removeTmp_some {s : Sub} {lt : List Tmp} {x : Reg} {n : Nat}
    (hx : ap s x = .tmp n) (hu : ∀ t ∈ lt, s t.reg = .tmp t.reg) (hk : n ∈ lt.map (·.reg)) :
    ∃ t lt1, removeTmp s lt x = some (t, lt1) ∧ t.reg = n ∧ lt.Perm (t :: lt1) := by
  induction lt with
  | nil => simp at hk
  | cons t lt ih =>
    simp only [removeTmp]
    have hut := hu t (List.mem_cons_self ..)
    split
    next e =>
      refine ⟨t, lt, rfl, ?_, .refl _⟩
      rw [hx] at e
      simp only [ap, hut, Reg.tmp.injEq] at e
      exact e.symm
    next e =>
      have hk' : n ∈ lt.map (·.reg) := by
        simp only [List.map_cons, List.mem_cons] at hk
        rcases hk with hk | hk
        · exfalso
          apply e
          rw [hx]
          simp only [ap, hut, hk]
        · exact hk
      obtain ⟨t', lt1, h1, h2, h3⟩ := ih (fun t ht => hu t (List.mem_cons_of_mem _ ht)) hk'
      refine ⟨t', t :: lt1, ?_, h2, ?_⟩
      · rw [h1]; rfl
      · exact (h3.cons t).trans (.swap t' t lt1)

/-- The entries of a list of temporaries. -/
def ents (lt : List Tmp) : Ents := lt.map (fun t => (t.reg, t.imposs))

theorem mem_ents {lt : List Tmp} {t : Tmp} (h : t ∈ lt) : (t.reg, t.imposs) ∈ ents lt :=
  List.mem_map.2 ⟨t, h, rfl⟩

theorem setUnion_sub_map {s : Sub} {l1 l2 : List Reg} {z : Reg}
    (h : z ∈ l1.map (ap s) ∨ z ∈ l2.map (ap s)) : z ∈ (setUnion s l1 l2).map (ap s) :=
  mem_setUnion.2 h

theorem collapse_spec (hw : WSym lt0) (s : Sub) (wish im : List Reg)
    (lt : List Tmp) (t : Nat) (out : Ents)
    (hP : PInv lt0 s ((t, im) :: (ents lt ++ out))) (hW : WInv lt0 s lt)
    (hO : OInv lt0 s out) (hC : CInv lt0 s t im wish) :
    ∃ wish1 im1 lt1 s1, collapseTmps s wish im lt t = some (wish1, im1, lt1, s1) ∧
      lt1.length ≤ lt.length ∧
      PInv lt0 s1 ((t, im1) :: (ents lt1 ++ out)) ∧ WInv lt0 s1 lt1 ∧ OInv lt0 s1 out ∧
      CInv lt0 s1 t im1 [] ∧ (∀ x ∈ wish1, (ap s1 x).isVar = false) := by
  fun_induction collapseTmps s wish im lt t with
  | case1 s im lt => exact ⟨[], im, lt, s, rfl, Nat.le_refl _, hP, hW, hO, hC, by simp⟩
  | case2 s im lt x wish h ih =>
    refine ih hP hW hO ⟨hC.imp, ?_, fun z hz => hC.sound z (List.mem_cons_of_mem _ hz)⟩
    intro y hy z hz
    have ht : ap s (.tmp t) = .tmp t := hP.unb (t, im) (List.mem_cons_self ..)
    rcases hC.cover y hy z hz with h' | h'
    · simp only [List.map_cons, List.mem_cons] at h'
      rcases h' with h' | h'
      · right
        rw [setElt_iff] at h
        rcases h with h | h
        · exact .inl (by rw [h', h, ht])
        · exact .inr (.inl (by rw [h']; exact h))
      · exact .inl h'
    · exact .inr h'
  | case3 s im lt x wish h k hk ih =>
    have hC' : CInv lt0 s t im wish := by
      refine ⟨hC.imp, ?_, fun z hz => hC.sound z (List.mem_cons_of_mem _ hz)⟩
      intro y hy z hz
      rcases hC.cover y hy z hz with h' | h'
      · simp only [List.map_cons, List.mem_cons] at h'
        rcases h' with h' | h'
        · right; right; right; rw [h', hk]; rfl
        · exact .inl h'
      · exact .inr h'
    obtain ⟨w1, i1, l1, s1, e, hl, h1, h2, h3, h4, h5⟩ := ih hP hW hO hC'
    refine ⟨x :: w1, i1, l1, s1, by rw [e]; rfl, hl, h1, h2, h3, h4, ?_⟩
    have hmono : (ap s1 x).isVar = false := by
      -- integers stay integers
      have : ∀ (s : Sub) (wish im : List Reg) (lt : List Tmp) (t : Nat) r, 
          collapseTmps s wish im lt t = some r → ∀ x k, ap s x = .arg k → ap r.2.2.2 x = .arg k := by
        intro s wish im lt t
        fun_induction collapseTmps s wish im lt t with
        | case1 => intro r e x k hx; cases e; exact hx
        | case2 _ _ _ _ _ _ ih => exact ih
        | case3 s im lt y wish h k hk ih =>
          intro r e x k hx
          cases hc : collapseTmps s wish im lt t with
          | none => simp [hc] at e
          | some r' =>
            rw [hc] at e
            cases e
            exact ih r' hc x k hx
        | case4 => intro r e; cases e
        | case5 s im lt y wish h n hn t1 lt1 hr ih =>
          intro r e x k hx
          refine ih r e x k ?_
          rw [ap_bind, hx]; simp [sub1]
      rw [this s wish im lt t _ e x k hk]; rfl
    intro y hy
    rcases List.mem_cons.1 hy with rfl | hy
    · exact hmono
    · exact h5 y hy
  | case4 s im lt x wish h n hn hr =>
    exfalso
    have ht : ap s (.tmp t) = .tmp t := hP.unb (t, im) (List.mem_cons_self ..)
    rw [setElt_iff, hn, ht] at h
    -- the temporary has an entry
    obtain ⟨z, hz, hwz⟩ := hC.sound x (List.mem_cons_self ..)
    obtain ⟨m, rfl, hwm⟩ := hwz
    cases x with
    | arg k => simp [ap] at hn
    | tmp q =>
      have hq := hw m q hwm
      have hkey : Key lt0 q := by obtain ⟨e, he, h1, _⟩ := hq; exact ⟨e, he, h1⟩
      have hmem := hP.all q hkey n hn
      simp only [List.map_cons, List.map_append, List.mem_cons, List.mem_append] at hmem
      rcases hmem with rfl | hmem | hmem
      · exact h (.inl rfl)
      · have hu : ∀ t ∈ lt, s t.reg = .tmp t.reg := fun t' ht' =>
          hP.unb (t'.reg, t'.imposs)
            (List.mem_cons_of_mem _ (List.mem_append_left _ (mem_ents ht')))
        have hk : n ∈ lt.map (·.reg) := by
          simpa [ents, List.map_map, Function.comp_def] using hmem
        obtain ⟨t', lt1, h1, _⟩ := removeTmp_some hn hu hk
        rw [h1] at hr; cases hr
      · obtain ⟨e, he, he1⟩ := List.mem_map.1 hmem
        -- it has been considered before
        have hdn := hO.done e he (.tmp q) (by rw [hn, ← he1]) (.tmp m) ⟨q, rfl, hq⟩
        rcases hdn with hdn | hdn | hdn
        · rw [hz, he1] at hdn
          cases hdn
          exact h (.inl rfl)
        · rw [hz] at hdn
          obtain ⟨y, hy, hyt⟩ := List.mem_map.1 hdn
          obtain ⟨v, hv1, hv2⟩ := hO.imp e he y hy
          have := hP.cover (t, im) (List.mem_cons_self ..) y hyt v hv2.symm
          rw [hv1, he1] at this
          exact h (.inr this)
        · rw [hz] at hdn; simp [Reg.isVar] at hdn
  | case5 s im lt x wish h n hn t1 lt1 hr ih =>
    have ht : ap s (.tmp t) = .tmp t := hP.unb (t, im) (List.mem_cons_self ..)
    rw [setElt_iff, hn, ht] at h
    simp only [not_or] at h
    have hu : ∀ t ∈ lt, s t.reg = .tmp t.reg := fun t' ht' =>
      hP.unb (t'.reg, t'.imposs)
        (List.mem_cons_of_mem _ (List.mem_append_left _ (mem_ents ht')))
    have hkk : n ∈ lt.map (·.reg) := by
      have : ∀ (lt : List Tmp) (lt1 : List Tmp), (∀ t ∈ lt, s t.reg = .tmp t.reg) →
          removeTmp s lt x = some (t1, lt1) → n ∈ lt.map (·.reg) := by
        intro lt
        induction lt with
        | nil => intro lt1 _ h; simp [removeTmp] at h
        | cons a l ih =>
          intro lt1 hu h
          simp only [removeTmp] at h
          have hua := hu a (List.mem_cons_self ..)
          split at h
          next e =>
            rw [hn] at e
            simp only [ap, hua, Reg.tmp.injEq] at e
            simp [e]
          next e =>
            cases hr : removeTmp s l x with
            | none => simp [hr] at h
            | some p =>
              obtain ⟨p1, p2⟩ := p
              simp only [hr, Option.map_some, Option.some.injEq, Prod.mk.injEq] at h
              have := ih p2 (fun t ht => hu t (List.mem_cons_of_mem _ ht)) (by rw [hr, h.1])
              simp only [List.map_cons, List.mem_cons]
              exact .inr this
      exact this lt lt1 hu hr
    obtain ⟨t', lt1', hr', hreg, hperm⟩ := removeTmp_some hn hu hkk
    rw [hr] at hr'
    simp only [Option.some.injEq, Prod.mk.injEq] at hr'
    obtain ⟨rfl, rfl⟩ := hr'
    have ht1 : t1 ∈ lt := hperm.mem_iff.2 (List.mem_cons_self ..)
    have hsub : ∀ a ∈ lt1, a ∈ lt := fun a ha => hperm.mem_iff.2 (List.mem_cons_of_mem _ ha)
    have hE : ((t, im) :: (ents lt ++ out)).Perm ((t, im) :: (n, t1.imposs) :: (ents lt1 ++ out)) := by
      refine List.Perm.cons _ ?_
      have := (hperm.map (fun t : Tmp => (t.reg, t.imposs))).append_right out
      rw [← hreg]
      simpa [ents] using this
    have hP' := hP.perm hE
    have hnd := hP'.nodup
    simp only [List.map_cons, List.nodup_cons, List.mem_cons, not_or, List.map_append,
      List.mem_append] at hnd
    obtain ⟨⟨htn, htl, hto⟩, ⟨hnl, hno⟩, _⟩ := hnd
    have keyl : ∀ a ∈ lt1, a.reg ∈ (ents lt1).map (·.1) := by
      intro a ha
      exact List.mem_map.2 ⟨_, mem_ents ha, rfl⟩
    have hnl' : ∀ a ∈ lt1, a.reg ≠ n := fun a ha e => hnl (e ▸ keyl a ha)
    have htl' : ∀ a ∈ lt1, Reg.tmp t ≠ .tmp a.reg := fun a ha e => by
      cases e; exact htl (keyl a ha)
    have hno' : ∀ a ∈ out, a.1 ≠ n := fun a ha e => hno (e ▸ List.mem_map.2 ⟨a, ha, rfl⟩)
    have hto' : ∀ a ∈ out, Reg.tmp t ≠ .tmp a.1 := fun a ha e => by
      cases e; exact hto (List.mem_map.2 ⟨a, ha, rfl⟩)
    rw [ht] at ih
    have hm := hP'.merge h.2
    have hW1 : WInv lt0 s lt1 := ⟨fun a ha => hW.imp a (hsub a ha),
      fun a ha => hW.cover a (hsub a ha), fun a ha => hW.sound a (hsub a ha)⟩
    -- the class of `t` after the binding
    have hcl : ∀ y, ap s y = .tmp t ∨ ap s y = .tmp n → ap (bind s n (.tmp t)) y = .tmp t := by
      rintro y (e | e)
      · rw [ap_bind, e]; simp [sub1]
      · rw [ap_bind, e, sub1_eq]
    have hC' : CInv lt0 (bind s n (.tmp t)) t (setUnion s im t1.imposs)
        (setUnion s wish t1.wish) := by
      refine ⟨?_, ?_, ?_⟩
      · intro z hz
        rcases setUnion_sub hz with hz | hz
        · obtain ⟨y, h1, h2⟩ := hC.imp z hz
          exact ⟨y, hcl y (.inl h1), h2⟩
        · obtain ⟨y, h1, h2⟩ := hW.imp t1 ht1 z hz
          exact ⟨y, hcl y (.inr (by rw [h1, hreg])), h2⟩
      · intro y hy z hz
        rw [ap_bind] at hy
        unfold sub1 at hy
        split at hy
        next e =>
          have := hW.cover t1 ht1 y (by rw [e, hreg]) z hz
          left
          rw [ap_bind]
          exact mem_map_bind (mem_setUnion.2 (.inr this))
        next e =>
          rcases hC.cover y hy z hz with h' | h'
          · simp only [List.map_cons, List.mem_cons] at h'
            rcases h' with h' | h'
            · right; left
              exact hcl z (.inr (by rw [h', hn]))
            · left
              rw [ap_bind]
              exact mem_map_bind (mem_setUnion.2 (.inl h'))
          · right
            rcases h' with h' | h' | h'
            · exact .inl (hcl z (.inl h'))
            · right; left
              rw [ap_bind]
              exact mem_map_bind (mem_setUnion.2 (.inl h'))
            · right; right
              rw [ap_bind, sub1_ne]
              · exact h'
              · intro e'; rw [e'] at h'; simp [Reg.isVar] at h'
      · intro z hz
        rcases setUnion_sub hz with hz | hz
        · obtain ⟨y, h1, h2⟩ := hC.sound z (List.mem_cons_of_mem _ hz)
          exact ⟨y, hcl y (.inl h1), h2⟩
        · obtain ⟨y, h1, h2⟩ := hW.sound t1 ht1 z hz
          exact ⟨y, hcl y (.inr (by rw [h1, hreg])), h2⟩
    obtain ⟨w1, i1, l1, s1, e, hl, h1, h2, h3, h4, h5⟩ :=
      ih hm (hW1.bind hnl' htl') (hO.bind hno' hto') hC'
    refine ⟨w1, i1, l1, s1, ?_, ?_, h1, h2, h3, h4, h5⟩
    · rw [ht]; exact e
    · have := hperm.length_eq
      simp only [List.length_cons] at this
      omega

theorem assignWishes_spec (hw : WSym lt0) (fuel : Nat) (s : Sub)
    (lt : List Tmp) (out : Ents) (hf : lt.length ≤ fuel)
    (hP : PInv lt0 s (ents lt ++ out)) (hW : WInv lt0 s lt) (hO : OInv lt0 s out) :
    ∃ out2 s2, assignWishes fuel s lt = some (out2, s2) ∧ PInv lt0 s2 (out2 ++ out) := by
  induction fuel generalizing s lt out with
  | zero =>
    cases lt with
    | nil => exact ⟨[], s, by simp [assignWishes], hP⟩
    | cons t lt => simp at hf
  | succ fuel ih =>
    cases lt with
    | nil => exact ⟨[], s, by simp [assignWishes], hP⟩
    | cons t lt =>
      simp only [List.length_cons] at hf
      have hC : CInv lt0 s t.reg t.imposs t.wish :=
        ⟨hW.imp t (List.mem_cons_self ..),
          fun x hx y hy => .inl (hW.cover t (List.mem_cons_self ..) x hx y hy),
          hW.sound t (List.mem_cons_self ..)⟩
      have hW1 : WInv lt0 s lt := ⟨fun a ha => hW.imp a (List.mem_cons_of_mem _ ha),
        fun a ha => hW.cover a (List.mem_cons_of_mem _ ha),
        fun a ha => hW.sound a (List.mem_cons_of_mem _ ha)⟩
      obtain ⟨w1, i1, l1, s1, e, hl, h1, h2, h3, h4, h5⟩ :=
        collapse_spec hw s t.wish t.imposs lt t.reg out hP hW1 hO hC
      simp only [assignWishes, e]
      have hu : s1 t.reg = .tmp t.reg := h1.unb (t.reg, i1) (List.mem_cons_self ..)
      have hnd := h1.nodup
      simp only [List.map_cons, List.nodup_cons, List.map_append, List.mem_append,
        not_or] at hnd
      obtain ⟨⟨hnl, hno⟩, _⟩ := hnd
      cases hdf : setDiff s1 w1 i1 with
      | nil =>
        have e2 : tryAWish s1 t.reg i1 w1 = s1 := by simp [tryAWish, hdf]
        rw [e2]
        have hO1 : OInv lt0 s1 ((t.reg, i1) :: out) := by
          refine ⟨?_, ?_⟩
          · intro a ha
            rcases List.mem_cons.1 ha with rfl | ha
            · exact h4.imp
            · exact h3.imp a ha
          · intro a ha
            rcases List.mem_cons.1 ha with rfl | ha
            · intro x hx y hy
              rcases h4.cover x hx y hy with h' | h'
              · simp at h'
              · exact h'
            · exact h3.done a ha
        obtain ⟨o2, s2, e3, hp2⟩ := ih s1 l1 ((t.reg, i1) :: out) (by omega)
          (h1.perm List.perm_middle.symm) h2 hO1
        rw [e3]
        have : (ap s1 (.tmp t.reg)).isVar = true := by simp [ap, hu, Reg.isVar]
        simp only [this, if_true]
        exact ⟨(t.reg, i1) :: o2, s2, rfl, hp2.perm List.perm_middle⟩
      | cons x l =>
        have hx : x ∈ setDiff s1 w1 i1 := by rw [hdf]; exact List.mem_cons_self ..
        obtain ⟨hx1, hx2⟩ := mem_setDiff.1 hx
        have hxv := h5 x hx1
        cases hax : ap s1 x with
        | tmp m => rw [hax] at hxv; simp [Reg.isVar] at hxv
        | arg k =>
          have e2 : tryAWish s1 t.reg i1 w1 = bind s1 t.reg (.arg k) := by
            simp [tryAWish, hdf, hax]
          rw [e2]
          rw [hax] at hx2
          have hnl' : ∀ a ∈ l1, a.reg ≠ t.reg := fun a ha e' =>
            hnl (e' ▸ List.mem_map.2 ⟨_, mem_ents ha, rfl⟩)
          have hno' : ∀ a ∈ out, a.1 ≠ t.reg := fun a ha e' =>
            hno (e' ▸ List.mem_map.2 ⟨a, ha, rfl⟩)
          obtain ⟨o2, s2, e3, hp2⟩ := ih _ l1 out (by omega) (h1.bind_arg hx2)
            (h2.bind hnl' (fun a _ => by simp)) (h3.bind hno' (fun a _ => by simp))
          rw [e3]
          have : (ap (bind s1 t.reg (.arg k)) (.tmp t.reg)).isVar = false := by
            simp [ap, bind, hu, Reg.isVar]
          simp only [this]
          exact ⟨o2, s2, rfl, hp2⟩

/-! ### The whole assignment -/

theorem Cf_of_conf {x y : Reg} (h : Conf lt0 x y) (hv : x.isVar = true ∨ y.isVar = true) :
    Cf lt0 x y := by
  rcases hv with hv | hv
  · cases x with
    | arg k => simp [Reg.isVar] at hv
    | tmp m => exact ⟨m, .inl ⟨rfl, h.1 m rfl⟩⟩
  · cases y with
    | arg k => simp [Reg.isVar] at hv
    | tmp m => exact ⟨m, .inr ⟨rfl, h.2 m rfl⟩⟩

theorem mem_entry {t u : Tmp} (hd : NodupKeys lt0) (ht : t ∈ lt0) (hu : u ∈ lt0)
    (e : t.reg = u.reg) : t = u := by
  unfold NodupKeys at hd
  induction lt0 with
  | nil => cases ht
  | cons a l ih =>
    simp only [List.map_cons, List.nodup_cons] at hd
    rcases List.mem_cons.1 ht with h1 | h1 <;> rcases List.mem_cons.1 hu with h2 | h2
    · rw [h1, h2]
    · exact absurd (List.mem_map.2 ⟨u, h2, by rw [← e, h1]⟩) hd.1
    · exact absurd (List.mem_map.2 ⟨t, h1, by rw [e, h2]⟩) hd.1
    · exact ih hd.2 h1 h2

/-- The invariant at the start. -/
theorem PInv.start (hd : DInv lt0) (g : Tmp → List Reg) (hg : ∀ t ∈ lt0, ∀ z ∈ t.imposs, z ∈ g t) :
    PInv lt0 .init (lt0.map (fun t => (t.reg, g t))) := by
  refine ⟨?_, ?_, ?_, ?_, ?_⟩
  · intro x y h; simpa using h.ne hd
  · intro e he x hx y hxy
    obtain ⟨t, ht, rfl⟩ := List.mem_map.1 he
    rw [ap_init] at hx
    dsimp only at hx
    subst hx
    obtain ⟨u, hu, e1, e2⟩ := hxy.imp hd
    have := mem_entry hd.nodup hu ht e1
    subst this
    exact List.mem_map.2 ⟨y, hg u hu y e2, rfl⟩
  · have := hd.nodup
    unfold NodupKeys at this
    simpa [Function.comp_def] using this
  · intro e he; rfl
  · intro n hn t ht
    obtain ⟨u, hu, rfl⟩ := hn
    cases ht
    exact List.mem_map.2 ⟨_, List.mem_map.2 ⟨u, hu, rfl⟩, rfl⟩

theorem WInv.start (hd : DInv lt0) : WInv lt0 .init lt0 := by
  refine ⟨?_, ?_, ?_⟩
  · intro t ht z hz
    exact ⟨.tmp t.reg, rfl, t.reg, .inl ⟨rfl, t, ht, rfl, hz⟩⟩
  · intro t ht x hx y hy
    rw [ap_init] at hx
    subst hx
    obtain ⟨m, e, u, hu, e1, e2⟩ := hy
    cases e
    have := mem_entry hd.nodup hu ht e1
    subst this
    exact List.mem_map.2 ⟨y, e2, rfl⟩
  · intro t ht z hz
    exact ⟨.tmp t.reg, rfl, t.reg, rfl, t, ht, rfl, hz⟩

theorem noWish_eq (opt : Nat) (lt : List Tmp) :
    noWish opt lt = lt.map (fun t =>
      (t.reg, if opt = 0 then setUnion .init t.imposs t.wish else t.imposs)) := by
  induction lt with
  | nil => rfl
  | cons t lt ih => simp [noWish, ih]

/-- The assignment succeeds, separates the incompatible registers, and gives an integer to each
    temporary of the dictionary. -/
theorem assignLstTmp_spec (opt : Nat) (hd : DInv lt0) (hw : WSym lt0) :
    ∃ s, assignLstTmp opt lt0 = some s ∧ Sep lt0 s ∧
      ∀ n, Key lt0 n → ∃ k, s n = .arg k := by
  have fin : ∀ (s : Sub), (∀ x y, Cf lt0 x y → ap s x ≠ ap s y) → Sep lt0 s := by
    intro s h x y hxy hc
    by_cases hv : x.isVar = true ∨ y.isVar = true
    · exact h x y (Cf_of_conf hc hv)
    · cases x <;> cases y <;> simp [Reg.isVar] at hv
      simpa [ap] using hxy
  unfold assignLstTmp
  split
  · have hP : PInv lt0 .init (ents lt0 ++ []) := by
      rw [List.append_nil]; exact PInv.start hd (·.imposs) (fun _ _ _ h => h)
    obtain ⟨o, s, e, hp⟩ := assignWishes_spec hw lt0.length .init lt0 [] (Nat.le_refl _)
      hP (WInv.start hd) ⟨by simp, by simp⟩
    rw [e]
    rw [List.append_nil] at hp
    obtain ⟨h1, h2⟩ := assignValues_spec hp
    exact ⟨_, rfl, fin _ h1, h2⟩
  · have hP := PInv.start hd
      (fun t => if opt = 0 then setUnion .init t.imposs t.wish else t.imposs) (by
        intro t _ z hz
        split
        · exact mem_setUnion_init.2 (.inl hz)
        · exact hz)
    rw [noWish_eq]
    obtain ⟨h1, h2⟩ := assignValues_spec hP
    exact ⟨_, rfl, fin _ h1, h2⟩

end Gp.RegAlloc
