import Verif.ListBip.Member
namespace Gp.ListBip
open Gp.Heap Gp.Unify

variable {ι : Type} {N : Adr} {s s' s'' s0 : St} {E : Env}

theorem mem_zero {x l : T} : Mem 0 x l ↔ ∃ t, l = .lst x t := by
  constructor
  · intro h; cases h; exact ⟨_, rfl⟩
  · rintro ⟨t, rfl⟩; exact .base

theorem mem_succ {k : Nat} {x l : T} : Mem (k + 1) x l ↔ ∃ h t, l = .lst h t ∧ Mem k x t := by
  constructor
  · intro h; cases h with
    | step h => exact ⟨_, _, rfl, h⟩
  · rintro ⟨h, t, rfl, h'⟩; exact .step h'

theorem Mem.list {k : Nat} {l x : T} (h : Mem k x l) : ∃ h t, l = .lst h t := by
  cases h with
  | base => exact ⟨_, _, rfl⟩
  | step _ => exact ⟨_, _, rfl⟩

/-! memberchk/2 -/

/-- The derivations of member/2 after `k` recursive calls. -/
def BM (s : St) (x l : Cell) (k : Nat) : Nat → (Adr → T) → Prop :=
  fun j ρ => ∃ i, j = k + i ∧ Mem i (eval s.mem ρ x) (eval s.mem ρ l)

theorem memberchk_res {A : Nat → (Adr → T) → Prop} {x l : Cell} {k f : Nat} {o : Out}
    (hsim : Sim N s s A (BM s x l k)) (h1 : ValidWord N s.lssa s.mem x) (h2 : ValidWord N s.lssa s.mem l)
    (hg : ∀ as v, Partial s.mem l as v → Global s.lssa x)
    (h : memberchkLoop E s x f s l = some o) :
    ∃ r s', o = .ret r s' none ∧ (r = true → ∃ k, (∀ j, j < k → NoAnswer N s (A j)) ∧ Answer N s (A k) s') ∧
      (r = false → ∀ j, NoAnswer N s (A j)) := by
  induction f generalizing l k with
  | zero => simp [memberchkLoop] at h
  | succ f ih =>
    rw [memberchkLoop] at h
    split at h
    · simp at h
    · next hgl =>
      simp only [Option.some.injEq] at h
      subst h
      refine ⟨false, s, rfl, by simp, fun _ j => hsim.none ?_⟩
      rintro ρ hρ ⟨i, _, ha⟩
      exact getList_none hsim.ok h2 hgl ρ hρ ha.list
    next s1 S hgl =>
    split at h
    · simp at h
    · next s2 S1 hv =>
      split at h
      · simp at h
      next s3 S2 hx =>
      simp only [Option.some.injEq] at h
      subst h
      obtain ⟨t, hx⟩ := unifyVoid1_var.mp hx
      refine ⟨true, s3, rfl, fun _ => ⟨k, ?_, ?_⟩, by simp⟩
      · intro j hj
        refine hsim.none ?_
        rintro ρ _ ⟨i, hi, _⟩; omega
      · have hop : OpenedV N s l x s3 t := by
          obtain ⟨v, d1, d2, d3, d4⟩ := deref_ok hsim.ok h2
          cases v with
          | ref a => exact openValV hsim.ok h2 h1 (hg [] a (.var d1)) hgl hv hx
          | lst b =>
            unfold getList at hgl
            rw [d1] at hgl
            simp only [Option.some.injEq, Prod.mk.injEq] at hgl
            obtain ⟨rfl, rfl⟩ := hgl
            simp only [unifyValue] at hv
            split at hv
            · simp at hv
            next r' s' hun =>
            simp only [Option.some.injEq, Prod.mk.injEq] at hv
            obtain ⟨rfl, rfl, rfl⟩ := hv
            simp only [unifyVariable, Option.some.injEq, Prod.mk.injEq] at hx
            obtain ⟨rfl, _, rfl⟩ := hx
            obtain ⟨q1, q2⟩ := openedV_read hsim.ok h1 d2 d4 hun
            rw [q2]; exact q1
          | _ => unfold getList at hgl; rw [d1] at hgl; simp at hgl
        refine hsim.step hop.step ?_
        intro ρ hρ
        constructor
        · rintro ⟨i, hi, ha⟩
          have : i = 0 := by omega
          subst this
          exact mem_zero.mp ha
        · intro h; exact ⟨0, rfl, mem_zero.mpr h⟩
    · next s2 S1 hv =>
      split at h
      · simp at h
      next s3 S2 l' hx =>
      obtain ⟨hno, b, d1, rfl, d2, d4⟩ := openValV_none hsim.ok h2 h1 hgl hv
      simp only [unifyVariable, Option.some.injEq, Prod.mk.injEq] at hx
      obtain ⟨rfl, _, rfl⟩ := hx
      obtain ⟨c1, c2, c3, c4, c5, c6, c7, c8⟩ := lst_cells hsim.ok d2
      have hcw : copyWord (s.mem (b + 1)) = s.mem (b + 1) := by
        generalize s.mem (b + 1) = w at c5
        cases w with
        | fdv a => exact c5.elim
        | _ => rfl
      rw [hcw] at h
      refine ih (k := k + 1) (hsim.trans (Sim.refl hsim.ok ?_)) c5 (fun as v hp => hg (b :: as) v (.cons d1 hp)) h
      intro j ρ hρ
      have el : eval s.mem ρ l = .lst (ρ b) (eval s.mem ρ (s.mem (b + 1))) := by
        rw [d4 ρ hρ, c6 ρ hρ]; rfl
      constructor
      · rintro ⟨i, rfl, ha⟩
        cases i with
        | zero => exact absurd (mem_zero.mp ha) (hno ρ hρ)
        | succ i =>
          obtain ⟨y, t, q1, q2⟩ := mem_succ.mp ha
          rw [el] at q1
          simp only [T.lst.injEq] at q1
          exact ⟨i, by omega, by rw [q1.2]; exact q2⟩
      · rintro ⟨i, rfl, ha⟩
        exact ⟨i + 1, by omega, mem_succ.mpr ⟨_, _, el, ha⟩⟩

/-! member/2 -/

/-- As `TailFree`, for the list `[h|t]`. -/
def TF3 (m : Heap.Mem) (x h t : Cell) : Prop :=
  ∀ as v, Partial m t as v → (∀ b, Kid m x b → ¬ From m v b) ∧ (∀ b, Kid m h b → ¬ From m v b) ∧ ∀ a ∈ as, ¬ From m v a

theorem TF3.free {m : Heap.Mem} {x h t : Cell} (hf : TF3 m x h t) : TailFree m x t :=
  fun as v hp => ⟨(hf as v hp).1, (hf as v hp).2.2⟩

theorem partial_congr {m : Heap.Mem} {t t' : Cell} (h : deref m t = deref m t') {as : List Adr} {v : Adr}
    (hp : Partial m t as v) : Partial m t' as v := by
  cases hp with
  | var hd => exact .var (h ▸ hd)
  | cons hd hp => exact .cons (h ▸ hd) hp

theorem Grow.kid {lssa : Adr} {m m' : Heap.Mem} (hg : Grow m m') {w : Cell} (hw : ValidWord N lssa m w) {b : Adr}
    (h : Kid m' w b) : Kid m w b := by
  cases w with
  | stc a =>
    obtain ⟨f, n, h1, h2⟩ := h
    obtain ⟨g, k, e, hk, _⟩ := hw
    have := hg.keep a (by rw [e]; rfl) (by rw [e]; simp; intro _; omega)
    rw [this] at h1
    exact ⟨f, n, h1, h2⟩
  | _ => exact h

/-- What reaches the new variable reaches the variable which has been bound. -/
theorem from_new (hok : Ok N s) {a : Adr} {x : Cell} (hw : Wr s a x s') (hg : Grow s.mem s'.mem) {c : Adr}
    (h : From s'.mem (s.h + 1) c) (hc : c < N) (ht : isTerm (s.mem c) = true) : From s.mem a c := by
  have htop := hok.top
  have hlt := hw.lt
  induction h with
  | self => rw [hok.free (s.h + 1) (by omega) hlt] at ht; simp [isTerm] at ht
  | @step d c hch hf ih =>
    by_cases hda : d = a
    · subst hda; exact .self
    · have hd : s'.mem d = s.mem d := by
        have n1 : d ≠ s.h := by rintro rfl; rw [hok.free s.h (by omega) (by omega)] at ht; simp [isTerm] at ht
        have n2 : d ≠ s.h + 1 := by rintro rfl; rw [hok.free (s.h + 1) (by omega) hlt] at ht; simp [isTerm] at ht
        rw [hw.mem, listMem, set_other _ _ _ _ hda, set_other _ _ _ _ n2, set_other _ _ _ _ n1]
      obtain ⟨c1, c2⟩ := hch
      rw [hd] at c1 c2
      have hv := (hok.wf d hc ht).1
      have hk := hg.kid hv c2
      obtain ⟨k1, k2, _⟩ := kid_valid hv hk
      exact .step ⟨c1, hk⟩ (ih k1 k2)

theorem from_self {m : Heap.Mem} {a b : Adr} (ha : m a = .ref a) (h : From m b a) : b = a := by
  cases h with
  | self => rfl
  | step hc _ => exact absurd ha hc.1

/-- The condition on the tail is kept when the list is opened. -/
theorem tf_open (hok : Ok N s) {x l h t : Cell} {s1 s2 s3 : St} {S S1 S2 : Sreg} (hx : ValidWord N s.lssa s.mem x)
    (hl : ValidWord N s.lssa s.mem l) (hf : TailFree s.mem x l)
    (h1 : getList s l = some (some (s1, S))) (h2 : unifyVariable s1 S = some (s2, S1, h))
    (h3 : unifyVariable s2 S1 = some (s3, S2, t)) : TF3 s3.mem x h t := by
  obtain ⟨v, d1, d2, d3, d4⟩ := deref_ok hok hl
  have hop := openVV hok hl h1 h2 h3
  cases v with
  | ref a =>
    obtain ⟨_, rfl, rfl, a', ha', hwr⟩ := openVV_uv hok hl ⟨a, d1⟩ h1 h2 h3
    rw [d1] at ha'
    simp only [Option.some.injEq, Cell.ref.injEq] at ha'
    subst ha'
    have hself := hwr.tail hok (d3 a rfl)
    have hlt := hwr.lt
    have hh : s3.mem s.h = .ref s.h := by
      have := lst_ne (d3 a rfl) (hok.free s.h (by omega) (by omega))
      rw [hwr.mem, listMem, set_other _ _ _ _ (fun h => this h.symm), set_other _ _ _ _ (by omega), set_same]
    have hd : deref s3.mem (.ref (s.h + 1)) = some (.ref (s.h + 1)) := by rw [deref_ref, if_pos hself]
    intro as v hp
    cases hp with
    | var hd' =>
      rw [hd] at hd'
      simp only [Option.some.injEq, Cell.ref.injEq] at hd'
      subst hd'
      refine ⟨?_, ?_, by simp⟩
      · intro b hb hfr
        have hb' := hop.step.grow.kid hx hb
        obtain ⟨k1, k2, _⟩ := kid_valid hx hb'
        exact (hf [] a (.var d1)).1 b hb' (from_new hok hwr hop.step.grow hfr k1 k2)
      · intro b hb hfr
        simp only [Kid] at hb
        subst hb
        have := from_self hh hfr
        omega
    | cons hd' _ => rw [hd] at hd'; simp at hd'
  | lst b =>
    unfold getList at h1
    rw [d1] at h1
    simp only [Option.some.injEq, Prod.mk.injEq] at h1
    obtain ⟨rfl, rfl⟩ := h1
    simp only [unifyVariable, Option.some.injEq, Prod.mk.injEq] at h2
    obtain ⟨rfl, rfl, rfl⟩ := h2
    simp only [unifyVariable, Option.some.injEq, Prod.mk.injEq] at h3
    obtain ⟨rfl, _, rfl⟩ := h3
    obtain ⟨c1, c2, c3, c4, c5, c6, c7, c8⟩ := lst_cells hok d2
    have cw : ∀ w, ValidWord N s.lssa s.mem w → copyWord w = w := by
      intro w hw
      cases w with
      | fdv a => exact hw.elim
      | _ => rfl
    rw [cw _ c5, cw _ c7]
    intro as v hp
    obtain ⟨f1, f2⟩ := hf (b :: as) v (.cons d1 hp)
    refine ⟨f1, ?_, fun a ha => f2 a (List.mem_cons_of_mem _ ha)⟩
    intro c hc hfr
    refine f2 b (List.mem_cons_self ..) ?_
    by_cases hs : s.mem b = .ref b
    · rw [hs] at hc; simp only [Kid] at hc; subst hc; exact hfr
    · exact .step ⟨hs, hc⟩ hfr
  | _ => unfold getList at h1; rw [d1] at h1; simp at h1

/-- A word which does not dereference to a variable is dereferenced to the same word after bindings. -/
theorem deref_keep {lssa : Adr} {m m' : Heap.Mem} (hwf : WF N lssa m) {w v : Cell} (hw : ValidWord N lssa m w)
    (hch : ∀ b, isTerm (m b) = true → m' b = m b ∨ m b = .ref b) (hv : ∀ b, v ≠ .ref b)
    (h : deref m w = some v) : deref m' w = some v := by
  have key : ∀ a, Acc (RefTo m) a → ValidWord N lssa m (.ref a) → deref m (.ref a) = some v → deref m' (.ref a) = some v := by
    intro a ha
    induction ha with
    | intro a _ ih =>
      intro hw h
      rw [deref_ref] at h
      by_cases hs : m a = .ref a
      · rw [if_pos hs] at h
        simp only [Option.some.injEq] at h
        exact absurd h.symm (hv a)
      · rw [if_neg hs] at h
        have hm : m' a = m a := (hch a hw.2).resolve_right hs
        obtain ⟨hvv, -, -⟩ := hwf a hw.1 hw.2
        rw [deref_ref, hm, if_neg hs]
        by_cases hr : ∃ b, m a = .ref b
        · obtain ⟨b, hb⟩ := hr
          have hba : b ≠ a := by rintro rfl; exact hs hb
          rw [hb] at h hvv ⊢
          exact ih b ⟨hb, hba⟩ hvv h
        · rw [deref_nonref (fun b hb => hr ⟨b, hb⟩)] at h ⊢
          exact h
  by_cases hr : ∃ a, w = .ref a
  · obtain ⟨a, rfl⟩ := hr
    exact key a (hwf a hw.1 hw.2).2.2 hw h
  · rw [deref_nonref (fun b hb => hr ⟨b, hb⟩)] at h ⊢
    exact h

/-- The tail is dereferenced to the same word before and after the unification of the element. -/
theorem tail_same (hok : Ok N s) {x h t v : Cell} {r : Bool} (hx : ValidWord N s.lssa s.mem x)
    (hh : ValidWord N s.lssa s.mem h) (ht : ValidWord N s.lssa s.mem t) (hf : TF3 s.mem x h t)
    (hu : unify false E.fd E.fuel s x h = some (r, s')) (hd : deref s'.mem t = some v) : deref s.mem t = some v := by
  obtain ⟨v0, d1, d2, d3, d4⟩ := deref_ok hok ht
  have hres := unify_res E.fuel s x h r s' rfl hok.wf hx hh hu
  have hch : ∀ b, isTerm (s.mem b) = true → s'.mem b = s.mem b ∨ s.mem b = .ref b := by
    intro b _
    by_cases h : s'.mem b = s.mem b
    · exact .inl h
    · exact .inr (hres.keeps b h).1
  by_cases hr : ∃ a, v0 = .ref a
  · obtain ⟨a, rfl⟩ := hr
    have hfa := hf [] a (.var d1)
    have hkeep := unify_not_bound hok hx hh hfa.1 hfa.2.1 hu
    have := deref_change hok.wf ht (fun b _ hb => hch b hb) d1
    rw [hd, deref_ref, hkeep, if_pos (d3 a rfl)] at this
    rw [this]; exact d1
  · have := deref_keep hok.wf ht hch (fun b hb => hr ⟨b, hb⟩) d1
    rw [hd] at this
    rw [this]; exact d1

/-- The derivations of member/2 for the list `[h|t]` after `k` recursive calls. -/
def BM3 (s : St) (x h t : Cell) (k : Nat) : Nat → (Adr → T) → Prop :=
  fun j ρ => ∃ i, j = k + i ∧ Mem i (eval s.mem ρ x) (.lst (eval s.mem ρ h) (eval s.mem ρ t))

/-- The choice points of member/2. -/
def InvM (N : Adr) (s0 : St) (A : Nat → (Adr → T) → Prop) (lo : Nat) (c : CP) : Prop :=
  ∃ A' k, lo = k + 1 ∧ (∀ j ρ, lo ≤ j → (A' j ρ ↔ A j ρ)) ∧ Sim N s0 c.st A' (BM3 c.st c.a0 c.a1 c.a2 k) ∧
    ValidWord N c.st.lssa c.st.mem c.a0 ∧ ValidWord N c.st.lssa c.st.mem c.a1 ∧
    ValidWord N c.st.lssa c.st.mem c.a2 ∧ TailFree c.st.mem c.a0 c.a2 ∧ ∃ v, deref c.st.mem c.a2 = some v ∧ varOrList v = true

theorem member_open {x h t h' t' : Cell} {k : Nat} {s1 s2 s3 : St} {S S1 S2 : Sreg} (hok : Ok N s)
    (hx : ValidWord N s.lssa s.mem x) (hh : ValidWord N s.lssa s.mem h) (ht : ValidWord N s.lssa s.mem t)
    (h1 : getList s t = some (some (s1, S))) (h2 : unifyVariable s1 S = some (s2, S1, h'))
    (h3 : unifyVariable s2 S1 = some (s3, S2, t')) :
    Sim N s s3 (fun j ρ => k + 1 ≤ j ∧ BM3 s x h t k j ρ) (BM3 s3 x h' t' (k + 1)) ∧
      ValidWord N s3.lssa s3.mem x ∧ ValidWord N s3.lssa s3.mem h' ∧ ValidWord N s3.lssa s3.mem t' := by
  have hop := openVV hok ht h1 h2 h3
  have hl := hop.step.lssa
  refine ⟨hop.step.sim ?_ ?_ ?_, by rw [hl]; exact hop.step.grow.valid hx, by rw [hl]; exact hop.vx, by rw [hl]; exact hop.vt⟩
  · rintro j ρ hρ hρ' _ ⟨i, rfl, ha⟩
    refine ⟨by omega, i + 1, by omega, mem_succ.mpr ⟨_, _, rfl, ?_⟩⟩
    rw [hop.step.grow.eval hx] at ha
    rw [hop.eq ρ hρ']; exact ha
  · rintro j ρ hρ ⟨hj, i, rfl, ha⟩
    obtain ⟨i, rfl⟩ : ∃ i', i = i' + 1 := ⟨i - 1, by omega⟩
    obtain ⟨y, a, q1, q2⟩ := mem_succ.mp ha
    simp only [T.lst.injEq] at q1
    rw [← q1.2] at q2
    exact q2.list
  · rintro j ρ ρ' hρ' hag ⟨hj, i, rfl, ha⟩
    rw [← hag.eval hx, ← hag.eval hh, ← hag.eval ht] at ha
    obtain ⟨i, rfl⟩ : ∃ i', i = i' + 1 := ⟨i - 1, by omega⟩
    obtain ⟨y, a, q1, q2⟩ := mem_succ.mp ha
    simp only [T.lst.injEq] at q1
    rw [← q1.2, hop.eq ρ' hρ'] at q2
    refine ⟨i, by omega, ?_⟩
    rw [hop.step.grow.eval hx]
    exact q2

theorem member3_good {A A' : Nat → (Adr → T) → Prop} {x h t : Cell} {f k lo : Nat} {o : Out}
    (hA : ∀ j ρ, lo ≤ j → (A' j ρ ↔ A j ρ))
    (hsim : Sim N s0 s A' (BM3 s x h t k)) (hx : ValidWord N s.lssa s.mem x)
    (hh : ValidWord N s.lssa s.mem h) (ht : ValidWord N s.lssa s.mem t) (hf : TF3 s.mem x h t) (hlo : lo ≤ k)
    (hr : member3 E f s x h t = some o) : Good N s0 A' (InvM N s0 A) lo o := by
  induction f generalizing s h t k with
  | zero => simp [member3] at hr
  | succ f ih =>
    rw [member3] at hr
    split at hr
    · simp at hr
    next ok s' hun =>
    split at hr
    · simp at hr
    next v hd' =>
    have hd := tail_same hsim.ok hx hh ht hf hun hd'
    obtain ⟨v0, d1, d2, d3, d4⟩ := deref_ok hsim.ok ht
    rw [hd] at d1
    simp only [Option.some.injEq] at d1
    subst d1
    have hiff : ∀ ρ, Model N s.mem ρ → (BM3 s x h t k k ρ ↔ eval s.mem ρ x = eval s.mem ρ h) := by
      intro ρ _
      constructor
      · rintro ⟨i, hi, ha⟩
        have : i = 0 := by omega
        subst this
        obtain ⟨t, q⟩ := mem_zero.mp ha
        simp only [T.lst.injEq] at q
        exact q.1.symm
      · intro he; exact ⟨0, rfl, mem_zero.mpr ⟨_, by rw [he]⟩⟩
    have hskip : ∀ j, j < k → ∀ ρ, Model N s.mem ρ → ¬ BM3 s x h t k j ρ := by
      rintro j hj ρ _ ⟨i, hi, _⟩; omega
    have hs : ok = true → Step N s (fun ρ => eval s.mem ρ x = eval s.mem ρ h) s' := by
      intro hok; subst hok; exact unify_step hsim.ok hx hh hun
    have hf' : ok = false → NoAnswer N s (fun ρ => eval s.mem ρ x = eval s.mem ρ h) := by
      intro hok; subst hok; exact unify_none hsim.ok hx hh hun
    split at hr
    · next hvl =>
      simp only [Option.some.injEq] at hr
      subst hr
      refine finish2 hsim hlo hskip hiff ?_ (by simp) hs hf'
      rintro _ j hj ρ hρ ⟨i, hi, ha⟩
      obtain ⟨i, rfl⟩ : ∃ i', i = i' + 1 := ⟨i - 1, by omega⟩
      obtain ⟨y, a, q1, q2⟩ := mem_succ.mp ha
      simp only [T.lst.injEq] at q1
      obtain ⟨y', a', q3⟩ := q2.list
      rw [← q1.2] at q3
      exact not_list hsim.ok d2 d4 hvl ρ hρ _ _ q3
    · next hvl =>
      have hdv : deref s.mem v = some v := by
        cases v with
        | ref a => rw [deref_ref, if_pos (d3 a rfl)]
        | _ => exact deref_nonref (by simp)
      split at hr
      · next hok =>
        simp only [Option.some.injEq] at hr
        subst hr
        refine finish2 hsim hlo hskip hiff (by simp) ?_ (fun _ => hs hok) (by simp)
        intro c hc
        simp only [Option.some.injEq] at hc
        subst hc
        refine ⟨A', k, rfl, fun j ρ hj => hA j ρ (by omega), ?_, hx, hh, d2, ?_, v, hdv, by simpa using hvl⟩
        · refine hsim.trans (Sim.refl hsim.ok ?_)
          intro j ρ hρ
          simp only [BM3, d4 ρ hρ]
        · intro as w hp
          exact hf.free as w (partial_congr (by rw [hdv, hd]) hp)
      · next hok =>
        split at hr
        next s1 S hg =>
          split at hr
          · simp at hr
          next s2 S1 h' hx2 =>
          split at hr
          · simp at hr
          next s3 S2 t' ht2 =>
          obtain ⟨c1, c2, c3, c4⟩ := member_open (k := k) hsim.ok hx hh ht hg hx2 ht2
          have hno := hf' (by simpa using hok)
          have hnext : Sim N s s3 (BM3 s x h t k) (BM3 s3 x h' t' (k + 1)) := by
            refine Sim.trans (Sim.refl hsim.ok ?_) c1
            intro j ρ hρ
            constructor
            · intro hb
              refine ⟨?_, hb⟩
              obtain ⟨i, rfl, ha⟩ := hb
              cases i with
              | zero => exact absurd ((hiff ρ hρ).mp ⟨0, rfl, ha⟩) (hno ρ hρ)
              | succ i => omega
            · exact fun h => h.2
          exact ih (hsim.trans hnext) c2 c3 c4 (tf_open hsim.ok hx ht hf.free hg hx2 ht2) (by omega) hr
        next => simp at hr

theorem memberAlt_good {A : Nat → (Adr → T) → Prop} {lo : Nat} {c : CP} {o : Out} (hi : InvM N s0 A lo c)
    (h : memberAlt E c = some o) : Good N s0 A (InvM N s0 A) lo o := by
  obtain ⟨A', k, rfl, hA, hsim, v0, v1, v2, hf, _⟩ := hi
  unfold memberAlt at h
  split at h
  next s1 S hg =>
    split at h
    · simp at h
    next s2 S1 h' hx2 =>
    split at h
    · simp at h
    next s3 S2 t' ht2 =>
    obtain ⟨c1, c2, c3, c4⟩ := member_open (k := k) hsim.ok v0 v1 v2 hg hx2 ht2
    have hA' : ∀ j ρ, k + 1 ≤ j → ((k + 1 ≤ j ∧ A' j ρ) ↔ A j ρ) := by
      intro j ρ hj; simp only [hj, true_and]; exact hA j ρ hj
    refine Good.of_eq (A' := fun j ρ => k + 1 ≤ j ∧ A' j ρ) hA' ?_
    exact member3_good hA' ((hsim.restrict (k + 1)).trans c1) c2 c3 c4 (tf_open hsim.ok v0 v2 hf hg hx2 ht2) (Nat.le_refl _) h
  next => simp at h

theorem member2_good {x l : Cell} {o : Out} (hok : Ok N s) (hx : ValidWord N s.lssa s.mem x)
    (hl : ValidWord N s.lssa s.mem l) (hf : TailFree s.mem x l) (h : member2 E s x l = some o) :
    Good N s (BM s x l 0) (InvM N s (BM s x l 0)) 0 o := by
  unfold member2 at h
  split at h
  · simp at h
  · next hg =>
    simp only [Option.some.injEq] at h
    subst h
    refine good_none s ?_
    rintro j _ ρ hρ ⟨i, _, ha⟩
    exact getList_none hok hl hg ρ hρ ha.list
  next s1 S hg =>
  split at h
  · simp at h
  next s2 S1 h' hx2 =>
  split at h
  · simp at h
  next s3 S2 t' ht2 =>
  have hop := openVV hok hl hg hx2 ht2
  have hll := hop.step.lssa
  have hs : Sim N s s3 (BM s x l 0) (BM3 s3 x h' t' 0) := by
    refine hop.step.sim ?_ ?_ ?_
    · rintro j ρ hρ hρ' _ ⟨i, rfl, ha⟩
      refine ⟨i, rfl, ?_⟩
      rw [hop.step.grow.eval hx] at ha
      rw [hop.eq ρ hρ']; exact ha
    · rintro j ρ hρ ⟨i, rfl, ha⟩
      exact ha.list
    · rintro j ρ ρ' hρ' hag ⟨i, rfl, ha⟩
      rw [← hag.eval hx, ← hag.eval hl, hop.eq ρ' hρ'] at ha
      refine ⟨i, rfl, ?_⟩
      rw [hop.step.grow.eval hx]
      exact ha
  exact member3_good (fun _ _ _ => Iff.rfl) hs (by rw [hll]; exact hop.step.grow.valid hx) (by rw [hll]; exact hop.vx)
    (by rw [hll]; exact hop.vt) (tf_open hok hx hl hf hg hx2 ht2) (Nat.le_refl _) h

end Gp.ListBip
