import Verif.ListBip.Open
namespace Gp.ListBip
open Gp.Heap Gp.Unify

variable {ι : Type} {N : Adr} {s s' s'' s0 : St} {E : Env}

/-- `Pl_Get_List`, `Pl_Unify_Value(x)`, `Pl_Unify_Variable`: what is known after. -/
structure OpenedV (N : Adr) (s : St) (w x : Cell) (s' : St) (t : Cell) : Prop where
  step : Step N s (fun ρ => ∃ y, eval s.mem ρ w = .lst (eval s.mem ρ x) y) s'
  vt : ValidWord N s.lssa s'.mem t
  gt : Global s.lssa t
  eq : ∀ ρ, Model N s'.mem ρ → eval s.mem ρ w = .lst (eval s.mem ρ x) (eval s'.mem ρ t)

/-- Read mode. -/
theorem openedV_read (hok : Ok N s) {w x : Cell} {b : Adr} (hx : ValidWord N s.lssa s.mem x)
    (hv : ValidWord N s.lssa s.mem (.lst b)) (he : ∀ ρ, Model N s.mem ρ → eval s.mem ρ w = eval s.mem ρ (.lst b))
    (h : unify false E.fd E.fuel s x (s.mem b) = some (true, s')) :
    OpenedV N s w x s' (s'.mem (b + 1)) ∧ copyWord (s'.mem (b + 1)) = s'.mem (b + 1) := by
  have hop := opened_read hok hv he
  have hst := unify_step hok hx hop.vx h
  obtain ⟨h1, h2, h3, h4⟩ := hv
  have v2 := hst.ok.wf (b + 1) (by omega) (hst.grow.term _ h4)
  have hl := hst.lssa
  have key : ∀ ρ, Model N s'.mem ρ → eval s.mem ρ w = .lst (eval s.mem ρ x) (eval s'.mem ρ (s'.mem (b + 1))) := by
    intro ρ hρ
    have hd := hst.down ρ hρ
    rw [he ρ hd.1, hd.2, ← hd.1 b (by omega) h3, ← hρ (b + 1) (by omega) (hst.grow.term _ h4)]; rfl
  refine ⟨⟨hst.congr ?_, by rw [← hl]; exact v2.1, ?_, key⟩, copyWord_valid v2.1⟩
  · intro ρ hρ
    rw [hop.eq ρ hρ]
    simp only [T.lst.injEq]
    constructor
    · intro h; exact ⟨_, h.symm, rfl⟩
    · rintro ⟨_, h, _⟩; exact h.symm
  · intro c hc; rw [← hl]; exact v2.2.1 c hc (by rw [hl]; omega)

theorem openedV_read_none (hok : Ok N s) {w x : Cell} {b : Adr} (hx : ValidWord N s.lssa s.mem x)
    (hv : ValidWord N s.lssa s.mem (.lst b)) (he : ∀ ρ, Model N s.mem ρ → eval s.mem ρ w = eval s.mem ρ (.lst b))
    (h : unify false E.fd E.fuel s x (s.mem b) = some (false, s')) :
    NoAnswer N s (fun ρ => ∃ y, eval s.mem ρ w = .lst (eval s.mem ρ x) y) := by
  have hop := opened_read hok hv he
  rintro ρ hρ ⟨y, hy⟩
  rw [hop.eq ρ hρ] at hy
  simp only [T.lst.injEq] at hy
  exact unify_none hok hx hop.vx h ρ hρ hy.1.symm

/-- The words and instructions of the write mode. -/
theorem write_inv {a : Adr} {x t : Cell} {s1 s2 s3 : St} {S1 S2 : Sreg} {r : Bool} (hok : Ok N s)
    (ha : s.mem a = .ref a) (h1 : s1 = s.bindUV a (.lst s.h)) (h2 : unifyValue E s1 none x = some (r, s2, S1))
    (h3 : unifyVariable s2 S1 = some (s3, S2, t)) : Wr s a x s3 ∧ r = true ∧ t = .ref (s.h + 1) ∧ S1 = none := by
  unfold unifyValue at h2
  simp only at h2
  split at h2
  · simp at h2
  · next p hp =>
    simp only [Option.some.injEq, Prod.mk.injEq] at h2
    obtain ⟨e3, e4, e5⟩ := h2
    subst e5; subst e4
    unfold unifyVariable at h3
    simp only at h3
    split at h3
    · simp at h3
    · next q hq =>
      simp only [Option.some.injEq, Prod.mk.injEq] at h3
      obtain ⟨e6, e7, e8⟩ := h3
      subst e6
      refine ⟨wr_of hok ha h1 hp hq, e3.symm, ?_, rfl⟩
      rw [← e8, (push_eq hp).2, h1]; rfl

theorem Wr.tail {a : Adr} {w1 : Cell} (hok : Ok N s) (ha : s.mem a = .ref a) (h : Wr s a w1 s') :
    s'.mem (s.h + 1) = .ref (s.h + 1) := by
  have := lst_ne ha (hok.free (s.h + 1) (by omega) h.lt)
  rw [h.mem, listMem, set_other _ _ _ _ (fun h => this h.symm), set_same]

theorem Wr.bound {a : Adr} {w1 : Cell} (h : Wr s a w1 s') : s'.mem a = .lst s.h := by
  rw [h.mem, listMem, set_same]

theorem openValV (hok : Ok N s) {w x t : Cell} {s1 s2 s3 : St} {S S1 S2 : Sreg} (hw : ValidWord N s.lssa s.mem w)
    (hx : ValidWord N s.lssa s.mem x) (hg : Global s.lssa x)
    (h1 : getList s w = some (some (s1, S))) (h2 : unifyValue E s1 S x = some (true, s2, S1))
    (h3 : unifyVariable s2 S1 = some (s3, S2, t)) : OpenedV N s w x s3 t := by
  obtain ⟨v, d1, d2, d3, d4⟩ := deref_ok hok hw
  unfold getList at h1
  rw [d1] at h1
  cases v with
  | ref a =>
    simp only [Option.some.injEq, Prod.mk.injEq] at h1
    obtain ⟨e1, e2⟩ := h1
    subst e2
    have ha := d3 a rfl
    obtain ⟨hwr, _, ht, _⟩ := write_inv hok ha e1.symm h2 h3
    obtain ⟨c1, c2⟩ := writeVal_step hok d2.1 ha hx hg hwr
    have hlt := hwr.lt
    have htop := hok.top
    subst ht
    have htl := hwr.tail hok ha
    refine ⟨c1.congr ?_, ⟨by omega, by rw [htl]; rfl⟩, ?_, ?_⟩
    · intro ρ hρ; rw [d4 ρ hρ]; exact Iff.rfl
    · intro b hb; cases hb; omega
    · intro ρ hρ; rw [d4 ρ (c1.down ρ hρ).1]; exact c2 ρ hρ
  | lst b =>
    simp only [Option.some.injEq, Prod.mk.injEq] at h1
    obtain ⟨e1, e2⟩ := h1
    subst e2; subst e1
    unfold unifyValue at h2
    simp only at h2
    split at h2
    · simp at h2
    · next r p hp =>
      simp only [Option.some.injEq, Prod.mk.injEq] at h2
      obtain ⟨e3, e4, e5⟩ := h2
      subst e5; subst e4; subst e3
      unfold unifyVariable at h3
      simp only [Option.some.injEq, Prod.mk.injEq] at h3
      obtain ⟨e6, e7, e8⟩ := h3
      subst e6
      obtain ⟨hop, hc⟩ := openedV_read hok hx d2 d4 hp
      rw [hc] at e8
      subst e8
      exact hop
  | _ => simp at h1

theorem openValV_none (hok : Ok N s) {w x : Cell} {s1 s2 : St} {S S1 : Sreg} (hw : ValidWord N s.lssa s.mem w)
    (hx : ValidWord N s.lssa s.mem x)
    (h1 : getList s w = some (some (s1, S))) (h2 : unifyValue E s1 S x = some (false, s2, S1)) :
    NoAnswer N s (fun ρ => ∃ y, eval s.mem ρ w = .lst (eval s.mem ρ x) y) ∧
      ∃ b, deref s.mem w = some (.lst b) ∧ S1 = some (b + 1) ∧ ValidWord N s.lssa s.mem (.lst b) ∧
        ∀ ρ, Model N s.mem ρ → eval s.mem ρ w = eval s.mem ρ (.lst b) := by
  obtain ⟨v, d1, d2, d3, d4⟩ := deref_ok hok hw
  unfold getList at h1
  rw [d1] at h1
  cases v with
  | ref a =>
    simp only [Option.some.injEq, Prod.mk.injEq] at h1
    obtain ⟨e1, e2⟩ := h1
    subst e2
    unfold unifyValue at h2
    simp only at h2
    split at h2 <;> simp at h2
  | lst b =>
    simp only [Option.some.injEq, Prod.mk.injEq] at h1
    obtain ⟨e1, e2⟩ := h1
    subst e2; subst e1
    unfold unifyValue at h2
    simp only at h2
    split at h2
    · simp at h2
    · next r p hp =>
      simp only [Option.some.injEq, Prod.mk.injEq] at h2
      obtain ⟨e3, e4, e5⟩ := h2
      subst e3
      exact ⟨openedV_read_none hok hx d2 d4 hp, b, d1, e5.symm, d2, d4⟩
  | _ => simp at h1

/-- The same with the word at the address `adr`, read after `Pl_Get_List`. -/
theorem openCarV (hok : Ok N s) {w t : Cell} {adr : Adr} {s1 s2 s3 : St} {S S1 S2 : Sreg}
    (hw : ValidWord N s.lssa s.mem w) (had : adr < s.lssa) (hta : isTerm (s.mem adr) = true)
    (h1 : getList s w = some (some (s1, S))) (h2 : unifyValue E s1 S (s1.mem adr) = some (true, s2, S1))
    (h3 : unifyVariable s2 S1 = some (s3, S2, t)) : OpenedV N s w (.ref adr) s3 t := by
  have htop := hok.top
  have va := hok.wf adr (by omega) hta
  have hval : ∀ ρ, Model N s.mem ρ → eval s.mem ρ (s.mem adr) = eval s.mem ρ (.ref adr) :=
    fun ρ hρ => (hρ adr (by omega) hta).symm
  have conv : OpenedV N s w (s.mem adr) s3 t → OpenedV N s w (.ref adr) s3 t := by
    intro h
    refine ⟨h.step.congr ?_, h.vt, h.gt, ?_⟩
    · intro ρ hρ; rw [hval ρ hρ]
    · intro ρ hρ; rw [← hval ρ (h.step.down ρ hρ).1]; exact h.eq ρ hρ
  obtain ⟨v, d1, d2, d3, d4⟩ := deref_ok hok hw
  have h1' := h1
  unfold getList at h1
  rw [d1] at h1
  cases v with
  | ref a =>
    simp only [Option.some.injEq, Prod.mk.injEq] at h1
    obtain ⟨e1, e2⟩ := h1
    have ha := d3 a rfl
    by_cases hEq : adr = a
    · subst hEq
      have hm : s1.mem adr = .lst s.h := by rw [← e1]; exact set_same _ _ _
      rw [hm] at h2
      subst e2
      obtain ⟨hwr, _, ht, _⟩ := write_inv hok ha e1.symm h2 h3
      obtain ⟨c1, c2⟩ := writeSelf_step hok d2.1 ha hwr
      have hlt := hwr.lt
      subst ht
      have htl := hwr.tail hok ha
      refine ⟨c1.congr ?_, ⟨by omega, by rw [htl]; rfl⟩, ?_, fun ρ hρ => absurd hρ (c2 ρ)⟩
      · intro ρ hρ; rw [d4 ρ hρ]; exact Iff.rfl
      · intro b hb; cases hb; omega
    · have hm : s1.mem adr = s.mem adr := by rw [← e1]; exact set_other _ _ _ _ hEq
      rw [hm] at h2
      exact conv (openValV hok hw va.1 (fun c hc => va.2.1 c hc had) h1' h2 h3)
  | lst b =>
    simp only [Option.some.injEq, Prod.mk.injEq] at h1
    have hm : s1.mem adr = s.mem adr := by rw [← h1.1]
    rw [hm] at h2
    exact conv (openValV hok hw va.1 (fun c hc => va.2.1 c hc had) h1' h2 h3)
  | _ => simp at h1

theorem openCarV_none (hok : Ok N s) {w : Cell} {adr : Adr} {s1 s2 : St} {S S1 : Sreg}
    (hw : ValidWord N s.lssa s.mem w) (had : adr < s.lssa) (hta : isTerm (s.mem adr) = true)
    (h1 : getList s w = some (some (s1, S))) (h2 : unifyValue E s1 S (s1.mem adr) = some (false, s2, S1)) :
    NoAnswer N s (fun ρ => ∃ y, eval s.mem ρ w = .lst (eval s.mem ρ (.ref adr)) y) := by
  have htop := hok.top
  have va := hok.wf adr (by omega) hta
  have hval : ∀ ρ, Model N s.mem ρ → eval s.mem ρ (s.mem adr) = eval s.mem ρ (.ref adr) :=
    fun ρ hρ => (hρ adr (by omega) hta).symm
  have hm : s1.mem adr = s.mem adr := by
    have h1' := h1
    unfold getList at h1
    split at h1
    · simp at h1
    · simp only [Option.some.injEq, Prod.mk.injEq] at h1
      obtain ⟨e1, e2⟩ := h1
      subst e2
      unfold unifyValue at h2
      simp only at h2
      split at h2 <;> simp at h2
    · simp only [Option.some.injEq, Prod.mk.injEq] at h1
      rw [← h1.1]
    · simp at h1
  rw [hm] at h2
  intro ρ hρ
  simp only
  rw [← hval ρ hρ]
  exact (openValV_none hok hw va.1 h1 h2).1 ρ hρ

theorem unifyVoid1_var {S S' : Sreg} : unifyVoid1 s S = some (s', S') ↔ ∃ x, unifyVariable s S = some (s', S', x) := by
  cases S with
  | none =>
    simp only [unifyVoid1, unifyVariable]
    cases push s (.ref s.h) <;> simp
  | some a => simp [unifyVoid1, unifyVariable]

/-- `w` is an unbound variable. -/
def UV (m : Heap.Mem) (w : Cell) : Prop := ∃ a, deref m w = some (.ref a)

theorem uv_self {m : Heap.Mem} {a : Adr} (h : m a = .ref a) : UV m (.ref a) := ⟨a, by rw [deref_ref]; simp [h]⟩

/-- In write mode the tail is a new variable. -/
theorem openVV_uv (hok : Ok N s) {w x t : Cell} {s1 s2 s3 : St} {S S1 S2 : Sreg} (hw : ValidWord N s.lssa s.mem w)
    (hu : UV s.mem w) (h1 : getList s w = some (some (s1, S))) (h2 : unifyVariable s1 S = some (s2, S1, x))
    (h3 : unifyVariable s2 S1 = some (s3, S2, t)) :
    UV s3.mem t ∧ x = .ref s.h ∧ t = .ref (s.h + 1) ∧ ∃ a, deref s.mem w = some (.ref a) ∧ Wr s a x s3 := by
  obtain ⟨a, ha⟩ := hu
  obtain ⟨v, d1, d2, d3, d4⟩ := deref_ok hok hw
  rw [ha] at d1
  simp only [Option.some.injEq] at d1
  subst d1
  unfold getList at h1
  rw [ha] at h1
  simp only [Option.some.injEq, Prod.mk.injEq] at h1
  obtain ⟨e1, e2⟩ := h1
  subst e2
  have hs1 : s1.h = s.h := by rw [← e1]; rfl
  let E : Env := ⟨0, fun s _ _ => (false, s), fun s _ _ => (false, s)⟩
  have hx : unifyValue E s1 none x = some (true, s2, S1) ∧ x = .ref s.h := by
    unfold unifyVariable at h2
    simp only at h2
    split at h2
    · simp at h2
    · next p hp =>
      simp only [Option.some.injEq, Prod.mk.injEq] at h2
      obtain ⟨e3, e4, e5⟩ := h2
      subst e3; subst e4
      subst e5
      refine ⟨?_, by rw [hs1]⟩
      simp only [unifyValue, hp]
  obtain ⟨hwr, _, ht, _⟩ := write_inv hok (d3 a rfl) e1.symm hx.1 h3
  subst ht
  exact ⟨uv_self (hwr.tail hok (d3 a rfl)), hx.2, rfl, a, ha, hwr⟩

theorem openValV_uv (hok : Ok N s) {w x t : Cell} {s1 s2 s3 : St} {S S1 S2 : Sreg} {r : Bool} (hw : ValidWord N s.lssa s.mem w)
    (hu : UV s.mem w) (h1 : getList s w = some (some (s1, S))) (h2 : unifyValue E s1 S x = some (r, s2, S1))
    (h3 : unifyVariable s2 S1 = some (s3, S2, t)) : UV s3.mem t ∧ r = true := by
  obtain ⟨a, ha⟩ := hu
  obtain ⟨v, d1, d2, d3, d4⟩ := deref_ok hok hw
  rw [ha] at d1
  simp only [Option.some.injEq] at d1
  subst d1
  unfold getList at h1
  rw [ha] at h1
  simp only [Option.some.injEq, Prod.mk.injEq] at h1
  obtain ⟨e1, e2⟩ := h1
  subst e2
  obtain ⟨hwr, hr, ht, _⟩ := write_inv hok (d3 a rfl) e1.symm h2 h3
  subst ht
  exact ⟨uv_self (hwr.tail hok (d3 a rfl)), hr⟩

/-- `Pl_Get_Nil` on a variable. -/
theorem getNil_step (hok : Ok N s) {w : Cell} {r : Bool} (hw : ValidWord N s.lssa s.mem w) (hu : UV s.mem w)
    (h : getNil s w = some (r, s')) : r = true ∧ Step N s (fun ρ => eval s.mem ρ w = nil) s' := by
  obtain ⟨a, ha⟩ := hu
  obtain ⟨v, d1, d2, d3, d4⟩ := deref_ok hok hw
  rw [ha] at d1
  simp only [Option.some.injEq] at d1
  subst d1
  unfold getNil at h
  rw [ha] at h
  simp only [Option.some.injEq, Prod.mk.injEq] at h
  obtain ⟨e1, e2⟩ := h
  subst e2
  refine ⟨e1.symm, (bind_step (w := NIL_WORD) hok d2.1 (d3 a rfl) trivial (by simp)).congr ?_⟩
  intro ρ hρ
  rw [d4 ρ hρ]
  exact Iff.rfl

/-- `Pl_Get_Nil` on a variable, then `Pl_Unify`. -/
theorem nilUnify_res (hok : Ok N s) {l u v : Cell} {cp : Option CP} {o : Out} (hl : ValidWord N s.lssa s.mem l)
    (hu : ValidWord N s.lssa s.mem u) (hv : ValidWord N s.lssa s.mem v) (hvar : UV s.mem l)
    (h : nilUnify E s l u v cp = some o) :
    ∃ r s', o = .ret r s' cp ∧
      (r = true → Step N s (fun ρ => eval s.mem ρ l = nil ∧ eval s.mem ρ u = eval s.mem ρ v) s') ∧
      (r = false → NoAnswer N s (fun ρ => eval s.mem ρ l = nil ∧ eval s.mem ρ u = eval s.mem ρ v)) := by
  unfold nilUnify at h
  split at h
  · simp at h
  · next r0 s1 hg =>
    obtain ⟨_, st⟩ := getNil_step hok hl hvar hg
    unfold retUnify at h
    split at h
    · simp at h
    · next r s2 hun =>
      simp only [Option.some.injEq] at h
      subst h
      have hu1 : ValidWord N s1.lssa s1.mem u := by rw [st.lssa]; exact st.grow.valid hu
      have hv1 : ValidWord N s1.lssa s1.mem v := by rw [st.lssa]; exact st.grow.valid hv
      refine ⟨r, s2, rfl, ?_, ?_⟩
      · intro hr
        subst hr
        refine st.trans (unify_step st.ok hu1 hv1 hun) ?_ ?_ ?_
        · intro ρ _ _ h1 h2
          rw [st.grow.eval hu, st.grow.eval hv] at h2
          exact ⟨h1, h2⟩
        · intro ρ _ h; exact h.1
        · intro ρ ρ' _ ha h
          rw [st.grow.eval hu, st.grow.eval hv, ha.eval hu, ha.eval hv]
          exact h.2
      · intro hr
        subst hr
        rintro ρ hρ ⟨h1, h2⟩
        obtain ⟨ρ1, m1, g1⟩ := st.up ρ hρ h1
        refine unify_none st.ok hu1 hv1 hun ρ1 m1 ?_
        simp only
        rw [st.grow.eval hu, st.grow.eval hv, g1.eval hu, g1.eval hv]
        exact h2

end Gp.ListBip
