import Verif.TermInl.Fill
import Verif.ListBip.Member2
namespace Gp.TermInl
open Gp.Heap Gp.Unify Gp.ListBip

variable {N : Adr} {s s1 s2 s3 s' s'' : St} {E : Env}

theorem deref_same (hok : Ok N s) {m' : Heap.Mem} {w : Cell} (hw : ValidWord N s.lssa s.mem w)
    (hch : ∀ b, isTerm (s.mem b) = true → m' b = s.mem b) : deref m' w = deref s.mem w := by
  obtain ⟨v, d1, d2, d3, d4⟩ := deref_ok hok hw
  rw [d1]
  by_cases hr : ∃ a, v = .ref a
  · obtain ⟨a, rfl⟩ := hr
    rw [deref_change hok.wf hw (fun b _ hb => .inl (hch b hb)) d1, deref_ref,
      hch a (by rw [d3 a rfl]; rfl), if_pos (d3 a rfl)]
  · exact deref_keep hok.wf hw (fun b hb => .inl (hch b hb)) (fun b hb => hr ⟨b, hb⟩) d1

theorem partial_same (hok : Ok N s) {m' : Heap.Mem} (hch : ∀ b, isTerm (s.mem b) = true → m' b = s.mem b) {w : Cell}
    {as : List Adr} {v : Adr} (hw : ValidWord N s.lssa s.mem w) (h : Partial m' w as v) : Partial s.mem w as v := by
  induction h with
  | var h => exact .var (by rw [← h, deref_same hok hw hch])
  | @cons w a v l h1 _ ih =>
    rw [deref_same hok hw hch] at h1
    obtain ⟨v, d1, d2, d3, d4⟩ := deref_ok hok hw
    rw [h1] at d1
    cases d1
    obtain ⟨c1, c2, c3, c4, c5, _⟩ := lst_cells hok d2
    have := hch (a + 1) c4
    rw [this] at ih
    exact .cons h1 (ih c5)

theorem deref_global (hok : Ok N s) {a b : Adr} (ha : a < s.lssa) (hta : isTerm (s.mem a) = true)
    (h : deref s.mem (s.mem a) = some (.ref b)) : b < s.lssa := by
  have htop := hok.top
  have hacc := (hok.wf a (by omega) hta).2.2
  induction hacc with
  | intro a _ ih =>
    obtain ⟨h1, h2, _⟩ := hok.wf a (by omega) hta
    cases hc : s.mem a with
    | ref c =>
      rw [hc] at h h1
      have hcl := h2 c hc ha
      rw [deref_ref] at h
      by_cases hs : s.mem c = .ref c
      · rw [if_pos hs] at h; cases h; exact hcl
      · rw [if_neg hs] at h
        have hca : c ≠ a := by rintro rfl; exact hs hc
        exact ih c ⟨hc, hca⟩ hcl h1.2 h
    | _ => rw [hc, deref_nonref (by simp)] at h; simp at h

/-- What the loop on the arguments did: `n` arguments pushed. -/
structure Looped (N : Adr) (s : St) (a : Adr) (n : Nat) (s' : St) : Prop where
  pos : 0 < n
  step : Step N s (fun _ => True) s'
  h : s'.h = s.h + n
  top : s.h + n ≤ s.lssa
  old : ∀ b, (b < s.h ∨ s.h + n ≤ b) → s'.mem b = s.mem b
  new : ∀ i, i < n → isTerm (s'.mem (s.h + i)) = true
  eq : ∀ ρ, Model N s'.mem ρ → eval s.mem ρ (.lst a) = listT ((List.range n).map fun i => ρ (s.h + i)) nil
  nodot : NoDot s.mem → NoDot s'.mem

theorem univLoop_res {f : Nat} : ∀ {s : St} {a k : Nat} {r : Except Err (St × Nat)}, Ok N s → ValidWord N s.lssa s.mem (.lst a) →
    univLoop f s a k = some r →
    (∃ n s', r = .ok (s', k + n) ∧ Looped N s a n s') ∨
    (r = .error .instantiation ∧ ∃ as v, Partial s.mem (.lst a) as v) ∨
    (r = .error .typeList ∧ ∀ ρ, Model N s.mem ρ → ∀ l, eval s.mem ρ (.lst a) ≠ listT l nil) := by
  induction f with
  | zero => intro s a k r _ _ h; simp [univLoop] at h
  | succ f ih =>
    intro s a k r hok hw h
    obtain ⟨c1, c2, c3, c4, c5, c6, c7, c8⟩ := lst_cells hok hw
    obtain ⟨w, d1, d2, d3, d4⟩ := deref_ok hok c7
    simp only [univLoop, d1, ListBip.copyWord_valid d2] at h
    cases hp : push s w with
    | none => rw [hp] at h; simp at h
    | some s1 =>
      rw [hp] at h
      simp only at h
      have hg : Global s.lssa w := by
        intro b hb; subst hb; exact deref_global hok (by omega) c3 d1
      obtain ⟨st, e1, e2, e3⟩ := push_step hok d2 hg hp
      have hfree := hok.free s.h (Nat.le_refl _) e3
      have hch : ∀ b, isTerm (s.mem b) = true → s1.mem b = s.mem b := by
        intro b hb
        rw [e1, set_other]
        rintro rfl; rw [hfree] at hb; simp [isTerm] at hb
      have hht : isTerm (s1.mem s.h) = true := by rw [e1, set_same]; exact valid_isTerm d2
      have htop := hok.top
      have hval : ∀ ρ, Model N s1.mem ρ → ρ s.h = ρ a := by
        intro ρ hρ
        have hρ0 := (st.down ρ hρ).1
        rw [hρ s.h (by omega) hht, e1, set_same, ← e1, st.grow.eval d2, ← d4 ρ hρ0, c8 ρ hρ0]
      have hnd : NoDot s.mem → NoDot s1.mem := by
        intro h; rw [e1]; refine NoDot.set h ?_
        intro hw; rw [hw] at d2; exact d2
      rw [hch (a + 1) c4, deref_same hok c5 hch] at h
      obtain ⟨v, f1, f2, f3, f4⟩ := deref_ok hok c5
      rw [f1] at h
      simp only at h
      have rest : ∀ ρ, Model N s.mem ρ → eval s.mem ρ (.lst a) = .lst (ρ a) (eval s.mem ρ v) := by
        intro ρ hρ
        rw [← f4 ρ hρ, c6 ρ hρ]; rfl
      by_cases hn : v = NIL_WORD
      · rw [if_pos hn] at h
        simp only [Option.some.injEq] at h; subst h
        refine .inl ⟨1, s1, rfl, by omega, st, e2, by omega, ?_, ?_, ?_, hnd⟩
        · intro b hb; rw [e1, set_other _ _ _ _ (by omega)]
        · intro i hi
          obtain rfl : i = 0 := by omega
          exact hht
        · intro ρ hρ
          rw [rest ρ (st.down ρ hρ).1, hn]
          simp [listT, hval ρ hρ, Unify.eval]
      · rw [if_neg hn] at h
        have tl : varOrList v = false →
            ∀ ρ, Model N s.mem ρ → ∀ l, eval s.mem ρ (.lst a) ≠ listT l nil := by
          intro hvl ρ hρ l he
          rw [rest ρ hρ] at he
          cases l with
          | nil => simp [listT] at he
          | cons x l =>
            simp only [listT, T.lst.injEq] at he
            have he2 := he.2
            rw [← f4 ρ hρ] at he2
            cases l with
            | nil =>
              refine not_nil f2 f4 ?_ hn ρ hρ he2
              intro c hc; subst hc; simp [varOrList] at hvl
            | cons y l => exact not_list hok f2 f4 hvl ρ hρ _ _ he2
        cases v with
        | ref c =>
          simp only [Option.some.injEq] at h; subst h
          exact .inr (.inl ⟨rfl, [a], c, .cons (deref_nonref (by simp)) (.var f1)⟩)
        | lst b =>
          simp only at h
          have vb : ValidWord N s1.lssa s1.mem (.lst b) := by rw [st.lssa]; exact st.grow.valid f2
          rcases ih st.ok vb h with ⟨n, s', rfl, L⟩ | ⟨rfl, as, v, hP⟩ | ⟨rfl, hx⟩
          · have hh := L.h
            have ht := L.top
            have hl := st.lssa
            refine .inl ⟨n + 1, s', by rw [show k + 1 + n = k + (n + 1) by omega], by omega,
              st.trans L.step (fun _ _ _ _ _ => trivial) (fun _ _ _ => trivial) (fun _ _ _ _ _ => trivial),
              by omega, by omega, ?_, ?_, ?_, fun h => L.nodot (hnd h)⟩
            · intro c hc
              rw [L.old c (by omega), e1, set_other _ _ _ _ (by omega)]
            · intro i hi
              cases i with
              | zero => rw [L.old _ (by omega)]; exact hht
              | succ i =>
                have := L.new i (by omega)
                rw [e2] at this
                rw [show s.h + (i + 1) = s.h + 1 + i by omega]; exact this
            · intro ρ hρ
              have hρ1 := (L.step.down ρ hρ).1
              have := L.eq ρ hρ
              rw [rest ρ (st.down ρ hρ1).1, List.range_succ_eq_map, List.map_cons, List.map_map]
              simp only [listT, Nat.add_zero, hval ρ hρ1, T.lst.injEq, true_and]
              rw [st.grow.eval f2] at this
              rw [this, e2]
              congr 1
              refine List.map_congr_left fun i _ => ?_
              simp only [Function.comp]
              congr 1; omega
          · have hP' := partial_same hok hch f2 hP
            cases hP' with
            | var h => rw [deref_nonref (by simp)] at h; simp at h
            | cons h1 h2 =>
              rw [deref_nonref (by simp)] at h1
              cases h1
              exact .inr (.inl ⟨rfl, _, _, .cons (deref_nonref (by simp)) (.cons f1 h2)⟩)
          · refine .inr (.inr ⟨rfl, fun ρ hρ l he => ?_⟩)
            rw [rest ρ hρ] at he
            cases l with
            | nil => simp [listT] at he
            | cons x l =>
              simp only [listT, T.lst.injEq] at he
              obtain ⟨ρ1, m1, a1⟩ := st.up ρ hρ trivial
              refine hx ρ1 m1 l ?_
              rw [st.grow.eval f2, a1.eval f2]; exact he.2
        | atm i => simp only [Option.some.injEq] at h; exact .inr (.inr ⟨h.symm, tl rfl⟩)
        | int i => simp only [Option.some.injEq] at h; exact .inr (.inr ⟨h.symm, tl rfl⟩)
        | flt i => simp only [Option.some.injEq] at h; exact .inr (.inr ⟨h.symm, tl rfl⟩)
        | stc i => simp only [Option.some.injEq] at h; exact .inr (.inr ⟨h.symm, tl rfl⟩)
        | fdv i => exact f2.elim
        | fn i j => exact f2.elim
        | raw i => exact f2.elim

/-- The result of =../2. -/
def UnivOut (N : Adr) (s : St) (tw lw : Cell) : Out → Prop
  | .ret true s' => Step N s (fun ρ => UnivRel (eval s.mem ρ tw) (eval s.mem ρ lw)) s' ∧ NoDot s'.mem
  | .ret false _ => NoAnswer N s fun ρ => UnivRel (eval s.mem ρ tw) (eval s.mem ρ lw)
  | .err .instantiation =>
    Unbound s.mem tw ∧ ((∃ as v, Partial s.mem lw as v) ∨ ∃ b, deref s.mem lw = some (.lst b) ∧ Unbound s.mem (s.mem b))
  | .err .reprMaxArity =>
    Unbound s.mem tw ∧ ∀ ρ, Model N s.mem ρ → ∃ f l, eval s.mem ρ lw = listT (.atm f :: l) nil ∧ 255 < l.length
  | .err _ => NoAnswer N s fun ρ => UnivRel (eval s.mem ρ tw) (eval s.mem ρ lw)

theorem listT_inj {l l' : List T} (h : listT l nil = listT l' nil) : l = l' := by
  induction l generalizing l' with
  | nil => cases l' with
    | nil => rfl
    | cons x l' => simp [listT] at h
  | cons x l ih =>
    cases l' with
    | nil => simp [listT] at h
    | cons y l' =>
      simp only [listT, T.lst.injEq] at h
      rw [h.1, ih h.2]

theorem univRel_app {t : T} {f : Nat} {l : List T} (hl : l ≠ []) : UnivRel t (listT (.atm f :: l) nil) ↔ View t f l := by
  constructor
  · rintro (⟨g, as, hv, he⟩ | ⟨_, he⟩)
    · have := listT_inj he
      simp only [List.cons.injEq, T.atm.injEq] at this
      rw [this.1, this.2]; exact hv
    · have := listT_inj he
      simp only [List.cons.injEq] at this
      exact absurd this.2 hl
  · intro h; exact .inl ⟨f, l, h, rfl⟩

theorem view_ne {t : T} {f : Nat} {l : List T} (h : View t f l) : l ≠ [] := by
  cases h with
  | app h _ => exact h
  | lst => simp

theorem univRel_list {t l : T} (h : UnivRel t l) : ∃ x xs, l = listT (x :: xs) nil ∧ (xs = [] → Atomic x ∧ t = x) ∧
    (xs ≠ [] → ∃ f, x = .atm f ∧ View t f xs) := by
  rcases h with ⟨g, as, hv, he⟩ | ⟨ha, he⟩
  · exact ⟨_, as, he, fun h => absurd h (view_ne hv), fun _ => ⟨g, rfl, hv⟩⟩
  · exact ⟨t, [], he, fun _ => ⟨ha, rfl⟩, fun h => absurd rfl h⟩

theorem univArgs_res (hok : Ok N s) (hnd : NoDot s.mem) {a c f : Nat} {o : Out} (haN : a < N) (ha : s.mem a = .ref a)
    (hc : ValidWord N s.lssa s.mem (.lst c)) (h : univArgs E s a f c = some o) :
    (∃ s', o = .ret true s' ∧ NoDot s'.mem ∧
      Step N s (fun ρ => ∃ l, eval s.mem ρ (.lst c) = listT l nil ∧ View (ρ a) f l) s') ∨
    (o = .err .reprMaxArity ∧ ∀ ρ, Model N s.mem ρ → ∃ l, eval s.mem ρ (.lst c) = listT l nil ∧ 255 < l.length) ∨
    (o = .err .instantiation ∧ ∃ as v, Partial s.mem (.lst c) as v) ∨
    (o = .err .typeList ∧ ∀ ρ, Model N s.mem ρ → ∀ l, eval s.mem ρ (.lst c) ≠ listT l nil) := by
  unfold univArgs at h
  by_cases hlt : s.h < s.lssa
  · rw [if_pos hlt] at h
    have hok' : Ok N { s with h := s.h + 1 } := ⟨hok.wf, fun b h1 h2 => hok.free b (by simp only at h1; omega) h2, hok.top⟩
    cases hl : univLoop E.fuel { s with h := s.h + 1 } c 0 with
    | none => rw [hl] at h; simp at h
    | some r =>
      rw [hl] at h
      rcases univLoop_res hok' hc hl with ⟨n, s1, rfl, L⟩ | ⟨rfl, hp⟩ | ⟨rfl, hx⟩
      · simp only [Nat.zero_add] at h
        have L0 := L.step
        have st : Step N s (fun _ => True) s1 := ⟨L0.ok, L0.lssa, L0.grow, L0.down, L0.up⟩
        have hpos := L.pos
        have hh := L.h
        have ht := L.top
        simp only at hh ht
        have hle := st.lssa
        have htop := hok.top
        have hpl := var_place hok ha
        have hp1 : s1.mem s.h = .fn 0 0 := by rw [L.old _ (by simp only; omega)]; exact hok.free _ (Nat.le_refl _) hlt
        have ha1 : s1.mem a = .ref a := by rw [L.old _ (by simp only; omega)]; exact ha
        have hnew : ∀ i, i < n → isTerm (s1.mem (s.h + 1 + i)) = true := L.new
        have heq : ∀ ρ, Model N s1.mem ρ → eval s.mem ρ (.lst c) = listT ((List.range n).map fun i => ρ (s.h + 1 + i)) nil := L.eq
        unfold univEnd at h
        by_cases hk : n > MAX_ARITY
        · rw [if_pos hk] at h
          simp only [Option.some.injEq] at h; subst h
          refine .inr (.inl ⟨rfl, fun ρ hρ => ?_⟩)
          obtain ⟨ρ1, m1, a1⟩ := st.up ρ hρ trivial
          refine ⟨_, (a1.eval hc).symm.trans (heq ρ1 m1), ?_⟩
          simpa using hk
        · rw [if_neg hk] at h
          have fin : ∀ {s2 : St} {w : Cell}, Step N s1 (fun _ => True) s2 → s2.mem a = .ref a → ValidWord N s2.lssa s2.mem w →
              (∀ b, w ≠ .ref b) → (∀ ρ, View (eval s2.mem ρ w) f ((List.range n).map fun i => ρ (s.h + 1 + i))) →
              Step N s (fun ρ => ∃ l, eval s.mem ρ (.lst c) = listT l nil ∧ View (ρ a) f l) (s2.bindUV a w) := by
            intro s2 w st2 ha2 hv hne hview
            have bs := bind_step st2.ok haN ha2 hv hne
            have st02 : Step N s (fun _ => True) s2 :=
              st.trans st2 (fun _ _ _ _ _ => trivial) (fun _ _ _ => trivial) (fun _ _ _ _ _ => trivial)
            refine st02.trans bs ?_ (fun _ _ _ => trivial) ?_
            · intro ρ hρ hρ2 _ he
              refine ⟨_, heq ρ (st2.down ρ hρ2).1, ?_⟩
              rw [he]; exact hview ρ
            · rintro ρ ρ1 m1 a1 ⟨l, hl, hvw⟩
              have h1 := heq ρ1 (st2.down ρ1 m1).1
              rw [a1.eval hc, hl] at h1
              have h2 := listT_inj h1
              have h3 := hview ρ1
              rw [← h2] at h3
              rw [a1 a (by rw [ha]; rfl)]
              rcases view_name.mp hvw with ⟨rfl, x, y, rfl, h4⟩ | ⟨h5, h6, h4⟩
              · rcases view_name.mp h3 with ⟨_, x', y', h7, h8⟩ | ⟨_, h8, _⟩
                · cases h7; rw [h4, h8]
                · exact absurd ⟨rfl, rfl⟩ h8
              · rcases view_name.mp h3 with ⟨h8, x', y', h7, _⟩ | ⟨_, _, h8⟩
                · exact absurd ⟨h8, by rw [h7]; rfl⟩ h6
                · rw [h4, h8]
          by_cases hd : f = DOT ∧ n = 2
          · rw [if_pos hd] at h
            obtain ⟨rfl, rfl⟩ := hd
            simp only [Option.some.injEq] at h; subst h
            refine .inl ⟨_, rfl, NoDot.set (L.nodot hnd) (by simp), ?_⟩
            refine fin (Step.refl st.ok fun _ _ => trivial) ha1 ?_ (by simp) ?_
            · have n0 := hnew 0 (by omega)
              have n1 := hnew 1 (by omega)
              exact ⟨by omega, by omega, n0, n1⟩
            · intro ρ
              simp only [Unify.eval, List.range, List.range.loop, List.map_cons, List.map_nil, Nat.add_zero]
              exact .lst
          · rw [if_neg hd] at h
            simp only [Option.some.injEq] at h; subst h
            have hset : (setFn s1 s.h f n).mem s.h = .fn f n := by simp only [setFn]; rw [set_same]
            refine .inl ⟨_, rfl, NoDot.set ?_ (by simp), ?_⟩
            · refine NoDot.set (L.nodot hnd) ?_
              intro h; cases h; exact hd ⟨rfl, rfl⟩
            · refine fin (setFn_step st.ok hp1 (by omega)) ?_ ?_ (by simp) ?_
              · simp only [setFn]; rw [set_other _ _ _ _ (by omega)]; exact ha1
              · refine ⟨f, n, hset, hpos, by omega, by show _ < s1.lssa; omega, fun i hi => ?_⟩
                simp only [setFn]; rw [set_other _ _ _ _ (by omega)]; exact hnew i hi
              · intro ρ
                rw [eval_stc hset]
                refine .app ?_ ?_
                · intro h
                  have := congrArg List.length h
                  simp at this; omega
                · rintro ⟨h1, h2⟩; exact hd ⟨h1, by simpa using h2⟩
      · simp only [Option.some.injEq] at h; subst h
        exact .inr (.inr (.inl ⟨rfl, hp⟩))
      · simp only [Option.some.injEq] at h; subst h
        exact .inr (.inr (.inr ⟨rfl, hx⟩))
  · rw [if_neg hlt] at h; simp at h

theorem UnivOut.bad {tw lw : Cell} {e : Err} (h1 : e ≠ .instantiation) (h2 : e ≠ .reprMaxArity)
    (h : ∀ ρ, Model N s.mem ρ → ¬ UnivRel (eval s.mem ρ tw) (eval s.mem ρ lw)) : UnivOut N s tw lw (.err e) := by
  cases e <;> first | exact absurd rfl h1 | exact absurd rfl h2 | exact h

theorem atomic_atm {w : Cell} (hw : ValidWord N s.lssa s.mem w) {ρ : Adr → T} {f : Nat} (hr : ∀ a, w ≠ .ref a)
    (h : eval s.mem ρ w = .atm f) : w = .atm f := by
  cases w with
  | ref a => exact absurd rfl (hr a)
  | atm i => simp only [Unify.eval, T.atm.injEq] at h; rw [h]
  | int i => simp [Unify.eval] at h
  | lst i => simp [Unify.eval] at h
  | stc a => obtain ⟨f, n, h1, _⟩ := hw; rw [eval_stc h1] at h; simp at h
  | flt i =>
    obtain ⟨b, hb⟩ := hw
    simp only [Unify.eval, hb] at h
    split at h <;> simp at h
  | fdv i => exact hw.elim
  | fn i j => exact hw.elim
  | raw i => exact hw.elim

theorem atomic_of {w : Cell} (hw : ValidWord N s.lssa s.mem w) {ρ : Adr → T} (hr : ∀ a, w ≠ .ref a)
    (h : Atomic (eval s.mem ρ w)) : isAtomic w = true := by
  cases w with
  | ref a => exact absurd rfl (hr a)
  | atm i => rfl
  | int i => rfl
  | flt i => rfl
  | lst i => exact h.elim
  | stc a => obtain ⟨f, n, h1, _⟩ := hw; rw [eval_stc h1] at h; exact h.elim
  | fdv i => exact hw.elim
  | fn i j => exact hw.elim
  | raw i => exact hw.elim

theorem univNew_res (hok : Ok N s) (hnd : NoDot s.mem) {a : Adr} {tw lw : Cell} {o : Out} (haN : a < N)
    (ha : s.mem a = .ref a) (htw : deref s.mem tw = some (.ref a)) (het : ∀ ρ, Model N s.mem ρ → eval s.mem ρ tw = ρ a)
    (hl : ValidWord N s.lssa s.mem lw) (h : univNew E s a lw = some o) : UnivOut N s tw lw o := by
  obtain ⟨v, d1, d2, d3, d4⟩ := deref_ok hok hl
  unfold univNew at h
  rw [d1] at h
  have nolist : (∀ a, v ≠ .ref a) → (∀ a, v ≠ .lst a) → ∀ ρ, Model N s.mem ρ → ¬ UnivRel (eval s.mem ρ tw) (eval s.mem ρ lw) := by
    intro h1 h2 ρ hρ hu
    obtain ⟨x, xs, he, _⟩ := univRel_list hu
    refine not_list hok d2 d4 ?_ ρ hρ _ _ he
    cases v <;> first | rfl | exact absurd rfl (h1 _) | exact absurd rfl (h2 _)
  by_cases hvr : ∃ b, v = .ref b
  · obtain ⟨b, rfl⟩ := hvr
    simp only [Option.some.injEq] at h; subst h
    exact ⟨⟨a, htw⟩, .inl ⟨[], b, .var d1⟩⟩
  · have hvr' : ∀ b, v ≠ .ref b := fun b hb => hvr ⟨b, hb⟩
    by_cases hvl : ∃ b, v = .lst b
    · obtain ⟨b, rfl⟩ := hvl
      simp only at h
      obtain ⟨c1, c2, c3, c4, c5, c6, c7, c8⟩ := lst_cells hok d2
      obtain ⟨fw, g1, g2, g3, g4⟩ := deref_ok hok c7
      rw [g1] at h
      by_cases hfr : ∃ x, fw = .ref x
      · obtain ⟨x, rfl⟩ := hfr
        simp only [Option.some.injEq] at h; subst h
        exact ⟨⟨a, htw⟩, .inr ⟨b, d1, x, g1⟩⟩
      · have hfr' : ∀ x, fw ≠ .ref x := fun x hx => hfr ⟨x, hx⟩
        obtain ⟨tl, t1, t2, t3, t4⟩ := deref_ok hok c5
        have h' : univCons E s a fw tl = some o := by
          rw [← h]
          cases fw <;> first | exact absurd rfl (hfr' _) | (simp only [t1])
        clear h
        have ev : ∀ ρ, Model N s.mem ρ → eval s.mem ρ lw = .lst (eval s.mem ρ fw) (eval s.mem ρ tl) := by
          intro ρ hρ
          rw [d4 ρ hρ, ← g4 ρ hρ, ← t4 ρ hρ, c8 ρ hρ, c6 ρ hρ]; rfl
        unfold univCons at h'
        by_cases hnil : tl = NIL_WORD
        · rw [if_pos hnil] at h'
          have rel : ∀ ρ, Model N s.mem ρ → (UnivRel (eval s.mem ρ tw) (eval s.mem ρ lw) ↔
              Atomic (eval s.mem ρ fw) ∧ ρ a = eval s.mem ρ fw) := by
            intro ρ hρ
            rw [het ρ hρ, ev ρ hρ, hnil]
            constructor
            · intro hu
              obtain ⟨x, xs, he, h1, h2⟩ := univRel_list hu
              have he' : listT [eval s.mem ρ fw] nil = listT (x :: xs) nil := he
              have := listT_inj he'
              simp only [List.cons.injEq] at this
              rw [this.1]
              exact h1 this.2.symm
            · rintro ⟨h1, h2⟩
              rw [h2]; exact .inr ⟨h1, rfl⟩
          by_cases hat : isAtomic fw = true
          · rw [if_pos hat] at h'
            simp only [Option.some.injEq] at h'; subst h'
            refine ⟨(bind_step hok haN ha g2 hfr').congr fun ρ hρ => ?_, NoDot.set hnd ?_⟩
            · rw [rel ρ hρ]
              exact ⟨fun h => ⟨(eval_atomic g2 hat ρ ρ).1, h⟩, fun h => h.2⟩
            · intro hf; rw [hf] at g2; exact g2
          · rw [if_neg hat] at h'
            simp only [Option.some.injEq] at h'; subst h'
            refine UnivOut.bad (by simp) (by simp) fun ρ hρ hu => ?_
            exact hat (atomic_of g2 hfr' ((rel ρ hρ).mp hu).1)
        · rw [if_neg hnil] at h'
          by_cases htr : ∃ x, tl = .ref x
          · obtain ⟨x, rfl⟩ := htr
            simp only [Option.some.injEq] at h'; subst h'
            exact ⟨⟨a, htw⟩, .inl ⟨[b], x, .cons d1 (.var t1)⟩⟩
          · have htr' : ∀ x, tl ≠ .ref x := fun x hx => htr ⟨x, hx⟩
            have h2 : univBody E s a fw tl = some o := by
              rw [← h']
              cases tl <;> first | exact absurd rfl (htr' _) | rfl
            clear h'
            have tlne : ∀ ρ, Model N s.mem ρ → eval s.mem ρ tl ≠ nil := fun ρ hρ =>
              not_nil t2 (fun _ _ => rfl) htr' hnil ρ hρ
            have rel : ∀ ρ, Model N s.mem ρ → UnivRel (eval s.mem ρ tw) (eval s.mem ρ lw) → ∃ f xs, xs ≠ [] ∧
                eval s.mem ρ fw = .atm f ∧ eval s.mem ρ tl = listT xs nil ∧ View (ρ a) f xs := by
              intro ρ hρ hu
              rw [het ρ hρ, ev ρ hρ] at hu
              obtain ⟨x, xs, he, h3, h4⟩ := univRel_list hu
              simp only [listT, T.lst.injEq] at he
              have hx : xs ≠ [] := by
                intro h; subst h; exact tlne ρ hρ he.2
              obtain ⟨f, hf, hv⟩ := h4 hx
              exact ⟨f, xs, hx, by rw [he.1, hf], he.2, hv⟩
            by_cases hfa : ∃ f, fw = .atm f
            · obtain ⟨f, rfl⟩ := hfa
              unfold univBody at h2
              by_cases htl : ∃ c, tl = .lst c
              · obtain ⟨c, rfl⟩ := htl
                try simp only at h2
                rcases univArgs_res hok hnd haN ha t2 h2 with ⟨s', rfl, hnd', st⟩ | ⟨rfl, hx⟩ | ⟨rfl, as, v, hP⟩ | ⟨rfl, hx⟩
                · refine ⟨st.congr fun ρ hρ => ?_, hnd'⟩
                  constructor
                  · rintro ⟨l, hl, hv⟩
                    rw [het ρ hρ, ev ρ hρ, hl]
                    exact .inl ⟨f, l, hv, rfl⟩
                  · intro hu
                    obtain ⟨g, xs, _, h3, h4, h5⟩ := rel ρ hρ hu
                    simp only [Unify.eval, T.atm.injEq] at h3
                    subst h3
                    exact ⟨xs, h4, h5⟩
                · refine ⟨⟨a, htw⟩, fun ρ hρ => ?_⟩
                  obtain ⟨l, h3, h4⟩ := hx ρ hρ
                  exact ⟨f, l, by rw [ev ρ hρ, h3]; rfl, h4⟩
                · refine ⟨⟨a, htw⟩, .inl ?_⟩
                  cases hP with
                  | var h => rw [deref_nonref (by simp)] at h; simp at h
                  | cons h3 h4 =>
                    rw [deref_nonref (by simp)] at h3
                    cases h3
                    exact ⟨_, _, .cons d1 (.cons t1 h4)⟩
                · refine UnivOut.bad (by simp) (by simp) fun ρ hρ hu => ?_
                  obtain ⟨g, xs, _, _, h4, _⟩ := rel ρ hρ hu
                  exact hx ρ hρ xs h4
              · have htl' : ∀ c, tl ≠ .lst c := fun c hc => htl ⟨c, hc⟩
                have : o = .err .typeList := by
                  cases tl <;> first | exact absurd rfl (htl' _) | exact (Option.some.inj h2).symm
                subst this
                refine UnivOut.bad (by simp) (by simp) fun ρ hρ hu => ?_
                obtain ⟨g, xs, hx, _, h4, _⟩ := rel ρ hρ hu
                cases xs with
                | nil => exact hx rfl
                | cons y ys =>
                  refine not_list hok (w := tl) t2 (fun _ _ => rfl) ?_ ρ hρ _ _ h4
                  cases tl <;> first | rfl | exact absurd rfl (htr' _) | exact absurd rfl (htl' _)
            · have : o = .err .typeAtom := by
                cases fw <;> first | exact absurd ⟨_, rfl⟩ hfa | exact (Option.some.inj h2).symm
              subst this
              refine UnivOut.bad (by simp) (by simp) fun ρ hρ hu => ?_
              obtain ⟨g, xs, _, h3, _⟩ := rel ρ hρ hu
              exact hfa ⟨g, atomic_atm g2 hfr' h3⟩
    · have hvl' : ∀ b, v ≠ .lst b := fun b hb => hvl ⟨b, hb⟩
      have h' : (if v = NIL_WORD then some (Out.err .domainNonEmptyList) else some (.err .typeList)) = some o := by
        rw [← h]
        cases v <;> first | exact absurd rfl (hvr' _) | exact absurd rfl (hvl' _) | rfl
      split at h' <;>
      · simp only [Option.some.injEq] at h'; subst h'
        exact nolist hvr' hvl'

theorem UnivOut.of_list {tw lw : Cell} {o : Out} (h : ListOut N s (fun ρ => UnivRel (eval s.mem ρ tw) (eval s.mem ρ lw)) o) :
    UnivOut N s tw lw o := by
  cases o with
  | ret b s' => cases b <;> exact h
  | err e => obtain ⟨rfl, h⟩ := h; exact h

theorem univ_res (hok : Ok N s) (hnd : NoDot s.mem) {tw lw : Cell} {o : Out} (ht : ValidWord N s.lssa s.mem tw)
    (hl : ValidWord N s.lssa s.mem lw) (h : univ E s tw lw = some o) : UnivOut N s tw lw o := by
  obtain ⟨v, d1, d2, d3, d4⟩ := deref_ok hok ht
  unfold univ at h
  rw [d1] at h
  have comp : ∀ {f : Nat} {is : List Item}, (∀ i ∈ is, GoodItem N s i) →
      (∀ ρ, Model N s.mem ρ → View (eval s.mem ρ tw) f (vals s.mem ρ is)) →
      unList E (.word (.atm f) :: is) s lw = some o → UnivOut N s tw lw o := by
    intro f is hi hv h
    refine UnivOut.of_list ((unList_res hok hnd ?_ hl h).congr fun ρ hρ => ?_)
    · intro i hi'
      rcases List.mem_cons.mp hi' with rfl | h
      · exact ⟨trivial, by intro b hb; simp at hb⟩
      · exact hi i h
    · constructor
      · intro he; exact .inl ⟨f, _, hv ρ hρ, he⟩
      · rintro (⟨g, as, hv', he⟩ | ⟨ha, _⟩)
        · obtain ⟨rfl, rfl⟩ := View.unique hv' (hv ρ hρ)
          exact he
        · exact absurd (hv ρ hρ) (view_atomic ha)
  have atomic : ∀ {w : Cell}, v = w → isAtomic w = true → unList E [.word w] s lw = some o → UnivOut N s tw lw o := by
    rintro w rfl hat h
    refine UnivOut.of_list ((unList_res hok hnd ?_ hl h).congr fun ρ hρ => ?_)
    · intro i hi
      simp only [List.mem_singleton] at hi
      subst hi
      refine ⟨d2, fun b hb => ?_⟩
      subst hb; simp [isAtomic] at hat
    · have ha := (eval_atomic d2 hat ρ ρ).1
      rw [d4 ρ hρ]
      constructor
      · intro he; exact .inr ⟨ha, he⟩
      · rintro (⟨g, as, hv, he⟩ | ⟨_, he⟩)
        · exact absurd hv (view_atomic ha)
        · exact he
  cases v with
  | ref a => exact univNew_res hok hnd d2.1 (d3 a rfl) d1 d4 hl h
  | lst a =>
    obtain ⟨c1, c2, c3, c4⟩ := d2
    refine comp (f := 46) (is := [.at a, .at (a + 1)]) ?_ (fun ρ hρ => ?_) h
    · intro i hi
      simp only [List.mem_cons, List.not_mem_nil, or_false] at hi
      rcases hi with rfl | rfl
      · exact ⟨by omega, c3⟩
      · exact ⟨by omega, c4⟩
    · rw [d4 ρ hρ]; exact .lst
  | stc a =>
    obtain ⟨f, n, h1, h2, h3, h4, h5, h6⟩ := eval_struct hnd d2
    simp only [h1] at h
    refine comp ?_ (fun ρ hρ => ?_) h
    · intro i hi
      simp only [List.mem_map, List.mem_range] at hi
      obtain ⟨j, hj, rfl⟩ := hi
      exact ⟨by omega, h5 j hj⟩
    · rw [d4 ρ hρ, (h6 ρ).1]
      have : vals s.mem ρ ((List.range n).map fun i => .at (a + 1 + i)) = (List.range n).map fun i => ρ (a + 1 + i) := by
        simp [vals, Item.val, Function.comp]
      rw [this]
      exact .app (h6 ρ).2.1 (h6 ρ).2.2
  | atm i => exact atomic rfl rfl h
  | int i => exact atomic rfl rfl h
  | flt i => exact atomic rfl rfl h
  | fdv i => exact d2.elim
  | fn i j => exact d2.elim
  | raw i => exact d2.elim

end Gp.TermInl
