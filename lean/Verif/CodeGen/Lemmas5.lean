import Verif.CodeGen.Lemmas4
namespace Gp.CodeGen
open Gp.Heap Gp.Unify Gp.ListBip
open Gp.Term (isNaN fkey)

variable {N nY e c c' : Nat} {V V' V'' : St} {X X' X'' : Var → Cell} {g g' g'' : G}
  {A B C : (Var → T) → (Adr → T) → Prop} {E : Env}

/-! ## Opening of a structure -/

theorem mk_list {f n : Nat} (h : isList f n = true) {ts : List T} (hl : ts.length = n) :
    ∃ a b, ts = [a, b] ∧ mk f ts = .lst a b := by
  simp only [isList, Bool.and_eq_true, beq_iff_eq] at h
  obtain ⟨rfl, rfl⟩ := h
  match ts, hl with
  | [a, b], _ => exact ⟨a, b, rfl, rfl⟩

theorem mk_stc {f n : Nat} (h : isList f n = false) {ts : List T} (hl : ts.length = n) : mk f ts = .app f ts := by
  match ts with
  | [] => rfl
  | [a] => rfl
  | [a, b] =>
    simp only [List.length_cons, List.length_nil] at hl
    subst hl
    simp only [isList, Bool.and_eq_false_imp, beq_iff_eq] at h
    simp only [mk]
    rw [if_neg]
    intro h1
    have := h h1
    simp at this
  | a :: b :: d :: l => rfl

theorem mk_inj {f : Nat} {ts ts' : List T} (hl : ts.length = ts'.length) (h : mk f ts = mk f ts') : ts = ts' := by
  cases hb : isList f ts.length with
  | true =>
    obtain ⟨a, b, h1, h2⟩ := mk_list hb rfl
    obtain ⟨a', b', h1', h2'⟩ := mk_list hb (ts := ts') hl.symm
    rw [h2, h2'] at h
    cases h
    rw [h1, h1']
  | false =>
    rw [mk_stc hb rfl, mk_stc hb hl.symm] at h
    cases h; rfl

theorem eval_lst_mk (mem : Heap.Mem) (ρ : Adr → T) (a : Adr) : eval mem ρ (.lst a) = mk 46 (cells ρ a 2) := rfl

theorem eval_stc_mk {mem : Heap.Mem} (ρ : Adr → T) {a f n : Nat} (h : mem a = .fn f n) (hn : isList f n = false) :
    eval mem ρ (.stc a) = mk f (cells ρ (a + 1) n) := by
  rw [mk_stc hn (cells_length _ _ _), eval_stc h]; rfl

/-- A structure whose arguments are new variables is ready. -/
structure Prep (N : Nat) (V V2 : St) (q n : Nat) (w : Cell) (f : Nat) : Prop where
  chg : Chg N V (fun _ => True) V2
  model : ∀ ρ, Model N V.mem ρ → Model N V2.mem ρ
  free : ∀ i, i < n → V.mem (q + i) = .fn 0 0
  term : ∀ i, i < n → isTerm (V2.mem (q + i)) = true
  lt : q + n ≤ V.lssa
  noref : ∀ b, q ≤ b → b < q + n → ∀ a, a < N → V2.mem a = .ref b → a = b
  word : ∀ ρ, eval V2.mem ρ w = mk f (cells ρ q n)
  valid : ValidWord N V2.lssa V2.mem w
  nref : ∀ b, w ≠ .ref b
  old : ∀ a, V2.mem a = V.mem a ∨ V2.mem a = .ref a ∨ isTerm (V2.mem a) = false

theorem prep_lst (hok : Ok N V) (hr : V.h + 2 ≤ V.lssa) : Prep N V (fill V 2) V.h 2 (.lst V.h) 46 := by
  obtain ⟨h1, h2⟩ := fill_chg hok hr
  have htop := hok.top
  have ht : ∀ i, i < 2 → isTerm ((fill V 2).mem (V.h + i)) = true := by
    intro i hi; rw [fill_in V (by omega) (by omega)]; rfl
  refine ⟨h1, h2, fun i hi => hok.free _ (by omega) (by omega), ht, hr, ?_, fun ρ => rfl, ?_, fun b h => (by cases h), ?_⟩
  · intro b k1 k2 a ha hb
    by_cases h3 : V.h ≤ a ∧ a < V.h + 2
    · rw [fill_in V h3.1 h3.2] at hb; cases hb; rfl
    · rw [fill_out V (by omega)] at hb
      have hv := (hok.wf a ha (by rw [hb]; rfl)).1
      rw [hb] at hv
      have := hv.2
      rw [hok.free b k1 (by omega)] at this
      simp [isTerm] at this
  · have e1 : (fill V 2).lssa = V.lssa := rfl
    exact ⟨by omega, by omega, ht 0 (by omega), ht 1 (by omega)⟩
  · intro a
    by_cases h3 : V.h ≤ a ∧ a < V.h + 2
    · exact Or.inr (Or.inl (fill_in V h3.1 h3.2))
    · exact Or.inl (fill_out V (by omega))

theorem prep_stc (hok : Ok N V) {f n : Nat} (hn : 0 < n) (hr : V.h + (n + 1) ≤ V.lssa) (hl : isList f n = false) {V1 : St}
    (hp : push V (.fn f n) = some V1) : Prep N V (fill V1 n) (V.h + 1) n (.stc V.h) f := by
  obtain ⟨p1, p2, p3, p4, p5⟩ := pushRaw_chg hok (w := .fn f n) rfl hp
  have hl1 := p1.lssa
  obtain ⟨h1, h2⟩ := fill_chg p1.ok (n := n) (by rw [hl1, p4]; omega)
  have htop := hok.top
  have ht : ∀ i, i < n → isTerm ((fill V1 n).mem (V.h + 1 + i)) = true := by
    intro i hi; rw [fill_in V1 (by omega) (by omega)]; rfl
  have hfn : (fill V1 n).mem V.h = .fn f n := by
    rw [fill_out V1 (by omega), p3, set_same]
  have e1 : (fill V1 n).lssa = V.lssa := hl1
  refine ⟨?_, fun ρ hρ => h2 ρ (p2 ρ hρ), fun i hi => hok.free _ (by omega) (by omega), ht, by omega, ?_,
    fun ρ => eval_stc_mk ρ hfn hl, ?_, fun b h => (by cases h), ?_⟩
  · refine ⟨⟨h1.ok, e1, p1.grow.trans h1.grow, ?_, ?_⟩, ?_, ?_, ?_⟩
    · intro ρ hρ; exact ⟨(p1.down ρ (h1.down ρ hρ).1).1, trivial⟩
    · intro ρ hρ _; exact ⟨ρ, h2 ρ (p2 ρ hρ), Agree.refl _ _⟩
    · intro a k1 k2
      have k3 := p1.keep a k1 k2
      rw [h1.keep a (by rw [k3]; exact k1) (by rw [k3]; exact k2), k3]
    · intro a k1 k2
      exact h1.above a (by rw [hl1]; exact k1) (p1.above a k1 k2)
    · intro a b k1 k2
      by_cases h3 : (fill V1 n).mem a = V1.mem a
      · rw [h3] at k1 k2; exact p1.refs a b k1 k2
      · rw [← hl1]; exact h1.refs a b k1 h3
  · intro b k1 k2 a ha hb
    by_cases h3 : V1.h ≤ a ∧ a < V1.h + n
    · rw [fill_in V1 h3.1 h3.2] at hb; cases hb; rfl
    · rw [fill_out V1 (by omega), p3] at hb
      have hne : a ≠ V.h := by intro h; subst h; rw [set_same] at hb; cases hb
      rw [set_other _ _ _ _ hne] at hb
      have hv := (hok.wf a ha (by rw [hb]; rfl)).1
      rw [hb] at hv
      have := hv.2
      rw [hok.free b (by omega) (by omega)] at this
      simp [isTerm] at this
  · exact ⟨f, n, hfn, hn, by omega, by omega, ht⟩
  · intro a
    by_cases h3 : V1.h ≤ a ∧ a < V1.h + n
    · exact Or.inr (Or.inl (fill_in V1 h3.1 h3.2))
    · rw [fill_out V1 (by omega), p3]
      by_cases h4 : a = V.h
      · subst h4; rw [set_same]; exact Or.inr (Or.inr rfl)
      · rw [set_other _ _ _ _ h4]; exact Or.inl rfl

theorem open_tr (hi : Inv N nY e V X g) {V2 V3 : St} {q n f : Nat} {w : Cell} {x : Adr} (h12 : Prep N V V2 q n w f)
    (hx : isTerm (V.mem x) = true) (h23 : Chg N V2 (fun ρ => ρ x = eval V2.mem ρ w) V3) (D : (Var → T) → List T → Prop) :
    Tr N nY e c V X g V3 X g (fun β ρ => ∃ ts, ts.length = n ∧ D β ts ∧ ρ x = mk f ts)
      (fun β ρ => D β (cells ρ q n)) where
  inv := h23.inv (h12.chg.inv hi)
  lssa := by rw [h23.lssa, h12.chg.lssa]
  grow := h12.chg.grow.trans h23.grow
  regs _ _ := rfl
  info _ _ h := h
  low ee h1 h2 h3 := (h23.tr (c := c) (h12.chg.inv hi)).low ee (by rw [h12.chg.lssa]; exact h1) h2
    ((h12.chg.tr (c := c) hi).low ee h1 h2 h3)
  safe ee h1 h2 h3 := (h23.tr (c := c) (h12.chg.inv hi)).safe ee (by rw [h12.chg.lssa]; exact h1) h2
    ((h12.chg.tr (c := c) hi).safe ee h1 h2 h3)
  down ρ hρ := by
    obtain ⟨m2, d2⟩ := h23.down ρ hρ
    obtain ⟨m1, _⟩ := h12.chg.down ρ m2
    refine ⟨m1, fun β hh hB => ⟨hh.down hi (h12.chg.grow.trans h23.grow) (fun _ _ => rfl) (fun _ _ h => h), ?_⟩⟩
    exact ⟨_, cells_length _ _ _, hB, by rw [d2, h12.word]⟩
  up ρ β hρ hh := by
    rintro ⟨ts, hl, hD, hx'⟩
    subst hl
    let ρ1 : Adr → T := fun a => if h : q ≤ a ∧ a < q + ts.length then ts[a - q]'(by omega) else ρ a
    have hc1 : cells ρ1 q ts.length = ts := cells_eq ts ρ q
    have ha1 : Agree V.mem ρ ρ1 := by
      intro a ha
      show (if h : q ≤ a ∧ a < q + ts.length then ts[a - q]'(by omega) else ρ a) = ρ a
      rw [dif_neg]
      rintro ⟨k1, k2⟩
      have := h12.free (a - q) (by omega)
      rw [show q + (a - q) = a by omega] at this
      rw [this] at ha; simp [isTerm] at ha
    have m1 := model_agree hi.ok.wf hρ ha1
    have m2 := h12.model ρ1 m1
    obtain ⟨ρ2, m3, ha2⟩ := h23.up ρ1 m2 (by rw [h12.word, hc1, ha1 x hx, hx'])
    have ha : Agree V.mem ρ ρ2 := ha1.trans ha2 h12.chg.grow
    refine ⟨ρ2, β, m3, ha, SameTo.refl _,
      fun v hv => hh.up hi (h12.chg.grow.trans h23.grow) (fun _ _ => rfl) ha hv, ?_⟩
    have hc2 : cells ρ2 q ts.length = cells ρ1 q ts.length := by
      simp only [cells]
      apply List.map_congr_left
      intro i hi
      exact ha2 _ (h12.term i (List.mem_range.mp hi))
    rw [hc2, hc1]; exact hD

/-- The new arguments are not referred to. -/
theorem prep_noref (hi : Inv N nY e V X g) {V2 V3 : St} {q n f : Nat} {w : Cell} {x : Adr} (h12 : Prep N V V2 q n w f)
    (hm : V3.mem = V2.mem.set x w) : NoRef N V3 X g q n where
  mem b k1 k2 a ha hb := by
    rw [hm] at hb
    by_cases h : a = x
    · subst h; rw [set_same] at hb; exact absurd hb (h12.nref b)
    · rw [set_other _ _ _ _ h] at hb; exact h12.noref b k1 k2 a ha hb
  reg b k1 k2 v hv hk hb := by
    have := hi.word v hv hk
    rw [hb] at this
    have h2 := this.2
    have h3 := h12.free (b - q) (by omega)
    rw [show q + (b - q) = b by omega] at h3
    rw [h3] at h2; simp [isTerm] at h2

/-- get_list and get_structure. -/
theorem getCon_ok {m : M} (hi : Inv N nY m.e m.s m.X g) {r : Cell} (hr : ValidWord N m.s.lssa m.s.mem r) {f n : Nat}
    (hn : 0 < n) {o : Option (St × Sreg)}
    (h : (if isList f n then getLst m.s r else getStc m.s f n r) = some o) :
    (o = none → ∀ ρ, Model N m.s.mem ρ → ∀ ts, ts.length = n → eval m.s.mem ρ r ≠ mk f ts) ∧
    (∀ s' S', o = some (s', S') → ∃ V' q, Cur N V' { m with s := s', S := S' } g q n ∧
      ∀ c (D : (Var → T) → List T → Prop), Tr N nY m.e c m.s m.X g V' m.X g
        (fun β ρ => ∃ ts, ts.length = n ∧ D β ts ∧ eval m.s.mem ρ r = mk f ts) (fun β ρ => D β (cells ρ q n))) := by
  obtain ⟨r', d1, d2, d3, d4⟩ := deref_ok hi.ok hr
  have hread : ∀ q, (∀ i, i < n → q + i < m.s.lssa ∧ isTerm (m.s.mem (q + i)) = true) →
      (∀ ρ, eval m.s.mem ρ r' = mk f (cells ρ q n)) → ∃ V' q', Cur N V' { m with s := m.s, S := some q } g q' n ∧
      ∀ c (D : (Var → T) → List T → Prop), Tr N nY m.e c m.s m.X g V' m.X g
        (fun β ρ => ∃ ts, ts.length = n ∧ D β ts ∧ eval m.s.mem ρ r = mk f ts) (fun β ρ => D β (cells ρ q' n)) := by
    intro q hq hev
    refine ⟨m.s, q, ⟨Or.inl ⟨rfl, rfl⟩, hq⟩, fun c D => (Tr.refl hi (A := fun β ρ => D β (cells ρ q n))).conseq ?_ (fun _ _ _ _ => Iff.rfl)⟩
    intro ρ β hρ hh
    constructor
    · intro hD; exact ⟨_, cells_length _ _ _, hD, by rw [d4 ρ hρ, hev]⟩
    · rintro ⟨ts, hl, hD, ht⟩
      rw [d4 ρ hρ, hev] at ht
      rw [mk_inj (by rw [cells_length, hl]) ht]; exact hD
  have hfail : (∀ ρ, ∀ ts, ts.length = n → eval m.s.mem ρ r' ≠ mk f ts) →
      ∀ ρ, Model N m.s.mem ρ → ∀ ts, ts.length = n → eval m.s.mem ρ r ≠ mk f ts := by
    intro h ρ hρ; rw [d4 ρ hρ]; exact h ρ
  by_cases hb : isList f n = true
  · rw [if_pos hb] at h
    have hb' := hb
    simp only [isList, Bool.and_eq_true, beq_iff_eq] at hb'
    obtain ⟨rfl, rfl⟩ := hb'
    have hml : ∀ {t : T}, (∀ a b, t ≠ .lst a b) → ∀ ts : List T, ts.length = 2 → t ≠ mk 46 ts := by
      intro t h1 ts h2 h3
      obtain ⟨a, b, _, h4⟩ := mk_list hb h2
      exact h1 a b (by rw [h3, h4])
    unfold getLst at h
    rw [d1] at h
    cases r' with
    | ref a =>
      simp only at h
      by_cases hro : room m.s 2 = true
      · rw [if_pos hro] at h
        have hro := of_decide_eq_true hro
        simp only [Option.some.injEq] at h
        subst h
        refine ⟨fun h => (by cases h), fun s' S' hs => ?_⟩
        cases hs
        have hua := d3 a rfl
        have hpr := prep_lst hi.ok hro
        have hne : ¬ (m.s.h ≤ a ∧ a < m.s.h + 2) := by
          rintro ⟨k1, k2⟩
          rw [hi.ok.free a k1 (by omega)] at hua; cases hua
        have hu2 : (fill m.s 2).mem a = .ref a := by rw [fill_out _ (by omega)]; exact hua
        have h23 := bind_chg hpr.chg.ok d2.1 hu2 hpr.valid hpr.nref
        refine ⟨(fill m.s 2).bindUV a (.lst m.s.h), m.s.h, ⟨Or.inr ⟨rfl, rfl, ?_, prep_noref hi hpr rfl⟩, ?_⟩, fun c D => ?_⟩
        · exact (bind_fill _ _ (by omega)).symm
        · intro i hi'
          rw [h23.lssa]
          have e1 : (fill m.s 2).lssa = m.s.lssa := rfl
          exact ⟨by omega, h23.grow.term _ (hpr.term i hi')⟩
        · refine (open_tr hi hpr (by rw [hua]; rfl) h23 D).conseq ?_ (fun _ _ _ _ => Iff.rfl)
          intro ρ β hρ hh
          rw [d4 ρ hρ]; rfl
      · rw [if_neg hro] at h; cases h
    | lst a =>
      simp only [Option.some.injEq] at h
      subst h
      refine ⟨fun h => (by cases h), fun s' S' hs => ?_⟩
      cases hs
      obtain ⟨v1, v2, v3, v4⟩ := d2
      refine hread a ?_ (fun ρ => rfl)
      intro i hi'
      match i, hi' with
      | 0, _ => exact ⟨by omega, v3⟩
      | 1, _ => exact ⟨by omega, v4⟩
    | atm i => simp only [Option.some.injEq] at h; subst h; exact ⟨fun _ => hfail (fun ρ => hml (by simp [eval])), fun _ _ h => by cases h⟩
    | int i => simp only [Option.some.injEq] at h; subst h; exact ⟨fun _ => hfail (fun ρ => hml (by simp [eval])), fun _ _ h => by cases h⟩
    | stc b =>
      simp only [Option.some.injEq] at h; subst h
      refine ⟨fun _ => hfail (fun ρ => hml ?_), fun _ _ h => by cases h⟩
      obtain ⟨f', n', k1, _⟩ := d2
      rw [eval_stc k1]; intro _ _ h; cases h
    | flt b =>
      simp only [Option.some.injEq] at h; subst h
      refine ⟨fun _ => hfail (fun ρ => hml ?_), fun _ _ h => by cases h⟩
      obtain ⟨x, k1⟩ := d2
      simp only [eval, k1]
      split <;> intro _ _ h <;> cases h
    | fdv b => exact d2.elim
    | fn f n => exact d2.elim
    | raw x => exact d2.elim
  · have hb' : isList f n = false := by simpa using hb
    rw [if_neg hb] at h
    have hms : ∀ {t : T}, (∀ ts, t ≠ .app f ts) → ∀ ts : List T, ts.length = n → t ≠ mk f ts := by
      intro t h1 ts h2 h3
      rw [mk_stc hb' h2] at h3
      exact h1 ts h3
    unfold getStc at h
    rw [d1] at h
    cases r' with
    | ref a =>
      simp only at h
      by_cases hro : room m.s (n + 1) = true
      · rw [if_pos hro] at h
        have hro := of_decide_eq_true hro
        cases hpu : push m.s (.fn f n) with
        | none => rw [hpu] at h; cases h
        | some V1 =>
          rw [hpu] at h
          simp only [Option.some.injEq] at h
          subst h
          refine ⟨fun h => (by cases h), fun s' S' hs => ?_⟩
          cases hs
          have hua := d3 a rfl
          have hpr := prep_stc hi.ok hn hro hb' hpu
          obtain ⟨p1, p2, p3, p4, p5⟩ := pushRaw_chg hi.ok (w := .fn f n) rfl hpu
          have hne : ¬ (m.s.h ≤ a ∧ a < m.s.h + (n + 1)) := by
            rintro ⟨k1, k2⟩
            rw [hi.ok.free a k1 (by omega)] at hua; cases hua
          have hu2 : (fill V1 n).mem a = .ref a := by
            rw [fill_out _ (by omega), p3, set_other _ _ _ _ (by omega)]; exact hua
          have h23 := bind_chg hpr.chg.ok d2.1 hu2 hpr.valid hpr.nref
          refine ⟨(fill V1 n).bindUV a (.stc m.s.h), m.s.h + 1, ⟨Or.inr ⟨rfl, p4.symm, ?_, prep_noref hi hpr rfl⟩, ?_⟩, fun c D => ?_⟩
          · exact (bind_fill _ _ (by omega)).symm
          · intro i hi'
            rw [h23.lssa, hpr.chg.lssa]
            exact ⟨by omega, h23.grow.term _ (hpr.term i hi')⟩
          · refine (open_tr hi hpr (by rw [hua]; rfl) h23 D).conseq ?_ (fun _ _ _ _ => Iff.rfl)
            intro ρ β hρ hh
            rw [d4 ρ hρ]; rfl
      · rw [if_neg hro] at h; cases h
    | stc a =>
      simp only at h
      obtain ⟨f', n', k1, k2, k3, k4, k5⟩ := d2
      split at h
      · rename_i heq
        simp only [Option.some.injEq] at h
        subst h
        refine ⟨fun h => (by cases h), fun s' S' hs => ?_⟩
        cases hs
        rw [k1] at heq
        cases heq
        exact hread (a + 1) (fun i hi' => ⟨by omega, k5 i hi'⟩) (fun ρ => eval_stc_mk ρ k1 hb')
      · rename_i hne
        simp only [Option.some.injEq] at h; subst h
        refine ⟨fun _ => hfail (fun ρ ts hl ht => ?_), fun _ _ h => by cases h⟩
        rw [eval_stc k1, mk_stc hb' hl] at ht
        cases ht
        simp only [List.length_map, List.length_range] at hl
        subst hl
        exact hne k1
    | atm i => simp only [Option.some.injEq] at h; subst h; exact ⟨fun _ => hfail (fun ρ => hms (by simp [eval])), fun _ _ h => by cases h⟩
    | int i => simp only [Option.some.injEq] at h; subst h; exact ⟨fun _ => hfail (fun ρ => hms (by simp [eval])), fun _ _ h => by cases h⟩
    | lst b => simp only [Option.some.injEq] at h; subst h; exact ⟨fun _ => hfail (fun ρ => hms (by simp [eval])), fun _ _ h => by cases h⟩
    | flt b =>
      simp only [Option.some.injEq] at h; subst h
      refine ⟨fun _ => hfail (fun ρ => hms ?_), fun _ _ h => by cases h⟩
      obtain ⟨x, k1⟩ := d2
      simp only [eval, k1]
      split <;> intro _ h <;> cases h
    | fdv b => exact d2.elim
    | fn f n => exact d2.elim
    | raw x => exact d2.elim

end Gp.CodeGen
