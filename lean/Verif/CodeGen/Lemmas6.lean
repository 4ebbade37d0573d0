import Verif.CodeGen.Lemmas5
namespace Gp.CodeGen
open Gp.Heap Gp.Unify Gp.ListBip
open Gp.Term (isNaN fkey deq)

variable {N nY e c c' : Nat} {V V' V'' : St} {X X' X'' : Var → Cell} {g g' g'' : G}
  {A B C : (Var → T) → (Adr → T) → Prop} {E : Env}

theorem fill_fill (s : St) (n k : Nat) : fill (fill s n) k = fill s (n + k) := by
  have eh : (fill s n).h = s.h + n := rfl
  have hm : (fill (fill s n) k).mem = (fill s (n + k)).mem := by
    funext a
    by_cases h1 : s.h ≤ a ∧ a < s.h + n
    · rw [fill_out _ (by rw [eh]; omega), fill_in s h1.1 h1.2, fill_in s (by omega) (by omega)]
    · by_cases h2 : s.h + n ≤ a ∧ a < s.h + n + k
      · rw [fill_in (fill s n) (by rw [eh]; omega) (by rw [eh]; omega), fill_in s (by omega) (by omega)]
      · rw [fill_out _ (by rw [eh]; omega), fill_out _ (by omega), fill_out _ (by omega)]
  have hh : (fill (fill s n) k).h = (fill s (n + k)).h := Nat.add_assoc s.h n k
  exact St.mk.injEq .. |>.mpr ⟨hm, rfl, hh, rfl, rfl, rfl⟩

/-- unify_list and unify_structure, for the last argument. -/
theorem unifyCon_ok {m : M} {p : Nat} (hi : Inv N nY m.e V m.X g) (hc : Cur N V m g p 1) {f n : Nat} (hn : 0 < n)
    {r : Option M} (h : step E m (if isList f n then .unifyList else .unifyStructure f n) = some r) :
    (r = none → ∀ ρ, Model N V.mem ρ → ∀ ts, ts.length = n → ρ p ≠ mk f ts) ∧
    (∀ m', r = some m' → m'.X = m.X ∧ m'.e = m.e ∧ m'.ee = m.ee ∧ ∃ V' q, Cur N V' m' g q n ∧
      ∀ c (D : (Var → T) → List T → Prop), Tr N nY m.e c V m.X g V' m.X g
        (fun β ρ => ∃ ts, ts.length = n ∧ D β ts ∧ ρ p = mk f ts) (fun β ρ => D β (cells ρ q n))) := by
  have h0 := hc.cells 0 (by omega)
  simp only [Nat.add_zero] at h0
  have hpN := Nat.lt_of_lt_of_le h0.1 hi.ok.top
  rcases hc.mode with ⟨hS, hV⟩ | ⟨hS, hp, hV, hno⟩
  · subst hV
    have hst : step E m (if isList f n then .unifyList else .unifyStructure f n) =
        m.retS (if isList f n then getLst m.s (m.s.mem p) else getStc m.s f n (m.s.mem p)) := by
      by_cases hb : isList f n = true
      · rw [if_pos hb, if_pos hb]; simp only [step, hS]
      · rw [if_neg hb, if_neg hb]; simp only [step, hS]
    rw [hst] at h
    cases hg : (if isList f n then getLst m.s (m.s.mem p) else getStc m.s f n (m.s.mem p)) with
    | none => rw [hg] at h; simp [M.retS] at h
    | some o =>
      rw [hg] at h
      have hev : ∀ ρ, Model N m.s.mem ρ → ρ p = eval m.s.mem ρ (m.s.mem p) := fun ρ hρ => hρ p hpN h0.2
      obtain ⟨k1, k2⟩ := getCon_ok hi (hi.ok.wf p hpN h0.2).1 hn hg
      cases o with
      | none =>
        simp only [M.retS, Option.some.injEq] at h
        subst h
        refine ⟨fun _ ρ hρ => ?_, fun m' h => (by cases h)⟩
        rw [hev ρ hρ]; exact k1 rfl ρ hρ
      | some q =>
        obtain ⟨s', S'⟩ := q
        simp only [M.retS, Option.some.injEq] at h
        subst h
        refine ⟨fun h => (by cases h), fun m' h => ?_⟩
        cases h
        obtain ⟨V', q, j1, j2⟩ := k2 s' S' rfl
        refine ⟨rfl, rfl, rfl, V', q, j1, fun c D => (j2 c D).conseq ?_ (fun _ _ _ _ => Iff.rfl)⟩
        intro ρ β hρ _
        rw [hev ρ hρ]
  · have hl := hc.lssa
    have hu : V.mem p = .ref p := by rw [hV, hp]; exact fill_in _ (Nat.le_refl _) (by omega)
    have hVh : V.h = p + 1 := by rw [hV, hp]; rfl
    have key : ∀ {V2 V3 : St} {q : Nat} {w : Cell}, Prep N V V2 q n w f → V3 = setMem V2 p w → p < q →
        (∀ b, w ≠ .ref b) → ∀ {s'' : St}, s''.h = q → V3 = fill s'' n →
        ∃ V' q, Cur N V' { m with s := s'', S := none } g q n ∧
          ∀ c (D : (Var → T) → List T → Prop), Tr N nY m.e c V m.X g V' m.X g
            (fun β ρ => ∃ ts, ts.length = n ∧ D β ts ∧ ρ p = mk f ts) (fun β ρ => D β (cells ρ q n)) := by
      intro V2 V3 q w hpr h3 hpq hw s'' hh hf
      have hu2 : V2.mem p = .ref p := by
        rcases hpr.old p with h | h | h
        · rw [h, hu]
        · exact h
        · have := hpr.chg.grow.term p h0.2; rw [this] at h; cases h
      have hch : Chg N V2 (fun ρ => ρ p = eval V2.mem ρ w) V3 := by
        subst h3
        refine write_chg hpr.chg.ok (by rw [hpr.chg.lssa]; exact h0.1) hu2 ?_ hpr.valid (fun b hb => absurd hb (hw b)) (hw p)
        intro a ha hb
        rcases hpr.old a with h | h | h
        · rw [h] at hb; exact hno.mem p (Nat.le_refl _) (by omega) a ha hb
        · rw [h] at hb; cases hb; rfl
        · rw [hb] at h; cases h
      refine ⟨V3, q, ⟨Or.inr ⟨rfl, hh.symm, hf, prep_noref (x := p) hi hpr (by rw [h3]; rfl)⟩, ?_⟩, fun c D => open_tr hi hpr h0.2 hch D⟩
      intro i hi'
      rw [hch.lssa, hpr.chg.lssa]
      have := hpr.lt
      exact ⟨by omega, hch.grow.term _ (hpr.term i hi')⟩
    by_cases hb : isList f n = true
    · rw [if_pos hb] at h
      simp only [isList, Bool.and_eq_true, beq_iff_eq] at hb
      obtain ⟨rfl, rfl⟩ := hb
      simp only [step, hS] at h
      by_cases hro : room m.s 3 = true
      · rw [if_pos hro] at h
        have hro := of_decide_eq_true hro
        unfold pushRes at h
        cases hpu : push m.s (.lst (m.s.h + 1)) with
        | none => rw [hpu] at h; simp [M.ret] at h
        | some s' =>
          rw [hpu] at h
          simp only [Option.map_some, M.ret, Option.some.injEq] at h
          subst h
          refine ⟨fun h => (by cases h), fun m' h => ?_⟩
          cases h
          obtain ⟨f1, f2, f3⟩ := push_fill (n := 2) hpu
          have hpr := prep_lst hi.ok (by rw [hVh, hl]; omega)
          refine ⟨rfl, rfl, rfl, key hpr rfl (by omega) (fun b h => by cases h) (by rw [f2, hVh, hp]) ?_⟩
          rw [f1, hV, fill_fill, hp]
          rfl
      · rw [if_neg hro] at h; cases h
    · rw [if_neg hb] at h
      have hb' : isList f n = false := by simpa using hb
      simp only [step, hS] at h
      by_cases hro : room m.s (n + 2) = true
      · rw [if_pos hro] at h
        have hro := of_decide_eq_true hro
        cases hpu : push m.s (.stc (m.s.h + 1)) with
        | none => rw [hpu] at h; simp at h
        | some s' =>
          rw [hpu] at h
          simp only [pushRes] at h
          cases hpu2 : push s' (.fn f n) with
          | none => rw [hpu2] at h; simp [M.ret] at h
          | some s'' =>
            rw [hpu2] at h
            simp only [Option.map_some, M.ret, Option.some.injEq] at h
            subst h
            refine ⟨fun h => (by cases h), fun m' h => ?_⟩
            cases h
            have hV1 : push V (.fn f n) = some { V with mem := V.mem.set V.h (.fn f n), h := V.h + 1 } := by
              unfold push; rw [if_pos (by rw [hl, hVh]; omega)]
            have hpr := prep_stc hi.ok hn (by rw [hVh, hl]; omega) hb' hV1
            have e1 : s' = { m.s with mem := m.s.mem.set m.s.h (.stc (m.s.h + 1)), h := m.s.h + 1 } := by
              unfold push at hpu; split at hpu
              · exact (Option.some.inj hpu).symm
              · cases hpu
            have e2 : s'' = { s' with mem := s'.mem.set s'.h (.fn f n), h := s'.h + 1 } := by
              unfold push at hpu2; split at hpu2
              · exact (Option.some.inj hpu2).symm
              · cases hpu2
            refine ⟨rfl, rfl, rfl, key hpr rfl (by omega) (fun b h => by cases h) (by rw [e2, e1, hVh, hp]) ?_⟩
            rw [e2, e1, hVh, hV, hp]
            simp only [fill, setMem, St.mk.injEq]
            refine ⟨?_, trivial, trivial, trivial, trivial, trivial⟩
            funext a
            simp only [Mem.set]
            by_cases h1 : a = m.s.h
            · subst h1
              rw [if_pos rfl, if_neg (by omega), if_neg (by omega), if_pos rfl]
            · rw [if_neg h1]
              by_cases h2 : m.s.h + 1 + 1 ≤ a ∧ a < m.s.h + 1 + 1 + n
              · rw [if_pos h2, if_pos h2]
              · rw [if_neg h2, if_neg h2]
                by_cases h3 : a = m.s.h + 1
                · rw [if_pos h3, if_pos h3]
                · rw [if_neg h3, if_neg h3, if_neg h1, if_neg (by omega)]
      · rw [if_neg hro] at h; cases h

/-- get_float. -/
theorem getFlt_chg (hok : Ok N V) {r : Cell} {b : BitVec 64} (hr : ValidWord N V.lssa V.mem r) (hb : isNaN b = false)
    {o : Option St} (h : getFlt V b r = some o) :
    (o = none → ∀ ρ, Model N V.mem ρ → eval V.mem ρ r ≠ .flt (fkey b)) ∧
    (∀ V', o = some V' → Chg N V (fun ρ => eval V.mem ρ r = .flt (fkey b)) V') := by
  obtain ⟨r', d1, d2, d3, d4⟩ := deref_ok hok hr
  unfold getFlt at h
  rw [d1] at h
  have hfail : (∀ ρ, eval V.mem ρ r' ≠ .flt (fkey b)) → ∀ ρ, Model N V.mem ρ → eval V.mem ρ r ≠ .flt (fkey b) :=
    fun h ρ hρ => by rw [d4 ρ hρ]; exact h ρ
  cases r' with
  | ref a =>
    simp only at h
    cases hpu : push (V.bindUV a (.flt V.h)) (.raw b) with
    | none => rw [hpu] at h; cases h
    | some V' =>
      rw [hpu] at h
      simp only [Option.some.injEq] at h
      subst h
      refine ⟨fun h => (by cases h), fun V3 h => ?_⟩
      cases h
      have hua := d3 a rfl
      have hlt : V.h < V.lssa := by
        unfold push at hpu
        split at hpu
        · assumption
        · cases hpu
      have hpu1 : push V (.raw b) = some { V with mem := V.mem.set V.h (.raw b), h := V.h + 1 } := by
        unfold push; rw [if_pos hlt]
      obtain ⟨p1, p2, p3, p4, p5⟩ := pushRaw_chg hok (w := .raw b) rfl hpu1
      have hne : a ≠ V.h := by intro h; subst h; rw [hok.free _ (Nat.le_refl _) hlt] at hua; cases hua
      have hu1 : (V.mem.set V.h (.raw b)) a = .ref a := by rw [set_other _ _ _ _ hne]; exact hua
      have hraw : (V.mem.set V.h (.raw b)) V.h = .raw b := set_same _ _ _
      have h23 := bind_chg p1.ok d2.1 hu1 (w := .flt V.h) ⟨b, hraw⟩ (fun b h => by cases h)
      have hV' : V' = ({ V with mem := V.mem.set V.h (.raw b), h := V.h + 1 } : St).bindUV a (.flt V.h) := by
        unfold push at hpu
        split at hpu
        · rw [← Option.some.inj hpu]
          simp only [St.bindUV, St.mk.injEq]
          refine ⟨?_, rfl, trivial, trivial, trivial, trivial⟩
          funext x
          simp only [Mem.set]
          by_cases h1 : x = V.h
          · subst h1; rw [if_pos rfl, if_neg (Ne.symm hne), if_pos rfl]
          · rw [if_neg h1]
            by_cases h2 : x = a
            · rw [if_pos h2, if_pos h2]
            · rw [if_neg h2, if_neg h2, if_neg h1]
        · cases hpu
      rw [hV']
      have hev : ∀ ρ, eval (V.mem.set V.h (.raw b)) ρ (.flt V.h) = .flt (fkey b) := by
        intro ρ; simp only [eval, hraw, hb]; rfl
      refine ⟨⟨h23.ok, by rw [h23.lssa], p1.grow.trans h23.grow, ?_, ?_⟩, ?_, ?_, ?_⟩
      · intro ρ hρ
        obtain ⟨m2, d⟩ := h23.down ρ hρ
        obtain ⟨m1, _⟩ := p1.down ρ m2
        refine ⟨m1, ?_⟩
        rw [d4 ρ m1]; show ρ a = _; rw [d, hev]
      · intro ρ hρ hP
        have m2 := p2 ρ hρ
        obtain ⟨ρ', m3, ha⟩ := h23.up ρ m2 (by rw [hev]; rw [d4 ρ hρ] at hP; exact hP)
        exact ⟨ρ', m3, (Agree.refl V.mem ρ).trans ha p1.grow⟩
      · intro x k1 k2
        have k3 := p1.keep x k1 k2
        rw [h23.keep x (by rw [k3]; exact k1) (by rw [k3]; exact k2), k3]
      · intro x k1 k2
        exact h23.above x k1 (p1.above x k1 k2)
      · intro x y k1 k2
        by_cases h3 : (V.mem.set V.h (.raw b)) x = (V.bindUV a (.flt V.h)).mem x
        · exact h23.refs x y k1 (fun h => by
            by_cases hx : x = a
            · subst hx
              simp only [St.bindUV] at h
              rw [set_same, set_other _ _ _ _ hne] at h
              rw [hua] at h; cases h
            · simp only [St.bindUV] at h k1 k2
              rw [set_other _ _ _ _ hx] at k1 k2
              by_cases hy : x = V.h
              · subst hy; rw [set_same] at k1; cases k1
              · rw [set_other _ _ _ _ hy] at k2; exact k2 rfl)
        · by_cases hx : x = a
          · subst hx; simp only [St.bindUV] at k1; rw [set_same] at k1; cases k1
          · simp only [St.bindUV] at k1 k2
            rw [set_other _ _ _ _ hx] at k1 k2
            by_cases hy : x = V.h
            · subst hy; rw [set_same] at k1; cases k1
            · rw [set_other _ _ _ _ hy] at k2; exact absurd rfl k2
  | flt a =>
    obtain ⟨x, hx⟩ := d2
    simp only [hx] at h
    have hiff : ∀ ρ, eval V.mem ρ (.flt a) = .flt (fkey b) ↔ deq x b = true := by
      intro ρ
      simp only [eval, hx, deq, hb]
      cases isNaN x <;> simp
    by_cases hd : deq x b = true
    · rw [if_pos hd] at h
      simp only [Option.some.injEq] at h
      subst h
      refine ⟨fun h => (by cases h), fun V' h => ?_⟩
      cases h
      refine ⟨⟨hok, rfl, Grow.refl _, ?_, ?_⟩, fun _ _ _ => rfl, fun _ _ h => h, fun _ _ _ h => absurd rfl h⟩
      · intro ρ hρ; refine ⟨hρ, ?_⟩; rw [d4 ρ hρ]; exact (hiff ρ).mpr hd
      · intro ρ hρ _; exact ⟨ρ, hρ, Agree.refl _ _⟩
    · rw [if_neg hd] at h
      simp only [Option.some.injEq] at h
      subst h
      exact ⟨fun _ => hfail (fun ρ h => hd ((hiff ρ).mp h)), fun _ h => by cases h⟩
  | atm i => simp only [Option.some.injEq] at h; subst h; exact ⟨fun _ => hfail (by simp [eval]), fun _ h => by cases h⟩
  | int i => simp only [Option.some.injEq] at h; subst h; exact ⟨fun _ => hfail (by simp [eval]), fun _ h => by cases h⟩
  | lst i => simp only [Option.some.injEq] at h; subst h; exact ⟨fun _ => hfail (by simp [eval]), fun _ h => by cases h⟩
  | stc i =>
    simp only [Option.some.injEq] at h; subst h
    obtain ⟨f', n', k1, _⟩ := d2
    exact ⟨fun _ => hfail (fun ρ => by rw [eval_stc k1]; intro h; cases h), fun _ h => by cases h⟩
  | fdv b => exact d2.elim
  | fn f n => exact d2.elim
  | raw x => exact d2.elim

end Gp.CodeGen
