import Verif.FdMath.Top

/-! # When the translation raises no error and releases no cell in use -/

namespace Gp.FdMath

/-- A linear expression. -/
def Linear : Tm → Prop
  | .var _ | .int _ => True
  | .pos a | .neg a => Linear a
  | .add a b | .sub a b => Linear a ∧ Linear b
  | .mul (.int _) (.var _) => True
  | _ => False

/-- Number of occurrences of variables. -/
def vars : Tm → Nat
  | .var _ => 1
  | .pos a | .neg a => vars a
  | .add a b | .sub a b | .mul a b => vars a + vars b
  | _ => 0

theorem bump_length {a x m m'} (h : bump a x m = some m') : m'.length = m.length := by
  induction m generalizing m' with
  | nil => cases h
  | cons q l ih =>
    obtain ⟨b, y⟩ := q
    simp only [bump] at h
    split at h
    · cases h; rfl
    · obtain ⟨l', h1, rfl⟩ := Option.map_eq_some_iff.mp h
      simp only [List.length_cons, ih h1]

theorem addMonom_length {p : Poly} {s a x st} (h : p.m.length < 2000) :
    ∃ p', addMonom p s a x st = .ok p' st ∧ p'.m.length ≤ p.m.length + 1 := by
  unfold addMonom
  split
  · exact ⟨p, rfl, Nat.le_succ _⟩
  · simp only
    split
    · rename_i m hm
      exact ⟨_, rfl, by rw [bump_length hm]; omega⟩
    · rw [if_neg (by omega)]
      exact ⟨_, rfl, by simp⟩

theorem linear_ok {E : Env} (e : Tm) : ∀ s p st, Linear e → p.m.length + vars e ≤ 2000 →
    ∃ p' st', normalize E e s p st = .ok p' st' ∧ p'.m.length ≤ p.m.length + vars e ∧
      st'.h = st.h ∧ st'.delayed = st.delayed := by
  induction e with
  | var n =>
    intro s p st _ hl
    simp only [vars] at hl
    simp only [normalize]
    split
    · exact ⟨_, _, rfl, by simp [Poly.addCst], rfl, rfl⟩
    · obtain ⟨p', e1, e2⟩ := addMonom_length (p := p) (s := s) (a := 1) (x := .orig n) (st := st) (by omega)
      exact ⟨p', st, e1, e2, rfl, rfl⟩
  | int n => intro s p st _ hl; exact ⟨_, _, rfl, by simp [Poly.addCst], rfl, rfl⟩
  | pos a ih => intro s p st h hl; exact ih s p st h hl
  | neg a ih => intro s p st h hl; exact ih (-s) p st h hl
  | add a b iha ihb =>
    intro s p st h hl
    simp only [vars] at hl ⊢
    simp only [normalize]
    split
    · obtain ⟨p1, st1, e1, l1, h1, d1⟩ := ihb s p st h.2 (by omega)
      obtain ⟨p2, st2, e2, l2, h2, d2⟩ := iha s p1 st1 h.1 (by omega)
      exact ⟨p2, st2, by rw [e1]; exact e2, by omega, by rw [h2, h1], by rw [d2, d1]⟩
    · obtain ⟨p1, st1, e1, l1, h1, d1⟩ := iha s p st h.1 (by omega)
      obtain ⟨p2, st2, e2, l2, h2, d2⟩ := ihb s p1 st1 h.2 (by omega)
      exact ⟨p2, st2, by rw [e1]; exact e2, by omega, by rw [h2, h1], by rw [d2, d1]⟩
  | sub a b iha ihb =>
    intro s p st h hl
    simp only [vars] at hl ⊢
    simp only [normalize]
    split
    · obtain ⟨p1, st1, e1, l1, h1, d1⟩ := ihb (-s) p st h.2 (by omega)
      obtain ⟨p2, st2, e2, l2, h2, d2⟩ := iha s p1 st1 h.1 (by omega)
      exact ⟨p2, st2, by rw [e1]; exact e2, by omega, by rw [h2, h1], by rw [d2, d1]⟩
    · obtain ⟨p1, st1, e1, l1, h1, d1⟩ := iha s p st h.1 (by omega)
      obtain ⟨p2, st2, e2, l2, h2, d2⟩ := ihb (-s) p1 st1 h.2 (by omega)
      exact ⟨p2, st2, by rw [e1]; exact e2, by omega, by rw [h2, h1], by rw [d2, d1]⟩
  | mul a b _ _ =>
    intro s p st h hl
    cases a with
    | int n =>
      cases b with
      | var v =>
        simp only [vars] at hl ⊢
        unfold normalize
        simp only [rd]
        cases hi : E.inst (st.noteCoef n).posted v with
        | none =>
          simp only
          obtain ⟨p', e1, e2⟩ := addMonom_length (p := p) (s := s) (a := n) (x := .orig v)
            (st := st.noteCoef n) (by omega)
          exact ⟨p', _, e1, by omega, rfl, rfl⟩
        | some k =>
          have hi' : E.inst ((st.noteCoef n).noteCoef n).posted v = some k := hi
          simp only [normalize, Res.bind, hi']
          exact ⟨_, _, rfl, by simp [Poly.addCst], rfl, rfl⟩
      | _ => cases h
    | _ => cases h
  | _ => intro s p st h; cases h

/-- Both operands of every `//` are linear and of the size of the tables. -/
def QuotLinear : Tm → Prop
  | .var _ | .int _ | .atom | .bad => True
  | .pos a | .neg a => QuotLinear a
  | .add a b | .sub a b | .mul a b | .pow a b | .min a b | .max a b | .dist a b | .rem a b | .div a b =>
    QuotLinear a ∧ QuotLinear b
  | .quotRem a b r => QuotLinear a ∧ QuotLinear b ∧ QuotLinear r
  | .quot a b => Linear a ∧ Linear b ∧ vars a ≤ 2000 ∧ vars b ≤ 2000

theorem Res.bind_ub {r : Res α} {f : α → St → Res β} :
    r.bind f = .ub ↔ r = .ub ∨ ∃ a st, r = .ok a st ∧ f a st = .ub := by
  cases r with
  | ok a st =>
    simp only [Res.bind, Res.ok.injEq, reduceCtorEq, false_or]
    exact ⟨fun h => ⟨a, st, ⟨rfl, rfl⟩, h⟩, by rintro ⟨_, _, ⟨rfl, rfl⟩, h⟩; exact h⟩
  | _ => simp [Res.bind]

theorem addMonom_ub {p s a x st} : addMonom p s a x st ≠ .ub := by
  unfold addMonom
  simp only
  (repeat' split) <;> simp

theorem push_ub {d st} : push d st ≠ .ub := by
  unfold push; simp only; split <;> simp

theorem addMul_ub {p s m1 m2 st} : addMul p s m1 m2 st ≠ .ub := by
  unfold addMul
  simp only
  split
  · simp
  · intro h
    rcases Res.bind_ub.mp h with h | ⟨_, _, _, h⟩
    · exact push_ub h
    · exact addMonom_ub h

theorem mulRow_ub {s m1 l p st} : mulRow s m1 l p st ≠ .ub := by
  induction l generalizing p st with
  | nil => simp [mulRow]
  | cons m l ih =>
    intro h
    rcases Res.bind_ub.mp h with h | ⟨_, _, _, h⟩
    · exact addMul_ub h
    · exact ih h

theorem mulLast_ub {s c l p st} : mulLast s c l p st ≠ .ub := by
  induction l generalizing p st with
  | nil => simp [mulLast]
  | cons m l ih =>
    intro h
    rcases Res.bind_ub.mp h with h | ⟨_, _, _, h⟩
    · exact addMonom_ub h
    · exact ih h

theorem mulRows_ub {s p2 l p st} : mulRows s p2 l p st ≠ .ub := by
  induction l generalizing p st with
  | nil => simp [mulRows]
  | cons m l ih =>
    intro h
    rcases Res.bind_ub.mp h with h | ⟨_, _, _, h⟩
    · exact addMonom_ub h
    · rcases Res.bind_ub.mp h with h | ⟨_, _, _, h⟩
      · exact mulRow_ub h
      · exact ih h

theorem mulPoly_ub {s p1 p2 p st} : mulPoly s p1 p2 p st ≠ .ub := by
  intro h
  rcases Res.bind_ub.mp h with h | ⟨_, _, _, h⟩
  · exact mulRows_ub h
  · exact mulLast_ub h

theorem toWord_ub {lr st} : toWord lr st ≠ .ub := by
  obtain ⟨c, l, r⟩ := lr
  cases l <;> cases r <;> simp only [toWord] <;> (repeat' split) <;> simp

theorem loadFin_ub {E r} (h : r ≠ .ub) : loadFin E r ≠ .ub := by
  intro k
  rcases Res.bind_ub.mp k with k | ⟨_, _, _, k⟩
  · exact h k
  · exact toWord_ub k

theorem pushAdd_ub {d a s p st} : ((push d st).bind fun z st => addMonom p s a z st) ≠ .ub := by
  intro h
  rcases Res.bind_ub.mp h with h | ⟨_, _, _, h⟩
  · exact push_ub h
  · exact addMonom_ub h

theorem powW_ub {w1 w2 s p st} : powW w1 w2 s p st ≠ .ub := by
  unfold powW
  (repeat' split) <;> first | exact addMonom_ub | exact pushAdd_ub | simp
theorem minW_ub {w1 w2 s p st} : minW w1 w2 s p st ≠ .ub := by
  unfold minW
  (repeat' split) <;> first | exact addMonom_ub | exact pushAdd_ub | simp
theorem maxW_ub {w1 w2 s p st} : maxW w1 w2 s p st ≠ .ub := by
  unfold maxW
  (repeat' split) <;> first | exact addMonom_ub | exact pushAdd_ub | simp
theorem distW_ub {w1 w2 s p st} : distW w1 w2 s p st ≠ .ub := by
  unfold distW
  (repeat' split) <;> first | exact addMonom_ub | exact pushAdd_ub | simp
theorem divW_ub {w1 w2 s p st} : divW w1 w2 s p st ≠ .ub := by
  unfold divW
  (repeat' split) <;> first | exact addMonom_ub | exact pushAdd_ub | simp

theorem qrW_ub {k h0 w1 w2 w3 s p st} (h : k = .quot → st.h = h0 + 1) :
    qrW k h0 w1 w2 w3 s p st ≠ .ub := by
  have del : ∀ d, ((push d st).bind fun z st =>
      match k, w3 with
      | .rem, .var x3 => addMonom p s 1 x3 st
      | _, _ => addMonom p s 1 z st) ≠ .ub := by
    intro d hh
    rcases Res.bind_ub.mp hh with hh | ⟨_, _, _, hh⟩
    · exact push_ub hh
    · split at hh <;> exact addMonom_ub hh
  cases w1 <;> cases w2
  · simp only [qrW]
    split
    · simp
    · cases k
      · simp only [h rfl, if_true]; simp
      · simp
      · simp
  · exact del _
  · exact del _
  · exact del _

theorem normalize_ub {E : Env} (e : Tm) : ∀ s p st, QuotLinear e → normalize E e s p st ≠ .ub := by
  have two : ∀ {r1 : Res W} {r2 : St → Res W} {f : W → W → St → Res Poly}, r1 ≠ .ub →
      (∀ st, r2 st ≠ .ub) → (∀ a b st, f a b st ≠ .ub) →
      (r1.bind fun a st => (r2 st).bind fun b st => f a b st) ≠ .ub := by
    intro r1 r2 f h1 h2 h3 h
    rcases Res.bind_ub.mp h with h | ⟨_, _, _, h⟩
    · exact h1 h
    · rcases Res.bind_ub.mp h with h | ⟨_, _, _, h⟩
      · exact h2 _ h
      · exact h3 _ _ _ h
  induction e with
  | var n =>
    intro s p st _
    simp only [normalize]
    split
    · simp
    · exact addMonom_ub
  | int n => intro s p st _; simp [normalize]
  | atom => intro s p st _; simp [normalize]
  | bad => intro s p st _; simp [normalize]
  | pos a ih => intro s p st h; exact ih s p st h
  | neg a ih => intro s p st h; exact ih (-s) p st h
  | add a b iha ihb =>
    intro s p st h
    simp only [normalize]
    split
    · intro k
      rcases Res.bind_ub.mp k with k | ⟨_, _, _, k⟩
      · exact ihb _ _ _ h.2 k
      · exact iha _ _ _ h.1 k
    · intro k
      rcases Res.bind_ub.mp k with k | ⟨_, _, _, k⟩
      · exact iha _ _ _ h.1 k
      · exact ihb _ _ _ h.2 k
  | sub a b iha ihb =>
    intro s p st h
    simp only [normalize]
    split
    · intro k
      rcases Res.bind_ub.mp k with k | ⟨_, _, _, k⟩
      · exact ihb _ _ _ h.2 k
      · exact iha _ _ _ h.1 k
    · intro k
      rcases Res.bind_ub.mp k with k | ⟨_, _, _, k⟩
      · exact iha _ _ _ h.1 k
      · exact ihb _ _ _ h.2 k
  | mul a b iha ihb =>
    intro s p st h
    have any : ∀ st, ((normalize E a 1 .new st).bind fun p1 st =>
          (normalize E b 1 .new st).bind fun p2 st => mulPoly s p1 p2 p st) ≠ .ub := by
      intro st k
      rcases Res.bind_ub.mp k with k | ⟨_, _, _, k⟩
      · exact iha _ _ _ h.1 k
      · rcases Res.bind_ub.mp k with k | ⟨_, _, _, k⟩
        · exact ihb _ _ _ h.2 k
        · exact mulPoly_ub k
    simp only [normalize]
    split
    · split
      · exact addMonom_ub
      · exact any _
    · exact any _
  | pow a b iha ihb =>
    intro s p st h
    exact two (loadFin_ub (iha _ _ _ h.1)) (fun _ => loadFin_ub (ihb _ _ _ h.2)) (fun _ _ _ => powW_ub)
  | min a b iha ihb =>
    intro s p st h
    exact two (loadFin_ub (iha _ _ _ h.1)) (fun _ => loadFin_ub (ihb _ _ _ h.2)) (fun _ _ _ => minW_ub)
  | max a b iha ihb =>
    intro s p st h
    exact two (loadFin_ub (iha _ _ _ h.1)) (fun _ => loadFin_ub (ihb _ _ _ h.2)) (fun _ _ _ => maxW_ub)
  | dist a b iha ihb =>
    intro s p st h
    exact two (loadFin_ub (iha _ _ _ h.1)) (fun _ => loadFin_ub (ihb _ _ _ h.2)) (fun _ _ _ => distW_ub)
  | div a b iha ihb =>
    intro s p st h
    exact two (loadFin_ub (iha _ _ _ h.1)) (fun _ => loadFin_ub (ihb _ _ _ h.2)) (fun _ _ _ => divW_ub)
  | rem a b iha ihb =>
    intro s p st h
    exact two (loadFin_ub (iha _ _ _ h.1)) (fun _ => loadFin_ub (ihb _ _ _ h.2))
      (fun _ _ _ => qrW_ub (by simp))
  | quotRem a b r iha ihb ihr =>
    intro s p st h k
    rcases Res.bind_ub.mp k with k | ⟨_, _, _, k⟩
    · exact loadFin_ub (iha _ _ _ h.1) k
    · rcases Res.bind_ub.mp k with k | ⟨_, _, _, k⟩
      · exact loadFin_ub (ihb _ _ _ h.2.1) k
      · rcases Res.bind_ub.mp k with k | ⟨_, _, _, k⟩
        · exact loadFin_ub (ihr _ _ _ h.2.2) k
        · exact qrW_ub (by simp) k
  | quot a b _ _ =>
    intro s p st h k
    obtain ⟨l1, l2, v1, v2⟩ := h
    -- loading a linear operand makes no cell
    have lin : ∀ (a : Tm) (st : St), Linear a → vars a ≤ 2000 →
        loadFin E (normalize E a 1 .new st.unsorted) ≠ .ub ∧
        ∀ w st', loadFin E (normalize E a 1 .new st.unsorted) = .ok w st' → st'.h = st.h := by
      intro a st hl hv
      obtain ⟨p', st', e1, _, e3, _⟩ := linear_ok (E := E) a 1 .new st.unsorted hl
        (by simp only [Poly.new, List.length_nil]; omega)
      refine ⟨loadFin_ub (by rw [e1]; simp), fun w st2 e => ?_⟩
      rw [e1] at e
      have hh : ∀ (m : List (Int × Var)) pr st, (loadPoly m pr st).2.h = st.h := by
        intro m pr st
        have hr : ∀ (m : List (Int × Var)) ld (st : St), (loadPolyRec m ld st).h = st.h := by
          intro m ld st
          fun_induction loadPolyRec m ld st <;> simp_all [St.post, St.newFd]
        unfold loadPoly
        repeat' split
        all_goals first | rfl | exact hr _ _ _
      have hlr : (leftRight E false p' st').2.h = st'.h := by
        unfold leftRight loadLeft
        simp only
        repeat' split
        all_goals first | rfl | exact hh _ _ _ | (simp only [hh])
      have ht : ∀ lr (st : St) w st', toWord lr st = .ok w st' → st'.h = st.h := by
        intro lr st w st' e
        obtain ⟨c, l, r⟩ := lr
        cases l <;> cases r <;> simp only [toWord] at e <;> (repeat' split at e) <;>
          first | (cases e; rfl) | cases e
      have := ht _ _ _ _ e
      rw [this, hlr, e3]; rfl
    obtain ⟨u1, h1⟩ := lin a st.pushCell l1 v1
    rcases Res.bind_ub.mp k with k | ⟨w1, st1, k1, k⟩
    · exact u1 k
    · obtain ⟨u2, h2⟩ := lin b st1 l2 v2
      rcases Res.bind_ub.mp k with k | ⟨w2, st2, k2, k⟩
      · exact u2 k
      · refine qrW_ub (fun _ => ?_) k
        rw [h2 _ _ k2, h1 _ _ k1]; rfl

theorem relPost_ub {rel lr st} : relPost rel lr st ≠ .ub := by
  obtain ⟨c, l, r⟩ := lr
  cases rel <;> cases l <;> cases r <;> simp only [relPost, eqPost, neqPost, ltPost, ltePost] <;>
    (repeat' split) <;> simp

theorem relPost_err {rel lr st} : relPost rel lr st ≠ .err := by
  obtain ⟨c, l, r⟩ := lr
  cases rel <;> cases l <;> cases r <;> simp only [relPost, eqPost, neqPost, ltPost, ltePost] <;>
    (repeat' split) <;> simp

theorem translate_ub {E rel le re} (h1 : QuotLinear le) (h2 : QuotLinear re) :
    translate E rel le re ≠ .ub := by
  intro k
  rcases Res.bind_ub.mp k with k | ⟨_, _, _, k⟩
  · rcases Res.bind_ub.mp k with k | ⟨_, _, _, k⟩
    · exact normalize_ub _ _ _ _ h1 k
    · exact normalize_ub _ _ _ _ h2 k
  · rcases Res.bind_ub.mp k with k | ⟨_, _, _, k⟩
    · exact relPost_ub k
    · cases k

theorem translate_linear {E rel le re} (h1 : Linear le) (h2 : Linear re)
    (hv : vars le + vars re ≤ 2000) :
    translate E rel le re = .fail ∨ ∃ st, translate E rel le re = .ok () st := by
  obtain ⟨p1, st1, e1, l1, _⟩ := linear_ok (E := E) le 1 .new .init h1
    (by simp only [Poly.new, List.length_nil]; omega)
  simp only [Poly.new, List.length_nil] at l1
  obtain ⟨p2, st2, e2, l2, _⟩ := linear_ok (E := E) re (-1) p1 st1 h2 (by omega)
  have e : translate E rel le re =
      (relPost rel (leftRight E (decide (rel = .eq)) p2 st2).1
        (leftRight E (decide (rel = .eq)) p2 st2).2).bind fun _ st => .ok () st.flush := by
    unfold translate
    rw [e1]
    simp only [Res.bind, e2]
  rw [e]
  cases h : relPost rel (leftRight E (decide (rel = .eq)) p2 st2).1
        (leftRight E (decide (rel = .eq)) p2 st2).2 with
  | ok u st => exact .inr ⟨_, rfl⟩
  | fail => exact .inl rfl
  | err => exact absurd h relPost_err
  | ub => exact absurd h relPost_ub

end Gp.FdMath
