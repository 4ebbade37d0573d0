import Verif.Linedit.Act
namespace Gp.Linedit

section
variable {c : Cfg} {s : St} {d : Doc}

theorem tw_true (sep : Nat → Bool) (l : List Nat) : l.takeWhile (fun x => sep x == true) = l.takeWhile sep := by
  congr 1; funext x; cases sep x <;> rfl

theorem tw_false (sep : Nat → Bool) (l : List Nat) : l.takeWhile (fun x => sep x == false) = l.takeWhile (fun x => !sep x) := by
  congr 1; funext x; cases sep x <;> rfl

theorem tw_len (p : Nat → Bool) (l : List Nat) : (l.takeWhile p).length + (l.dropWhile p).length = l.length := by
  rw [← List.length_append, List.takeWhile_append_dropWhile]

theorem tw_app (p : Nat → Bool) (l : List Nat) : l.takeWhile p ++ l.dropWhile p = l := List.takeWhile_append_dropWhile

/-- The three skips of the key of the previous word. -/
theorem prev_ok (r : R c s d) : ∃ p1 p2, skip c s.mem (if s.pos = 0 then s.pos else s.pos - 1) 0 true (-1) = some p1 ∧
    skip c s.mem p1 0 false (-1) = some p2 ∧ skip c s.mem p2 s.fin true 1 = some ((prevWordAt c.sep d.txt : Nat) : Int) ∧
    prevWordAt c.sep d.txt ≤ d.txt.all.length := by
  obtain ⟨q, hq⟩ := r.t.mem_all
  have hp := r.t.pos
  have hf := r.t.fin_all
  have skip0 : ∀ w : Bool, skip c s.mem 0 0 w (-1) = some 0 := by intro w; rfl
  have fwd0 : skip c s.mem 0 s.fin true 1 = some (((d.txt.all.takeWhile c.sep).length : Nat) : Int) := by
    have := skipForw c true d.txt.all [] q 0 s.fin rfl (by rw [hf]; simp)
    rw [tw_true] at this
    rw [hq]; simpa using this
  have hle := tw_len c.sep d.txt.all
  by_cases hr : d.txt.before.reverse.dropWhile c.sep = []
  · -- only separators
    have e : prevWordAt c.sep d.txt = (d.txt.all.takeWhile c.sep).length := by simp only [prevWordAt]; rw [if_pos hr]
    have hall : ∀ x ∈ d.txt.before, c.sep x = true := by
      intro x hx
      have h2 := tw_app c.sep d.txt.before.reverse
      rw [hr, List.append_nil] at h2
      have h3 : x ∈ d.txt.before.reverse.takeWhile c.sep := by rw [h2]; simpa using hx
      exact List.all_eq_true.mp List.all_takeWhile x h3
    have h1 : skip c s.mem (if s.pos = 0 then s.pos else s.pos - 1) 0 true (-1) = some 0 := by
      cases hb : d.txt.before with
      | nil =>
        rw [hb] at hp
        have : s.pos = 0 := by simpa using hp
        rw [if_pos this, this]; exact skip0 true
      | cons x w =>
        rw [hb] at hp hall
        simp only [List.length_cons] at hp
        rw [if_neg (by omega)]
        have := skipBack c true w [] (d.txt.after ++ q) x (s.pos - 1) (fun y hy => hall y (by simp [hy])) (Or.inr rfl) (by rw [hp]; simp)
        have em : s.mem = [] ++ x :: (w ++ (d.txt.after ++ q)) := by rw [hq, Txt.all, hb]; simp
        rw [em]; exact this
    exact ⟨0, 0, h1, skip0 false, by rw [e]; exact fwd0, by rw [e]; omega⟩
  · have e : prevWordAt c.sep d.txt = ((d.txt.before.reverse.dropWhile c.sep).dropWhile (fun x => !c.sep x)).length := by
      simp only [prevWordAt]; rw [if_neg hr]
    -- before = u ++ w ++ s0
    generalize hR : d.txt.before.reverse.dropWhile c.sep = R0 at *
    have hs0 : d.txt.before.reverse = d.txt.before.reverse.takeWhile c.sep ++ R0 := by rw [← hR]; exact (tw_app _ _).symm
    generalize hS : d.txt.before.reverse.takeWhile c.sep = S0 at *
    have hSall : ∀ x ∈ S0, c.sep x = true := by
      intro x hx; rw [← hS] at hx; exact List.all_takeWhile |> List.all_eq_true.mp |> (· x hx)
    cases R0 with
    | nil => exact absurd rfl hr
    | cons z R1 =>
      have hz : c.sep z = false := by
        have := List.head?_dropWhile_not c.sep d.txt.before.reverse
        rw [hR] at this; simpa using this
      generalize hW : (z :: R1).takeWhile (fun x => !c.sep x) = W0
      generalize hU : (z :: R1).dropWhile (fun x => !c.sep x) = U0 at *
      have hWU : z :: R1 = W0 ++ U0 := by rw [← hW, ← hU]; exact (tw_app _ _).symm
      have hWall : ∀ x ∈ W0, c.sep x = false := by
        intro x hx; rw [← hW] at hx
        have := List.all_eq_true.mp (@List.all_takeWhile _ (fun x => !c.sep x) (z :: R1)) x hx
        simpa using this
      have hUh : ∀ y U1, U0 = y :: U1 → c.sep y = true := by
        intro y U1 hy
        have := List.head?_dropWhile_not (fun x => !c.sep x) (z :: R1)
        rw [hU, hy] at this; simpa using this
      have hWz : ∃ W1, W0 = z :: W1 := by
        rw [← hW]; simp [hz]
      obtain ⟨W1, hW1⟩ := hWz
      have hb : d.txt.before = U0.reverse ++ (W0.reverse ++ S0.reverse) := by
        have := congrArg List.reverse hs0
        rw [List.reverse_reverse, hWU] at this
        simpa using this
      have hlen : d.txt.before.length = U0.length + (W0.length + S0.length) := by rw [hb]; simp
      have hW0 : 0 < W0.length := by rw [hW1]; simp
      have hmem : s.mem = U0.reverse ++ (W0.reverse ++ (S0.reverse ++ (d.txt.after ++ q))) := by
        rw [hq, Txt.all, hb]; simp
      -- first skip
      have h1 : skip c s.mem (if s.pos = 0 then s.pos else s.pos - 1) 0 true (-1) = some (U0.length + W0.length - 1 : Int) := by
        rw [if_neg (by omega)]
        have := skipBack c true S0.reverse (U0.reverse ++ W1.reverse) (d.txt.after ++ q) z (s.pos - 1)
          (fun y hy => hSall y (by simpa using hy)) (Or.inl (by rw [hz]; simp)) (by rw [hp, hlen, hW1]; simp; omega)
        have em : s.mem = (U0.reverse ++ W1.reverse) ++ z :: (S0.reverse ++ (d.txt.after ++ q)) := by rw [hmem, hW1]; simp
        rw [em, this, hW1]
        congr 1
        simp; omega
      cases hU0 : U0 with
      | nil =>
        -- the word starts the line
        rw [hU0] at hmem hb h1 e
        have h2 : skip c s.mem (([] : List Nat).length + W0.length - 1 : Int) 0 false (-1) = some 0 := by
          obtain ⟨V, v, hV⟩ := snoc (l := W0) (by rw [hW1]; simp)
          have em : s.mem = [] ++ v :: (V.reverse ++ (S0.reverse ++ (d.txt.after ++ q))) := by rw [hmem, hV]; simp
          rw [em]
          exact skipBack c false V.reverse [] _ v _ (fun y hy => hWall y (by rw [hV]; simp at hy ⊢; exact Or.inl hy)) (Or.inr rfl)
            (by rw [hV]; simp)
        refine ⟨_, 0, h1, h2, ?_, by rw [e]; simp⟩
        rw [fwd0, e]
        obtain ⟨V, v, hV⟩ := snoc (l := W0) (by rw [hW1]; simp)
        have hv : c.sep v = false := hWall v (by rw [hV]; simp)
        have : d.txt.all = v :: (V.reverse ++ (S0.reverse ++ d.txt.after)) := by rw [Txt.all, hb, hV]; simp
        rw [this]; simp [hv]
      | cons y U1 =>
        have hy := hUh y U1 hU0
        rw [hU0] at hmem hb h1 e hlen
        obtain ⟨V, v, hV⟩ := snoc (l := W0) (by rw [hW1]; simp)
        have hv : c.sep v = false := hWall v (by rw [hV]; simp)
        have h2 : skip c s.mem (((y :: U1).length : Int) + W0.length - 1) 0 false (-1) = some (U1.length : Int) := by
          have em : s.mem = U1.reverse ++ y :: (W0.reverse ++ (S0.reverse ++ (d.txt.after ++ q))) := by rw [hmem]; simp
          rw [em]
          have := skipBack c false W0.reverse U1.reverse (S0.reverse ++ (d.txt.after ++ q)) y (((y :: U1).length : Int) + W0.length - 1)
            (fun x hx => hWall x (by simpa using hx)) (Or.inl (by rw [hy]; simp)) (by simp; omega)
          simpa using this
        refine ⟨_, (U1.length : Int), h1, h2, ?_, by rw [e, Txt.all, List.length_append]; omega⟩
        have em : s.mem = U1.reverse ++ ((y :: (W0.reverse ++ (S0.reverse ++ d.txt.after))) ++ q) := by rw [hmem]; simp
        have := skipForw c true (y :: (W0.reverse ++ (S0.reverse ++ d.txt.after))) U1.reverse q U1.length s.fin (by simp)
          (by rw [hf, Txt.all, List.length_append, hlen]; simp; omega)
        rw [← em, tw_true] at this
        rw [this, e]
        congr 1
        rw [hV]; simp [hy, hv]

theorem ok_prevWord (r : R c s d) : Ok c (act c s .prevWord) (specAct c d .prevWord) := by
  obtain ⟨p1, p2, h1, h2, h3, h4⟩ := prev_ok r
  simp only [act, specAct, h1, h2, h3, Option.bind_some, Option.map_some]
  exact Ok.mk (act_move r h4 rfl)

theorem TR.split {cap : Nat} {m : List Nat} {p e : Int} {t : Txt} (h : TR cap m p e t) {b a : List Nat} (hb : t.all = b ++ a) :
    TR cap m b.length e ⟨b, a⟩ := by
  have := h.move (n := b.length) (by rw [hb]; simp)
  rw [hb] at this
  simpa [at_] using this

theorem ok_nextWord (r : R c s d) : Ok c (act c s .nextWord) (specAct c d .nextWord) := by
  obtain ⟨q, hq⟩ := r.t.text
  have hp := r.t.pos; have hf := r.t.fin
  generalize hA : d.txt.after.takeWhile (fun x => !c.sep x) = A
  generalize hB : d.txt.after.dropWhile (fun x => !c.sep x) = B
  have hAB : d.txt.after = A ++ B := by rw [← hA, ← hB]; exact (tw_app _ _).symm
  have h1 : skip c s.mem s.pos s.fin false 1 = some ((d.txt.before.length + A.length : Nat) : Int) := by
    rw [hq, skipForw c false d.txt.after d.txt.before q s.pos s.fin hp hf, tw_false, hA]
  have h2 : skip c s.mem (d.txt.before.length + A.length : Nat) s.fin true 1 = some ((d.txt.before.length + A.length + (B.takeWhile c.sep).length : Nat) : Int) := by
    have := skipForw c true B (d.txt.before ++ A) q (d.txt.before.length + A.length : Nat) s.fin (by simp) (by rw [hf, hAB]; simp; omega)
    rw [tw_true] at this
    have em : s.mem = d.txt.before ++ A ++ (B ++ q) := by rw [hq, hAB]; simp
    rw [em]; simpa using this
  simp only [act, specAct, h1, h2, Option.bind_some, Option.map_some, hA, hB]
  have ht := r.t.split (b := d.txt.before ++ A ++ B.takeWhile c.sep) (a := B.dropWhile c.sep)
    (by rw [Txt.all, hAB]; simp [tw_app])
  have := r.edit ht
  simp only [List.length_append] at this
  exact Ok.mk this

/-- The array after the separators which follow the cursor. -/
theorem seps_ok (r : R c s d) : ∃ q, s.mem = (d.txt.before ++ d.txt.after.takeWhile c.sep) ++ (d.txt.after.dropWhile c.sep ++ q) ∧
    skip c s.mem s.pos s.fin true 1 = some (((d.txt.before ++ d.txt.after.takeWhile c.sep).length : Nat) : Int) ∧
    s.fin = (d.txt.before ++ d.txt.after.takeWhile c.sep).length + (d.txt.after.dropWhile c.sep).length := by
  obtain ⟨q, hq⟩ := r.t.text
  have hf := r.t.fin
  have hl := tw_len c.sep d.txt.after
  refine ⟨q, ?_, ?_, ?_⟩
  · rw [hq]
    conv => lhs; rw [← tw_app c.sep d.txt.after]
    simp only [List.append_assoc]
  · rw [hq, skipForw c true d.txt.after d.txt.before q s.pos s.fin r.t.pos hf, tw_true]
    simp
  · rw [hf]; simp; omega

theorem ok_map (r : R c s d) (f : Nat → Nat) (hf0 : ∀ x, x ≠ 0 → f x ≠ 0) :
    Ok c ((skip c s.mem s.pos s.fin true 1).bind fun p =>
      (mapWord c f (s.fin - p).toNat p s.mem).map fun r => ({ s with mem := r.1, pos := r.2 }, .go))
      (some ({ d with txt := specAct.wordMap c d f }, .go)) := by
  obtain ⟨q, hq, h1, h2⟩ := seps_ok r
  have hz := r.t.nz
  have hl := r.t.len
  have hall : d.txt.all = (d.txt.before ++ d.txt.after.takeWhile c.sep) ++ d.txt.after.dropWhile c.sep := by
    rw [List.append_assoc, tw_app]; rfl
  rw [hall] at hz
  rw [hq] at hl
  have hall2 := congrArg List.length hall
  simp only [specAct.wordMap]
  generalize hP : d.txt.before ++ d.txt.after.takeWhile c.sep = P at *
  generalize hB : d.txt.after.dropWhile c.sep = B at *
  have e : (s.fin - (P.length : Nat)).toNat = B.length := by omega
  rw [h1, Option.bind_some, e, hq, mapWord_ok c f B P q P.length rfl, Option.map_some]
  have hB2 := tw_len (fun x => !c.sep x) B
  have ht : TR c.cap (P ++ ((B.takeWhile (fun x => !c.sep x)).map f ++ (B.dropWhile (fun x => !c.sep x) ++ q)))
      ((P.length + (B.takeWhile (fun x => !c.sep x)).length : Nat)) s.fin
      ⟨P ++ (B.takeWhile (fun x => !c.sep x)).map f, B.dropWhile (fun x => !c.sep x)⟩ := by
    refine r.t.change (r' := q) ?_ (by simp) ?_ (by simp) ?_
    · simp only [List.length_append, List.length_map] at hl ⊢; omega
    · rw [hall2]; simp only [Txt.all, List.length_append, List.length_map]; omega
    · simp only [List.mem_append, not_or] at hz
      simp only [Txt.all, List.mem_append, not_or, List.mem_map]
      refine ⟨⟨hz.1, ?_⟩, fun h => hz.2 ((List.dropWhile_sublist _).subset h)⟩
      rintro ⟨x, hx, hx0⟩
      have : x ∈ B := (List.takeWhile_sublist _).subset hx
      exact hf0 x (fun h => hz.2 (h ▸ this)) hx0
  exact Ok.mk (r.edit ht)

theorem ok_lower (G : Good c) (r : R c s d) : Ok c (act c s .lower) (specAct c d .lower) := ok_map r c.toLow G.low0
theorem ok_upper (G : Good c) (r : R c s d) : Ok c (act c s .upper) (specAct c d .upper) := ok_map r c.toUp G.up0

theorem ok_capit (G : Good c) (r : R c s d) (h32 : rd s.mem s.fin = some 32) : Ok c (act c s .capit) (specAct c d .capit) := by
  obtain ⟨q, hq, h1, h2⟩ := seps_ok r
  have hz := r.t.nz
  have hl := r.t.len
  have hall : d.txt.all = (d.txt.before ++ d.txt.after.takeWhile c.sep) ++ d.txt.after.dropWhile c.sep := by
    rw [List.append_assoc, tw_app]; rfl
  rw [hall] at hz
  rw [hq] at hl
  have hall2 := congrArg List.length hall
  simp only [act, specAct, changeWord, h1, Option.bind_some]
  generalize hP : d.txt.before ++ d.txt.after.takeWhile c.sep = P at *
  generalize hB : d.txt.after.dropWhile c.sep = B at *
  -- the array after the change of the first letter
  have step1 : ∃ x, rd s.mem (P.length : Nat) = some x ∧
      (if c.lower x = true then wr s.mem (P.length : Nat) ((x + 224) % 256) else some s.mem) = some (P ++ (capFirst c B ++ q)) := by
    cases B with
    | nil =>
      have : s.fin = (P.length : Nat) := by simpa using h2
      refine ⟨32, by rw [← this]; exact h32, ?_⟩
      rw [if_neg (by simp [G.space]), hq]; rfl
    | cons x B =>
      refine ⟨x, by rw [hq]; exact rd_at rfl, ?_⟩
      by_cases hx : c.lower x = true
      · rw [if_pos hx, hq]
        have := @wr_at P (B ++ q) x ((x + 224) % 256) P.length rfl
        simpa [capFirst, hx] using this
      · rw [if_neg hx, hq]; simp [capFirst, hx]
  obtain ⟨x, s1, s2⟩ := step1
  have hcl : (capFirst c B).length = B.length := by cases B <;> simp [capFirst]
  have hcz : 0 ∉ capFirst c B := by
    simp only [List.mem_append, not_or] at hz
    cases B with
    | nil => simp [capFirst]
    | cons x B =>
      have h3 := hz.2
      simp only [List.mem_cons, not_or] at h3
      simp only [capFirst, List.mem_cons, not_or]
      refine ⟨?_, h3.2⟩
      by_cases hx : c.lower x = true
      · rw [if_pos hx]; exact fun h => G.cap0 x hx h.symm
      · rw [if_neg hx]; exact h3.1
  have h3 : skip c (P ++ (capFirst c B ++ q)) (P.length : Nat) s.fin false 1 =
      some ((P.length + ((capFirst c B).takeWhile (fun x => !c.sep x)).length : Nat) : Int) := by
    rw [skipForw c false (capFirst c B) P q P.length s.fin rfl (by rw [h2, hcl]), tw_false]
  rw [s1, Option.bind_some, s2, Option.bind_some, h3, Option.map_some]
  generalize capFirst c B = B' at *
  have ht : TR c.cap (P ++ (B' ++ q)) ((P.length + (B'.takeWhile (fun x => !c.sep x)).length : Nat)) s.fin
      ⟨P ++ B'.takeWhile (fun x => !c.sep x), B'.dropWhile (fun x => !c.sep x)⟩ := by
    have hB2 := tw_len (fun x => !c.sep x) B'
    refine r.t.change (r' := q) ?_ ?_ ?_ (by simp) ?_
    · simp only [List.length_append] at hl ⊢; omega
    · conv => lhs; rw [← tw_app (fun x => !c.sep x) B']
      simp only [List.append_assoc]
    · rw [hall2]; simp only [Txt.all, List.length_append]; omega
    · simp only [List.mem_append, not_or] at hz
      simp only [Txt.all, List.append_assoc, tw_app, List.mem_append, not_or]
      exact ⟨hz.1, hcz⟩
  exact Ok.mk (r.edit ht)

end

end Gp.Linedit
