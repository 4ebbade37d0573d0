import Verif.Linedit.Spec
namespace Gp.Linedit

theorem takeWhile_all {p : Nat → Bool} {l : List Nat} (h : ∀ x ∈ l, p x = true) : l.takeWhile p = l := by
  have := List.takeWhile_append_of_pos (l₂ := []) h
  simpa using this

theorem rd_at {a r : List Nat} {x : Nat} {p : Int} (h : p = a.length) : rd (a ++ x :: r) p = some x := by
  subst h
  have e : ¬ ((a.length : Int) < 0) := by omega
  simp [rd]

theorem wr_at {a r : List Nat} {x : Nat} (y : Nat) {p : Int} (h : p = a.length) : wr (a ++ x :: r) p y = some (a ++ y :: r) := by
  subst h
  have e : ¬ ((a.length : Int) < 0 ∨ ((a ++ x :: r).length : Int) ≤ a.length) := by
    simp only [List.length_append, List.length_cons]; omega
  simp only [wr, if_neg e]
  simp

theorem moveDown_ok (l : List Nat) : ∀ (a g r : List Nat) (p n : Int), p = a.length + g.length → n = g.length →
    ∃ g', g'.length = g.length ∧ moveDown n l.length p (a ++ (g ++ (l ++ r))) = some (a ++ (l ++ (g' ++ r))) := by
  induction l with
  | nil => intro a g r p n _ _; exact ⟨g, rfl, rfl⟩
  | cons x l ih =>
    intro a g r p n hp hn
    have e1 : rd (a ++ (g ++ (x :: l ++ r))) p = some x := by
      rw [← List.append_assoc]
      exact rd_at (by rw [hp]; simp)
    cases g with
    | nil =>
      have e2 : wr (a ++ ([] ++ (x :: l ++ r))) (p - n) x = some (a ++ x :: (l ++ r)) :=
        wr_at x (by rw [hp, hn]; simp)
      obtain ⟨g', h1, h2⟩ := ih (a ++ [x]) [] r (p + 1) n (by rw [hp]; simp) hn
      refine ⟨g', h1, ?_⟩
      simp only [List.length_cons, moveDown, e1, Option.bind_some, e2]
      simpa using h2
    | cons y g =>
      have e2 : wr (a ++ (y :: g ++ (x :: l ++ r))) (p - n) x = some (a ++ x :: (g ++ (x :: l ++ r))) :=
        wr_at x (by rw [hp, hn]; omega)
      obtain ⟨g', h1, h2⟩ := ih (a ++ [x]) (g ++ [x]) r (p + 1) n (by rw [hp]; simp; omega) (by rw [hn]; simp)
      refine ⟨g', by rw [h1]; simp, ?_⟩
      simp only [List.length_cons, moveDown, e1, Option.bind_some, e2]
      simpa using h2

theorem moveUp_ok (k : Nat) : ∀ (l a r : List Nat) (y : Nat) (p : Int), l.length = k → p = a.length + l.length →
    ∃ z, moveUp k p (a ++ (l ++ y :: r)) = some (a ++ z :: (l ++ r)) := by
  induction k with
  | zero =>
    intro l a r y p hl hp
    have : l = [] := List.length_eq_zero_iff.mp hl
    subst this; exact ⟨y, rfl⟩
  | succ k ih =>
    intro l a r y p hl hp
    obtain ⟨l', x, rfl⟩ : ∃ l' x, l = l' ++ [x] := by
      rcases List.eq_nil_or_concat l with h | ⟨l', x, h⟩
      · subst h; simp at hl
      · exact ⟨l', x, by simpa using h⟩
    have hl' : l'.length = k := by simpa using hl
    have e1 : rd (a ++ ((l' ++ [x]) ++ y :: r)) (p - 1) = some x := by
      have : a ++ ((l' ++ [x]) ++ y :: r) = (a ++ l') ++ x :: y :: r := by simp
      rw [this]; exact rd_at (by rw [hp]; simp; omega)
    have e2 : wr (a ++ ((l' ++ [x]) ++ y :: r)) p x = some (a ++ (l' ++ x :: x :: r)) := by
      have : a ++ ((l' ++ [x]) ++ y :: r) = (a ++ l' ++ [x]) ++ y :: r := by simp
      rw [this, wr_at x (by rw [hp]; simp [Int.add_assoc])]; simp
    obtain ⟨z, h⟩ := ih l' a (x :: r) x (p - 1) hl' (by rw [hp]; simp; omega)
    refine ⟨z, ?_⟩
    simp only [moveUp, e1, Option.bind_some, e2, h]
    simp

theorem slice_ok (l : List Nat) : ∀ (a r : List Nat) (p : Int), p = a.length → slice l.length p (a ++ (l ++ r)) = some l := by
  induction l with
  | nil => intro a r p _; rfl
  | cons x l ih =>
    intro a r p hp
    have e1 : rd (a ++ (x :: l ++ r)) p = some x := rd_at hp
    have h := ih (a ++ [x]) r (p + 1) (by rw [hp]; simp)
    have e : a ++ (x :: l ++ r) = a ++ [x] ++ (l ++ r) := by simp
    simp only [List.length_cons, slice, e1, Option.bind_some]
    rw [e, h]; rfl

theorem toClip_ok {l a r : List Nat} {p q : Int} (hp : p = a.length) (hq : q = a.length + l.length) (hl : l.length < 4096) (hz : 0 ∉ l) :
    toClip (a ++ (l ++ r)) p q = some l := by
  have e : (q - p).toNat = l.length := by omega
  have e2 : ¬ clipSize < l.length + 1 := by simp only [clipSize]; omega
  simp only [toClip, e, if_neg e2, slice_ok l a r p hp, Option.map_some]
  congr 1
  exact takeWhile_all (fun x hx => by
    have : x ≠ 0 := fun h => hz (h ▸ hx)
    simpa using this)

theorem toClip_big {m : List Nat} {p q : Int} (h : 4096 ≤ (q - p).toNat) : toClip m p q = none := by
  have : clipSize < (q - p).toNat + 1 := by simp only [clipSize]; omega
  simp only [toClip, if_pos this]

theorem skipF_ok (c : Cfg) (want : Bool) (b : List Nat) : ∀ (a r : List Nat) (p limit : Int), p = a.length → limit = a.length + b.length →
    skipN c (a ++ (b ++ r)) limit want 1 b.length p = some ((a.length + (b.takeWhile (fun x => c.sep x == want)).length : Nat) : Int) := by
  induction b with
  | nil => intro a r p limit hp hl; simp only [List.length_nil, skipN]; rw [if_pos (by rw [hp, hl]; simp)]; simp [hp]
  | cons x b ih =>
    intro a r p limit hp hl
    have e0 : ¬ p = limit := by rw [hp, hl]; simp only [List.length_cons]; omega
    have e1 : rd (a ++ (x :: b ++ r)) p = some x := rd_at hp
    simp only [List.length_cons, skipN, if_neg e0, e1, Option.bind_some]
    by_cases hx : c.sep x = want
    · have e : (c.sep x != want) = false := by simp [hx]
      have h := ih (a ++ [x]) r (p + 1) limit (by rw [hp]; simp) (by rw [hl]; simp; omega)
      have e2 : a ++ (x :: b ++ r) = a ++ [x] ++ (b ++ r) := by simp
      rw [e, e2, if_neg (by simp), h]
      congr 2
      simp [hx]; omega
    · have e : (c.sep x != want) = true := by simp [hx]
      rw [e, if_pos rfl, hp]
      congr 1
      simp [hx]

theorem skipForw (c : Cfg) (want : Bool) (b a r : List Nat) (p limit : Int) (hp : p = a.length) (hl : limit = a.length + b.length) :
    skip c (a ++ (b ++ r)) p limit want 1 = some ((a.length + (b.takeWhile (fun x => c.sep x == want)).length : Nat) : Int) := by
  have : (limit - p).natAbs = b.length := by omega
  rw [skip, this]; exact skipF_ok c want b a r p limit hp hl

/-- Going back over `w`, up to `x` which is not skipped. -/
theorem skipB_ok (c : Cfg) (want : Bool) (k : Nat) : ∀ (w u r : List Nat) (x : Nat) (p : Int) (f : Nat), w.length = k →
    (∀ y ∈ w, c.sep y = want) → (c.sep x ≠ want ∨ u = []) → p = u.length + w.length → f = p.natAbs →
    skipN c (u ++ x :: (w ++ r)) 0 want (-1) f p = some u.length := by
  induction k with
  | zero =>
    intro w u r x p f hw hall hx hp hf
    have : w = [] := List.length_eq_zero_iff.mp hw
    subst this
    rcases hx with hx | hx
    · cases f with
      | zero =>
        have : p = 0 := by omega
        simp only [skipN, if_pos this]
        congr 1
      | succ f =>
        have e0 : ¬ p = 0 := by omega
        have e1 : rd (u ++ x :: ([] ++ r)) p = some x := rd_at (by simpa using hp)
        simp only [skipN, if_neg e0, e1, Option.bind_some]
        rw [if_pos (by simpa using hx)]
        congr 1
    · subst hx
      have : p = 0 := by simpa using hp
      subst this
      have : f = 0 := by simpa using hf
      subst this
      rfl
  | succ k ih =>
    intro w u r x p f hw hall hx hp hf
    obtain ⟨w', y, rfl⟩ : ∃ l' x, w = l' ++ [x] := by
      rcases List.eq_nil_or_concat w with h | ⟨l', x, h⟩
      · subst h; simp at hw
      · exact ⟨l', x, by simpa using h⟩
    have hw' : w'.length = k := by simpa using hw
    simp only [List.length_append, List.length_cons, List.length_nil] at hp
    cases f with
    | zero => omega
    | succ f =>
      have e0 : ¬ p = 0 := by omega
      have e1 : rd (u ++ x :: (w' ++ [y] ++ r)) p = some y := by
        have : u ++ x :: (w' ++ [y] ++ r) = (u ++ x :: w') ++ y :: r := by simp
        rw [this]; exact rd_at (by rw [hp]; simp)
      simp only [skipN, if_neg e0, e1, Option.bind_some]
      rw [if_neg (by simp [hall y (by simp)])]
      have := ih w' u ([y] ++ r) x (p + -1) f hw' (fun z hz => hall z (by simp [hz])) hx (by omega) (by omega)
      simpa using this

theorem skipBack (c : Cfg) (want : Bool) (w u r : List Nat) (x : Nat) (p : Int) (hall : ∀ y ∈ w, c.sep y = want)
    (hx : c.sep x ≠ want ∨ u = []) (hp : p = u.length + w.length) : skip c (u ++ x :: (w ++ r)) p 0 want (-1) = some u.length := by
  rw [skip]
  exact skipB_ok c want w.length w u r x p _ rfl hall hx hp (by omega)

theorem mapWord_ok (c : Cfg) (f : Nat → Nat) (b : List Nat) : ∀ (a r : List Nat) (p : Int), p = a.length →
    mapWord c f b.length p (a ++ (b ++ r)) =
      some (a ++ ((b.takeWhile (fun x => !c.sep x)).map f ++ (b.dropWhile (fun x => !c.sep x) ++ r)),
        ((a.length + (b.takeWhile (fun x => !c.sep x)).length : Nat) : Int)) := by
  induction b with
  | nil => intro a r p hp; simp [mapWord, hp]
  | cons x b ih =>
    intro a r p hp
    have e1 : rd (a ++ (x :: b ++ r)) p = some x := rd_at hp
    simp only [List.length_cons, mapWord, e1, Option.bind_some]
    by_cases hx : c.sep x = true
    · rw [if_pos hx]; simp [hx, hp]
    · have e2 : wr (a ++ (x :: b ++ r)) p (f x) = some (a ++ f x :: (b ++ r)) := wr_at (f x) hp
      have h := ih (a ++ [f x]) r (p + 1) (by rw [hp]; simp)
      have e3 : a ++ f x :: (b ++ r) = a ++ [f x] ++ (b ++ r) := by simp
      rw [if_neg hx, e2, Option.bind_some, e3, h]
      simp [hx]; omega

theorem str0_ok {t r : List Nat} (h : 0 ∉ t) : str0 (t ++ 0 :: r) = some t := by
  simp only [str0]
  rw [if_pos (by simp), List.takeWhile_append_of_pos (by intro x hx; simp; rintro rfl; exact h hx)]
  simp

/-- The array holds the text. -/
structure TR (cap : Nat) (m : List Nat) (pos fin : Int) (t : Txt) : Prop where
  len : m.length = cap
  text : ∃ r, m = t.before ++ (t.after ++ r)
  pos : pos = t.before.length
  fin : fin = t.before.length + t.after.length
  room : t.before.length + t.after.length < cap
  nb : 0 ∉ t.before
  na : 0 ∉ t.after

theorem TR.ofText {cap : Nat} {m r : List Nat} {pos fin : Int} {t : Txt} {n : Nat} (len : m.length = cap) (text : m = t.all ++ r)
    (hn : n = t.before.length) (hpos : pos = n) (hfin : fin = t.all.length) (room : t.all.length < cap) (nz : 0 ∉ t.all) :
    TR cap m pos fin t := by
  simp only [Txt.all, List.length_append, List.mem_append, not_or] at *
  exact ⟨len, ⟨r, by simpa using text⟩, by omega, by omega, by omega, nz.1, nz.2⟩

theorem Txt.at_all (l : List Nat) (n : Nat) : (at_ l n).all = l := by simp [at_, Txt.all]

/-- The cursor moves to `n`. -/
theorem TR.move {cap : Nat} {m : List Nat} {pos fin : Int} {t : Txt} (h : TR cap m pos fin t) {n : Nat} (hn : n ≤ t.all.length) :
    TR cap m n fin (at_ t.all n) := by
  obtain ⟨r, hr⟩ := h.text
  refine TR.ofText (r := r) (n := n) h.len (by rw [Txt.at_all, hr, Txt.all]; simp) (by simp [at_]; omega) rfl ?_ ?_ ?_
  · rw [Txt.at_all, h.fin]; simp [Txt.all]
  · rw [Txt.at_all]; simpa [Txt.all] using h.room
  · rw [Txt.at_all]; simp [Txt.all, h.nb, h.na]

theorem TR.set_fin {cap : Nat} {m : List Nat} {pos fin : Int} {t : Txt} (h : TR cap m pos fin t) (x : Nat) :
    ∃ r, wr m fin x = some (t.before ++ (t.after ++ x :: r)) ∧ TR cap (t.before ++ (t.after ++ x :: r)) pos fin t := by
  obtain ⟨r, hr⟩ := h.text
  have hl : m.length = t.before.length + (t.after.length + r.length) := by rw [hr]; simp
  have hlen := h.len
  have hroom := h.room
  cases r with
  | nil => simp at hl; omega
  | cons y r =>
    have e : t.before ++ (t.after ++ y :: r) = (t.before ++ t.after) ++ y :: r := by simp
    refine ⟨r, ?_, ⟨?_, ⟨x :: r, rfl⟩, h.pos, h.fin, h.room, h.nb, h.na⟩⟩
    · rw [hr, e, wr_at x (by rw [h.fin]; simp)]; simp
    · simp at hl ⊢; omega

/-- A character typed. -/
theorem newChar_ok (c : Cfg) {s : St} {t : Txt} (h : TR c.cap s.mem s.pos s.fin t) (x : Nat) (hx : x ≠ 0) :
    (typeChar c.cap s.ins t x = none ∧ newChar c s x = some (s, false)) ∨
    ∃ t' m p e, typeChar c.cap s.ins t x = some t' ∧ newChar c s x = some ({ s with mem := m, pos := p, fin := e }, true) ∧
      TR c.cap m p e t' := by
  obtain ⟨r, hr⟩ := h.text
  have hp := h.pos
  have hf := h.fin
  have hroom := h.room
  have hlen := h.len
  have hl : s.mem.length = t.before.length + (t.after.length + r.length) := by rw [hr]; simp
  by_cases hi : s.ins = true
  · -- insertion
    by_cases hs : t.all.length + 1 < c.cap
    · right
      have hs' : t.before.length + t.after.length + 1 < c.cap := by simpa [Txt.all] using hs
      have e0 : ¬ ((s.ins = true ∨ s.pos = s.fin) ∧ c.size ≤ s.fin) := by
        simp only [Cfg.size]; omega
      cases r with
      | nil => simp at hl; omega
      | cons y r =>
        obtain ⟨z, hz⟩ := moveUp_ok t.after.length t.after t.before r y s.fin rfl hf
        have e1 : (s.fin - s.pos).toNat = t.after.length := by omega
        have e2 : wr (t.before ++ z :: (t.after ++ r)) s.pos x = some (t.before ++ x :: (t.after ++ r)) := wr_at x hp
        refine ⟨⟨t.before ++ [x], t.after⟩, t.before ++ x :: (t.after ++ r), s.pos + 1, s.fin + 1, ?_, ?_, ?_⟩
        · simp only [typeChar, hi, if_true, if_pos hs]
        · have e4 : ¬ s.ins = false := by simp [hi]
          simp only [newChar, if_neg e0, if_neg e4, hr, e1, hz, Option.bind_some, e2, Option.map_some]
        · refine ⟨by simp at hl ⊢; omega, ⟨r, by simp⟩, by simp [hp], by simp [hf]; omega, by simp; omega, ?_, h.na⟩
          have := h.nb
          simp [this]; omega
    · left
      have hs' : ¬ t.before.length + t.after.length + 1 < c.cap := by simpa [Txt.all] using hs
      have e0 : ((s.ins = true ∨ s.pos = s.fin) ∧ c.size ≤ s.fin) := by
        refine ⟨Or.inl hi, ?_⟩
        simp only [Cfg.size]; omega
      exact ⟨by simp only [typeChar, hi, if_true, if_neg hs], by simp only [newChar, if_pos e0]⟩
  · have hi' : s.ins = false := by simpa using hi
    cases ha : t.after with
    | nil =>
      rw [ha] at hr hf hroom hl
      simp at hr hf hroom hl
      by_cases hs : t.all.length + 1 < c.cap
      · right
        have hs' : t.before.length + 1 < c.cap := by simpa [Txt.all, ha] using hs
        have e0 : ¬ ((s.ins = true ∨ s.pos = s.fin) ∧ c.size ≤ s.fin) := by
          simp only [Cfg.size]; omega
        cases r with
        | nil => simp at hl; omega
        | cons y r =>
          have e2 : wr (t.before ++ y :: r) s.pos x = some (t.before ++ x :: r) := wr_at x hp
          refine ⟨⟨t.before ++ [x], []⟩, t.before ++ x :: r, s.pos + 1, s.pos + 1, ?_, ?_, ?_⟩
          · simp [typeChar, hi', ha, hs]
          · have e3 : s.fin < s.pos + 1 := by omega
            simp only [newChar, if_neg e0, if_pos hi', hr, e2, Option.map_some, if_pos e3]
          · refine ⟨by simp at hl ⊢; omega, ⟨r, by simp⟩, by simp [hp], by simp [hp], by simp; omega, ?_, by simp⟩
            have := h.nb
            simp [this]; omega
      · left
        have hs' : ¬ t.before.length + 1 < c.cap := by simpa [Txt.all, ha] using hs
        have e0 : ((s.ins = true ∨ s.pos = s.fin) ∧ c.size ≤ s.fin) := by
          refine ⟨Or.inr (by omega), ?_⟩
          simp only [Cfg.size]; omega
        exact ⟨by simp [typeChar, hi', ha, hs], by simp only [newChar, if_pos e0]⟩
    | cons y a =>
      right
      have hna := h.na
      rw [ha] at hr hf hroom hl hna
      simp at hf hroom hl hna
      have e0 : ¬ ((s.ins = true ∨ s.pos = s.fin) ∧ c.size ≤ s.fin) := by
        rintro ⟨h1 | h1, _⟩
        · exact hi h1
        · omega
      have e2 : wr (t.before ++ (y :: a ++ r)) s.pos x = some (t.before ++ x :: (a ++ r)) := wr_at x hp
      refine ⟨⟨t.before ++ [x], a⟩, t.before ++ x :: (a ++ r), s.pos + 1, s.fin, ?_, ?_, ?_⟩
      · simp [typeChar, hi', ha]
      · have e3 : ¬ s.fin < s.pos + 1 := by omega
        simp only [newChar, if_neg e0, if_pos hi', hr, e2, Option.map_some, if_neg e3]
      · refine ⟨by simp; omega, ⟨r, by simp⟩, by simp [hp], by simp; omega, by simp; omega, ?_, hna.2⟩
        have := h.nb
        simp [this]; omega

theorem newChars_ok (c : Cfg) (w : List Nat) : ∀ (s : St) (t : Txt), TR c.cap s.mem s.pos s.fin t → 0 ∉ w →
    ∃ m p e, newChars c s w = some ({ s with mem := m, pos := p, fin := e }, (typeChars c.cap s.ins t w).2) ∧
      TR c.cap m p e (typeChars c.cap s.ins t w).1 := by
  induction w with
  | nil => intro s t h _; exact ⟨s.mem, s.pos, s.fin, rfl, h⟩
  | cons x w ih =>
    intro s t h hw
    simp only [List.mem_cons, not_or] at hw
    rcases newChar_ok c h x (Ne.symm hw.1) with ⟨h1, h2⟩ | ⟨t', m, p, e, h1, h2, h3⟩
    · refine ⟨s.mem, s.pos, s.fin, ?_, ?_⟩
      · simp [newChars, typeChars, h1, h2]
      · simpa [typeChars, h1] using h
    · obtain ⟨m2, p2, e2, h4, h5⟩ := ih { s with mem := m, pos := p, fin := e } t' h3 hw.2
      refine ⟨m2, p2, e2, ?_, ?_⟩
      · simp only [newChars, h2, Option.bind_some, typeChars, h1, if_true]; exact h4
      · simpa only [typeChars, h1] using h5

end Gp.Linedit
