import Verif.Path.Spec
namespace Gp.Path

open Spec

theorem comps_nosep {c : List Char} (h : '/' ∉ c) : comps c = [c] := by
  induction c with
  | nil => rfl
  | cons a c ih =>
    have ha : a ≠ '/' := fun he => h (by simp [he])
    simp only [comps, if_neg ha]
    rw [ih (fun hm => h (List.mem_cons_of_mem _ hm))]

theorem comps_sep {c r : List Char} (h : '/' ∉ c) : comps (c ++ '/' :: r) = c :: comps r := by
  induction c with
  | nil => simp [comps]
  | cons a c ih =>
    have ha : a ≠ '/' := fun he => h (by simp [he])
    simp only [List.cons_append, comps, if_neg ha]
    rw [ih (fun hm => h (List.mem_cons_of_mem _ hm))]

theorem walk_slash {s : List Char} {st : List (List Char)} : walk (comps ('/' :: s)) st = walk (comps s) st := by
  simp [comps, walk]

theorem walk_drop {s : List Char} {st : List (List Char)} :
    walk (comps (s.dropWhile (· == '/'))) st = walk (comps s) st := by
  induction s with
  | nil => rfl
  | cons a s ih =>
    simp only [List.dropWhile]
    split
    · next h =>
      have : a = '/' := by simpa using h
      subst this
      rw [ih, walk_slash]
    · rfl

theorem span_slash (s : List Char) : ∃ c rest, s = c ++ rest ∧ '/' ∉ c ∧ (rest = [] ∨ ∃ r, rest = '/' :: r) := by
  induction s with
  | nil => exact ⟨[], [], rfl, by simp, .inl rfl⟩
  | cons a s ih =>
    by_cases ha : a = '/'
    · exact ⟨[], a :: s, rfl, by simp, .inr ⟨s, by rw [ha]⟩⟩
    · obtain ⟨c, rest, h1, h2, h3⟩ := ih
      refine ⟨a :: c, rest, by rw [h1]; rfl, ?_, h3⟩
      intro hm
      rcases List.mem_cons.1 hm with hm | hm
      · exact ha hm.symm
      · exact h2 hm

theorem clean_nosep {c rest out : List Char} (h : '/' ∉ c) :
    clean (c ++ rest) out = clean rest (c.reverse ++ out) := by
  induction c generalizing out with
  | nil => rfl
  | cons a c ih =>
    have ha : a ≠ '/' := fun he => h (by simp [he])
    rw [List.cons_append, clean.eq_def]
    simp only [ha, ne_eq, not_false_eq_true, if_true]
    rw [ih (fun hm => h (List.mem_cons_of_mem _ hm))]
    simp

theorem clean_slash {rest out : List Char} : clean ('/' :: rest) out = collapse rest ('/' :: out) := by
  rw [clean.eq_def]; simp

theorem clean_nil {out : List Char} : clean [] out = some out := by rw [clean.eq_def]

theorem render_snoc {st : List (List Char)} {c : List Char} : render (st ++ [c]) = render st ++ '/' :: c := by
  simp [render]

theorem dropWhile_nosep {c rest : List Char} (h : '/' ∉ c) :
    (c ++ '/' :: rest).dropWhile (fun x => decide (x ≠ '/')) = '/' :: rest := by
  induction c with
  | nil => simp
  | cons a c ih =>
    have ha : a ≠ '/' := fun he => h (by simp [he])
    simp only [List.cons_append, List.dropWhile, ha, ne_eq, not_false_eq_true, decide_true]
    exact ih (fun hm => h (List.mem_cons_of_mem _ hm))

theorem dropWhile_head {s : List Char} : ∀ r, s.dropWhile (· == '/') ≠ '/' :: r := by
  induction s with
  | nil => intro r; simp
  | cons a s ih =>
    intro r
    simp only [List.dropWhile]
    split
    · exact ih r
    · next h =>
      intro he
      cases he
      simp at h

/-- What the cleaning loop leaves: the canonical path, with possibly a last separator. -/
def Left (st : List (List Char)) (o : List Char) : Prop :=
  o = (render st).reverse ∨ o = '/' :: (render st).reverse

/-- Agreement of the result of the loop with the walk. -/
def Agree (w : Option (List (List Char))) (o : Option (List Char)) : Prop :=
  match w, o with
  | none, none => True
  | some st, some o => Left st o
  | _, _ => False

theorem list_snoc (st : List (List Char)) : st = [] ∨ ∃ st0 c, st = st0 ++ [c] := by
  rcases List.eq_nil_or_concat st with h | ⟨st0, c, h⟩
  · exact .inl h
  · exact .inr ⟨st0, c, by simpa using h⟩

theorem up_dir {st0 : List (List Char)} {c : List Char} (hc : '/' ∉ c) :
    (('/' :: (render (st0 ++ [c])).reverse).drop 1).dropWhile (fun x => decide (x ≠ '/')) =
      '/' :: (render st0).reverse := by
  have : (('/' :: (render (st0 ++ [c])).reverse).drop 1) = c.reverse ++ '/' :: (render st0).reverse := by
    rw [render_snoc]; simp
  rw [this, dropWhile_nosep (by simpa using hc)]

theorem collapse_spec (n : Nat) : ∀ (src : List Char) (st : List (List Char)), src.length ≤ n →
    (∀ c ∈ st, '/' ∉ c) → Agree (walk (comps src) st) (collapse src ('/' :: (render st).reverse)) := by
  induction n with
  | zero =>
    intro src st hl hst
    have : src = [] := List.length_eq_zero_iff.1 (Nat.le_zero.1 hl)
    subst this
    rw [collapse.eq_def]
    simp [comps, walk, clean_nil, Agree, Left]
  | succ n ih =>
    intro src st hl hst
    have hlen := dropWhile_length_le (· == '/') src
    rw [← walk_drop, collapse.eq_def]
    split
    · next rest h =>
      rw [h] at hlen ⊢
      simp only [List.length_cons] at hlen
      have h1 : comps ('.' :: '/' :: rest) = ['.'] :: comps rest := comps_sep (c := ['.']) (by simp)
      rw [h1]
      simp only [walk, or_true, if_true]
      rw [← walk_slash]
      exact ih _ _ (by simp only [List.length_cons]; omega) hst
    · next h =>
      rw [h]
      rw [collapse.eq_def]
      simp [comps, walk, clean_nil, Agree, Left]
    · next rest h =>
      rw [h] at hlen ⊢
      simp only [List.length_cons] at hlen
      have h1 : comps ('.' :: '.' :: '/' :: rest) = ['.', '.'] :: comps rest :=
        comps_sep (c := ['.', '.']) (by simp)
      rw [h1]
      simp only [walk]
      rw [if_neg (by simp), if_pos trivial]
      rcases list_snoc st with rfl | ⟨st0, c, rfl⟩
      · simp [Agree, render]
      · have hc := hst c (by simp)
        rw [if_neg (by simp)]
        rw [up_dir hc]
        dsimp only
        rw [clean_slash, List.dropLast_concat]
        exact ih _ _ (by omega) (fun d hd => hst d (by simp [hd]))
    · next h =>
      rw [h]
      have h1 : comps ['.', '.'] = [['.', '.']] := comps_nosep (by simp)
      rw [h1]
      simp only [walk]
      rw [if_neg (by simp), if_pos trivial]
      rcases list_snoc st with rfl | ⟨st0, c, rfl⟩
      · simp [Agree, render]
      · have hc := hst c (by simp)
        rw [if_neg (by simp)]
        rw [up_dir hc]
        dsimp only
        rw [clean_nil, List.dropLast_concat]
        exact .inl rfl
    · next n1 n2 n3 n4 =>
      generalize hs : src.dropWhile (· == '/') = src' at *
      have hh : ∀ r, src' ≠ '/' :: r := by intro r hr; rw [hr] at hs; exact dropWhile_head r hs
      obtain ⟨c, rest, h1, h2, h3⟩ := span_slash src'
      subst h1
      by_cases hc : c = []
      · subst hc
        rcases h3 with rfl | ⟨r, rfl⟩
        · simp [comps, walk, clean_nil, Agree, Left]
        · exact absurd rfl (hh r)
      have hp : ¬(c = [] ∨ c = ['.']) := by
        rintro (h | rfl)
        · exact hc h
        · rcases h3 with rfl | ⟨r, rfl⟩
          · exact n2 rfl
          · exact n1 r rfl
      have hp2 : c ≠ ['.', '.'] := by
        rintro rfl
        rcases h3 with rfl | ⟨r, rfl⟩
        · exact n4 rfl
        · exact n3 r rfl
      rw [clean_nosep h2]
      have hrev : c.reverse ++ '/' :: (render st).reverse = (render (st ++ [c])).reverse := by
        rw [render_snoc]; simp
      rw [hrev]
      rcases h3 with rfl | ⟨r, rfl⟩
      · rw [List.append_nil, comps_nosep h2, clean_nil]
        simp only [walk, if_neg hp, if_neg hp2]
        exact .inl rfl
      · rw [comps_sep h2, clean_slash]
        simp only [walk, if_neg hp, if_neg hp2]
        simp only [List.length_append, List.length_cons] at hlen
        refine ih _ _ (by omega) ?_
        intro d hd
        rcases List.mem_append.1 hd with hd | hd
        · exact hst d hd
        · rw [List.mem_singleton.1 hd]; exact h2

theorem clean_spec (s : List Char) : Agree (dirs ('/' :: s)) (clean ('/' :: s) []) := by
  rw [clean_slash]
  have := collapse_spec s.length s [] (Nat.le_refl _) (by simp)
  simp only [dirs, walk_slash]
  exact this

/-! ### Names -/

theorem comps_noslash {s : List Char} : ∀ c ∈ comps s, '/' ∉ c := by
  induction s with
  | nil => intro c hc; simp [comps] at hc; simp [hc]
  | cons a s ih =>
    intro c hc
    simp only [comps] at hc
    split at hc
    · rcases List.mem_cons.1 hc with rfl | hc
      · simp
      · exact ih c hc
    · next ha =>
      split at hc
      · next x xs hx =>
        rw [hx] at ih
        rcases List.mem_cons.1 hc with rfl | hc
        · intro hm
          rcases List.mem_cons.1 hm with hm | hm
          · exact ha hm.symm
          · exact ih x (by simp) hm
        · exact ih c (by simp [hc])
      · rw [List.mem_singleton.1 hc]
        simp [Ne.symm ha]

theorem walk_proper {cs st st' : List (List Char)} (hcs : ∀ c ∈ cs, '/' ∉ c) (hst : ∀ c ∈ st, Proper c)
    (h : walk cs st = some st') : ∀ c ∈ st', Proper c := by
  induction cs generalizing st with
  | nil => simp only [walk, Option.some.injEq] at h; subst h; exact hst
  | cons c cs ih =>
    have hcs' : ∀ c ∈ cs, '/' ∉ c := fun d hd => hcs d (List.mem_cons_of_mem _ hd)
    simp only [walk] at h
    split at h
    · exact ih hcs' hst h
    · next h1 =>
      split at h
      · split at h
        · cases h
        · exact ih hcs' (fun d hd => hst d (List.dropLast_subset _ hd)) h
      · next h2 =>
        refine ih hcs' ?_ h
        intro d hd
        rcases List.mem_append.1 hd with hd | hd
        · exact hst d hd
        · rw [List.mem_singleton.1 hd]
          exact ⟨fun e => h1 (.inl e), fun e => h1 (.inr e), h2, hcs c (by simp)⟩

theorem dirs_proper {s : List Char} {st : List (List Char)} (h : dirs s = some st) : ∀ c ∈ st, Proper c :=
  walk_proper comps_noslash (by simp) h

theorem walk_id {cs st : List (List Char)} (h : ∀ c ∈ cs, Proper c) : walk cs st = some (st ++ cs) := by
  induction cs generalizing st with
  | nil => simp [walk]
  | cons c cs ih =>
    have hc := h c (by simp)
    simp only [walk]
    rw [if_neg (by rintro (e | e); exact hc.1 e; exact hc.2.1 e), if_neg hc.2.2.1,
      ih (fun d hd => h d (by simp [hd]))]
    simp

theorem comps_render {st : List (List Char)} (h : ∀ c ∈ st, Proper c) : comps (render st) = [] :: st := by
  cases st with
  | nil => rfl
  | cons c st =>
    have key : ∀ (st : List (List Char)) (c : List Char), (∀ d ∈ c :: st, Proper d) →
        comps (c ++ render st) = c :: st := by
      intro st
      induction st with
      | nil => intro c h; simpa [render] using comps_nosep (h c (by simp)).2.2.2
      | cons d st ih =>
        intro c h
        have : c ++ render (d :: st) = c ++ '/' :: (d ++ render st) := by simp [render]
        rw [this, comps_sep (h c (by simp)).2.2.2, ih d (fun e he => h e (by simp [List.mem_cons.1 he]))]
    have : render (c :: st) = '/' :: (c ++ render st) := by simp [render]
    rw [this]
    simp only [comps, if_true]
    rw [key st c h]

theorem dirs_path {st : List (List Char)} (h : ∀ c ∈ st, Proper c) : dirs (path st) = some st := by
  simp only [path]
  split
  · next he => subst he; simp [dirs, comps, walk]
  · rw [dirs, comps_render h]
    simp only [walk, true_or, if_true]
    rw [walk_id h]
    simp

/-! ### The end of the function -/

theorem render_last {st : List (List Char)} (h : ∀ c ∈ st, Proper c) (hne : st ≠ []) :
    ∃ a b l, (render st).reverse = a :: b :: l ∧ a ≠ '/' := by
  rcases list_snoc st with rfl | ⟨st0, c, rfl⟩
  · exact absurd rfl hne
  have hc := h c (by simp)
  rw [render_snoc]
  rcases List.eq_nil_or_concat c with h0 | ⟨c0, x, h0⟩
  · exact absurd h0 hc.1
  have hx : x ≠ '/' := by
    rintro rfl
    exact hc.2.2.2 (by rw [h0]; simp)
  rw [h0]
  simp only [List.reverse_append, List.reverse_cons, List.concat_eq_append, List.reverse_nil, List.nil_append,
    List.append_assoc, List.cons_append]
  cases hr : c0.reverse with
  | nil => exact ⟨x, '/', _, rfl, hx⟩
  | cons y ys => exact ⟨x, y, _, rfl, hx⟩

theorem finish_del {st : List (List Char)} {o : List Char} (h : ∀ c ∈ st, Proper c) (hl : Left st o) :
    finish false o = path st := by
  by_cases hne : st = []
  · subst hne
    rcases hl with rfl | rfl <;> simp [render, finish, path]
  · obtain ⟨a, b, l, hr, ha⟩ := render_last h hne
    have hrend : render st = (a :: b :: l).reverse := by rw [← hr, List.reverse_reverse]
    simp only [path, if_neg hne, hrend]
    rcases hl with rfl | rfl
    · rw [hr]; simp [finish, ha]
    · rw [hr]; simp [finish]

theorem finish_keep {st : List (List Char)} {o : List Char} (h : ∀ c ∈ st, Proper c) (hne : st ≠ [])
    (hl : Left st o) : finish true o = path st ++ ['/'] := by
  obtain ⟨a, b, l, hr, ha⟩ := render_last h hne
  have hrend : render st = (a :: b :: l).reverse := by rw [← hr, List.reverse_reverse]
  simp only [path, if_neg hne, hrend]
  rcases hl with rfl | rfl
  · rw [hr]; simp [finish, ha]
  · rw [hr]; simp [finish]

theorem canon_spec (s : List Char) :
    canon false ('/' :: s) = (match dirs ('/' :: s) with | none => .null | some st => .ok (path st)) := by
  have h := clean_spec s
  simp only [canon]
  generalize hw : dirs ('/' :: s) = w at *
  generalize clean ('/' :: s) [] = o at *
  cases w <;> cases o <;> simp only [Agree] at h ⊢
  rw [finish_del (dirs_proper hw) h]

theorem canon_keep_spec (s : List Char) (h0 : dirs ('/' :: s) ≠ some []) :
    canon true ('/' :: s) =
      (match dirs ('/' :: s) with | none => .null | some st => .ok (path st ++ ['/'])) := by
  have h := clean_spec s
  simp only [canon]
  generalize hw : dirs ('/' :: s) = w at *
  generalize clean ('/' :: s) [] = o at *
  cases w <;> cases o <;> simp only [Agree] at h ⊢
  rw [finish_keep (dirs_proper hw) (fun e => h0 (by rw [e])) h]

/-! ### Expansion -/

theorem isName_eq : isName = nameChar := by
  funext c
  simp only [isName, nameChar, Char.isAlphanum, Char.isAlpha, Char.isUpper, Char.isLower, Char.isDigit, Char.toNat]
  rw [Bool.eq_iff_iff]
  simp only [Bool.or_eq_true, Bool.and_eq_true, decide_eq_true_eq, UInt32.le_iff_toNat_le, ge_iff_le]
  have h1 : 'A'.val.toNat = 65 := rfl
  have h2 : 'Z'.val.toNat = 90 := rfl
  have h3 : 'a'.val.toNat = 97 := rfl
  have h4 : 'z'.val.toNat = 122 := rfl
  have h5 : '0'.val.toNat = 48 := rfl
  have h6 : '9'.val.toNat = 57 := rfl
  simp only [h1, h2, h3, h4, h5, h6]
  grind

theorem takeWhile_dropWhile_length (p : Char → Bool) (l : List Char) :
    (l.takeWhile p).length + (l.dropWhile p).length = l.length := by
  rw [← List.length_append, List.takeWhile_append_dropWhile]

theorem expand_sound (n : Nat) (sys : Sys) : ∀ (src out s : List Char), src.length ≤ n →
    expand sys src out = some s → s = out.reverse ++ subst sys.env src := by
  induction n with
  | zero =>
    intro src out s hl h
    have : src = [] := List.length_eq_zero_iff.1 (Nat.le_zero.1 hl)
    subst this
    rw [expand.eq_def, isName_eq] at h
    rw [subst.eq_def]
    dsimp only at h ⊢
    split at h
    · cases h; simp
    · cases h
  | succ n ih =>
    intro src out s hl h
    rw [expand.eq_def, isName_eq] at h
    rw [subst.eq_def]
    cases src with
    | nil =>
      dsimp only at h ⊢
      split at h
      · cases h; simp
      · cases h
    | cons c src =>
      have hd := dropWhile_length_le nameChar src
      simp only [List.length_cons] at hl
      dsimp only at h ⊢
      split at h
      · split at h
        · next hc =>
          rw [if_pos hc]
          split at h
          · split at h
            · next v hv =>
              split at h
              · rw [ih _ _ _ (by omega) h, hv]; simp
              · cases h
            · next hv => rw [ih _ _ _ (by omega) h, hv]; simp
          · cases h
        · next hc =>
          rw [if_neg hc, ih _ _ _ (by omega) h]
          simp
      · cases h

theorem expand_fits (n : Nat) (sys : Sys) : ∀ (src out : List Char), src.length ≤ n →
    out.length + (subst sys.env src).length + src.length + 1 < sys.N →
    expand sys src out = some (out.reverse ++ subst sys.env src) := by
  induction n with
  | zero =>
    intro src out hl h
    have : src = [] := List.length_eq_zero_iff.1 (Nat.le_zero.1 hl)
    subst this
    rw [subst.eq_def] at h ⊢
    rw [expand.eq_def, isName_eq]
    dsimp only [List.length_nil] at h ⊢
    rw [if_pos (by omega)]
    simp
  | succ n ih =>
    intro src out hl h
    rw [subst.eq_def] at h ⊢
    rw [expand.eq_def, isName_eq]
    cases src with
    | nil =>
      dsimp only [List.length_nil] at h ⊢
      rw [if_pos (by omega)]
      simp
    | cons c src =>
      have hd := takeWhile_dropWhile_length nameChar src
      simp only [List.length_cons] at hl
      dsimp only at h ⊢
      simp only [List.length_cons] at h
      rw [if_pos (by omega)]
      split at h
      · next hc =>
        rw [if_pos hc, if_pos hc]
        cases hv : sys.env (src.takeWhile nameChar) with
        | none =>
          rw [hv] at h
          simp only [List.cons_append, List.length_cons, List.length_append] at h
          dsimp only
          rw [if_pos (by omega), ih _ _ (by omega) (by simp only [List.length_append, List.length_reverse, List.length_cons]; omega)]
          simp
        | some v =>
          rw [hv] at h
          simp only [List.length_append] at h
          dsimp only
          rw [if_pos (by omega), if_pos (by omega), ih _ _ (by omega) (by simp only [List.length_append, List.length_reverse]; omega)]
          simp
      · next hc =>
        simp only [List.length_cons] at h
        rw [if_neg hc, if_neg hc, ih _ _ (by omega) (by simp only [List.length_cons]; omega)]
        simp

/-! ### Decomposition -/

theorem splitLast_spec (p acc : List Char) (ha : '/' ∉ acc) :
    (splitLast p acc).1 ++ (splitLast p acc).2 = acc.reverse ++ p ∧ '/' ∉ (splitLast p acc).2 ∧
    ((splitLast p acc).1 = [] ∨ ∃ d, (splitLast p acc).1 = d ++ ['/']) := by
  induction p generalizing acc with
  | nil => simp [splitLast, ha]
  | cons c p ih =>
    simp only [splitLast]
    split
    · next hc =>
      subst hc
      obtain ⟨h1, h2, h3⟩ := ih [] (by simp)
      dsimp only
      refine ⟨by rw [List.append_assoc, List.cons_append, h1]; simp, h2, .inr ?_⟩
      rcases h3 with h3 | ⟨d, h3⟩
      · exact ⟨acc.reverse, by rw [h3]⟩
      · exact ⟨acc.reverse ++ '/' :: d, by rw [h3]; simp⟩
    · next hc =>
      obtain ⟨h1, h2, h3⟩ := ih (c :: acc) (by
        intro hm
        rcases List.mem_cons.1 hm with hm | hm
        · exact hc hm.symm
        · exact ha hm)
      refine ⟨by rw [h1]; simp, h2, h3⟩

theorem not_mem_takeWhile {p : List Char} {a : Char} : a ∉ p.takeWhile (fun x => decide (x ≠ a)) := by
  induction p with
  | nil => simp
  | cons b p ih =>
    simp only [List.takeWhile]
    split
    · next h =>
      intro hm
      rcases List.mem_cons.1 hm with hm | hm
      · simp [hm] at h
      · exact ih hm
    · simp

theorem dropWhile_ne_head {p : List Char} {a b : Char} {r : List Char}
    (h : p.dropWhile (fun x => decide (x ≠ a)) = b :: r) : b = a := by
  induction p with
  | nil => simp at h
  | cons c p ih =>
    simp only [List.dropWhile] at h
    split at h
    · exact ih h
    · next hc =>
      cases h
      simpa using hc

theorem splitSuffix_spec (b : List Char) :
    (splitSuffix b).1 ++ (splitSuffix b).2 = b ∧
    (((splitSuffix b).2 = [] ∧ '.' ∉ b) ∨ ∃ e, (splitSuffix b).2 = '.' :: e ∧ '.' ∉ e) := by
  have hsplit : b.reverse.takeWhile (fun x => decide (x ≠ '.')) ++ b.reverse.dropWhile (fun x => decide (x ≠ '.')) =
    b.reverse := List.takeWhile_append_dropWhile
  simp only [splitSuffix]
  cases hd : b.reverse.dropWhile (fun x => decide (x ≠ '.')) with
  | nil =>
    rw [hd, List.append_nil] at hsplit
    refine ⟨by simp, .inl ⟨rfl, ?_⟩⟩
    intro hm
    have : '.' ∈ b.reverse := by simpa using hm
    rw [← hsplit] at this
    exact not_mem_takeWhile this
  | cons x pre =>
    have hx := dropWhile_ne_head hd
    subst hx
    rw [hd] at hsplit
    dsimp only
    refine ⟨?_, .inr ⟨_, rfl, ?_⟩⟩
    · have := congrArg List.reverse hsplit
      simp only [List.reverse_append, List.reverse_cons, List.reverse_reverse, List.append_assoc,
        List.cons_append, List.nil_append] at this
      exact this
    · intro hm
      exact not_mem_takeWhile (List.mem_reverse.1 hm)

theorem delTrail_spec (before : Nat → Char) (d : List Char) (n : Nat) (hn : n ≤ d.length)
    (hx : ∃ i x, i < n ∧ d[i]? = some x ∧ x ≠ '/') :
    ∃ m, delTrail before d n = some m ∧ 0 < m ∧ m ≤ n ∧ (∃ x, d[m - 1]? = some x ∧ x ≠ '/') ∧
      ∀ j, m ≤ j → j < n → d[j]? = some '/' := by
  induction n with
  | zero => obtain ⟨i, _, hi, _⟩ := hx; omega
  | succ n ih =>
    simp only [delTrail]
    split
    · next hs =>
      obtain ⟨i, x, hi, hxi, hne⟩ := hx
      have : i ≠ n := by
        rintro rfl
        rw [hs] at hxi
        exact hne (Option.some.inj hxi).symm
      obtain ⟨m, h1, h2, h3, h4, h5⟩ := ih (by omega) ⟨i, x, by omega, hxi, hne⟩
      refine ⟨m, h1, h2, by omega, h4, ?_⟩
      intro j hj hj'
      by_cases e : j = n
      · rw [e]; exact hs
      · exact h5 j hj (by omega)
    · next hs =>
      refine ⟨n + 1, rfl, by omega, Nat.le_refl _, ?_, fun j h1 h2 => by omega⟩
      have : n < d.length := by omega
      refine ⟨d[n], by simp [this], ?_⟩
      intro he
      apply hs
      simp [this, he]

end Gp.Path
