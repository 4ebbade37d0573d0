import Verif.Path.Lemmas
/-
C39: the absolute form of a path denotes the same directory as the path, it is canonical, and a path is the
concatenation of its parts.
-/
namespace Gp.Path

open Spec

/-- The system of the examples. -/
def exSys : Sys where
  N := 64
  env := fun n =>
    if n = "HOME".toList then some "/root".toList
    else if n = "V".toList then some "$W".toList
    else if n = "W".toList then some "x".toList
    else if n = "BIG".toList then some (List.replicate 80 'b')
    else none
  pw := fun _ => none
  cwd := "/cw/d".toList

/-! ### The canonical form -/

/-- C39: an absolute path has no canonical form when it goes above the root, otherwise the result is the
one canonical path `/a/b/c` of the directory it denotes. -/
theorem C39_absolute (sys : Sys) (s : List Char)
    (hfit : (subst sys.env ('/' :: s)).length + s.length + 2 < sys.N) (hv : ∀ c ∈ s, c ≠ '$') :
    absPath sys true ('/' :: s) =
      (match dirs ('/' :: s) with | none => .null | some st => .ok (path st)) := by
  have hs : ∀ t : List Char, (∀ c ∈ t, c ≠ '$') → subst sys.env t = t := by
    intro t
    induction t with
    | nil => intro _; rw [subst.eq_def]
    | cons c t ih =>
      intro h
      rw [subst.eq_def]
      dsimp only
      rw [if_neg (h c (by simp)), ih (fun d hd => h d (by simp [hd]))]
  have h1 := hs ('/' :: s) (by
    intro c hc
    rcases List.mem_cons.1 hc with rfl | hc
    · decide
    · exact hv c hc)
  have h2 := expand_fits _ sys ('/' :: s) [] (Nat.le_refl _) (by simp only [List.length_cons, List.length_nil]; omega)
  rw [h1] at h2
  rw [absPath, h2]
  show resolve sys true ('/' :: s) = _
  rw [resolve, if_neg (by simp), if_neg (by simp), if_neg (by simp)]
  exact canon_spec s

example : absPath exSys true "/a/./b//../c/".toList = .ok "/a/c".toList := by
  rw [show "/a/./b//../c/".toList = '/' :: "a/./b//../c/".toList from rfl,
    C39_absolute _ _ (by decide +kernel) (by decide +kernel)]
  decide +kernel

/-- C39: the same for any path: when nothing is written outside of the buffers, what is made canonical is
the path with its variables replaced, below the home directory if it starts with `~`, below the working
directory if it is relative. -/
theorem C39_canonical (sys : Sys) (p r : List Char) (hcwd : sys.cwd.head? = some '/')
    (h : absPath sys true p = .ok r) :
    r = "user".toList ∨
    ∃ t f st, tilde sys (subst sys.env p) = .ok t ∧ t ≠ [] ∧
      f = (if t.head? = some '/' then t else sys.cwd ++ '/' :: t) ∧
      dirs f = some st ∧ r = path st := by
  rw [absPath] at h
  split at h
  · cases h
  next s hs =>
  have hs' := expand_sound _ sys p [] s (Nat.le_refl _) hs
  simp only [List.reverse_nil, List.nil_append] at hs'
  subst hs'
  have key : ∀ (f : List Char), f.head? = some '/' → canon false f = .ok r → ∃ st, dirs f = some st ∧ r = path st := by
    intro f hf hc
    cases f with
    | nil => cases hf
    | cons a f =>
      simp only [List.head?_cons, Option.some.injEq] at hf
      subst hf
      rw [canon_spec] at hc
      split at hc
      · cases hc
      · next st hst => exact ⟨st, hst, by cases hc; rfl⟩
  split at h
  · next t ht =>
    rw [resolve] at h
    split at h
    · next hu => cases h; exact .inl hu
    split at h
    · cases h
    next hne =>
    right
    dsimp only [Bool.not_true, Bool.false_and] at h
    split at h
    · next hh =>
      split at h
      · next s' hj =>
        simp only [joinS] at hj
        split at hj
        · cases hj
          obtain ⟨st, h1, h2⟩ := key _ (by
            cases hc : sys.cwd with
            | nil => rw [hc] at hcwd; cases hcwd
            | cons a l => rw [hc] at hcwd; simpa using hcwd) h
          exact ⟨t, _, st, ht, hne, rfl, by rw [if_neg hh]; exact h1, h2⟩
        · cases hj
      · next hnok =>
        exact absurd h (by simpa using hnok r)
    · next hh =>
      have hh' : t.head? = some '/' := by simpa using hh
      obtain ⟨st, h1, h2⟩ := key _ hh' h
      exact ⟨t, _, st, ht, hne, rfl, by rw [if_pos hh']; exact h1, h2⟩
  · next hnok => exact absurd h (by simpa using hnok r)

example : absPath exSys true "../$W/~/y.pl".toList = .ok "/cw/x/~/y.pl".toList := by decide +kernel
example : absPath exSys true "~/y".toList = .ok "/root/y".toList := by decide +kernel

/-- C39: the components of the result are names: none is empty, `.` or `..`, none has a separator; and the
result denotes what it was made from. -/
theorem C39_result (sys : Sys) (p r : List Char) (hcwd : sys.cwd.head? = some '/')
    (h : absPath sys true p = .ok r) (hu : r ≠ "user".toList) :
    ∃ st, r = path st ∧ (∀ c ∈ st, Proper c) ∧ dirs r = some st ∧
      (r = ['/'] ∨ ∀ d, r ≠ d ++ ['/']) := by
  rcases C39_canonical sys p r hcwd h with h1 | ⟨t, f, st, _, _, _, h4, h5⟩
  · exact absurd h1 hu
  have hp := dirs_proper h4
  refine ⟨st, h5, hp, by rw [h5]; exact dirs_path hp, ?_⟩
  by_cases he : st = []
  · left; rw [h5]; simp [path, he]
  · right
    intro d hd
    obtain ⟨a, b, l, hr, ha⟩ := render_last hp he
    rw [h5] at hd
    simp only [path, if_neg he] at hd
    rw [hd] at hr
    simp at hr
    exact ha hr.1.symm

example : ∃ st, path st = "/cw/x".toList ∧ ∀ c ∈ st, Proper c := by
  refine ⟨["cw".toList, "x".toList], rfl, ?_⟩
  intro c hc
  simp only [List.mem_cons, List.not_mem_nil, or_false] at hc
  rcases hc with rfl | rfl <;> simp [Proper]

/-- C39: with the last separator kept, a path which ends like a directory gives the canonical path followed
by one separator, other paths give the canonical path; the root is the exception
(`C39_root_slash`). -/
theorem C39_keep_slash_partial (s : List Char) (sys : Sys) (h0 : dirs ('/' :: s) ≠ some []) :
    resolve sys false ('/' :: s) =
      (match dirs ('/' :: s) with
        | none => .null
        | some st => .ok (path st ++ (if endsWithDir ('/' :: s) then ['/'] else []))) := by
  rw [resolve, if_neg (by simp), if_neg (by simp), if_neg (by simp)]
  cases he : endsWithDir ('/' :: s) with
  | false =>
    refine (canon_spec s).trans ?_
    cases dirs ('/' :: s) <;> simp
  | true =>
    refine (canon_keep_spec s h0).trans ?_
    cases dirs ('/' :: s) <;> simp

example : resolve exSys false "/a/b/.".toList = .ok "/a/b/".toList := by
  rw [show "/a/b/.".toList = '/' :: "a/b/.".toList from rfl, C39_keep_slash_partial _ _ (by decide +kernel)]
  decide +kernel
example : resolve exSys false "/a/../b".toList = .ok "/b".toList := by decide +kernel

/-- A disagreement: `//`, `/a/..` and `/a/../` denote the root, whose canonical path is `/`, but with the
last separator kept the result is `//`, but `/` for `/a/..`. -/
theorem C39_root_slash :
    dirs "/a/../".toList = some [] ∧ absPath exSys false "/a/../".toList = .ok "//".toList ∧
    absPath exSys false "//".toList = .ok "//".toList ∧
    absPath exSys false "/a/..".toList = .ok "/".toList ∧
    absPath exSys true "/a/../".toList = .ok "/".toList := by decide +kernel

/-! ### The canonical form of a canonical form -/

/-- C39: if the result has no variable to replace, its absolute form is itself. -/
theorem C39_idempotent_partial (sys : Sys) (p r : List Char) (hcwd : sys.cwd.head? = some '/')
    (h : absPath sys true p = .ok r) (hv : subst sys.env r = r) (hfit : 2 * r.length + 1 < sys.N) :
    absPath sys true r = .ok r := by
  have he := expand_fits _ sys r [] (Nat.le_refl _) (by rw [hv]; simp only [List.length_nil]; omega)
  rw [hv] at he
  simp only [List.reverse_nil, List.nil_append] at he
  by_cases hu : r = "user".toList
  · rw [absPath, he]
    subst hu
    rfl
  obtain ⟨st, h1, h2, h3, _⟩ := C39_result sys p r hcwd h hu
  have hr : ∃ t, r = '/' :: t := by
    rw [h1]
    simp only [path]
    split
    · exact ⟨[], rfl⟩
    · next hne =>
      cases st with
      | nil => exact absurd rfl hne
      | cons c st => exact ⟨c ++ render st, by simp [render]⟩
  obtain ⟨t, ht⟩ := hr
  rw [absPath, he]
  subst ht
  show resolve sys true ('/' :: t) = _
  rw [resolve, if_neg (by simp), if_neg (by simp), if_neg (by simp)]
  have := canon_spec t
  rw [h3] at this
  rw [h1] at this ⊢
  exact this

example : absPath exSys true "/cw/x/~/y.pl".toList = .ok "/cw/x/~/y.pl".toList :=
  C39_idempotent_partial exSys "../$W/~/y.pl".toList _ (by decide +kernel) (by decide +kernel)
    (by decide +kernel) (by decide +kernel)

/-- A disagreement: a variable whose value has a variable is replaced once, so the absolute form of the
absolute form is another path. -/
theorem C39_not_idempotent :
    absPath exSys true "/a/$V".toList = .ok "/a/$W".toList ∧
    absPath exSys true "/a/$W".toList = .ok "/a/x".toList := by decide +kernel

/-- The same for the working directory: a relative path below a directory whose name has a `$`. -/
theorem C39_not_idempotent_cwd :
    absPath { exSys with cwd := "/$W".toList } true "y".toList = .ok "/$W/y".toList ∧
    absPath { exSys with cwd := "/$W".toList } true "/$W/y".toList = .ok "/x/y".toList := by decide +kernel

/-- `user` is not made absolute, although it can be the name of a file. -/
theorem C39_user_relative : absPath exSys true "user".toList = .ok "user".toList ∧
    absPath exSys true "./user".toList = .ok "/cw/d/user".toList := by decide +kernel

/-! ### The buffers -/

/-- C39: nothing is written outside of the buffers when the path, its expansion, the home and the working
directories are short. -/
theorem C39_no_overflow_partial (sys : Sys) (del : Bool) (p : List Char)
    (hfit : (subst sys.env p).length + p.length + 1 < sys.N)
    (hhome : ∀ h, sys.env "HOME".toList = some h → h.length + 1 + (subst sys.env p).length + sys.cwd.length < sys.N)
    (hpw : ∀ u h, sys.pw u = some h → h.length + 1 + (subst sys.env p).length + sys.cwd.length < sys.N)
    (hcwd : sys.cwd.length + 1 + (subst sys.env p).length < sys.N)
    (hh1 : ∀ h, sys.env "HOME".toList = some h → h.head? = some '/')
    (hh2 : ∀ u h, sys.pw u = some h → h.head? = some '/') :
    absPath sys del p ≠ .overflow := by
  have he := expand_fits _ sys p [] (Nat.le_refl _) (by simp only [List.length_nil]; omega)
  simp only [List.reverse_nil, List.nil_append] at he
  rw [absPath, he]
  dsimp only
  generalize hs : subst sys.env p = s at *
  have hcanon : ∀ b t, canon b t ≠ .overflow := by
    intro b t; simp only [canon]; split <;> exact fun h => nomatch h
  have hres : ∀ t, (t.head? = some '/' ∨ sys.cwd.length + 1 + t.length < sys.N) → resolve sys del t ≠ .overflow := by
    intro t ht
    rw [resolve]
    split
    · exact fun h => nomatch h
    split
    · exact fun h => nomatch h
    dsimp only
    split
    · next hn =>
      rcases ht with ht | ht
      · exact absurd ht hn
      · rw [joinS, if_pos ht]; exact hcanon _ _
    · exact hcanon _ _
  have hhead : ∀ h rest : List Char, h.head? = some '/' → (h ++ '/' :: rest).head? = some '/' := by
    intro h rest hh
    cases h with
    | nil => cases hh
    | cons a l => simpa using hh
  have hdw : ∀ l : List Char, (l.dropWhile (fun x => decide (x ≠ '/'))).length ≤ l.length :=
    dropWhile_length_le _
  split
  · next t ht =>
    apply hres
    rw [tilde.eq_def] at ht
    split at ht
    · next rest =>
      simp only [List.length_cons] at *
      split at ht
      · split at ht
        · cases ht
        · next h hh =>
          rw [joinS] at ht
          split at ht
          · cases ht; exact .inl (hhead _ _ (hh1 _ hh))
          · cases ht
      · split at ht
        · cases ht
        · next h hh =>
          rw [joinS] at ht
          split at ht
          · cases ht; exact .inl (hhead _ _ (hh2 _ _ hh))
          · cases ht
    · cases ht; exact .inr hcwd
  · next hno =>
    intro ht
    rw [tilde.eq_def] at ht
    split at ht
    · next rest =>
      simp only [List.length_cons] at *
      split at ht
      · split at ht
        · cases ht
        · next h hh =>
          have := hhome h hh
          rw [joinS, if_pos (by omega)] at ht
          cases ht
      · split at ht
        · cases ht
        · next h hh =>
          have := hpw _ h hh
          have := hdw rest
          rw [joinS, if_pos (by omega)] at ht
          cases ht
    · cases ht

example : absPath exSys true "~/$W/a".toList ≠ .overflow :=
  C39_no_overflow_partial exSys true _ (by decide +kernel)
    (by intro h hh; cases (show some "/root".toList = some h from hh); decide +kernel)
    (by intro u h hh; cases hh) (by decide +kernel)
    (by intro h hh; cases (show some "/root".toList = some h from hh); decide +kernel)
    (by intro u h hh; cases hh)

/-- A disagreement, for every size of the buffer: the path with as many characters as the buffer can hold
(`N - 1`, and the NUL) is written with two NULs, the second one outside. -/
theorem C39_overflow_exact (sys : Sys) (p : List Char) (hv : ∀ c ∈ p, c ≠ '$') (hlen : p.length + 1 = sys.N) :
    absPath sys true p = .overflow := by
  have key : ∀ (src out : List Char), (∀ c ∈ src, c ≠ '$') → out.length + src.length + 1 = sys.N →
      expand sys src out = none := by
    intro src
    induction src with
    | nil =>
      intro out _ hl
      rw [expand.eq_def]
      dsimp only [List.length_nil] at hl ⊢
      rw [if_neg (by omega)]
    | cons c src ih =>
      intro out h hl
      simp only [List.length_cons] at hl
      rw [expand.eq_def]
      dsimp only
      rw [if_pos (by omega), if_neg (h c (by simp))]
      exact ih _ (fun d hd => h d (by simp [hd])) (by simp only [List.length_cons]; omega)
  rw [absPath, key p [] hv (by simp only [List.length_nil]; omega)]

example : absPath exSys true ('/' :: List.replicate 62 'a') = .overflow :=
  C39_overflow_exact exSys _ (by decide +kernel) (by decide +kernel)

/-- The value of a variable is copied without a test of its length. -/
theorem C39_overflow_env : absPath exSys true "$BIG".toList = .overflow := by decide +kernel

/-! ### The parts of a path -/

/-- C39: a path is its directory part, the name and the suffix; the directory part is empty or ends with a
separator, the name and the suffix have none; the suffix is empty or starts with the last dot of the base
name. -/
theorem C39_decompose (p : List Char) :
    let (d, n, s) := decompose p
    d ++ n ++ s = p ∧ '/' ∉ n ∧ '/' ∉ s ∧ (d = [] ∨ ∃ d', d = d' ++ ['/']) ∧
      ((s = [] ∧ '.' ∉ n) ∨ ∃ e, s = '.' :: e ∧ '.' ∉ e) := by
  obtain ⟨h1, h2, h3⟩ := splitLast_spec p [] (by simp)
  obtain ⟨g1, g2⟩ := splitSuffix_spec (splitLast p []).2
  simp only [decompose]
  simp only [List.reverse_nil, List.nil_append] at h1
  rw [← g1] at h2
  refine ⟨by rw [List.append_assoc, g1, h1], fun hm => h2 (by simp [hm]), fun hm => h2 (by simp [hm]), h3, ?_⟩
  rcases g2 with ⟨g2, g3⟩ | g2
  · left
    refine ⟨g2, ?_⟩
    rw [g2, List.append_nil] at g1
    rw [g1]; exact g3
  · exact .inr g2

/-- There is one such decomposition. -/
theorem C39_decompose_unique (p d n s : List Char) (h1 : d ++ n ++ s = p) (h2 : '/' ∉ n) (h3 : '/' ∉ s)
    (h4 : d = [] ∨ ∃ d', d = d' ++ ['/']) (h5 : (s = [] ∧ '.' ∉ n) ∨ ∃ e, s = '.' :: e ∧ '.' ∉ e) :
    decompose p = (d, n, s) := by
  have hb : ∀ (b acc : List Char), '/' ∉ b → splitLast b acc = ([], acc.reverse ++ b) := by
    intro b
    induction b with
    | nil => intro acc _; simp [splitLast]
    | cons c b ih =>
      intro acc h
      have hc : c ≠ '/' := fun e => h (by simp [e])
      rw [splitLast, if_neg hc, ih _ (fun hm => h (by simp [hm]))]
      simp
  have hd : ∀ (d b acc : List Char), '/' ∉ b → splitLast (d ++ '/' :: b) acc = (acc.reverse ++ d ++ ['/'], b) := by
    intro d
    induction d with
    | nil => intro b acc h; simp [splitLast, hb b [] h]
    | cons c d ih =>
      intro b acc h
      rw [List.cons_append, splitLast]
      split
      · next hc => rw [ih b [] h, hc]; simp
      · rw [ih b _ h]; simp
  have hns : '/' ∉ n ++ s := by
    intro hm; rcases List.mem_append.1 hm with hm | hm
    · exact h2 hm
    · exact h3 hm
  have hsp : splitLast p [] = (d, n ++ s) := by
    subst h1
    rcases h4 with rfl | ⟨d', rfl⟩
    · simpa using hb (n ++ s) [] hns
    · have := hd d' (n ++ s) [] hns
      simpa using this
  have hdw : ∀ (e r : List Char), '.' ∉ e →
      (e ++ '.' :: r).dropWhile (fun x => decide (x ≠ '.')) = '.' :: r ∧
      (e ++ '.' :: r).takeWhile (fun x => decide (x ≠ '.')) = e ∧
      e.dropWhile (fun x => decide (x ≠ '.')) = [] := by
    intro e r
    induction e with
    | nil => intro _; simp
    | cons c e ih =>
      intro h
      have hc : c ≠ '.' := fun e => h (by simp [e])
      obtain ⟨i1, i2, i3⟩ := ih (fun hm => h (by simp [hm]))
      refine ⟨?_, ?_, ?_⟩ <;> simp only [List.cons_append, List.dropWhile, List.takeWhile, hc, ne_eq,
        not_false_eq_true, decide_true]
      · exact i1
      · rw [i2]
      · exact i3
  have hsf : splitSuffix (n ++ s) = (n, s) := by
    rw [splitSuffix]
    rcases h5 with ⟨rfl, hn⟩ | ⟨e, rfl, he⟩
    · rw [List.append_nil, (hdw n.reverse [] (by simpa using hn)).2.2]
    · have hr : (n ++ '.' :: e).reverse = e.reverse ++ '.' :: n.reverse := by simp
      obtain ⟨i1, i2, _⟩ := hdw e.reverse n.reverse (by simpa using he)
      rw [hr, i1, i2]
      simp
  simp only [decompose, hsp, hsf]

example : decompose "/usr/lib/a.tar.gz".toList = ("/usr/lib/".toList, "a.tar".toList, ".gz".toList) := by
  decide +kernel
example : decompose "foo.d/bar".toList = ("foo.d/".toList, "bar".toList, []) := by decide +kernel

/-- C39: the directory part without its last separators, when something else is in it. -/
theorem C39_dirname_partial (before : Nat → Char) (p : List Char)
    (hx : ∃ (i : Nat) (x : Char), (splitLast p []).1[i]? = some x ∧ x ≠ '/') :
    ∃ d k, dirName before p = some d ∧ (splitLast p []).1 = d ++ List.replicate k '/' ∧
      (∃ d' x, d = d' ++ [x] ∧ x ≠ '/') := by
  generalize hd : (splitLast p []).1 = d at *
  obtain ⟨i, x, hi, hxne⟩ := hx
  have hil : i < d.length := (List.getElem?_eq_some_iff.1 hi).1
  obtain ⟨m, h1, h2, h3, ⟨y, h4, h4'⟩, h5⟩ := delTrail_spec before d d.length (Nat.le_refl _) ⟨i, x, hil, hi, hxne⟩
  have hne : d ≠ [] := by intro e; rw [e] at hil; simp at hil
  refine ⟨d.take m, d.length - m, ?_, ?_, ?_⟩
  · simp only [dirName, hd, if_neg hne, h1, Option.map_some]
  · have hrep : d.drop m = List.replicate (d.length - m) '/' := by
      apply List.ext_getElem?
      intro j
      rw [List.getElem?_drop, List.getElem?_replicate]
      split
      · exact h5 _ (by omega) (by omega)
      · rw [List.getElem?_eq_none]; omega
    rw [← hrep, List.take_append_drop]
  · refine ⟨d.take (m - 1), y, ?_, h4'⟩
    have : d.take m = d.take (m - 1 + 1) := by rw [Nat.sub_add_cancel h2]
    rw [this, List.take_add_one, h4]
    rfl

example : dirName (fun _ => 'z') "/usr//foo".toList = some "/usr".toList := by decide +kernel

/-- A disagreement: the directory of `/foo` is `/`, the function makes it the empty string, after a read of
the byte before the buffer; if that byte is a separator, it goes on before it. -/
theorem C39_dirname_root :
    dirName (fun _ => 'z') "/foo".toList = some [] ∧ dirName (fun _ => '/') "/foo".toList = none := by
  decide +kernel

end Gp.Path
