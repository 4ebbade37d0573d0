import Verif.Environ.Model
/-
C71. environ/2 gives every variable of the environment once, in order, with its value, and agrees with the answer for a known name; entries without '=' are an
undefined behaviour of the enumeration.
-/
namespace Gp.Environ

/-! ## Specification -/

/-- The text of a variable. -/
def text (p : Str × Str) : Str := p.1 ++ 61 :: p.2

/-- A name: not empty, without '=' and which fits the buffer. -/
structure Name (n : Str) : Prop where
  ne : n ≠ []
  noEq : 61 ∉ n
  short : n.length < 1024 * 1024

/-! ## Proofs -/

theorem strchrEq_text {n v : Str} (h : 61 ∉ n) : strchrEq (n ++ 61 :: v) = some (n, v) := by
  induction n with
  | nil => simp [strchrEq]
  | cons c n ih =>
    simp only [List.mem_cons, not_or] at h
    simp only [List.cons_append, strchrEq]
    rw [if_neg (fun e => h.1 e.symm), ih h.2]
    rfl

theorem answer_text {unif : Str → Str → Bool} {p : Str × Str} (h : Name p.1) : answer unif (text p) = some ([p].filter fun q => unif q.1 q.2) := by
  have hs := h.short
  simp only [answer, split, text, strchrEq_text h.noEq]
  rw [if_pos (by simp only [GLOB_BUFF]; omega)]
  simp [List.filter_cons]

theorem alts_text {unif : Str → Str → Bool} : ∀ {ps : List (Str × Str)}, ps ≠ [] → (∀ p ∈ ps, Name p.1) →
    alts unif (ps.map text) = some (ps.filter fun q => unif q.1 q.2)
  | [], h, _ => absurd rfl h
  | [p], _, hn => by simp only [List.map_cons, List.map_nil, alts, answer_text (hn p (by simp))]; rfl
  | p :: q :: ps, _, hn => by
    have ih := alts_text (unif := unif) (ps := q :: ps) (by simp) (fun r hr => hn r (List.mem_cons_of_mem _ hr))
    rw [List.map_cons, alts, answer_text (hn p (by simp))]
    simp only
    rw [if_neg (by simp), ih, Option.map_some, ← List.filter_append]
    rfl

/-- environ(Name, Value) with an unbound name gives on backtracking every variable of the environment exactly once, in order, with its value (which may contain '='), among
those which unify. -/
theorem C71_environ_all {unif : Str → Str → Bool} {ps : List (Str × Str)} (hn : ∀ p ∈ ps, Name p.1) :
    environAll unif (ps.map text) = some (ps.filter fun q => unif q.1 q.2) := by
  cases ps with
  | nil => rfl
  | cons p ps =>
    have := alts_text (unif := unif) (ps := p :: ps) (by simp) hn
    exact this

theorem entryOf_text {n m v : Str} (hn : 61 ∉ n) (hm : 61 ∉ m) : entryOf n (m ++ 61 :: v) = if n = m then some v else none := by
  induction n generalizing m with
  | nil =>
    cases m with
    | nil => simp [entryOf]
    | cons c m =>
      simp only [List.mem_cons, not_or] at hm
      simp only [List.cons_append, entryOf]
      rw [if_neg (fun e => hm.1 e.symm), if_neg (by simp)]
  | cons a n ih =>
    simp only [List.mem_cons, not_or] at hn
    cases m with
    | nil =>
      simp only [List.nil_append, entryOf]
      rw [if_neg (fun e => hn.1 e.symm), if_neg (by simp)]
    | cons c m =>
      simp only [List.mem_cons, not_or] at hm
      simp only [List.cons_append, entryOf]
      by_cases e : a = c
      · rw [if_pos e, ih hn.2 hm.2]; simp [e]
      · rw [if_neg e, if_neg (by simp [e])]

/-- environ(Name, Value) with a known name gives the value of the first variable of this name; when the names are distinct it gives exactly the answers of the
enumeration for this name. -/
theorem C71_environ_known {ps : List (Str × Str)} (hn : ∀ p ∈ ps, Name p.1) {n : Str} (h : Name n) :
    environKnown (ps.map text) n = (ps.find? fun p => p.1 = n).map Prod.snd ∧
    ((ps.map Prod.fst).Nodup → ∀ v, environKnown (ps.map text) n = some v ↔ (n, v) ∈ ps) := by
  have key : environKnown (ps.map text) n = (ps.find? fun p => p.1 = n).map Prod.snd := by
    simp only [environKnown, if_neg h.ne]
    induction ps with
    | nil => rfl
    | cons p ps ih =>
      simp only [List.map_cons, getenvLoop, text, entryOf_text h.noEq (hn p (by simp)).noEq, List.find?_cons]
      by_cases e : n = p.1
      · simp [e]
      · have e' : ¬ p.1 = n := fun q => e q.symm
        simp only [if_neg e, e', decide_false]
        exact ih fun q hq => hn q (List.mem_cons_of_mem _ hq)
  refine ⟨key, fun hd v => ?_⟩
  rw [key]
  clear key
  induction ps with
  | nil => simp
  | cons p ps ih =>
    simp only [List.map_cons, List.nodup_cons] at hd
    rw [List.find?_cons]
    by_cases e : p.1 = n
    · simp only [e, decide_true, Option.map_some, List.mem_cons]
      constructor
      · intro q; injection q with q; left; rw [← e, ← q]
      · rintro (q | q)
        · rw [← q]
        · exact absurd (List.mem_map.mpr ⟨_, q, rfl⟩) (by rw [← e]; exact hd.1)
    · simp only [e, decide_false, List.mem_cons]
      rw [ih (fun q hq => hn q (List.mem_cons_of_mem _ hq)) hd.2]
      constructor
      · intro q; exact .inr q
      · rintro (q | q)
        · exact absurd (by rw [← q]) e
        · exact q

/-- An entry without '=' (an environment given to execve may have some) is an undefined behaviour of the enumeration, wherever it is. -/
theorem C71_entry_without_equal_is_undefined {unif : Str → Str → Bool} {env : List Str} {e : Str} (he : e ∈ env) (h : 61 ∉ e) :
    environAll unif env = none := by
  have hs : strchrEq e = none := by
    clear he
    induction e with
    | nil => rfl
    | cons c e ih =>
      simp only [List.mem_cons, not_or] at h
      simp only [strchrEq]
      rw [if_neg (fun q => h.1 q.symm), ih h.2]
      rfl
  have ha : answer unif e = none := by simp [answer, split, hs]
  have hl : ∀ env : List Str, e ∈ env → alts unif env = none := by
    intro env he
    induction env with
    | nil => simp at he
    | cons x l ih =>
      rw [alts]
      cases hx : answer unif x with
      | none => rfl
      | some r =>
        have : e ∈ l := by
          rcases List.mem_cons.mp he with q | q
          · rw [q, hx] at ha; cases ha
          · exact q
        simp only
        rw [if_neg (List.ne_nil_of_mem this), ih this]
        rfl
  cases env with
  | nil => simp at he
  | cons x l =>
    have := hl (x :: l) he
    exact this

/-! ## The hypotheses are met -/

/-- A=b and HOME=x=y. -/
def exE : List (Str × Str) := [([65], [98]), ([72, 79, 77, 69], [120, 61, 121])]

theorem exE_names : ∀ p ∈ exE, Name p.1 := by
  intro p hp
  simp only [exE, List.mem_cons, List.not_mem_nil, or_false] at hp
  rcases hp with rfl | rfl <;> exact ⟨by simp, by simp, by simp⟩

example : environAll (fun _ _ => true) (exE.map text) = some exE := C71_environ_all exE_names

example : environKnown (exE.map text) [72, 79, 77, 69] = some [120, 61, 121] ∧ environKnown (exE.map text) [72, 79] = none ∧ (exE.map Prod.fst).Nodup := by
  decide

/-- A name with '=' may be found by getenv, though it is not in the enumeration: environ('HOME=x', V) gives y. -/
example : environKnown (exE.map text) [72, 79, 77, 69, 61, 120] = some [121] := by decide

example : environAll (fun _ _ => true) [[65, 61, 98], [66]] = none := C71_entry_without_equal_is_undefined (e := [66]) (by simp) (by simp)

end Gp.Environ
