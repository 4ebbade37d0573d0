import Verif.CurPred.Model
import Verif.HashTbl.Props
/-
C67. current_predicate/1 gives each visible predicate which matches the indicator exactly once.
-/
namespace Gp.CurPred
open Gp.HashTbl

variable {C : Ctx} {w : Nat} {t : Tbl Bool} {i : Indic}

/-! ## Specification -/

/-- A predicate is visible: every one for the debugger (2); otherwise the name does not begin by '$', and in strict ISO mode (or in a
call of kind 0 of this mode) the built-in predicates are hidden. -/
def Visible (C : Ctx) (w f : Nat) (builtin : Bool) : Prop :=
  w = 2 ∨ (C.dollar f = false ∧ (w = 1 ∨ (w = 0 ∧ C.strictIso = false) ∨ builtin = false))

/-- The values unify with the indicator. -/
def Matches (i : Indic) (f n : Nat) : Prop :=
  (∀ x, i.name.val = some x → x = f) ∧ (∀ x, i.arity.val = some x → x = n) ∧ i.same = false

/-- `same` is only said of variables. -/
def Indic.Ok (i : Indic) : Prop := i.same = true → i.name.val = none ∧ i.arity.val = none

/-! ## Lemmas -/

theorem functorArity_of (k : Key) : functorArity (functorOf k) (arityOf k) = k := by
  unfold functorArity functorOf arityOf
  rw [Nat.div_add_mod']
  simp

theorem of_functorArity {f n : Nat} (hf : f < 2 ^ 54) (hn : n < 2 ^ 10) :
    functorOf (functorArity f n) = f ∧ arityOf (functorArity f n) = n := by
  unfold functorArity functorOf arityOf
  have h : n * 2 ^ 54 + f < 2 ^ 64 := by
    have : n * 2 ^ 54 ≤ 1023 * 2 ^ 54 := Nat.mul_le_mul_right _ (by omega)
    omega
  rw [BitVec.toNat_ofNat, Nat.mod_eq_of_lt h]
  generalize hm : n * 2 ^ 54 + f = m
  omega

/-- The nodes met from a state of a scan. -/
inductive Enum (t : Tbl Bool) : Option (Option (Node Bool × Scan)) → List (Node Bool) → Prop
  | done : Enum t (some none) []
  | more {p s l} : Enum t (next t s) l → Enum t (some (some (p, s))) (p :: l)

theorem enum_of_scan {n : Nat} : ∀ {x l}, scanFrom t n x = some l → Enum t x l := by
  induction n with
  | zero =>
    intro x l h
    match x with
    | none => simp [scanFrom] at h
    | some none => simp [scanFrom] at h; subst h; exact .done
    | some (some _) => simp [scanFrom] at h
  | succ n ih =>
    intro x l h
    match x with
    | none => simp [scanFrom] at h
    | some none => simp [scanFrom] at h; subst h; exact .done
    | some (some (p, s)) =>
      simp only [scanFrom, Option.map_eq_some_iff] at h
      obtain ⟨l', h1, rfl⟩ := h
      exact .more (ih h1)

theorem search_enum {c : Node Bool → Bool} {x l} (h : Enum t x l) : ∀ {n : Nat}, l.length ≤ n →
    (search t c n x = some none ∧ l.filter c = []) ∨
      ∃ p s l', search t c n x = some (some (p, s)) ∧ Enum t (next t s) l' ∧ l.filter c = p :: l'.filter c ∧ l'.length < l.length ∧
        ∀ d : Node Bool → Bool, (∀ q, d q = true → c q = true) → l.filter d = (if d p then [p] else []) ++ l'.filter d := by
  induction h with
  | done => intro n _; left; cases n <;> exact ⟨rfl, rfl⟩
  | @more p s l h ih =>
    intro n hn
    match n, hn with
    | n + 1, hn =>
      simp only [List.length_cons] at hn
      by_cases hc : c p = true
      · right
        refine ⟨p, s, l, by simp [search, hc], h, by simp [hc], by simp, fun d hd => ?_⟩
        by_cases q : d p = true <;> simp [q]
      · rcases ih (n := n) (by omega) with ⟨h1, h2⟩ | ⟨p', s', l', h1, h2, h3, h4, h5⟩
        · left
          exact ⟨by simp [search, hc, h1], by simp [hc, h2]⟩
        · right
          refine ⟨p', s', l', by simp [search, hc, h1], h2, by simp [hc, h3], by simp only [List.length_cons]; omega, fun d hd => ?_⟩
          have : ¬ d p = true := fun q => hc (hd p q)
          rw [List.filter_cons_of_neg this]
          exact h5 d hd

/-- What is given at the end: the predicates which pass both the test of visibility and the unification. -/
def good (C : Ctx) (w : Nat) (i : Indic) (p : Node Bool) : Bool := predIsOk C w (functorOf p.key) p.val && unify i p

theorem answers_enum {c : Node Bool → Bool} (hc1 : ∀ q, good C w i q = true → c q = true)
    (hc2 : ∀ q, good C w i q = true → keep C w i.name.tag i.arity.tag q = true)
    (hc3 : ∀ q, c q = true → predIsOk C w (functorOf q.key) q.val = true) :
    ∀ (k : Nat) {x l}, Enum t x l → l.length ≤ k → ∀ n, l.length ≤ n → answers C w t i k (search t c n x) =
      some ((l.filter (good C w i)).map fun p => (functorOf p.key, arityOf p.key)) := by
  intro k
  induction k generalizing c with
  | zero =>
    intro x l h hk n hn
    have : l = [] := List.length_eq_zero_iff.mp (by omega)
    subst this
    cases h
    cases n <;> rfl
  | succ k ih =>
    intro x l h hk n hn
    rcases search_enum (c := c) h hn with ⟨h1, h2⟩ | ⟨p, s, l', h1, h2, h3, h4, h5⟩
    · rw [h1]
      have : l.filter (good C w i) = [] := by
        rw [List.filter_eq_nil_iff] at h2 ⊢
        exact fun q hq hg => h2 q hq (hc1 q hg)
      rw [this]; rfl
    · rw [h1]
      simp only [answers]
      rw [ih (c := keep C w i.name.tag i.arity.tag) hc2 (fun q hq => by
        simp only [keep, Bool.and_eq_true] at hq; exact hq.2) h2 (by omega) k (by omega)]
      rw [h5 _ hc1]
      have hp : c p = true := by
        have : p ∈ l.filter c := by rw [h3]; simp
        exact (List.mem_filter.mp this).2
      have hg : good C w i p = unify i p := by simp only [good, hc3 p hp, Bool.true_and]
      rw [hg]
      by_cases q : unify i p = true <;> simp [q]

theorem predIsOk_iff {f : Nat} {b : Bool} : predIsOk C (which C w) f b = true ↔ Visible C w f b := by
  unfold predIsOk which Visible
  by_cases h1 : w = 0
  · subst h1
    cases C.strictIso <;> cases C.dollar f <;> cases b <;> simp
  · rw [if_neg (fun q => h1 q.1)]
    by_cases h2 : w = 2
    · simp [h2]
    · by_cases h3 : w = 1
      · cases C.dollar f <;> simp [h3]
      · cases C.dollar f <;> cases b <;> simp [h1, h2, h3]

theorem unify_iff {p : Node Bool} : unify i p = true ↔ Matches i (functorOf p.key) (arityOf p.key) := by
  unfold unify Matches
  cases i.name.val <;> cases i.arity.val <;> cases i.same <;> simp

theorem keep_good {func arity : Option Nat} {q : Node Bool} (hg : good C w i q = true)
    (hf : func = none ∨ func = i.name.val) (ha : arity = none ∨ arity = i.arity.val) : keep C w func arity q = true := by
  simp only [good, Bool.and_eq_true] at hg
  obtain ⟨h1, h2⟩ := hg
  obtain ⟨m1, m2, -⟩ := unify_iff.mp h2
  unfold keep
  rw [h1, Bool.and_true]
  rcases hf with rfl | rfl
  · rcases ha with rfl | rfl
    · simp
    · cases h : i.arity.val with
      | none => simp
      | some x => rw [m2 x h]; simp
  · cases h : i.name.val with
    | some x => rw [m1 x h]; simp
    | none =>
      rcases ha with rfl | rfl
      · simp
      · cases h : i.arity.val with
        | none => simp
        | some x => rw [m2 x h]; simp

theorem tag_cases (a : Arg) : a.tag = none ∨ a.tag = a.val := by
  unfold Arg.tag; split <;> simp

/-! ## The theorems -/

/-- After any operations on the table of predicates, current_predicate(Name/Arity) gives exactly the predicates of the table which are
visible and match, each once, and no other answer, whatever is the form of the words of the indicator. -/
theorem C67_current_predicate (n : Int) (hn : 1 ≤ n) (os : List (Op Bool)) (hv : ∀ o ∈ os, o.valid) (hi : i.Ok) :
    ∃ (t0 t : Tbl Bool) (l : List (Nat × Nat)), alloc 0 0 n = some t0 ∧ run t0 os = some t ∧
      currentPredicate C w t i t.nb.toNat = some l ∧ l.Nodup ∧
      ∀ f k, f < 2 ^ 54 → k < 2 ^ 10 → ((f, k) ∈ l ↔
        ∃ b, specRun (fun _ => none) os (functorArity f k) = some b ∧ Visible C w f b ∧ Matches i f k) := by
  obtain ⟨t0, h0, r0⟩ := alloc_rep (V := Bool) hn
  obtain ⟨t, h, rp⟩ := run_rep r0 os hv
  have main : ∃ l, currentPredicate C w t i t.nb.toNat = some l ∧ l.Nodup ∧
      ∀ f k, f < 2 ^ 54 → k < 2 ^ 10 → ((f, k) ∈ l ↔
        ∃ b, specRun (fun _ => none) os (functorArity f k) = some b ∧ Visible C w f b ∧ Matches i f k) := by
    by_cases hboth : ∃ f k, i.name.val = some f ∧ i.arity.val = some k
    · obtain ⟨f, k, e1, e2⟩ := hboth
      have hs : i.same = false := by
        cases hq : i.same with
        | false => rfl
        | true => rw [(hi hq).1] at e1; simp at e1
      have hlook := rp.look (functorArity f k)
      have hmm : ∀ f' k', Matches i f' k' ↔ f = f' ∧ k = k' := by
        intro f' k'
        unfold Matches
        rw [e1, e2]
        simp [hs]
      unfold currentPredicate
      rw [e1, e2]
      simp only
      cases hfd : find t (functorArity f k) with
      | none =>
        rw [hfd] at hlook
        refine ⟨[], rfl, List.nodup_nil, fun f' k' _ _ => ?_⟩
        simp only [List.not_mem_nil, false_iff]
        rintro ⟨b, q1, q2, q3⟩
        obtain ⟨rfl, rfl⟩ := (hmm _ _).mp q3
        rw [← hlook] at q1
        simp at q1
      | some p =>
        rw [hfd] at hlook
        simp only [Option.map_some] at hlook
        refine ⟨_, rfl, by split <;> simp, fun f' k' _ _ => ?_⟩
        constructor
        · intro hm
          split at hm
          · rename_i hok
            simp only [List.mem_singleton, Prod.mk.injEq] at hm
            obtain ⟨rfl, rfl⟩ := hm
            exact ⟨p.val, hlook.symm, predIsOk_iff.mp hok, (hmm _ _).mpr ⟨rfl, rfl⟩⟩
          · simp at hm
        · rintro ⟨b, q1, q2, q3⟩
          obtain ⟨rfl, rfl⟩ := (hmm _ _).mp q3
          rw [← hlook] at q1
          cases q1
          rw [if_pos (predIsOk_iff.mpr q2)]
          simp
    · have hnb : t.nb.toNat = t.arr.flatten.length := by
        rw [rp.wf.count, total_eq_flatten]; simp
      have hen : Enum t (first t) t.arr.flatten := enum_of_scan (scanAll_eq rp.wf)
      have hcur : currentPredicate C w t i t.nb.toNat = answers C (which C w) t i t.nb.toNat
          (search t (keep C (which C w) i.name.val i.arity.val) t.nb.toNat (first t)) := by
        unfold currentPredicate
        split
        · rename_i f k e1 e2; exact absurd ⟨f, k, e1, e2⟩ hboth
        · rfl
      rw [hcur, answers_enum (fun q hq => keep_good hq (.inr rfl) (.inr rfl))
        (fun q hq => keep_good hq (tag_cases _) (tag_cases _))
        (fun q hq => by simp only [keep, Bool.and_eq_true] at hq; exact hq.2) _ hen (by omega) _ (by omega)]
      refine ⟨_, rfl, ?_, fun f k hf hk => ?_⟩
      · have hk := flatten_keys_nodup rp.wf.awf
        have h1 : ((t.arr.flatten.filter (good C (which C w) i)).map (·.key)).Nodup :=
          List.Nodup.sublist ((List.filter_sublist).map _) hk
        have h2 : ((t.arr.flatten.filter (good C (which C w) i)).map fun p => (functorOf p.key, arityOf p.key)) =
            (((t.arr.flatten.filter (good C (which C w) i)).map (·.key)).map fun k => (functorOf k, arityOf k)) := by
          rw [List.map_map]; rfl
        rw [h2]
        refine List.pairwise_map.mpr (h1.imp fun {a b} hne e => hne ?_)
        simp only [Prod.mk.injEq] at e
        rw [← functorArity_of a, ← functorArity_of b, e.1, e.2]
      · rw [List.mem_map]
        constructor
        · rintro ⟨p, hp, e⟩
          obtain ⟨hp, hg⟩ := List.mem_filter.mp hp
          simp only [Prod.mk.injEq] at e
          obtain ⟨rfl, rfl⟩ := e
          simp only [good, Bool.and_eq_true] at hg
          refine ⟨p.val, ?_, predIsOk_iff.mp hg.1, unify_iff.mp hg.2⟩
          rw [functorArity_of]
          exact (rep_mem rp _ _).mp ⟨p, hp, rfl, rfl⟩
        · rintro ⟨b, q1, q2, q3⟩
          obtain ⟨p, hp, e1, rfl⟩ := (rep_mem rp _ _).mpr q1
          obtain ⟨g1, g2⟩ := of_functorArity hf hk
          rw [← e1] at g1 g2
          refine ⟨p, List.mem_filter.mpr ⟨hp, ?_⟩, by rw [g1, g2]⟩
          simp only [good, Bool.and_eq_true]
          rw [unify_iff, g1, g2]
          exact ⟨predIsOk_iff.mpr q2, q3⟩
  obtain ⟨l, m1, m2, m3⟩ := main
  exact ⟨t0, t, l, h0, h, m1, m2, m3⟩

/-- Only pairs of an atom and an arity of the encoding are given. -/
theorem C67_in_range {fuel : Nat} {l : List (Nat × Nat)} (hf : ∀ f, i.name.val = some f → f < 2 ^ 54)
    (ha : ∀ k, i.arity.val = some k → k ≤ 255) (h : currentPredicate C w t i fuel = some l) :
    ∀ x ∈ l, x.1 < 2 ^ 54 ∧ x.2 < 2 ^ 10 := by
  have hk : ∀ k : Key, functorOf k < 2 ^ 54 ∧ arityOf k < 2 ^ 10 := by
    intro k
    have := k.isLt
    unfold functorOf arityOf
    omega
  have hans : ∀ (n : Nat) x l, answers C (which C w) t i n x = some l → ∀ y ∈ l, y.1 < 2 ^ 54 ∧ y.2 < 2 ^ 10 := by
    intro n
    induction n with
    | zero =>
      intro x l h
      match x with
      | none => simp [answers] at h
      | some none => simp [answers] at h; subst h; simp
      | some (some _) => simp [answers] at h
    | succ n ih =>
      intro x l h
      match x with
      | none => simp [answers] at h
      | some none => simp [answers] at h; subst h; simp
      | some (some (p, s)) =>
        simp only [answers, Option.map_eq_some_iff] at h
        obtain ⟨l', h1, rfl⟩ := h
        intro y hy
        split at hy
        · rcases List.mem_cons.mp hy with rfl | hy
          · exact hk p.key
          · exact ih _ _ h1 y hy
        · exact ih _ _ h1 y hy
  unfold currentPredicate at h
  split at h
  · rename_i f n e1 e2
    have g1 := hf f e1
    have g2 := ha n e2
    split at h
    · simp at h; subst h; simp
    · simp only [Option.some.injEq] at h
      subst h
      intro x hx
      split at hx
      · simp only [List.mem_singleton] at hx; subst hx; exact ⟨g1, by omega⟩
      · simp at hx
  · exact hans _ _ _ h

/-- The enumeration does not survive the creation of a predicate: when the table is full and the last predicate given ended its chain, the
retry after the creation of any predicate reads the table which was freed. -/
theorem C67_creation_is_undefined {s : Scan} {f n : Nat} {b : Bool} {t' : Tbl Bool} (hfull : t.nb ≥ (t.size : Int))
    (hs : s.gen = t.gen) (hp : s.curP = none) (h : createPred t (t.gen + 1) f n b = some t') : next t' s = none := by
  have hg : t'.gen = t.gen + 1 := by
    unfold createPred at h
    rw [Option.map_eq_some_iff] at h
    obtain ⟨t1, h1, rfl⟩ := h
    have h2 : t1.gen = t.gen + 1 := by
      unfold extendIfNeeded at h1
      rw [if_pos hfull] at h1
      unfold realloc alloc at h1
      split at h1
      · simp at h1
      · simp at h1; subst h1; rfl
    rw [← h2]
    unfold HashTbl.insert
    simp only
    split
    · rfl
    · rfl
  unfold next
  rw [hp]
  simp only
  rw [if_pos (by omega)]

/-! ## The hypotheses are met -/

def exC : Ctx := ⟨fun f => f == 9, false⟩

/-- The predicates 5/1, 5/2, 7/2 (built-in) and 9/2, whose name begins by '$'. -/
def exOps : List (Op Bool) :=
  [.insert (functorArity 5 1) false false, .grow, .insert (functorArity 5 2) false false, .grow, .insert (functorArity 7 2) true false,
    .grow, .insert (functorArity 9 2) false false]

/-- All the predicates of arity 2, the arity being reached by a reference. -/
def exI : Indic := ⟨⟨none, false⟩, ⟨some 2, false⟩, false⟩

example : (∀ o ∈ exOps, o.valid) ∧ exI.Ok ∧ (∀ f, exI.name.val = some f → f < 2 ^ 54) ∧ (∀ k, exI.arity.val = some k → k ≤ 255) := by
  refine ⟨?_, by simp [Indic.Ok, exI], by simp [exI], by simp [exI]⟩
  intro o ho
  simp [exOps] at ho
  rcases ho with rfl | rfl | rfl | rfl | rfl | rfl | rfl <;> simp [Op.valid]

/-- In the usual mode, in strict ISO mode, and for the debugger. -/
example : (((alloc 0 0 1).bind (run · exOps)).bind fun t => (currentPredicate exC 0 t exI 10).map (·.length)) = some 2 ∧
    (((alloc 0 0 1).bind (run · exOps)).bind fun t => (currentPredicate { exC with strictIso := true } 0 t exI 10)) = some [(5, 2)] ∧
    (((alloc 0 0 1).bind (run · exOps)).bind fun t => (currentPredicate exC 2 t exI 10).map (·.length)) = some 3 := by
  decide +kernel

/-- A full table of one cell, after its only predicate is given. -/
example : ∃ (t t' : Tbl Bool) (p : Node Bool) (s : Scan), (alloc 0 0 1).bind (run · [.insert (functorArity 5 1) false false]) = some t ∧
    first t = some (some (p, s)) ∧ t.nb ≥ (t.size : Int) ∧ s.gen = t.gen ∧ s.curP = none ∧
    createPred t (t.gen + 1) 5 2 false = some t' := by
  refine ⟨_, _, _, _, rfl, rfl, ?_, rfl, rfl, rfl⟩
  decide +kernel

end Gp.CurPred
