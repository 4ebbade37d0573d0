import Verif.Oper.Lemmas
/-!
Property C04: the operators are a map from a name and a kind to a priority and a specifier, with its restrictions.
The specification is in Verif/Oper/Spec.lean.
-/
namespace Gp.Oper

open Gp.HashTbl (Tbl Key Rep)

/-- The names which have a role here. -/
def names : List String := initOps.map (·.2.2) ++ specifNames ++ ["[]", "{}"]

/-- What is needed on the atoms of these names: different atoms (C03), the characters and [] are at their fixed positions,
an atom fits in an int. -/
structure Hyp (A : Atoms) : Prop where
  inj : ∀ x ∈ names, ∀ y ∈ names, A x = A y → x = y
  comma : A "," = 44
  bar : A "|" = 124
  nil : A "[]" = 256
  lt : ∀ x ∈ names, A x < 2 ^ 31

/-- The specifier with a given atom. -/
def specifOf (A : Atoms) (sp : Nat) : Option Specif := Specif.all.find? (fun s => A s.name == sp)

/-- Invariants of the table of operators. -/
structure Ok (A : Atoms) (D : Defs) : Prop where
  exclusive : ∀ a, D a .inf = none ∨ D a .post = none
  comma : D 44 .inf = some (1000, .xfy) ∧ D 44 .pre = none ∧ D 44 .post = none
  bar : D 124 .pre = none ∧ D 124 .post = none ∧ ∀ p s, D 124 .inf = some (p, s) → 1000 < p
  nil : ∀ k, D 256 k = none
  curly : ∀ k, D (A "{}") k = none

/-- The states: the initial one and those obtained by calls of op/3. -/
inductive Reach (A : Atoms) : St → Prop where
  | init (s : St) : init A = some s → Reach A s
  | op (s : St) (p : Int) (sp a : Nat) (s' : St) : Reach A s → a < 2 ^ 31 → op3 A s p sp a = .ok s' → Reach A s'

/-- What the user sees of a state: the definitions given by the table. -/
def defs (s : St) : Defs := fun a k =>
  if a < 2 ^ 31 then
    match lookup s a (match k with | .pre => 0 | .post => 1 | .inf => 2) with
    | none => none
    | some o => (Specif.all[detect (match k with | .pre => 0 | .post => 1 | .inf => 2) o]?).map fun sp => (o.prec, sp)
  else none

theorem kind_num (k : Kind) : (match k with | .pre => 0 | .post => 1 | .inf => 2) = k.num := by cases k <;> rfl

theorem all_index (sp : Specif) : Specif.all[sp.index]? = some sp := by cases sp <;> rfl

theorem defs_rel {s : St} {D : Defs} (r : Rel s D) : defs s = D := by
  funext a k
  unfold defs
  by_cases ha : a < 2 ^ 31
  · rw [if_pos ha]
    simp only [kind_num, lookup_rel r (a := a) (by omega)]
    cases h : D a k with
    | none => rfl
    | some d =>
      obtain ⟨p, sp⟩ := d
      obtain ⟨h1, h2, h3⟩ := r.valid a k p sp h
      simp only [Option.map_some]
      rw [← h3, detect_enc h1, all_index]
      rfl
  · rw [if_neg ha]
    cases h : D a k with
    | none => rfl
    | some d => exact absurd (r.small a k (by rw [h]; simp)) ha

/-! The initial operators -/

/-- An initial operator in the specification. -/
def addDef (A : Atoms) (D : Defs) (d : Int × Nat × String) : Defs :=
  match Specif.all[d.2.1]? with
  | some sp => D.set (A d.2.2) sp.kind (some (d.1, sp))
  | none => D

theorem index_of_all {i : Nat} {sp : Specif} (h : Specif.all[i]? = some sp) : sp.index = i := by
  have : i < 7 := by
    have := (List.getElem?_eq_some_iff.1 h).1
    simpa [Specif.all] using this
  match i, this with
  | 0, _ | 1, _ | 2, _ | 3, _ | 4, _ | 5, _ | 6, _ => simp [Specif.all] at h; subst h; rfl

theorem addOper_fold {A : Atoms} (l : List (Int × Nat × String)) (hl : ∀ d ∈ l, A d.2.2 < 2 ^ 31 ∧ 1 ≤ d.1 ∧ d.1 ≤ 1200 ∧ d.2.1 < 7)
    {s : St} {D : Defs} (r : Rel s D) : ∃ s', l.foldl (addOper A) (some s) = some s' ∧ Rel s' (l.foldl (addDef A) D) := by
  induction l generalizing s D with
  | nil => exact ⟨s, rfl, r⟩
  | cons d l ih =>
    obtain ⟨h1, h2, h3, h4⟩ := hl d List.mem_cons_self
    obtain ⟨sp, hsp⟩ : ∃ sp, Specif.all[d.2.1]? = some sp := ⟨_, List.getElem?_eq_getElem (by simpa [Specif.all] using h4)⟩
    obtain ⟨s', hs', r'⟩ := createOper_rel r h1 (p := d.1) (sp := sp) ⟨h2, h3⟩
    have : addOper A (some s) d = some s' := by
      unfold addOper
      simp only [← index_of_all hsp, tMacro_spec]
      exact hs'
    simp only [List.foldl_cons, this]
    have hD : addDef A D d = D.set (A d.2.2) sp.kind (some (d.1, sp)) := by unfold addDef; rw [hsp]
    rw [hD]
    exact ih (fun d hd => hl d (List.mem_cons_of_mem _ hd)) r'

/-- The initial table of the specification. -/
def initDefs (A : Atoms) : Defs := initOps.foldl (addDef A) (fun _ _ => none)

theorem initOps_valid : ∀ d ∈ initOps, 1 ≤ d.1 ∧ d.1 ≤ 1200 ∧ d.2.1 < 7 := by decide +kernel

theorem init_rel {A : Atoms} (hA : Hyp A) : ∃ s, init A = some s ∧ Rel s (initDefs A) := by
  obtain ⟨t, ht, rt⟩ := HashTbl.alloc_rep (V := Inf) (n := 1024) (by omega)
  unfold init
  simp only [ht]
  refine addOper_fold initOps ?_ ?_
  · intro d hd
    refine ⟨hA.lt _ ?_, initOps_valid d hd⟩
    unfold names
    simp only [List.mem_append]
    exact .inl (.inl (List.mem_map_of_mem hd))
  · refine ⟨?_, ?_, ?_, ?_, ?_⟩
    · have : mapOf (fun _ _ => none) = fun _ => none := by
        funext k
        unfold mapOf
        split <;> rfl
      rw [this]
      exact rt
    · intro a k; cases k <;> simp [check_def, Kind.num]
    · intro a; show 0#4 < 8#4; decide
    · intro a k h; exact absurd rfl h
    · intro a k p s h; simp at h

/-- A definition which is in the list, for different pairs of a name and a kind. -/
theorem addDef_fold {A : Atoms} (l : List (Int × Nat × String)) (D : Defs) (a : Nat) (k : Kind) :
    l.foldl (addDef A) D a k = D a k ∨
    ∃ d ∈ l, ∃ sp, Specif.all[d.2.1]? = some sp ∧ sp.kind = k ∧ A d.2.2 = a ∧ l.foldl (addDef A) D a k = some (d.1, sp) := by
  induction l generalizing D with
  | nil => exact .inl rfl
  | cons d l ih =>
    simp only [List.foldl_cons]
    rcases ih (addDef A D d) with h | ⟨d', hd', sp, h1, h2, h3, h4⟩
    · rw [h]
      unfold addDef
      cases hsp : Specif.all[d.2.1]? with
      | none => exact .inl rfl
      | some sp =>
        simp only
        unfold Defs.set
        by_cases hc : a = A d.2.2 ∧ k = sp.kind
        · refine .inr ⟨d, List.mem_cons_self, sp, hsp, hc.2.symm, hc.1.symm, ?_⟩
          rw [if_pos hc]
        · rw [if_neg hc]; exact .inl rfl
    · exact .inr ⟨d', List.mem_cons_of_mem _ hd', sp, h1, h2, h3, h4⟩

theorem addDef_mem {A : Atoms} (l : List (Int × Nat × String)) (D : Defs) (d : Int × Nat × String) (hd : d ∈ l) (sp : Specif)
    (hsp : Specif.all[d.2.1]? = some sp) : l.foldl (addDef A) D (A d.2.2) sp.kind ≠ none := by
  induction l generalizing D with
  | nil => simp at hd
  | cons e l ih =>
    simp only [List.foldl_cons]
    rcases List.mem_cons.1 hd with rfl | h
    · rcases addDef_fold l (addDef A D d) (A d.2.2) sp.kind with h | ⟨_, _, _, _, _, _, h⟩
      · rw [h]
        unfold addDef Defs.set
        simp [hsp]
      · rw [h]; simp
    · exact ih _ h

/-- In the initial list a name and a kind have one definition. -/
theorem initOps_distinct : ∀ d ∈ initOps, ∀ e ∈ initOps, d.2.2 = e.2.2 →
    (Specif.all[d.2.1]?).map Specif.kind = (Specif.all[e.2.1]?).map Specif.kind → d = e := by decide +kernel

theorem initDefs_mem {A : Atoms} (hA : Hyp A) (a : Nat) (k : Kind) (p : Int) (sp : Specif) :
    initDefs A a k = some (p, sp) ↔ ∃ i n, (p, i, n) ∈ initOps ∧ Specif.all[i]? = some sp ∧ sp.kind = k ∧ A n = a := by
  have hn : ∀ d ∈ initOps, d.2.2 ∈ names := by
    intro d hd
    unfold names
    simp only [List.mem_append]
    exact .inl (.inl (List.mem_map_of_mem hd))
  constructor
  · intro h
    rcases addDef_fold (A := A) initOps (fun _ _ => none) a k with h' | ⟨d, hd, sp', h1, h2, h3, h4⟩
    · unfold initDefs at h
      rw [h] at h'; simp at h'
    · unfold initDefs at h
      rw [h] at h4
      simp only [Option.some.injEq, Prod.mk.injEq] at h4
      obtain ⟨rfl, rfl⟩ := h4
      exact ⟨d.2.1, d.2.2, hd, h1, h2, h3⟩
  · rintro ⟨i, n, hd, h1, rfl, rfl⟩
    have hne := addDef_mem (A := A) initOps (fun _ _ => none) (p, i, n) hd sp h1
    rcases addDef_fold (A := A) initOps (fun _ _ => none) (A n) sp.kind with h' | ⟨d, hd', sp', h1', h2, h3, h4⟩
    · exact absurd h' hne
    · have hnm := hA.inj _ (hn d hd') _ (hn _ hd) h3
      have he := initOps_distinct d hd' (p, i, n) hd hnm (by simp only [h1, h1', Option.map_some, h2])
      subst he
      simp only at h1'
      rw [h1] at h1'
      simp only [Option.some.injEq] at h1'
      subst h1'
      exact h4

theorem initOps_no_post : ∀ d ∈ initOps, (Specif.all[d.2.1]?).map Specif.kind ≠ some .post := by decide +kernel
theorem initOps_comma : ∀ d ∈ initOps, d.2.2 = "," → d = (1000, 5, ",") := by decide +kernel
theorem initOps_bar : ∀ d ∈ initOps, d.2.2 = "|" → d = (1105, 5, "|") := by decide +kernel
theorem initOps_nil : ∀ d ∈ initOps, d.2.2 ≠ "[]" ∧ d.2.2 ≠ "{}" := by decide +kernel

theorem init_ok {A : Atoms} (hA : Hyp A) : Ok A (initDefs A) := by
  have hn : ∀ d ∈ initOps, d.2.2 ∈ names := by
    intro d hd
    unfold names
    simp only [List.mem_append]
    exact .inl (.inl (List.mem_map_of_mem hd))
  have hex : ∀ x, x ∈ [",", "|", "[]", "{}"] → x ∈ names := by decide +kernel
  have key : ∀ (x : String), x ∈ [",", "|", "[]", "{}"] → ∀ k p sp, initDefs A (A x) k = some (p, sp) →
      ∃ i, (p, i, x) ∈ initOps ∧ Specif.all[i]? = some sp ∧ sp.kind = k := by
    intro x hx k p sp h
    obtain ⟨i, n, h1, h2, h3, h4⟩ := (initDefs_mem hA _ _ _ _).1 h
    have := hA.inj _ (hn _ h1) _ (hex x hx) h4
    simp only at this
    subst this
    exact ⟨i, h1, h2, h3⟩
  have none_of : ∀ a k, (∀ p sp, initDefs A a k ≠ some (p, sp)) → initDefs A a k = none := by
    intro a k h
    cases hd : initDefs A a k with
    | none => rfl
    | some d => exact absurd hd (h d.1 d.2)
  have hpost : ∀ a, initDefs A a .post = none := by
    intro a
    refine none_of _ _ fun p sp h => ?_
    obtain ⟨i, n, h1, h2, h3, h4⟩ := (initDefs_mem hA _ _ _ _).1 h
    have := initOps_no_post _ h1
    simp [h2, h3] at this
  refine ⟨fun a => .inr (hpost a), ⟨?_, ?_, hpost _⟩, ⟨?_, hpost _, ?_⟩, ?_, ?_⟩
  · rw [← hA.comma]
    exact (initDefs_mem hA _ _ _ _).2 ⟨5, ",", by decide +kernel, rfl, rfl, rfl⟩
  · rw [← hA.comma]
    refine none_of _ _ fun p sp h => ?_
    obtain ⟨i, h1, h2, h3⟩ := key "," (by simp) _ _ _ h
    have := initOps_comma _ h1 rfl
    simp only [Prod.mk.injEq] at this
    obtain ⟨_, rfl, _⟩ := this
    simp [Specif.all] at h2
    subst h2
    simp [Specif.kind] at h3
  · rw [← hA.bar]
    refine none_of _ _ fun p sp h => ?_
    obtain ⟨i, h1, h2, h3⟩ := key "|" (by simp) _ _ _ h
    have := initOps_bar _ h1 rfl
    simp only [Prod.mk.injEq] at this
    obtain ⟨_, rfl, _⟩ := this
    simp [Specif.all] at h2
    subst h2
    simp [Specif.kind] at h3
  · intro p s h
    rw [← hA.bar] at h
    obtain ⟨i, h1, h2, h3⟩ := key "|" (by simp) _ _ _ h
    have := initOps_bar _ h1 rfl
    simp only [Prod.mk.injEq] at this
    omega
  · intro k
    rw [← hA.nil]
    refine none_of _ _ fun p sp h => ?_
    obtain ⟨i, h1, h2, h3⟩ := key "[]" (by simp) _ _ _ h
    exact (initOps_nil _ h1).1 rfl
  · intro k
    refine none_of _ _ fun p sp h => ?_
    obtain ⟨i, h1, h2, h3⟩ := key "{}" (by simp) _ _ _ h
    exact (initOps_nil _ h1).2 rfl

/-! op/3 -/

theorem op3_spec {A : Atoms} {s : St} {D : Defs} (r : Rel s D) (p : Int) (sp a : Nat) (ha : a < 2 ^ 31) :
    (op3 A s p sp a = .err .domainPriority ∧ (p < 0 ∨ 1200 < p)) ∨
    (op3 A s p sp a = .err .domainSpecifier ∧ 0 ≤ p ∧ p ≤ 1200 ∧ specifOf A sp = none) ∨
    (∃ x, specifOf A sp = some x ∧ 0 ≤ p ∧ p ≤ 1200 ∧
      ((op3 A s p sp a = .err .permissionCreate ∧ NoCreate D 124 256 (A "{}") p x a) ∨
       (op3 A s p sp a = .err .permissionModify ∧ ¬ NoCreate D 124 256 (A "{}") p x a ∧ a = 44) ∨
       (¬ NoCreate D 124 256 (A "{}") p x a ∧ a ≠ 44 ∧ ∃ s', op3 A s p sp a = .ok s' ∧ Rel s' (D.set a x.kind (newDef p x))))) := by
  unfold op3
  by_cases hp : p < 0 ∨ p > 1200
  · rw [if_pos hp]; exact .inl ⟨rfl, by omega⟩
  rw [if_neg hp, specifIndex_spec]
  cases hx : specifOf A sp with
  | none =>
    unfold specifOf at hx
    rw [hx]
    exact .inr (.inl ⟨rfl, by omega, by omega, rfl⟩)
  | some x =>
    unfold specifOf at hx
    rw [hx]
    simp only [Option.map_some]
    refine .inr (.inr ⟨x, rfl, by omega, by omega, ?_⟩)
    have hcond : ((x.kind.num ≠ 0 ∧ check s a (if x.kind.num = 1 then 2 else 1) = true) ∨
          (a = 124 ∧ (x.kind.num ≠ 2 ∨ (p > 0 ∧ p ≤ 1000))) ∨ (a = 256 ∨ a = A "{}")) ↔ NoCreate D 124 256 (A "{}") p x a := by
      have h1 := r.mask a .post
      have h2 := r.mask a .inf
      simp only [Kind.num] at h1 h2
      unfold NoCreate
      cases hk : x.kind
      · simp [Kind.num]
      · simp [Kind.num, h2, Option.isSome_iff_ne_none]
      · simp [Kind.num, h1, Option.isSome_iff_ne_none]
    by_cases hn : NoCreate D 124 256 (A "{}") p x a
    · rw [if_pos (hcond.2 hn)]
      exact .inl ⟨rfl, hn⟩
    · rw [if_neg (fun h => hn (hcond.1 h))]
      by_cases hc : a = 44
      · rw [if_pos hc]
        exact .inr (.inl ⟨rfl, hn, hc⟩)
      · rw [if_neg hc]
        refine .inr (.inr ⟨hn, hc, ?_⟩)
        by_cases h0 : p > 0
        · rw [if_pos h0]
          obtain ⟨s', hs', r'⟩ := createOper_rel r ha (p := p) (sp := x) ⟨by omega, by omega⟩
          simp only [hs']
          refine ⟨s', rfl, ?_⟩
          unfold newDef
          rw [if_neg (by omega)]
          exact r'
        · rw [if_neg h0]
          refine ⟨_, rfl, ?_⟩
          unfold newDef
          rw [if_pos (by omega)]
          exact deleteOper_rel r ha x.kind

theorem ok_set {A : Atoms} {D : Defs} (h : Ok A D) {p : Int} {x : Specif} {a : Nat} (hp : 0 ≤ p)
    (hn : ¬ NoCreate D 124 256 (A "{}") p x a) (hc : a ≠ 44) : Ok A (D.set a x.kind (newDef p x)) := by
  unfold NoCreate at hn
  simp only [not_or, not_and, Classical.not_not] at hn
  obtain ⟨h1, h2, h3, h4, h5⟩ := hn
  unfold Defs.set
  refine ⟨?_, ?_, ?_, ?_, ?_⟩
  · intro b
    by_cases hb : b = a
    · subst hb
      cases hk : x.kind
      · simpa using h.exclusive b
      · simp [h2 hk]
      · simp [h1 hk]
    · simp only [hb, false_and, if_false]
      exact h.exclusive b
  · simp only [show (44 : Nat) ≠ a from fun e => hc e.symm, false_and, if_false]
    exact h.comma
  · by_cases hb : (124 : Nat) = a
    · obtain ⟨h6, h7⟩ := h3 hb.symm
      simp only [hb, h6, true_and, if_true]
      have := h.bar
      rw [hb] at this
      refine ⟨by simp [this.1], by simp [this.2.1], ?_⟩
      intro p' s' he
      unfold newDef at he
      by_cases h0 : p = 0
      · rw [if_pos h0] at he; simp at he
      · rw [if_neg h0] at he
        simp only [Option.some.injEq, Prod.mk.injEq] at he
        have := h7 (by omega)
        omega
    · simp only [hb, false_and, if_false]
      exact h.bar
  · intro k
    rw [if_neg (fun e => h4 e.1.symm)]
    exact h.nil k
  · intro k
    rw [if_neg (fun e => h5 e.1.symm)]
    exact h.curly k

theorem Reach.rel {A : Atoms} (hA : Hyp A) {s : St} (h : Reach A s) : ∃ D, Rel s D ∧ Ok A D := by
  induction h with
  | init s h =>
    obtain ⟨s', hs', r⟩ := init_rel hA
    rw [h] at hs'
    simp only [Option.some.injEq] at hs'
    subst hs'
    exact ⟨_, r, init_ok hA⟩
  | op s p sp a s' _ ha h ih =>
    obtain ⟨D, r, hk⟩ := ih
    rcases op3_spec r p sp a ha with ⟨h1, _⟩ | ⟨h1, _⟩ | ⟨x, _, h0, _, ⟨h1, _⟩ | ⟨h1, _⟩ | ⟨h2, h3, t, h1, r'⟩⟩
    · rw [h1] at h; simp at h
    · rw [h1] at h; simp at h
    · rw [h1] at h; simp at h
    · rw [h1] at h; simp at h
    · rw [h1] at h
      simp only [Res.ok.injEq] at h
      subst h
      exact ⟨_, r', ok_set hk h0 h2 h3⟩

/-! The theorems -/

/-- C04: the initial operators are exactly those of the list, with the definitions of the list. -/
theorem C04_init {A : Atoms} (hA : Hyp A) : ∃ s, init A = some s ∧ ∀ a k p sp, defs s a k = some (p, sp) ↔
    ∃ i n, (p, i, n) ∈ initOps ∧ Specif.all[i]? = some sp ∧ sp.kind = k ∧ A n = a := by
  obtain ⟨s, hs, r⟩ := init_rel hA
  refine ⟨s, hs, fun a k p sp => ?_⟩
  rw [defs_rel r]
  exact initDefs_mem hA a k p sp

/-- C04: op/3 in any reachable state. It raises exactly the errors of the specification; otherwise it replaces the definition of
this atom for the kind of this specifier (none if the priority is 0) and no other one. -/
theorem C04_op {A : Atoms} (hA : Hyp A) {s : St} (h : Reach A s) (p : Int) (sp a : Nat) (ha : a < 2 ^ 31) :
    if p < 0 ∨ 1200 < p then op3 A s p sp a = .err .domainPriority
    else match specifOf A sp with
      | none => op3 A s p sp a = .err .domainSpecifier
      | some x =>
        (NoCreate (defs s) 124 256 (A "{}") p x a → op3 A s p sp a = .err .permissionCreate) ∧
        (¬ NoCreate (defs s) 124 256 (A "{}") p x a → a = 44 → op3 A s p sp a = .err .permissionModify) ∧
        (¬ NoCreate (defs s) 124 256 (A "{}") p x a → a ≠ 44 →
          ∃ s', op3 A s p sp a = .ok s' ∧ Reach A s' ∧ defs s' = (defs s).set a x.kind (newDef p x)) := by
  obtain ⟨D, r, _⟩ := h.rel hA
  rw [defs_rel r]
  rcases op3_spec (A := A) r p sp a ha with ⟨h1, h2⟩ | ⟨h1, h2, h3, h4⟩ | ⟨x, h1, h2, h3, h4⟩
  · rw [if_pos h2]; exact h1
  · rw [if_neg (by omega), h4]; exact h1
  · rw [if_neg (by omega), h1]
    simp only
    rcases h4 with ⟨h4, h5⟩ | ⟨h4, h5, h6⟩ | ⟨h5, h6, s', h7, r'⟩
    · exact ⟨fun _ => h4, fun h => absurd h5 h, fun h => absurd h5 h⟩
    · exact ⟨fun h => absurd h h5, fun _ _ => h4, fun _ h => absurd h6 h⟩
    · refine ⟨fun h => absurd h h5, fun _ h => absurd h h6, fun _ _ => ⟨s', h7, .op s p sp a s' h ha h7, defs_rel r'⟩⟩

/-- C04: the lookups of the reader and the writer. The operator of an atom for a kind is found iff it is defined, with its
priority and the greatest priorities of its arguments. -/
theorem C04_lookup {A : Atoms} (hA : Hyp A) {s : St} (h : Reach A s) (a : Nat) (ha : a < 2 ^ 31) :
    (∀ k, check s a (Kind.num k) = (defs s a k).isSome) ∧
    (∀ k, lookup s a (Kind.num k) = (defs s a k).map fun d => ⟨d.1, d.2.left d.1, d.2.right d.1⟩) ∧
    (∀ k p sp, defs s a k = some (p, sp) → 1 ≤ p ∧ p ≤ 1200 ∧ sp.kind = k) ∧
    lookupAny s a = ((([Kind.pre, .inf, .post].find? fun k => (defs s a k).isSome).map fun k =>
      (k.num, lookup s a k.num)) : Option (Nat × Option Inf)) := by
  obtain ⟨D, r, _⟩ := h.rel hA
  rw [defs_rel r]
  refine ⟨fun k => r.mask a k, fun k => lookup_rel r (by omega) k, fun k p sp h => r.valid a k p sp h, ?_⟩
  unfold lookupAny
  have e : ∀ k : Kind, (HashTbl.find s.tbl (key a k.num)).map (·.val) = lookup s a k.num := by
    intro k
    rw [find_rel r (by omega), lookup_rel r (by omega)]
  have e0 := e .pre
  have e1 := e .post
  have e2 := e .inf
  have m0 := r.mask a .pre
  have m1 := r.mask a .post
  have m2 := r.mask a .inf
  simp only [Kind.num] at e0 e1 e2 m0 m1 m2
  rw [e0, e1, e2, m0, m1, m2]
  simp only [List.find?_cons, List.find?_nil]
  cases D a .pre <;> cases D a .inf <;> cases D a .post <;> rfl

/-- C04: no atom is at the same time infix and postfix; the comma, [], {} and the bar keep their status. -/
theorem C04_restrictions {A : Atoms} (hA : Hyp A) {s : St} (h : Reach A s) :
    (∀ a, defs s a .inf = none ∨ defs s a .post = none) ∧
    (defs s 44 .inf = some (1000, .xfy) ∧ defs s 44 .pre = none ∧ defs s 44 .post = none) ∧
    (∀ k, defs s 256 k = none ∧ defs s (A "{}") k = none) ∧
    (defs s 124 .pre = none ∧ defs s 124 .post = none ∧ ∀ p sp, defs s 124 .inf = some (p, sp) → 1000 < p) := by
  obtain ⟨D, r, hk⟩ := h.rel hA
  rw [defs_rel r]
  exact ⟨hk.exclusive, hk.comma, fun k => ⟨hk.nil k, hk.curly k⟩, hk.bar⟩

/-- A solution of current_op/3 is a definition. -/
def solOf (a : Nat) (d : Int × Specif) : Sol := (d.1, d.2.index, a)

theorem firstType_spec : ∀ m : BitVec 4, m < 8#4 → m ≠ 0#4 →
    ((m &&& opMask 1 != 0#4) && (m &&& opMask 2 != 0#4)) = false →
    (m &&& opMask (firstType m) != 0#4) = true ∧ firstType m < 3 ∧
    ((m &&& ~~~ opMask (firstType m)) ≠ 0#4 → firstType m = 0 ∧
      (m &&& opMask (firstType (m &&& ~~~ opMask (firstType m))) != 0#4) = true ∧
      0 < firstType (m &&& ~~~ opMask (firstType m)) ∧ firstType (m &&& ~~~ opMask (firstType m)) < 3) ∧
    ((m &&& ~~~ opMask (firstType m)) = 0#4 → ∀ i, i < 3 → i ≠ firstType m → (m &&& opMask i != 0#4) = false) := by decide +kernel

theorem ofNum_of_lt {i : Nat} (h : i < 3) : ∃ k : Kind, k.num = i := by
  match i, h with
  | 0, _ => exact ⟨.pre, rfl⟩
  | 1, _ => exact ⟨.post, rfl⟩
  | 2, _ => exact ⟨.inf, rfl⟩

/-- C04: current_op(P, T, a) for an atom, when the operators are not changed between its solutions: the solutions are the
definitions of `a`, each one once, and no NULL is dereferenced. -/
theorem C04_current_op_atom {A : Atoms} (hA : Hyp A) {s : St} (h : Reach A s) (a : Nat) (ha : a < 2 ^ 31) :
    ∃ l, currentOpAtomAll s a = some l ∧ l.Nodup ∧
      ∀ p i b, (p, i, b) ∈ l ↔ b = a ∧ ∃ k sp, defs s a k = some (p, sp) ∧ sp.index = i := by
  obtain ⟨D, r, hk⟩ := h.rel hA
  rw [defs_rel r]
  have hm : ∀ k : Kind, (s.mask a &&& opMask k.num != 0#4) = (D a k).isSome := fun k => r.mask a k
  have hx : ((s.mask a &&& opMask 1 != 0#4) && (s.mask a &&& opMask 2 != 0#4)) = false := by
    have h1 := hm .post
    have h2 := hm .inf
    simp only [Kind.num] at h1 h2
    rw [h1, h2]
    rcases hk.exclusive a with h | h <;> simp [h]
  have look : ∀ k : Kind, (s.mask a &&& opMask k.num != 0#4) = true →
      ∃ p sp, D a k = some (p, sp) ∧ lookup s a k.num = some (enc (p, sp)) ∧ detect k.num (enc (p, sp)) = sp.index ∧ sp.kind = k := by
    intro k hmk
    rw [hm k] at hmk
    obtain ⟨⟨p, sp⟩, hd⟩ := Option.isSome_iff_exists.1 hmk
    obtain ⟨v1, _, v3⟩ := r.valid a k p sp hd
    refine ⟨p, sp, hd, by rw [lookup_rel r (by omega), hd]; rfl, ?_, v3⟩
    rw [← v3]; exact detect_enc v1
  unfold currentOpAtomAll currentOpAtom
  simp only
  by_cases h0 : s.mask a = 0#4
  · rw [if_pos h0]
    refine ⟨[], rfl, List.nodup_nil, fun p i b => ?_⟩
    simp only [List.not_mem_nil, false_iff]
    rintro ⟨_, k, sp, hd, _⟩
    have := hm k
    rw [hd, h0] at this
    simp at this
  · rw [if_neg h0]
    obtain ⟨f1, f2, f3, f4⟩ := firstType_spec (s.mask a) (r.top a) h0 hx
    obtain ⟨k1, hk1⟩ := ofNum_of_lt f2
    rw [← hk1] at f1
    obtain ⟨p, sp, hd, hl, hdt, hkd⟩ := look k1 f1
    rw [hk1] at hl hdt
    simp only [hl]
    by_cases hr : (s.mask a &&& ~~~ opMask (firstType (s.mask a))) = 0#4
    · rw [if_pos hr]
      refine ⟨_, rfl, by simp, fun p' i b => ?_⟩
      simp only [List.mem_singleton, Prod.mk.injEq, hdt]
      constructor
      · rintro ⟨h1, h2, h3⟩
        exact ⟨h3, k1, sp, by rw [hd, h1]; rfl, h2.symm⟩
      · rintro ⟨h1, k, sp', hd', h2⟩
        have : k = k1 := by
          refine Classical.byContradiction fun hne => ?_
          have hne' : k.num ≠ firstType (s.mask a) := by
            rw [← hk1]
            intro e
            apply hne
            have := congrArg Kind.ofNum e
            rw [Kind.ofNum_num, Kind.ofNum_num] at this
            exact Option.some.inj this
          have := f4 hr k.num (by cases k <;> decide) hne'
          rw [hm k, hd'] at this
          simp at this
        subst this
        rw [hd] at hd'
        simp only [Option.some.injEq, Prod.mk.injEq] at hd'
        obtain ⟨rfl, rfl⟩ := hd'
        exact ⟨rfl, h2.symm, h1⟩
    · rw [if_neg hr]
      obtain ⟨g1, g2, g3, g4⟩ := f3 hr
      obtain ⟨k2, hk2⟩ := ofNum_of_lt g4
      rw [← hk2] at g2
      obtain ⟨p2, sp2, hd2, hl2, hdt2, hkd2⟩ := look k2 g2
      unfold currentOpAtomAlt
      rw [hk2] at hl2 hdt2
      simp only [hl2, hdt, hdt2]
      have hne : k1 ≠ k2 := by
        intro e
        have e' : k1.num = k2.num := by rw [e]
        rw [hk1, hk2] at e'
        omega
      have hne' : sp ≠ sp2 := fun e => hne (by rw [← hkd, ← hkd2, e])
      have hidx : sp.index ≠ sp2.index := by
        intro e
        have h1 := all_index sp
        rw [e, all_index] at h1
        exact hne' (Option.some.inj h1).symm
      refine ⟨_, rfl, ?_, fun p' i b => ?_⟩
      · simp only [List.nodup_cons, List.mem_singleton, List.not_mem_nil, not_false_eq_true, List.nodup_nil, and_true, Prod.mk.injEq]
        exact fun e => hidx e.2
      · simp only [List.mem_cons, List.not_mem_nil, or_false, Prod.mk.injEq]
        constructor
        · rintro (⟨h1, h2, h3⟩ | ⟨h1, h2, h3⟩)
          · exact ⟨h3, k1, sp, by rw [hd, h1]; rfl, h2.symm⟩
          · exact ⟨h3, k2, sp2, by rw [hd2, h1]; rfl, h2.symm⟩
        · rintro ⟨h1, k, sp', hd', h2⟩
          have : k = k1 ∨ k = k2 := by
            have e1 : k1 = .pre := by
              rw [g1] at hk1
              cases k1 <;> simp [Kind.num] at hk1 ⊢
            have e2 : k2 ≠ .pre := fun e => hne (by rw [e1, e])
            cases k
            · exact .inl e1.symm
            · cases k2
              · exact absurd rfl e2
              · exact .inr rfl
              · rcases hk.exclusive a with h | h
                · rw [h] at hd2; simp at hd2
                · rw [h] at hd'; simp at hd'
            · cases k2
              · exact absurd rfl e2
              · rcases hk.exclusive a with h | h
                · rw [h] at hd'; simp at hd'
                · rw [h] at hd2; simp at hd2
              · exact .inr rfl
          rcases this with rfl | rfl
          · rw [hd] at hd'
            simp only [Option.some.injEq, Prod.mk.injEq] at hd'
            obtain ⟨rfl, rfl⟩ := hd'
            exact .inl ⟨rfl, h2.symm, h1⟩
          · rw [hd2] at hd'
            simp only [Option.some.injEq, Prod.mk.injEq] at hd'
            obtain ⟨rfl, rfl⟩ := hd'
            exact .inr ⟨rfl, h2.symm, h1⟩

/-- C04: current_op(P, T, A) for a variable, when the operators are not changed between its solutions: the solutions are all
the definitions, each one once. -/
theorem C04_current_op_all {A : Atoms} (hA : Hyp A) {s : St} (h : Reach A s) :
    ∃ l, currentOpAll s = some l ∧ l.Nodup ∧ ∀ p i a, (p, i, a) ∈ l ↔ ∃ k sp, defs s a k = some (p, sp) ∧ sp.index = i := by
  obtain ⟨D, r, hk⟩ := h.rel hA
  rw [defs_rel r]
  unfold currentOpAll
  rw [HashTbl.scanAll_eq r.rep.wf]
  have hval : ∀ q ∈ s.tbl.arr.flatten, ∃ k sp p, Kind.ofNum (typeOf q.key) = some k ∧ D (atomOf q.key) k = some (p, sp) ∧
      q.val = enc (p, sp) ∧ sp.kind = k ∧ detect (typeOf q.key) q.val = sp.index := by
    intro q hq
    have := (HashTbl.rep_mem r.rep q.key q.val).1 ⟨q, hq, rfl, rfl⟩
    unfold mapOf at this
    cases hkd : Kind.ofNum (typeOf q.key) with
    | none => rw [hkd] at this; simp at this
    | some k =>
      rw [hkd] at this
      simp only [Option.map_eq_some_iff] at this
      obtain ⟨⟨p, sp⟩, hd, he⟩ := this
      obtain ⟨v1, _, v3⟩ := r.valid _ _ _ _ hd
      refine ⟨k, sp, p, rfl, hd, he.symm, v3, ?_⟩
      rw [← Kind.num_of hkd, ← v3, ← he]
      exact detect_enc v1
  refine ⟨_, rfl, ?_, fun p i a => ?_⟩
  · have hnd := HashTbl.flatten_keys_nodup r.rep.wf.awf
    refine List.pairwise_map.2 (List.Pairwise.imp_of_mem ?_ (List.pairwise_map.1 hnd))
    intro q q' hq hq' hne he
    apply hne
    simp only [Prod.mk.injEq] at he
    obtain ⟨k, sp, p, h1, h2, h3, h4, h5⟩ := hval q hq
    obtain ⟨k', sp', p', h1', h2', h3', h4', h5'⟩ := hval q' hq'
    have e : sp.index = sp'.index := by rw [← h5, ← h5']; exact he.2.1
    have e' : sp = sp' := by
      have h := all_index sp
      rw [e, all_index] at h
      exact (Option.some.inj h).symm
    rw [← key_of q.key, ← key_of q'.key, he.2.2, ← Kind.num_of h1, ← Kind.num_of h1', ← h4, ← h4', e']
  · simp only [List.mem_map]
    constructor
    · rintro ⟨q, hq, he⟩
      simp only [Prod.mk.injEq] at he
      obtain ⟨k, sp, p', h1, h2, h3, h4, h5⟩ := hval q hq
      refine ⟨k, sp, ?_, by rw [← h5]; exact he.2.1⟩
      rw [← he.2.2, h2, ← he.1, h3]
      rfl
    · rintro ⟨k, sp, hd, rfl⟩
      have hsm := r.small a k (by rw [hd]; simp)
      have hm : mapOf D (key a k.num) = some (enc (p, sp)) := by rw [mapOf_key D (by omega), hd]; rfl
      obtain ⟨q, hq, h1, h2⟩ := (HashTbl.rep_mem r.rep _ _).2 hm
      obtain ⟨v1, _, v3⟩ := r.valid _ _ _ _ hd
      refine ⟨q, hq, ?_⟩
      rw [h1, h2, typeOf_key (by omega) k.num_lt, atomOf_key (by omega) k.num_lt]
      rw [← v3, detect_enc v1]
      rfl

/-! Deletion between two solutions of current_op/3 -/

/-- Atoms for the examples. -/
def exA : Atoms := fun x =>
  if x = "," then 44 else if x = "|" then 124 else if x = "[]" then 256 else 1000 + (names.idxOf x)

theorem exA_hyp : Hyp exA := by
  refine ⟨by decide +kernel, by decide +kernel, by decide +kernel, by decide +kernel, by decide +kernel⟩

/-- The code violates the intuition when an operator is deleted between two solutions of current_op/3: the choice point still
has the kind of the deleted operator and a NULL pointer is dereferenced. Here
`current_op(P, T, -), op(0, yfx, -), fail`. -/
theorem C04_deleted_alternative_crashes {A : Atoms} (hA : Hyp A) : ∃ s s' m x, Reach A s ∧ Reach A s' ∧
    currentOpAtom s (A "-") = some (some (x, m)) ∧ m ≠ 0#4 ∧ op3 A s 0 (A "yfx") (A "-") = .ok s' ∧
    currentOpAtomAlt s' (A "-") m = none := by
  obtain ⟨s, hs, r⟩ := init_rel hA
  have hR : Reach A s := .init s hs
  have hmem : ∀ x ∈ ["-", "yfx", ",", "|", "[]", "{}", "fx", "fy", "xf", "yf", "xfx", "xfy"], x ∈ names := by decide +kernel
  have hlt : A "-" < 2 ^ 31 := hA.lt _ (hmem _ (by simp))
  have hne : ∀ x y, x ∈ ["-", "yfx", ",", "|", "[]", "{}", "fx", "fy", "xf", "yf", "xfx", "xfy"] →
      y ∈ ["-", "yfx", ",", "|", "[]", "{}", "fx", "fy", "xf", "yf", "xfx", "xfy"] → x ≠ y → A x ≠ A y :=
    fun x y hx hy h e => h (hA.inj x (hmem x hx) y (hmem y hy) e)
  have hpre : initDefs A (A "-") .pre = some (200, .fy) :=
    (initDefs_mem hA _ _ _ _).2 ⟨1, "-", by decide +kernel, rfl, rfl, rfl⟩
  have hinf : initDefs A (A "-") .inf = some (500, .yfx) :=
    (initDefs_mem hA _ _ _ _).2 ⟨6, "-", by decide +kernel, rfl, rfl, rfl⟩
  have hpost : initDefs A (A "-") .post = none := by
    rcases (init_ok hA).exclusive (A "-") with h | h
    · rw [h] at hinf; simp at hinf
    · exact h
  have m0 := r.mask (A "-") .pre
  have m1 := r.mask (A "-") .post
  have m2 := r.mask (A "-") .inf
  simp only [check_def, Kind.num, hpre, hpost, hinf, Option.isSome_some, Option.isSome_none] at m0 m1 m2
  have hmask : s.mask (A "-") = 5#4 := by
    have htop := r.top (A "-")
    generalize s.mask (A "-") = m at m0 m1 m2 htop
    revert m; decide
  have hsp : specifOf A (A "yfx") = some .yfx := by
    unfold specifOf Specif.all
    simp only [List.find?_cons, Specif.name, beq_self_eq_true]
    have e := fun x hx hy => beq_eq_false_iff_ne.2 (hne x "yfx" hx (by simp) hy)
    simp only [e "fx" (by simp) (by decide), e "fy" (by simp) (by decide), e "xf" (by simp) (by decide),
      e "yf" (by simp) (by decide), e "xfx" (by simp) (by decide), e "xfy" (by simp) (by decide)]
  have hno : ¬ NoCreate (initDefs A) 124 256 (A "{}") 0 .yfx (A "-") := by
    unfold NoCreate
    simp only [Specif.kind, hpost, not_or]
    refine ⟨by simp, by simp, by simp, ?_, ?_⟩
    · rw [← hA.nil]; exact hne _ _ (by simp) (by simp) (by decide)
    · exact hne _ _ (by simp) (by simp) (by decide)
  have hcomma : A "-" ≠ 44 := by rw [← hA.comma]; exact hne _ _ (by simp) (by simp) (by decide)
  have hcur : currentOpAtom s (A "-") = some (some ((200, 1, A "-"), 4#4)) := by
    unfold currentOpAtom
    have hl := lookup_rel r (a := A "-") (by omega) .pre
    rw [hpre] at hl
    simp only [Kind.num] at hl
    simp only [hmask, show firstType 5#4 = 0 by decide, hl, Option.map_some]
    rfl
  rcases op3_spec (A := A) r 0 (A "yfx") (A "-") hlt with ⟨_, h⟩ | ⟨_, _, _, h⟩ | ⟨x, h1, _, _, h4⟩
  · omega
  · rw [hsp] at h; simp at h
  · rw [hsp] at h1
    simp only [Option.some.injEq] at h1
    subst h1
    rcases h4 with ⟨_, h⟩ | ⟨_, _, h⟩ | ⟨_, _, s', h', r'⟩
    · exact absurd h hno
    · exact absurd h hcomma
    · refine ⟨s, s', 4#4, (200, 1, A "-"), hR, .op s 0 _ _ s' hR hlt h', hcur, by decide, h', ?_⟩
      unfold currentOpAtomAlt
      have hl := lookup_rel r' (a := A "-") (by omega) .inf
      simp only [Kind.num] at hl
      simp only [show firstType 4#4 = 2 by decide, hl]
      unfold Defs.set newDef
      simp [Specif.kind]

/-! The hypotheses are met: the initial table, with `-` as a prefix and an infix operator. -/

example : ∃ s, Reach exA s ∧ defs s (exA "-") .inf = some (500, .yfx) ∧ defs s (exA "-") .pre = some (200, .fy) := by
  obtain ⟨s, hs, r⟩ := init_rel exA_hyp
  refine ⟨s, .init s hs, ?_, ?_⟩
  · rw [defs_rel r]
    exact (initDefs_mem exA_hyp _ _ _ _).2 ⟨6, "-", by decide +kernel, rfl, rfl, rfl⟩
  · rw [defs_rel r]
    exact (initDefs_mem exA_hyp _ _ _ _).2 ⟨1, "-", by decide +kernel, rfl, rfl, rfl⟩

end Gp.Oper
