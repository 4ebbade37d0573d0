import Verif.Flags.Model
/-
C70. set_prolog_flag/2 and current_prolog_flag/2: the errors, the value read after a change, the other flags unchanged, and the enumeration.
-/
namespace Gp.Flags

/-! ## Specification -/

/-- The table of the atoms `as`. -/
def ofAtoms (as : List Nat) : List Int := as.map (fun (a : Nat) => (a : Int)) ++ [-1]

/-- The values that the flag accepts. -/
inductive InDomain : Ty → Val → Prop
  | integer {z} : InDomain .integer (.int z)
  | atom {a} : InDomain .atom (.atm a)
  | tbl {as a} : a ∈ as → InDomain (.tbl (ofAtoms as)) (.atm a)
  | off {off on} : InDomain (.debug off on) (.atm off)
  | on {off on} : InDomain (.debug off on) (.atm on)
  | any {c g v} : c v = true → InDomain (.any c g) v

/-- The value of the flag. -/
inductive Shows : Flag → Val → Prop
  | integer {n m z} : Shows ⟨n, m, .integer, z⟩ (.int z)
  | atom {n m} {a : Nat} : Shows ⟨n, m, .atom, a⟩ (.atm a)
  | tbl {n m as a} {i : Nat} : as[i]? = some a → Shows ⟨n, m, .tbl (ofAtoms as), i⟩ (.atm a)
  | off {n m off on} : Shows ⟨n, m, .debug off on, 0⟩ (.atm off)
  | on {n m off on} : Shows ⟨n, m, .debug off on, 1⟩ (.atm on)
  | any {n m c g x} : Shows ⟨n, m, .any c g, x⟩ g

/-- A flag as they are created: it has a value; a flag of any type is read-only; the two atoms of debug differ, and it is off without the debugger. -/
structure FlagOk (dbg : Bool) (f : Flag) : Prop where
  shows : ∃ v, Shows f v
  anyRo : ∀ c g, f.ty = .any c g → f.modifiable = false
  debug : ∀ off on, f.ty = .debug off on → off ≠ on ∧ (dbg = false → f.value = 0)

/-- The table: names are distinct. -/
structure Wf (dbg : Bool) (tbl : List Flag) : Prop where
  names : (tbl.map Flag.name).Nodup
  flags : ∀ f ∈ tbl, FlagOk dbg f

/-- The flag `a` has the value `v`. -/
def HasValue (tbl : List Flag) (a : Nat) (v : Val) : Prop := ∃ f ∈ tbl, f.name = a ∧ Shows f v

/-- The change of a flag to `v`: this one has the value, the others keep theirs. -/
structure Changed (dbg : Bool) (tbl tbl' : List Flag) (a : Nat) (v : Val) : Prop where
  wf : Wf dbg tbl'
  names : tbl'.map Flag.name = tbl.map Flag.name
  new : ∀ v', HasValue tbl' a v' ↔ v' = v
  others : ∀ b v', b ≠ a → (HasValue tbl' b v' ↔ HasValue tbl b v')

/-- The outcome of set_prolog_flag/2. -/
inductive SetSpec (dbg : Bool) (tbl : List Flag) : Val → Val → Out → Prop
  | var {v} : SetSpec dbg tbl .var v (.err .instantiation)
  | int {z v} : SetSpec dbg tbl (.int z) v (.err .typeAtom)
  | other {k v} : SetSpec dbg tbl (.other k) v (.err .typeAtom)
  | unknown {a v} : (∀ f ∈ tbl, f.name ≠ a) → SetSpec dbg tbl (.atm a) v (.err .domainFlag)
  | value {f} : f ∈ tbl → SetSpec dbg tbl (.atm f.name) .var (.err .instantiation)
  | domain {f v} : f ∈ tbl → v ≠ .var → ¬ InDomain f.ty v → SetSpec dbg tbl (.atm f.name) v (.err .domainValue)
  | readOnly {f v} : f ∈ tbl → v ≠ .var → InDomain f.ty v → f.modifiable = false → SetSpec dbg tbl (.atm f.name) v (.err .permission)
  | noDebugger {f off on} : f ∈ tbl → f.modifiable = true → f.ty = .debug off on → dbg = false → SetSpec dbg tbl (.atm f.name) (.atm on) .fail
  | ok {f v tbl'} : f ∈ tbl → v ≠ .var → InDomain f.ty v → f.modifiable = true → Changed dbg tbl tbl' f.name v →
      SetSpec dbg tbl (.atm f.name) v (.ok tbl')

/-! ## Tables of atoms -/

theorem chkTbl_eq {as : List Nat} {a : Nat} : chkTbl (ofAtoms as) a = some (decide (a ∈ as)) := by
  induction as with
  | nil => simp [ofAtoms, chkTbl]
  | cons x as ih =>
    simp only [ofAtoms, List.map_cons, List.cons_append, chkTbl]
    by_cases h : x = a
    · subst h; simp
    · rw [if_pos ⟨by omega, by omega⟩]
      refine ih.trans ?_
      simp [List.mem_cons, show a ≠ x from fun e => h e.symm]

theorem setTbl_eq {as : List Nat} {a : Nat} (h : a ∈ as) (k : Nat) : ∃ i, setTbl (ofAtoms as) a k = some (k + i) ∧ as[i]? = some a := by
  induction as generalizing k with
  | nil => simp at h
  | cons x as ih =>
    simp only [ofAtoms, List.map_cons, List.cons_append, setTbl]
    by_cases e : x = a
    · subst e; exact ⟨0, by simp, by simp⟩
    · rw [if_pos (by omega)]
      have hm : a ∈ as := by
        rcases List.mem_cons.mp h with q | q
        · exact absurd q.symm e
        · exact q
      obtain ⟨i, h1, h2⟩ := ih hm (k + 1)
      exact ⟨i + 1, h1.trans (by congr 1; omega), by simpa using h2⟩

theorem get_eq {f : Flag} {v : Val} (h : Shows f v) : get f = some v := by
  cases h with
  | integer => rfl
  | atom => simp [get]
  | @tbl n m as a i h =>
    have hlt : i < as.length := (List.getElem?_eq_some_iff.mp h).1
    simp [get, getTbl, ofAtoms, List.getElem?_append, hlt]
    exact (List.getElem?_eq_some_iff.mp h).2
  | off => simp [get, getTbl, debugTbl]
  | on => simp [get, getTbl, debugTbl]
  | any => rfl

theorem Shows.unique {f : Flag} {v v' : Val} (h : Shows f v) (h' : Shows f v') : v = v' := by
  have := (get_eq h).symm.trans (get_eq h')
  injection this

theorem ofAtoms_inj {as as' : List Nat} (h : ofAtoms as = ofAtoms as') : as = as' := by
  have h := congrArg (List.map Int.toNat) (List.append_cancel_right h)
  simpa [Function.comp_def] using h

theorem chk_eq {f : Flag} (hf : ∃ v, Shows f v) (v : Val) : ∃ b, chk f v = some b ∧ (b = true ↔ InDomain f.ty v) := by
  obtain ⟨v0, hs⟩ := hf
  cases hs with
  | integer => cases v <;> exact ⟨_, rfl, by constructor <;> intro h <;> first | exact .integer | rfl | cases h⟩
  | atom => cases v <;> exact ⟨_, rfl, by constructor <;> intro h <;> first | exact .atom | rfl | cases h⟩
  | @tbl n m as a i h =>
    cases v with
    | atm x =>
      refine ⟨_, chkTbl_eq, ?_⟩
      rw [decide_eq_true_iff]
      refine ⟨fun h => .tbl h, fun h => ?_⟩
      generalize ht : Ty.tbl (ofAtoms as) = ty at h
      cases h with
      | tbl h => injection ht with ht; rw [ofAtoms_inj ht]; exact h
      | _ => cases ht
    | _ =>
      refine ⟨false, rfl, ?_⟩
      constructor
      · intro h; cases h
      · intro h
        generalize ht : Ty.tbl (ofAtoms as) = ty at h
        cases h <;> cases ht
  | @off n m off on =>
    cases v with
    | atm x =>
      refine ⟨_, chkTbl_eq (as := [off, on]), ?_⟩
      rw [decide_eq_true_iff]
      constructor
      · intro h; simp at h; rcases h with rfl | rfl
        · exact .off
        · exact .on
      · intro h; cases h <;> simp
    | _ =>
      refine ⟨false, rfl, ?_⟩
      constructor
      · intro h; cases h
      · intro h; cases h
  | @on n m off on =>
    cases v with
    | atm x =>
      refine ⟨_, chkTbl_eq (as := [off, on]), ?_⟩
      rw [decide_eq_true_iff]
      constructor
      · intro h; simp at h; rcases h with rfl | rfl
        · exact .off
        · exact .on
      · intro h; cases h <;> simp
    | _ =>
      refine ⟨false, rfl, ?_⟩
      constructor
      · intro h; cases h
      · intro h; cases h
  | any =>
    refine ⟨_, rfl, ?_⟩
    constructor
    · intro h; exact .any h
    · intro h; cases h with | any h => exact h

/-- A function set on a value of the domain: it gives the flag with this value, or fails for debug on without the debugger. -/
theorem set_eq {dbg : Bool} {f : Flag} (hf : FlagOk dbg f) {v : Val} (hd : InDomain f.ty v) (hm : f.modifiable = true) :
    (∃ f', set dbg f v = some (some f') ∧ f'.name = f.name ∧ FlagOk dbg f' ∧ Shows f' v) ∨
    (set dbg f v = some none ∧ dbg = false ∧ ∃ off on, f.ty = .debug off on ∧ v = .atm on) := by
  obtain ⟨n, m, ty, x⟩ := f
  obtain ⟨hs, ha, hdb⟩ := hf
  simp only at hd hm ha hdb
  cases hd with
  | @integer z =>
    exact .inl ⟨⟨n, m, .integer, z⟩, rfl, rfl, ⟨⟨_, .integer⟩, by simp, by simp⟩, .integer⟩
  | @atom a =>
    exact .inl ⟨⟨n, m, .atom, a⟩, rfl, rfl, ⟨⟨_, .atom⟩, by simp, by simp⟩, .atom⟩
  | @tbl as a h =>
    obtain ⟨i, h1, h2⟩ := setTbl_eq h 0
    refine .inl ⟨⟨n, m, .tbl (ofAtoms as), i⟩, ?_, rfl, ⟨⟨_, .tbl h2⟩, by simp, by simp⟩, .tbl h2⟩
    simp [set, h1]
  | @off off on =>
    obtain ⟨hne, h0⟩ := hdb off on rfl
    refine .inl ⟨⟨n, m, .debug off on, 0⟩, ?_, rfl, ⟨⟨_, .off⟩, by simp, ?_⟩, .off⟩
    · cases dbg
      · simp [set, hne, h0 rfl]
      · simp [set, hne]
    · intro o o' e; cases e; exact ⟨hne, fun _ => rfl⟩
  | @on off on =>
    obtain ⟨hne, h0⟩ := hdb off on rfl
    cases dbg
    · exact .inr ⟨by simp [set], rfl, off, on, rfl, rfl⟩
    · refine .inl ⟨⟨n, m, .debug off on, 1⟩, by simp [set], rfl, ⟨⟨_, .on⟩, by simp, ?_⟩, .on⟩
      intro o o' e; cases e; exact ⟨hne, fun e => by cases e⟩
  | any h => rw [ha _ _ rfl] at hm; cases hm

/-! ## The table -/

theorem lookup_none {tbl : List Flag} {a : Nat} (h : lookup tbl a = none) : ∀ f ∈ tbl, f.name ≠ a := by
  induction tbl with
  | nil => simp
  | cons g l ih =>
    simp only [lookup] at h
    by_cases e : g.name = a
    · simp [e] at h
    · rw [if_neg e, Option.map_eq_none_iff] at h
      intro f hf
      rcases List.mem_cons.mp hf with rfl | hf
      · exact e
      · exact ih h f hf

theorem lookup_some {tbl : List Flag} {a i : Nat} (h : lookup tbl a = some i) : ∃ f, tbl[i]? = some f ∧ f.name = a := by
  induction tbl generalizing i with
  | nil => simp [lookup] at h
  | cons g l ih =>
    simp only [lookup] at h
    by_cases e : g.name = a
    · rw [if_pos e] at h; injection h with h; subst h; exact ⟨g, by simp, e⟩
    · rw [if_neg e, Option.map_eq_some_iff] at h
      obtain ⟨j, h1, rfl⟩ := h
      obtain ⟨f, h2, h3⟩ := ih h1
      exact ⟨f, by simpa using h2, h3⟩

/-- In a table of distinct names a flag is known by its name. -/
theorem idx_unique {tbl : List Flag} (hn : (tbl.map Flag.name).Nodup) {i j : Nat} {f g : Flag} (hi : tbl[i]? = some f) (hj : tbl[j]? = some g)
    (he : f.name = g.name) : i = j := by
  have hl : i < (tbl.map Flag.name).length := by rw [List.length_map]; exact (List.getElem?_eq_some_iff.mp hi).1
  refine (List.getElem?_inj hl hn).mp ?_
  rw [List.getElem?_map, List.getElem?_map, hi, hj]
  simp [he]

theorem changed {dbg : Bool} {tbl : List Flag} (hw : Wf dbg tbl) {i : Nat} {f f' : Flag} {v : Val} (hi : tbl[i]? = some f) (hn : f'.name = f.name)
    (hf : FlagOk dbg f') (hs : Shows f' v) : Changed dbg tbl (tbl.set i f') f.name v := by
  have hlt : i < tbl.length := (List.getElem?_eq_some_iff.mp hi).1
  have hnames : (tbl.set i f').map Flag.name = tbl.map Flag.name := by
    rw [List.map_set, hn]
    apply List.ext_getElem?
    intro j
    rw [List.getElem?_set]
    split
    · rename_i e; subst e
      rw [if_pos (by simpa using hlt), List.getElem?_map, hi]; rfl
    · rfl
  have hmem : ∀ g, g ∈ tbl.set i f' ↔ g = f' ∨ ∃ j, j ≠ i ∧ tbl[j]? = some g := by
    intro g
    rw [List.mem_iff_getElem?]
    constructor
    · rintro ⟨j, hj⟩
      rw [List.getElem?_set] at hj
      split at hj
      · rename_i e; subst e; simp [hlt] at hj; exact .inl hj.symm
      · rename_i e; exact .inr ⟨j, fun q => e q.symm, hj⟩
    · rintro (rfl | ⟨j, h1, h2⟩)
      · exact ⟨i, by simp [hlt]⟩
      · exact ⟨j, by rw [List.getElem?_set, if_neg (fun q => h1 q.symm)]; exact h2⟩
  refine ⟨⟨by rw [hnames]; exact hw.names, fun g hg => ?_⟩, hnames, fun v' => ?_, fun b v' hb => ?_⟩
  · rcases (hmem g).mp hg with rfl | ⟨j, -, h⟩
    · exact hf
    · exact hw.flags g (List.mem_of_getElem? h)
  · constructor
    · rintro ⟨g, hg, h1, h2⟩
      rcases (hmem g).mp hg with rfl | ⟨j, hj, h⟩
      · exact h2.unique hs
      · exact absurd (idx_unique hw.names h hi h1) hj
    · rintro rfl
      exact ⟨f', (hmem f').mpr (.inl rfl), hn, hs⟩
  · constructor
    · rintro ⟨g, hg, h1, h2⟩
      rcases (hmem g).mp hg with rfl | ⟨j, hj, h⟩
      · exact absurd (h1.symm.trans hn) hb
      · exact ⟨g, List.mem_of_getElem? h, h1, h2⟩
    · rintro ⟨g, hg, h1, h2⟩
      obtain ⟨j, hj⟩ := List.mem_iff_getElem?.mp hg
      refine ⟨g, (hmem g).mpr (.inr ⟨j, ?_, hj⟩), h1, h2⟩
      rintro rfl
      rw [hi] at hj
      injection hj with hj
      exact hb (h1.symm.trans (by rw [hj]))

/-! ## The theorems -/

/-- set_prolog_flag(Flag, Value) on any table, flag and value: no access is out of a table, and the outcome is the one specified. -/
theorem C70_set_prolog_flag {dbg : Bool} {tbl : List Flag} (hw : Wf dbg tbl) (fw vw : Val) :
    ∃ o, setFlag dbg tbl fw vw = some o ∧ SetSpec dbg tbl fw vw o := by
  cases fw with
  | var => exact ⟨_, rfl, .var⟩
  | int z => exact ⟨_, rfl, .int⟩
  | other k => exact ⟨_, rfl, .other⟩
  | atm a =>
    simp only [setFlag, rdAtomCheck]
    cases hl : lookup tbl a with
    | none => exact ⟨_, rfl, .unknown (lookup_none hl)⟩
    | some i =>
      obtain ⟨f, hi, rfl⟩ := lookup_some hl
      have hf := List.mem_of_getElem? hi
      simp only [hi]
      by_cases hv : vw = .var
      · rw [if_pos hv, hv]; exact ⟨_, rfl, .value hf⟩
      rw [if_neg hv]
      obtain ⟨b, hb, hd⟩ := chk_eq (hw.flags f hf).shows vw
      rw [hb]
      cases b with
      | false => exact ⟨_, rfl, .domain hf hv (fun h => by cases hd.mpr h)⟩
      | true =>
        have hd := hd.mp rfl
        simp only
        cases hm : f.modifiable with
        | false => exact ⟨_, rfl, .readOnly hf hv hd hm⟩
        | true =>
          rcases set_eq (hw.flags f hf) hd hm with ⟨f', h1, h2, h3, h4⟩ | ⟨h1, h2, off, on, h3, h4⟩
          · rw [h1]; exact ⟨_, rfl, .ok hf hv hd hm (changed hw hi h2 h3 h4)⟩
          · rw [h1]; subst h4; exact ⟨_, rfl, .noDebugger hf hm h3 h2⟩

/-- current_prolog_flag(Flag, Value) with a known flag: its value, or the error. -/
theorem C70_current_known {dbg : Bool} {tbl : List Flag} (hw : Wf dbg tbl) (a : Nat) :
    (∃ v, currentKnown tbl (.atm a) = some (.ok v) ∧ ∀ v', HasValue tbl a v' ↔ v' = v) ∨
    (currentKnown tbl (.atm a) = some (.error .domainFlag) ∧ ∀ f ∈ tbl, f.name ≠ a) := by
  simp only [currentKnown, rdAtomCheck]
  cases hl : lookup tbl a with
  | none => exact .inr ⟨rfl, lookup_none hl⟩
  | some i =>
    obtain ⟨f, hi, rfl⟩ := lookup_some hl
    have hf := List.mem_of_getElem? hi
    obtain ⟨v, hv⟩ := (hw.flags f hf).shows
    refine .inl ⟨v, by simp [hi, get_eq hv], fun v' => ⟨?_, fun e => ⟨f, hf, rfl, by rw [e]; exact hv⟩⟩⟩
    rintro ⟨g, hg, h1, h2⟩
    obtain ⟨j, hj⟩ := List.mem_iff_getElem?.mp hg
    have := idx_unique hw.names hj hi h1
    subst this
    rw [hi] at hj; injection hj with hj; subst hj
    exact h2.unique hv

theorem answer_eq {dbg : Bool} {unif : Nat → Val → Bool} {tbl : List Flag} (hw : Wf dbg tbl) {i : Nat} (hi : i < tbl.length) :
    ∃ f v, tbl[i]? = some f ∧ Shows f v ∧ answer unif tbl i = some ([(f.name, v)].filter fun p => unif p.1 p.2) := by
  have h : tbl[i]? = some tbl[i] := List.getElem?_eq_getElem hi
  obtain ⟨v, hv⟩ := (hw.flags _ (List.getElem_mem hi)).shows
  refine ⟨_, v, h, hv, ?_⟩
  simp only [answer, h, get_eq hv, List.filter_cons, List.filter_nil]

/-- The values of the flags from the index `i`, each one being read in the table of its time. -/
inductive Rows (tbls : Nat → List Flag) (n : Nat) : Nat → List (Nat × Val) → Prop
  | nil : Rows tbls n n []
  | cons {i f v l} : (tbls i)[i]? = some f → Shows f v → Rows tbls n (i + 1) l → Rows tbls n i ((f.name, v) :: l)

theorem alts_eq {dbg : Bool} {unif : Nat → Val → Bool} {tbls : Nat → List Flag} {n : Nat} (hw : ∀ i, Wf dbg (tbls i)) (hl : ∀ i, (tbls i).length = n) :
    ∀ {k i : Nat}, i < n → n ≤ i + k → ∃ l, Rows tbls n i l ∧ alts unif tbls k i = some (l.filter fun p => unif p.1 p.2) := by
  intro k
  induction k with
  | zero => intro i h1 h2; omega
  | succ k ih =>
    intro i h1 h2
    obtain ⟨f, v, hf, hv, ha⟩ := answer_eq (unif := unif) (hw i) (i := i) (by rw [hl]; exact h1)
    simp only [alts, ha, hl]
    by_cases e : i + 1 = n
    · rw [if_pos e]
      refine ⟨[(f.name, v)], .cons hf hv ?_, rfl⟩
      rw [e]; exact .nil
    · rw [if_neg e]
      obtain ⟨l, h3, h4⟩ := ih (i := i + 1) (by omega) (by omega)
      refine ⟨(f.name, v) :: l, .cons hf hv h3, ?_⟩
      rw [h4, Option.map_some, ← List.filter_append]
      rfl

/-- current_prolog_flag(Flag, Value) with an unbound flag: on backtracking every flag is given exactly once, in the order of the table, with the value it has at the time of the
answer, when its value unifies; flags may be changed between the answers. -/
theorem C70_current_all {dbg : Bool} {unif : Nat → Val → Bool} {tbls : Nat → List Flag} {names : List Nat} (hw : ∀ i, Wf dbg (tbls i))
    (hn : ∀ i, (tbls i).map Flag.name = names) (h2 : 2 ≤ names.length) :
    ∃ l : List (Nat × Val), l.map Prod.fst = names ∧ (∀ (i : Nat) a v, l[i]? = some (a, v) → HasValue (tbls i) a v) ∧
      ∀ n, names.length ≤ n → currentAll unif tbls n = some (l.filter fun p => unif p.1 p.2) := by
  have hl : ∀ i, (tbls i).length = names.length := fun i => by rw [← hn i, List.length_map]
  have rows : ∀ {i l}, Rows tbls names.length i l → l.map Prod.fst = names.drop i ∧
      ∀ (j : Nat) a v, l[j]? = some (a, v) → HasValue (tbls (i + j)) a v := by
    intro i l h
    induction h with
    | nil => simp
    | @cons i f v l h1 h2 h3 ih =>
      constructor
      · have : names[i]? = some f.name := by rw [← hn i, List.getElem?_map, h1]; rfl
        obtain ⟨q, e⟩ := List.getElem?_eq_some_iff.mp this
        rw [List.map_cons, ih.1, List.drop_eq_getElem_cons q, e]
      · intro j a w hj
        cases j with
        | zero =>
          simp at hj
          obtain ⟨rfl, rfl⟩ := hj
          exact ⟨f, List.mem_of_getElem? h1, rfl, h2⟩
        | succ j =>
          have := ih.2 j a w (by simpa using hj)
          rwa [show i + 1 + j = i + (j + 1) by omega] at this
  have rows_unique : ∀ {i l l'}, Rows tbls names.length i l → Rows tbls names.length i l' → l = l' := by
    intro i l l' h
    induction h generalizing l' with
    | nil =>
      intro h'
      generalize hq : names.length = q at h'
      cases h' with
      | nil => rfl
      | cons h1 _ _ =>
        have := (List.getElem?_eq_some_iff.mp h1).1
        rw [← hq, hl] at this; omega
    | @cons i f v l h1 h2 _ ih =>
      intro h'
      have hlt := (List.getElem?_eq_some_iff.mp h1).1
      rw [hl] at hlt
      generalize hq : names.length = q at h' hlt
      cases h' with
      | nil => omega
      | cons h1' h2' h3' =>
        rw [h1] at h1'
        injection h1' with e
        subst e
        rw [h2.unique h2', ih (by rw [hq]; exact h3')]
  obtain ⟨f, v, hf, hv, ha⟩ := answer_eq (unif := unif) (hw 0) (i := 0) (by rw [hl]; omega)
  obtain ⟨l, h3, -⟩ := alts_eq (unif := unif) hw hl (k := names.length) (i := 1) (by omega) (by omega)
  have hr : Rows tbls names.length 0 ((f.name, v) :: l) := .cons hf hv h3
  obtain ⟨r1, r2⟩ := rows hr
  refine ⟨(f.name, v) :: l, by simpa using r1, fun i a w h => by simpa using r2 i a w h, fun n hn => ?_⟩
  obtain ⟨l', h4, h5⟩ := alts_eq (unif := unif) hw hl (k := n) (i := 1) (by omega) (by omega)
  rw [rows_unique h4 h3] at h5
  simp only [currentAll, ha, h5, Option.map_some]
  rw [← List.filter_append]
  rfl

/-! ## The hypotheses are met -/

/-- bounded (true), max_integer, double_quotes (codes, chars, atom) and debug. -/
def exT : List Flag :=
  [⟨1, false, .tbl (ofAtoms [20, 21]), (1 : Nat)⟩, ⟨2, false, .integer, 1000⟩, ⟨3, true, .tbl (ofAtoms [30, 31, 32]), (0 : Nat)⟩, ⟨4, true, .debug 40 41, 0⟩]

theorem exT_wf : Wf false exT := by
  refine ⟨by decide, ?_⟩
  intro f hf
  simp only [exT, List.mem_cons, List.not_mem_nil, or_false] at hf
  rcases hf with rfl | rfl | rfl | rfl
  · exact ⟨⟨_, .tbl (a := 21) rfl⟩, by simp, by simp⟩
  · exact ⟨⟨_, .integer⟩, by simp, by simp⟩
  · exact ⟨⟨_, .tbl (a := 30) rfl⟩, by simp, by simp⟩
  · exact ⟨⟨_, .off⟩, by simp, by simp⟩

example : ∃ t, setFlag false exT (.atm 3) (.atm 32) = some (.ok t) ∧ t.map get = [some (.atm 21), some (.int 1000), some (.atm 32), some (.atm 40)] :=
  ⟨_, rfl, by decide⟩

example : setFlag false exT (.atm 3) (.atm 33) = some (.err .domainValue) ∧ setFlag false exT (.atm 1) (.atm 20) = some (.err .permission) ∧
    setFlag false exT (.atm 1) (.atm 22) = some (.err .domainValue) ∧ setFlag false exT (.atm 9) .var = some (.err .domainFlag) ∧
    setFlag false exT (.atm 4) (.atm 41) = some .fail := ⟨rfl, rfl, rfl, rfl, rfl⟩

example : ∃ l : List (Nat × Val), l.map Prod.fst = [1, 2, 3, 4] ∧ (∀ (i : Nat) a v, l[i]? = some (a, v) → HasValue exT a v) ∧
    ∀ n, 4 ≤ n → currentAll (fun _ _ => true) (fun _ => exT) n = some (l.filter fun _ => true) :=
  C70_current_all (dbg := false) (names := [1, 2, 3, 4]) (fun _ => exT_wf) (fun _ => rfl) (by decide)

example : currentAll (fun _ _ => true) (fun _ => exT) 4 = some [(1, .atm 21), (2, .int 1000), (3, .atm 30), (4, .atm 40)] := by decide

end Gp.Flags
