import Verif.Mangle.Model
/-! Property C29: symbol mangling. -/
namespace Gp.Mangle

/-- A C string: bytes 1..255. -/
def CStr (s : Str) : Prop := ∀ c ∈ s, 0 < c ∧ c < 256

/-! ### Lemmas -/

theorem isDigit_iff (c : Nat) : isDigit c = true ↔ 48 ≤ c ∧ c ≤ 57 := by
  simp [isDigit]

theorem letterDigit_iff (c : Nat) : letterDigit c = true ↔
    (97 ≤ c ∧ c ≤ 122) ∨ (65 ≤ c ∧ c ≤ 90) ∨ (48 ≤ c ∧ c ≤ 57) := by
  simp [letterDigit, isLetter, isDigit]; omega

theorem hexaDigit_iff (c : Nat) : hexaDigit c = true ↔ (48 ≤ c ∧ c ≤ 57) ∨ (65 ≤ c ∧ c ≤ 70) := by
  simp [hexaDigit, isDigit]

/-- The part of the mangled symbol after a not encoded name: nothing, or two underscores. -/
def Sep : Str → Prop
  | [] => True
  | a :: b :: _ => a = us ∧ b = us
  | _ => False

theorem copyLoop_app (s rest acc : Str) (prev : Nat) (h : needsLoop prev s = false) (hs : Sep rest)
    (hp : s = [] → prev ≠ us) :
    copyLoop (prev :: acc) (s ++ rest) = ((acc.reverse ++ prev :: s), rest) := by
  induction s generalizing prev acc with
  | nil =>
    have hp := hp rfl
    match rest, hs with
    | [], _ => simp [copyLoop]
    | a :: b :: r, hs =>
      obtain ⟨rfl, rfl⟩ := hs
      have hp' : (prev == us) = false := by simpa using hp
      simp only [List.nil_append]
      rw [copyLoop, if_pos rfl, if_neg (by simp [hp]), copyLoop, if_pos rfl, if_pos (by simp)]
      simp
  | cons c s ih =>
    rw [needsLoop] at h
    rw [List.cons_append, copyLoop]
    by_cases hc : c = us
    · rw [if_pos hc] at h ⊢
      have h2 : (prev = us || s.isEmpty) = false := by
        cases hh : (decide (prev = us) || s.isEmpty) with
        | false => rfl
        | true => rw [if_pos (by simpa using hh)] at h; cases h
      simp only [Bool.or_eq_false_iff, decide_eq_false_iff_not] at h2
      have hne : s ≠ [] := by intro e; rw [e] at h2; simp at h2
      have : (s ++ rest).isEmpty = false := by cases s <;> simp_all
      rw [if_neg (by simp [this, h2.1])]
      rw [if_neg (by simp [h2.1]; simpa using h2.2)] at h
      rw [ih (prev :: acc) c h (fun e => absurd e hne)]
      simp
    · rw [if_neg hc] at h ⊢
      by_cases hl : (!letterDigit c) = true
      · rw [if_pos hl] at h; cases h
      · rw [if_neg hl] at h ⊢
        rw [ih (prev :: acc) c h (fun _ => hc)]
        simp

theorem letterDigit_ne_us {c : Nat} (h : letterDigit c = true) : c ≠ us := by
  rw [letterDigit_iff] at h; simp only [us]; omega

theorem copyNotEncoded_app (s rest : Str) (h : needsEncoding s = false) (hs : Sep rest) :
    copyNotEncoded (s ++ rest) = some (s, rest) := by
  match s with
  | [] => simp [needsEncoding] at h
  | c :: s =>
    rw [needsEncoding] at h
    by_cases hl : (!letterDigit c) = true
    · rw [if_pos hl] at h; cases h
    · rw [if_neg hl] at h
      rw [List.cons_append, copyNotEncoded, if_neg hl,
        copyLoop_app s rest [] c h hs (fun _ => letterDigit_ne_us (by simpa using hl))]
      simp

theorem hexChar_spec (n : Nat) (h : n < 16) : hexaDigit (hexChar n) = true ∧ hexNum (hexChar n) = n := by
  rw [hexaDigit_iff]
  unfold hexChar hexNum
  by_cases h10 : n < 10
  · rw [if_pos h10, if_pos ((isDigit_iff _).2 (by omega))]; omega
  · rw [if_neg h10, if_neg (by rw [isDigit_iff]; omega)]; omega

theorem decodeString_app (s rest : Str) (hc : CStr s) (hs : Sep rest) :
    decodeString (encodeString s ++ rest) = (s, rest) := by
  induction s with
  | nil =>
    match rest, hs with
    | [], _ => simp [encodeString, decodeString]
    | a :: b :: r, hs =>
      obtain ⟨rfl, rfl⟩ := hs
      simp only [encodeString, List.nil_append, decodeString]
      rw [if_neg (by decide)]
  | cons c s ih =>
    have hb := hc c (by simp)
    obtain ⟨h1, h2⟩ := hexChar_spec (c / 16) (by omega)
    obtain ⟨h3, h4⟩ := hexChar_spec (c % 16) (by omega)
    simp only [encodeString, List.cons_append, decodeString, h1, h2, h3, h4, Bool.and_self, if_true]
    rw [ih (fun x hx => hc x (by simp [hx]))]
    simp only [Prod.mk.injEq, List.cons.injEq, and_true]
    omega

theorem printNat_digits (n : Nat) : ∃ c s, printNat n = c :: s ∧ ∀ d ∈ c :: s, 48 ≤ d ∧ d ≤ 57 := by
  induction n using Nat.strongRecOn with
  | ind n ih =>
    rw [printNat]
    split
    · exact ⟨48 + n, [], rfl, by simp; omega⟩
    · obtain ⟨c, s, e, h⟩ := ih (n / 10) (by omega)
      refine ⟨c, s ++ [48 + n % 10], by rw [e]; rfl, ?_⟩
      intro d hd
      rw [← List.cons_append, List.mem_append] at hd
      rcases hd with hd | hd
      · exact h d hd
      · simp only [List.mem_singleton] at hd; omega

/-- What follows the arity: nothing or a byte which is not a digit. -/
def NoDigit : Str → Prop
  | [] => True
  | c :: _ => isDigit c = false

theorem readNat_app (a : Nat) (s r : Str) (h : ∀ d ∈ s, 48 ≤ d ∧ d ≤ 57) :
    readNat a (s ++ r) = readNat (s.foldl (fun x c => x * 10 + (c - 48)) a) r := by
  induction s generalizing a with
  | nil => rfl
  | cons c s ih =>
    have hc := h c (by simp)
    rw [List.cons_append, readNat, if_pos ((isDigit_iff c).2 hc), ih _ (fun d hd => h d (by simp [hd]))]
    rfl

theorem printNat_val (n : Nat) : (printNat n).foldl (fun x c => x * 10 + (c - 48)) 0 = n := by
  induction n using Nat.strongRecOn with
  | ind n ih =>
    rw [printNat]
    split
    · simp
    · rw [List.foldl_append, ih (n / 10) (by omega)]
      simp; omega

theorem readNat_print (n : Nat) : readNat 0 (printNat n) = (n, []) := by
  obtain ⟨c, s, e, h⟩ := printNat_digits n
  have := readNat_app 0 (printNat n) [] (by rw [e]; exact h)
  rw [List.append_nil] at this
  rw [this, printNat_val]; rfl

theorem suffix_sep (a : Option Nat) : Sep (suffix a) := by
  cases a <;> simp [suffix, Sep]

theorem parseArity_suffix (maxArity : Nat) (strict : Bool) (a : Option Nat) (h : ∀ n, a = some n → n ≤ maxArity)
    (hs : a = none → strict = false) : parseArity maxArity strict (suffix a) = some (a, []) := by
  cases a with
  | none => simp [suffix, parseArity, hs rfl]
  | some n =>
    obtain ⟨c, s, e, hd⟩ := printNat_digits n
    have hr := readNat_print n
    rw [e] at hr
    simp only [suffix, e, us, List.cons_append, List.nil_append, parseArity]
    rw [if_pos ((isDigit_iff c).2 (hd c (by simp))), hr]
    have := h n rfl
    simp; omega

theorem demPred_app (allowEmpty : Bool) (p : Str) (hc : CStr p) (he : allowEmpty = true ∨ p ≠ []) (rest : Str)
    (hs : Sep rest) :
    demPred allowEmpty (if needsEncoding p then 1 else 0)
      ((if (if needsEncoding p then 1 else 0) = 0 then p else encodeString p) ++ rest) = some (p, rest) := by
  have hemp : (p.isEmpty && !allowEmpty) = false := by
    rcases he with h | h
    · simp [h]
    · cases p <;> simp_all
  unfold demPred
  by_cases h : needsEncoding p = true
  · simp only [h, if_true, Nat.one_ne_zero, if_false, decodeString_app p rest hc hs, hemp, Bool.false_eq_true]
  · have h' : needsEncoding p = false := by simpa using h
    simp only [h', Bool.false_eq_true, if_false, if_true, copyNotEncoded_app p rest h' hs, hemp]

theorem demModule_app (m : Str) (hc : CStr m) (rest : Str) :
    demModule (moduleEncode m)
      ((if moduleEncode m = 1 then m ++ [us, us] else if moduleEncode m = 2 then encodeString m ++ [us, us] else []) ++ rest)
      = some (m, rest) := by
  have hd : decodeString (encodeString m ++ ([us, us] ++ rest)) = (m, [us, us] ++ rest) :=
    decodeString_app m _ hc (by simp [Sep])
  unfold demModule
  by_cases he : m.isEmpty = true
  · have : m = [] := by simpa using he
    subst this; simp [moduleEncode]
  · by_cases h : needsEncoding m = true
    · have h2 : moduleEncode m = 2 := by simp [moduleEncode, he, h]
      rw [h2, if_neg (by decide), if_neg (by decide), if_neg (by decide), if_pos rfl, List.append_assoc, hd]
      simp
    · have h' : needsEncoding m = false := by simpa using h
      have h2 : moduleEncode m = 1 := by simp [moduleEncode, he, h']
      rw [h2, if_neg (by decide), if_pos rfl, if_pos rfl, List.append_assoc,
        copyNotEncoded_app m ([us, us] ++ rest) h' (by simp [Sep])]
      simp

theorem moduleEncode_le (m : Str) : moduleEncode m ≤ 2 := by
  unfold moduleEncode; split
  · omega
  · split <;> omega

theorem demangleG_mangle (kEnd maxArity : Nat) (allowEmpty strict : Bool) (x : Pi) (hm : CStr x.module)
    (hp : CStr x.pred) (he : allowEmpty = true ∨ x.pred ≠ [])
    (hk : 48 + (moduleEncode x.module * 2 + (if needsEncoding x.pred then 1 else 0)) < kEnd)
    (ha : ∀ n, x.arity = some n → n ≤ maxArity) (hs : x.arity = none → strict = false) :
    demangleG kEnd maxArity allowEmpty strict (mangle x) = some (x, []) := by
  unfold mangle demangleG
  have hpe : (if needsEncoding x.pred then 1 else 0) < 2 := by split <;> omega
  simp only [List.append_assoc, List.cons_append, List.nil_append]
  rw [if_neg (by simp only [us]; omega)]
  rw [show (48 + (moduleEncode x.module * 2 + (if needsEncoding x.pred then 1 else 0)) - 48) / 2
      = moduleEncode x.module by omega,
    show (48 + (moduleEncode x.module * 2 + (if needsEncoding x.pred then 1 else 0)) - 48) % 2
      = (if needsEncoding x.pred then 1 else 0) by omega]
  rw [demModule_app x.module hm]
  simp only
  rw [demPred_app allowEmpty x.pred hp he _ (suffix_sep _)]
  simp only
  rw [parseArity_suffix maxArity strict x.arity ha hs]

/-! ### Property theorems -/

/-- **C29** (injectivity). Two different predicate indicators never get the same symbol: `Mangle` is
injective on [module:]pred/arity (all names, any arity or none). -/
theorem C29_mangle_injective (x y : Pi) (hx : CStr x.module) (hx' : CStr x.pred) (hy : CStr y.module)
    (hy' : CStr y.pred) (h : mangle x = mangle y) : x = y := by
  have key : ∀ z : Pi, CStr z.module → CStr z.pred → ∀ N, (∀ n, z.arity = some n → n ≤ N) →
      demangleG 200 N true false (mangle z) = some (z, []) := by
    intro z h1 h2 N hN
    refine demangleG_mangle 200 N true false z h1 h2 (.inl rfl) ?_ hN (fun _ => rfl)
    have : moduleEncode z.module ≤ 2 := moduleEncode_le _
    split <;> omega
  have k1 := key x hx hx' (x.arity.getD 0 + y.arity.getD 0) (by intro n hn; rw [hn]; simp)
  have k2 := key y hy hy' (x.arity.getD 0 + y.arity.getD 0) (by intro n hn; rw [hn]; simp)
  rw [h, k2] at k1
  simp only [Option.some.injEq, Prod.mk.injEq, and_true] at k1
  exact k1.symm

/-- Characters of a C identifier: `a-z`, `A-Z`, `0-9`, `_`. -/
def IdChar (c : Nat) : Prop := (97 ≤ c ∧ c ≤ 122) ∨ (65 ≤ c ∧ c ≤ 90) ∨ (48 ≤ c ∧ c ≤ 57) ∨ c = 95

theorem mangle_identifier (x : Pi) (hx : CStr x.module) (hx' : CStr x.pred) :
    (mangle x).head? = some 88 ∧ ∀ c ∈ mangle x, letterDigit c = true ∨ c = us := by
  have henc : ∀ s, CStr s → ∀ c ∈ encodeString s, letterDigit c = true ∨ c = us := by
    intro s hs
    induction s with
    | nil => simp [encodeString]
    | cons b s ih =>
      intro c hc
      have hb := hs b (by simp)
      have hx : ∀ n, n < 16 → letterDigit (hexChar n) = true := by
        intro n hn; rw [letterDigit_iff]; unfold hexChar; split <;> omega
      simp only [encodeString, List.mem_cons] at hc
      rcases hc with rfl | rfl | hc
      · exact .inl (hx _ (by omega))
      · exact .inl (hx _ (by omega))
      · exact ih (fun y hy => hs y (by simp [hy])) c hc
  have hloop : ∀ s prev, needsLoop prev s = false → ∀ c ∈ s, letterDigit c = true ∨ c = us := by
    intro s
    induction s with
    | nil => simp
    | cons b s ih =>
      intro prev h c hc
      rw [needsLoop] at h
      by_cases hb : b = us
      · rw [if_pos hb] at h
        split at h
        · cases h
        · rw [List.mem_cons] at hc
          rcases hc with rfl | hc
          · exact .inr hb
          · exact ih b h c hc
      · rw [if_neg hb] at h
        split at h
        · cases h
        · rename_i hl
          rw [List.mem_cons] at hc
          rcases hc with rfl | hc
          · exact .inl (by simpa using hl)
          · exact ih b h c hc
  have hplain : ∀ s, needsEncoding s = false → ∀ c ∈ s, letterDigit c = true ∨ c = us := by
    intro s h
    match s with
    | [] => simp
    | b :: s =>
      rw [needsEncoding] at h
      split at h
      · cases h
      · rename_i hl
        intro c hc
        rw [List.mem_cons] at hc
        rcases hc with rfl | hc
        · exact .inl (by simpa using hl)
        · exact hloop s b h c hc
  refine ⟨by simp [mangle], ?_⟩
  intro c hc
  unfold mangle at hc
  simp only [List.mem_append] at hc
  rcases hc with ((hc | hc) | hc) | hc
  · simp only [List.mem_cons, List.not_mem_nil, or_false] at hc
    have : moduleEncode x.module ≤ 2 := moduleEncode_le _
    rcases hc with rfl | rfl | rfl
    · left; decide
    · left; rw [letterDigit_iff]; split <;> omega
    · right; rfl
  · split at hc
    · rename_i h1
      rw [List.mem_append] at hc
      rcases hc with hc | hc
      · refine hplain x.module ?_ c hc
        unfold moduleEncode at h1
        cases hn : needsEncoding x.module with
        | false => rfl
        | true => rw [hn] at h1; split at h1 <;> simp at h1
      · simp at hc; exact .inr hc
    · split at hc
      · rw [List.mem_append] at hc
        rcases hc with hc | hc
        · exact henc _ hx c hc
        · simp at hc; exact .inr hc
      · simp at hc
  · cases hn : needsEncoding x.pred with
    | false => rw [hn] at hc; exact hplain x.pred hn c (by simpa using hc)
    | true => rw [hn] at hc; exact henc _ hx' c (by simpa using hc)
  · cases ha : x.arity with
    | none => rw [ha] at hc; simp [suffix] at hc
    | some n =>
      rw [ha] at hc
      obtain ⟨d, s, e, hd⟩ := printNat_digits n
      simp only [suffix, e, List.mem_append, List.mem_cons, List.not_mem_nil, or_false] at hc
      rcases hc with (rfl | rfl | rfl) | hc
      · exact .inr rfl
      · exact .inr rfl
      · left; decide
      · left
        have := hd c (by simpa using hc)
        rw [letterDigit_iff]; omega

/-- **C29** (valid symbol). The symbol is an assembly/C identifier: it starts with `X` and contains only
ASCII letters, digits and underscores. -/
theorem C29_mangle_identifier (x : Pi) (hx : CStr x.module) (hx' : CStr x.pred) :
    (mangle x).head? = some 88 ∧ ∀ c ∈ mangle x, IdChar c := by
  obtain ⟨h1, h2⟩ := mangle_identifier x hx hx'
  refine ⟨h1, fun c hc => ?_⟩
  have := h2 c hc
  rw [letterDigit_iff] at this
  simp only [us] at this
  simp only [IdChar]; omega

/-- **C29** (round trip, partial). `Demangle` gives back the predicate indicator of a symbol, unless both
names are hex-encoded, or the functor is empty, or the arity exceeds 1024. -/
theorem C29_demangle_mangle_partial (x : Pi) (hx : CStr x.module) (hx' : CStr x.pred) (hne : x.pred ≠ [])
    (henc : ¬ (x.module ≠ [] ∧ needsEncoding x.module = true ∧ needsEncoding x.pred = true))
    (n : Nat) (ha : x.arity = some n) (hn : n ≤ 1024) :
    demangle true (mangle x) = some (x, []) := by
  refine demangleG_mangle 53 1024 false true x hx hx' (.inr hne) ?_ ?_ ?_
  · unfold moduleEncode
    by_cases h1 : x.module = []
    · simp only [h1, List.isEmpty_nil, if_true]; split <;> omega
    · have h2 : x.module.isEmpty = false := by cases hm : x.module <;> simp_all
      simp only [h2, Bool.false_eq_true, if_false]
      split
      · rename_i h3
        split
        · rename_i h4; exact absurd ⟨h1, h3, h4⟩ henc
        · omega
      · split <;> omega
  · intro k hk; rw [ha] at hk; injection hk with hk; omega
  · intro h; rw [ha] at h; cases h

/-- **C29** (negation). When both names need encoding (module `'a b'`, functor `=`) the symbol cannot be
demangled: `Demangle` rejects the coding digit `5` which `Mangle` produces. -/
theorem C29_demangle_rejects_both_encoded (strict : Bool) (x : Pi) (h1 : x.module ≠ [])
    (h2 : needsEncoding x.module = true) (h3 : needsEncoding x.pred = true) :
    demangle strict (mangle x) = none := by
  have h4 : x.module.isEmpty = false := by cases hm : x.module <;> simp_all
  unfold demangle demangleG mangle
  have : moduleEncode x.module = 2 := by unfold moduleEncode; simp [h4, h2]
  simp only [List.append_assoc, List.cons_append, List.nil_append, this, h3, if_true]
  rw [if_pos (by omega)]

/-- Witnesses: the case of the negation exists, and so does the case of the round trip. -/
example : needsEncoding [97, 32, 98] = true ∧ needsEncoding [61] = true ∧ needsEncoding [102, 111, 111] = false := by
  decide

example : demangle true (mangle ⟨[109], [61], some 2⟩) = some (⟨[109], [61], some 2⟩, []) := by
  apply C29_demangle_mangle_partial _ _ _ _ _ 2 rfl (by omega)
  · intro c hc; simp at hc; omega
  · intro c hc; simp at hc; omega
  · simp
  · simp [needsEncoding, letterDigit, isLetter, needsLoop]

end Gp.Mangle
