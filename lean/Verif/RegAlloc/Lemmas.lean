/-
Sets, aliases and the dictionary of temporaries.
-/
import Verif.RegAlloc.Spec

namespace Gp.RegAlloc

/-! ### Sets -/

@[simp] theorem ap_init (r : Reg) : ap .init r = r := by cases r <;> rfl

theorem ap_arg (s : Sub) (k : Nat) : ap s (.arg k) = .arg k := rfl

theorem setElt_iff {s : Sub} {l : List Reg} {x : Reg} :
    setElt s l x = true ↔ ap s x ∈ l.map (ap s) := by
  simp [setElt, List.any_eq_true]

theorem setElt_init {l : List Reg} {x : Reg} : setElt .init l x = true ↔ x ∈ l := by
  rw [setElt_iff]; simp

theorem setDelete_init (l : List Reg) (x : Reg) :
    setDelete .init l x = if x ∈ l then some (l.erase x) else none := by
  induction l with
  | nil => rfl
  | cons y l ih =>
    simp only [setDelete, ap_init]
    by_cases h : x = y
    · subst h; simp
    · have h' : (y == x) = false := by simp; exact fun e => h e.symm
      rw [if_neg h, ih]
      by_cases hm : x ∈ l
      · simp [hm, h, List.erase_cons, h']
      · simp [hm, h]

theorem mem_setUnion {s : Sub} {l1 l2 : List Reg} {z : Reg} :
    z ∈ (setUnion s l1 l2).map (ap s) ↔ z ∈ l1.map (ap s) ∨ z ∈ l2.map (ap s) := by
  induction l1 with
  | nil => simp [setUnion]
  | cons x l ih =>
    simp only [setUnion]
    split
    next h =>
      rw [setElt_iff] at h
      rw [ih]
      simp only [List.map_cons, List.mem_cons]
      constructor
      · rintro (a | a)
        · exact .inl (.inr a)
        · exact .inr a
      · rintro ((rfl | a) | a)
        · exact .inr h
        · exact .inl a
        · exact .inr a
    next h =>
      simp only [List.map_cons, List.mem_cons, ih, or_assoc]

/-- The members of a union are members of one of the sets. -/
theorem setUnion_sub {s : Sub} {l1 l2 : List Reg} {z : Reg} (h : z ∈ setUnion s l1 l2) :
    z ∈ l1 ∨ z ∈ l2 := by
  induction l1 with
  | nil => exact .inr h
  | cons x l ih =>
    simp only [setUnion] at h
    split at h
    · rcases ih h with a | a
      · exact .inl (List.mem_cons_of_mem _ a)
      · exact .inr a
    · rcases List.mem_cons.1 h with rfl | h
      · exact .inl (List.mem_cons_self ..)
      · rcases ih h with a | a
        · exact .inl (List.mem_cons_of_mem _ a)
        · exact .inr a

theorem mem_setUnion_init {l1 l2 : List Reg} {z : Reg} :
    z ∈ setUnion .init l1 l2 ↔ z ∈ l1 ∨ z ∈ l2 := by
  have h := @mem_setUnion .init l1 l2 z
  have e : ∀ l : List Reg, l.map (ap .init) = l := by
    intro l; rw [show ap .init = id from funext ap_init]; simp
  rwa [e, e, e] at h

theorem mem_setDiff {s : Sub} {l l1 : List Reg} {z : Reg} :
    z ∈ setDiff s l l1 ↔ z ∈ l ∧ ap s z ∉ l1.map (ap s) := by
  induction l with
  | nil => simp [setDiff]
  | cons x l ih =>
    simp only [setDiff]
    split
    next h =>
      rw [setElt_iff] at h
      rw [ih, List.mem_cons]
      constructor
      · exact fun ⟨a, b⟩ => ⟨.inr a, b⟩
      · rintro ⟨rfl | a, b⟩
        · exact absurd h b
        · exact ⟨a, b⟩
    next h =>
      rw [setElt_iff] at h
      rw [List.mem_cons, ih, List.mem_cons]
      constructor
      · rintro (rfl | ⟨a, b⟩)
        · exact ⟨.inl rfl, h⟩
        · exact ⟨.inr a, b⟩
      · rintro ⟨rfl | a, b⟩
        · exact .inl rfl
        · exact .inr ⟨a, b⟩

theorem mem_setDiff_init {l l1 : List Reg} {z : Reg} :
    z ∈ setDiff .init l l1 ↔ z ∈ l ∧ z ∉ l1 := by
  have h := @mem_setDiff .init l l1 z
  have e : ∀ l : List Reg, l.map (ap .init) = l := by
    intro l; rw [show ap .init = id from funext ap_init]; simp
  rwa [e, ap_init] at h

/-! ### Aliases -/

/-- Registers of one class have the same value. -/
def AliasOk {V : Type} (σ : File V) (al : Alias) : Prop :=
  ∀ ls ∈ al, ∀ x ∈ ls, ∀ y ∈ ls, σ x = σ y

theorem AliasOk.nil {V : Type} (σ : File V) : AliasOk σ [] := by intro ls h; cases h

/-- Removing a register: the classes are included in the former ones and do not contain it. -/
theorem removeAliasesOf_spec {al : Alias} {x : Reg} (hn : al.flatten.Nodup) :
    (removeAliasesOf al x).flatten.Nodup ∧ x ∉ (removeAliasesOf al x).flatten ∧
    (∀ ls ∈ removeAliasesOf al x, ∃ ls0 ∈ al, ∀ y ∈ ls, y ∈ ls0) := by
  induction al with
  | nil => simp [removeAliasesOf]
  | cons ls al ih =>
    simp only [List.flatten_cons, List.nodup_append] at hn
    obtain ⟨h1, h2, h3⟩ := hn
    simp only [removeAliasesOf, setDelete_init]
    by_cases hx : x ∈ ls
    · simp only [hx, if_true]
      have hxal : x ∉ al.flatten := fun h => h3 x hx x h rfl
      have he : (ls.erase x).Nodup := h1.erase x
      have hxe : x ∉ ls.erase x := fun h => (List.Nodup.mem_erase_iff h1).1 h |>.1 rfl
      split
      · exact ⟨h2, hxal, fun l hl => ⟨l, List.mem_cons_of_mem _ hl, fun _ h => h⟩⟩
      · exact ⟨h2, hxal, fun l hl => ⟨l, List.mem_cons_of_mem _ hl, fun _ h => h⟩⟩
      · refine ⟨?_, ?_, ?_⟩
        · simp only [List.flatten_cons, List.nodup_append]
          exact ⟨he, h2, fun a ha b hb => h3 a (List.mem_of_mem_erase ha) b hb⟩
        · simp only [List.flatten_cons, List.mem_append, not_or]; exact ⟨hxe, hxal⟩
        · intro l hl
          rcases List.mem_cons.1 hl with rfl | hl
          · exact ⟨ls, List.mem_cons_self .., fun y hy => List.mem_of_mem_erase hy⟩
          · exact ⟨l, List.mem_cons_of_mem _ hl, fun _ h => h⟩
    · simp only [hx, if_false]
      obtain ⟨i1, i2, i3⟩ := ih h2
      have hsub : ∀ b ∈ (removeAliasesOf al x).flatten, b ∈ al.flatten := by
        intro b hb
        obtain ⟨l, hl, hbl⟩ := List.mem_flatten.1 hb
        obtain ⟨l0, hl0, hs⟩ := i3 l hl
        exact List.mem_flatten.2 ⟨l0, hl0, hs b hbl⟩
      refine ⟨?_, ?_, ?_⟩
      · simp only [List.flatten_cons, List.nodup_append]
        exact ⟨h1, i1, fun a ha b hb => h3 a ha b (hsub b hb)⟩
      · simp only [List.flatten_cons, List.mem_append, not_or]; exact ⟨hx, i2⟩
      · intro l hl
        rcases List.mem_cons.1 hl with rfl | hl
        · exact ⟨l, List.mem_cons_self .., fun _ h => h⟩
        · obtain ⟨l0, hl0, hs⟩ := i3 l hl
          exact ⟨l0, List.mem_cons_of_mem _ hl0, hs⟩

theorem removeAliasesOf_sub {al : Alias} {x z : Reg} (hn : al.flatten.Nodup)
    (h : z ∈ (removeAliasesOf al x).flatten) : z ∈ al.flatten ∧ z ≠ x := by
  obtain ⟨_, h2, h3⟩ := removeAliasesOf_spec (x := x) hn
  refine ⟨?_, fun e => h2 (e ▸ h)⟩
  obtain ⟨l, hl, hbl⟩ := List.mem_flatten.1 h
  obtain ⟨l0, hl0, hs⟩ := h3 l hl
  exact List.mem_flatten.2 ⟨l0, hl0, hs z hbl⟩

theorem removeAliasesOf_ok {V : Type} {σ σ' : File V} {al : Alias} {x : Reg}
    (hn : al.flatten.Nodup) (h : AliasOk σ al) (hσ : ∀ y, y ≠ x → σ' y = σ y) :
    AliasOk σ' (removeAliasesOf al x) := by
  obtain ⟨_, h2, h3⟩ := removeAliasesOf_spec (x := x) hn
  intro ls hls a ha b hb
  obtain ⟨l0, hl0, hs⟩ := h3 ls hls
  have na : a ≠ x := fun e => h2 (List.mem_flatten.2 ⟨ls, hls, e ▸ ha⟩)
  have nb : b ≠ x := fun e => h2 (List.mem_flatten.2 ⟨ls, hls, e ▸ hb⟩)
  rw [hσ a na, hσ b nb]
  exact h l0 hl0 a (hs a ha) b (hs b hb)

theorem setAdd_init {l : List Reg} {x : Reg} (h : x ∉ l) : setAdd .init l x = l ++ [x] := by
  induction l with
  | nil => rfl
  | cons y l ih =>
    simp only [List.mem_cons, not_or] at h
    simp only [setAdd, ap_init, if_neg h.1, ih h.2, List.cons_append]

theorem addAlias_spec {al : Alias} {x y : Reg} (hn : al.flatten.Nodup) (hy : y ∉ al.flatten)
    (hxy : x ≠ y) :
    (addAlias al x y).flatten.Nodup ∧
    (∀ z ∈ (addAlias al x y).flatten, z ∈ al.flatten ∨ z = x ∨ z = y) ∧
    (∀ ls ∈ addAlias al x y, (ls ∈ al) ∨
      ((∀ z ∈ ls, z = x ∨ z = y ∨ ∃ ls0 ∈ al, x ∈ ls0 ∧ z ∈ ls0))) := by
  induction al with
  | nil => simp [addAlias, hxy]
  | cons ls al ih =>
    simp only [List.flatten_cons, List.nodup_append] at hn
    obtain ⟨h1, h2, h3⟩ := hn
    simp only [List.flatten_cons, List.mem_append, not_or] at hy
    simp only [addAlias]
    split
    next hx =>
      rw [setElt_init] at hx
      rw [setAdd_init hy.1]
      refine ⟨?_, ?_, ?_⟩
      · simp only [List.flatten_cons, List.nodup_append]
        refine ⟨⟨h1, by simp, ?_⟩, h2, ?_⟩
        · intro a ha b hb e
          simp only [List.mem_singleton] at hb
          exact hy.1 (hb ▸ e ▸ ha)
        · intro a ha b hb e
          rcases List.mem_append.1 ha with ha | ha
          · exact h3 a ha b hb e
          · simp only [List.mem_singleton] at ha
            exact hy.2 (by rw [← ha, e]; exact hb)
      · intro z hz
        simp only [List.flatten_cons, List.mem_append, List.mem_singleton] at hz ⊢
        rcases hz with (hz | hz) | hz
        · exact .inl (.inl hz)
        · exact .inr (.inr hz)
        · exact .inl (.inr hz)
      · intro l hl
        rcases List.mem_cons.1 hl with rfl | hl
        · right
          intro z hz
          rcases List.mem_append.1 hz with hz | hz
          · exact .inr (.inr ⟨ls, List.mem_cons_self .., hx, hz⟩)
          · simp only [List.mem_singleton] at hz
            exact .inr (.inl hz)
        · exact .inl (List.mem_cons_of_mem _ hl)
    next hx =>
      rw [setElt_init] at hx
      obtain ⟨i1, i2, i3⟩ := ih h2 hy.2
      refine ⟨?_, ?_, ?_⟩
      · simp only [List.flatten_cons, List.nodup_append]
        refine ⟨h1, i1, ?_⟩
        intro a ha b hb e
        rcases i2 b hb with hb | hb | hb
        · exact h3 a ha b hb e
        · exact hx (hb ▸ e ▸ ha)
        · exact hy.1 (hb ▸ e ▸ ha)
      · intro z hz
        simp only [List.flatten_cons, List.mem_append] at hz ⊢
        rcases hz with hz | hz
        · exact .inl (.inl hz)
        · rcases i2 z hz with h | h
          · exact .inl (.inr h)
          · exact .inr h
      · intro l hl
        rcases List.mem_cons.1 hl with rfl | hl
        · exact .inl (List.mem_cons_self ..)
        · rcases i3 l hl with h | h
          · exact .inl (List.mem_cons_of_mem _ h)
          · right
            intro z hz
            rcases h z hz with h | h | ⟨ls0, h, h'⟩
            · exact .inl h
            · exact .inr (.inl h)
            · exact .inr (.inr ⟨ls0, List.mem_cons_of_mem _ h, h'⟩)

theorem addAlias_ok {V : Type} {σ : File V} {al : Alias} {x y : Reg} (hn : al.flatten.Nodup)
    (hy : y ∉ al.flatten) (hxy : x ≠ y) (h : AliasOk σ al) (hv : σ x = σ y) :
    AliasOk σ (addAlias al x y) := by
  obtain ⟨_, _, h3⟩ := addAlias_spec hn hy hxy
  intro ls hls
  rcases h3 ls hls with hl | hl
  · exact h ls hl
  · have key : ∀ z ∈ ls, σ z = σ x := by
      intro z hz
      rcases hl z hz with rfl | rfl | ⟨l0, h0, hx, hz⟩
      · rfl
      · exact hv.symm
      · exact h l0 h0 z hz x hx
    intro a ha b hb
    rw [key a ha, key b hb]

theorem findAliasesOf_ok {V : Type} {σ : File V} {al : Alias} {x z : Reg} {ls : List Reg}
    (h : AliasOk σ al) (hf : findAliasesOf al x = some ls) (hz : z ∈ ls) : σ z = σ x := by
  induction al with
  | nil => simp [findAliasesOf] at hf
  | cons l al ih =>
    simp only [findAliasesOf, setDelete_init] at hf
    by_cases hx : x ∈ l
    · simp only [hx, if_true] at hf
      cases hf
      exact h l (List.mem_cons_self ..) z (List.mem_of_mem_erase hz) x hx
    · simp only [hx, if_false] at hf
      exact ih (fun l hl => h l (List.mem_cons_of_mem _ hl)) hf

/-- A register without alias. -/
theorem findAliasesOf_none {al : Alias} {x : Reg} (h : x ∉ al.flatten) :
    findAliasesOf al x = none := by
  induction al with
  | nil => rfl
  | cons l al ih =>
    simp only [List.flatten_cons, List.mem_append, not_or] at h
    simp only [findAliasesOf, setDelete_init, h.1, if_false]
    exact ih h.2

/-! ### The dictionary -/

/-- `y` is impossible for the temporary `n`. -/
def Imp (lt : List Tmp) (n : Nat) (y : Reg) : Prop := ∃ t ∈ lt, t.reg = n ∧ y ∈ t.imposs

/-- `y` is wanted for the temporary `n`. -/
def Wsh (lt : List Tmp) (n : Nat) (y : Reg) : Prop := ∃ t ∈ lt, t.reg = n ∧ y ∈ t.wish

/-- The temporary `n` has an entry. -/
def Key (lt : List Tmp) (n : Nat) : Prop := ∃ t ∈ lt, t.reg = n

theorem updateTmp_imp {lt : List Tmp} {n m : Nat} {im wi : List Reg} {y : Reg} :
    Imp (updateTmp lt n im wi) m y ↔ Imp lt m y ∨ (m = n ∧ y ∈ im) := by
  induction lt with
  | nil => simp [updateTmp, Imp, eq_comm]
  | cons t lt ih =>
    simp only [updateTmp]
    split
    next h =>
      simp only [Imp, List.mem_cons, exists_eq_or_imp, mem_setUnion_init]
      constructor
      · rintro (⟨rfl, h1 | h1⟩ | h1)
        · exact .inr ⟨rfl, h1⟩
        · exact .inl (.inl ⟨h.symm, h1⟩)
        · exact .inl (.inr h1)
      · rintro ((⟨rfl, h1⟩ | h1) | ⟨rfl, h1⟩)
        · exact .inl ⟨h, .inr h1⟩
        · exact .inr h1
        · exact .inl ⟨rfl, .inl h1⟩
    next h =>
      have e1 : Imp (t :: updateTmp lt n im wi) m y ↔
          (t.reg = m ∧ y ∈ t.imposs) ∨ Imp (updateTmp lt n im wi) m y := by
        simp [Imp]
      have e2 : Imp (t :: lt) m y ↔ (t.reg = m ∧ y ∈ t.imposs) ∨ Imp lt m y := by simp [Imp]
      rw [e1, e2, ih, or_assoc]

theorem updateTmp_wsh {lt : List Tmp} {n m : Nat} {im wi : List Reg} {y : Reg} :
    Wsh (updateTmp lt n im wi) m y ↔ Wsh lt m y ∨ (m = n ∧ y ∈ wi) := by
  induction lt with
  | nil => simp [updateTmp, Wsh, eq_comm]
  | cons t lt ih =>
    simp only [updateTmp]
    split
    next h =>
      simp only [Wsh, List.mem_cons, exists_eq_or_imp, mem_setUnion_init]
      constructor
      · rintro (⟨rfl, h1 | h1⟩ | h1)
        · exact .inr ⟨rfl, h1⟩
        · exact .inl (.inl ⟨h.symm, h1⟩)
        · exact .inl (.inr h1)
      · rintro ((⟨rfl, h1⟩ | h1) | ⟨rfl, h1⟩)
        · exact .inl ⟨h, .inr h1⟩
        · exact .inr h1
        · exact .inl ⟨rfl, .inl h1⟩
    next h =>
      have e1 : Wsh (t :: updateTmp lt n im wi) m y ↔
          (t.reg = m ∧ y ∈ t.wish) ∨ Wsh (updateTmp lt n im wi) m y := by
        simp [Wsh]
      have e2 : Wsh (t :: lt) m y ↔ (t.reg = m ∧ y ∈ t.wish) ∨ Wsh lt m y := by simp [Wsh]
      rw [e1, e2, ih, or_assoc]

theorem updateTmp_key {lt : List Tmp} {n m : Nat} {im wi : List Reg} :
    Key (updateTmp lt n im wi) m ↔ Key lt m ∨ m = n := by
  induction lt with
  | nil => simp [updateTmp, Key, eq_comm]
  | cons t lt ih =>
    simp only [updateTmp]
    split
    next h =>
      simp only [Key, List.mem_cons, exists_eq_or_imp]
      constructor
      · rintro (rfl | h1)
        · exact .inr rfl
        · exact .inl (.inr h1)
      · rintro ((rfl | h1) | rfl)
        · exact .inl h
        · exact .inr h1
        · exact .inl rfl
    next h =>
      have e1 : Key (t :: updateTmp lt n im wi) m ↔
          (t.reg = m) ∨ Key (updateTmp lt n im wi) m := by simp [Key]
      have e2 : Key (t :: lt) m ↔ (t.reg = m) ∨ Key lt m := by simp [Key]
      rw [e1, e2, ih, or_assoc]

/-- No temporary has two entries. -/
def NodupKeys (lt : List Tmp) : Prop := (lt.map (·.reg)).Nodup

theorem updateTmp_nodup {lt : List Tmp} {n : Nat} {im wi : List Reg} (h : NodupKeys lt) :
    NodupKeys (updateTmp lt n im wi) := by
  induction lt with
  | nil => simp [updateTmp, NodupKeys]
  | cons t lt ih =>
    simp only [NodupKeys, List.map_cons, List.nodup_cons] at h
    simp only [updateTmp]
    split
    next e =>
      simp only [NodupKeys, List.map_cons, List.nodup_cons]
      exact ⟨e ▸ h.1, h.2⟩
    next e =>
      simp only [NodupKeys, List.map_cons, List.nodup_cons]
      refine ⟨?_, ih h.2⟩
      intro hm
      obtain ⟨t', ht', e'⟩ := List.mem_map.1 hm
      have : Key (updateTmp lt n im wi) t.reg := ⟨t', ht', e'⟩
      rcases updateTmp_key.1 this with ⟨u, hu, hr⟩ | h'
      · exact h.1 (List.mem_map.2 ⟨u, hu, hr⟩)
      · exact e h'.symm

theorem makeImposs_imp {cs im : List Reg} {lt : List Tmp} {m : Nat} {y : Reg} :
    Imp (makeImposs cs im lt) m y ↔ Imp lt m y ∨ (.tmp m ∈ cs ∧ y ∈ im) := by
  induction cs generalizing lt with
  | nil => simp [makeImposs]
  | cons c cs ih =>
    cases c with
    | arg k => simp only [makeImposs, ih]; simp
    | tmp n =>
      simp only [makeImposs, ih, updateTmp_imp, List.mem_cons, Reg.tmp.injEq]
      constructor
      · rintro ((h | ⟨h1, h2⟩) | ⟨h1, h2⟩)
        · exact .inl h
        · exact .inr ⟨.inl h1, h2⟩
        · exact .inr ⟨.inr h1, h2⟩
      · rintro (h | ⟨h1 | h1, h2⟩)
        · exact .inl (.inl h)
        · exact .inl (.inr ⟨h1, h2⟩)
        · exact .inr ⟨h1, h2⟩

theorem makeImposs_wsh {cs im : List Reg} {lt : List Tmp} {m : Nat} {y : Reg} :
    Wsh (makeImposs cs im lt) m y ↔ Wsh lt m y := by
  induction cs generalizing lt with
  | nil => simp [makeImposs]
  | cons c cs ih =>
    cases c with
    | arg k => simp only [makeImposs, ih]
    | tmp n => simp [makeImposs, ih, updateTmp_wsh]

theorem makeImposs_key {cs im : List Reg} {lt : List Tmp} {m : Nat} :
    Key (makeImposs cs im lt) m ↔ Key lt m ∨ .tmp m ∈ cs := by
  induction cs generalizing lt with
  | nil => simp [makeImposs]
  | cons c cs ih =>
    cases c with
    | arg k => simp [makeImposs, ih]
    | tmp n => simp [makeImposs, ih, updateTmp_key, or_assoc]

theorem makeImposs_nodup {cs im : List Reg} {lt : List Tmp} (h : NodupKeys lt) :
    NodupKeys (makeImposs cs im lt) := by
  induction cs generalizing lt with
  | nil => exact h
  | cons c cs ih =>
    cases c with
    | arg k => exact ih h
    | tmp n => exact ih (updateTmp_nodup h)

/-- The effect of one code on the dictionary: `x` gets incompatible with the registers `cs`. -/
structure Eff (x : Reg) (cs wish : List Reg) (lt lt' : List Tmp) : Prop where
  imp : ∀ m y, Imp lt' m y ↔ Imp lt m y ∨ (.tmp m ∈ cs ∧ y = x) ∨ (x = .tmp m ∧ y ∈ cs)
  wsh : ∀ m y, Wsh lt' m y ↔ Wsh lt m y ∨ (x = .tmp m ∧ y ∈ wish)
  key : ∀ m, Key lt m → Key lt' m
  nodup : NodupKeys lt → NodupKeys lt'

theorem constraints_sub {opt : Nat} {x z : Reg} {l : List Reg} {al : Alias}
    (h : z ∈ constraints opt x l al) : z ∈ l := by
  unfold constraints at h
  split at h
  · split at h
    · exact (mem_setDiff_init.1 h).1
    · exact h
  · exact h

/-- What the constraints leave out has the same value. -/
theorem constraints_out {V : Type} {σ : File V} {opt : Nat} {x z : Reg} {l : List Reg}
    {al : Alias} (ha : opt = 2 → AliasOk σ al) (hz : z ∈ l) :
    z ∈ constraints opt x l al ∨ σ z = σ x := by
  unfold constraints
  split
  next e =>
    split
    next ls hf =>
      by_cases hm : z ∈ ls
      · exact .inr (findAliasesOf_ok (ha e) hf hm)
      · exact .inl (mem_setDiff_init.2 ⟨hz, hm⟩)
    next => exact .inl hz
  next => exact .inl hz

theorem constraints_all {opt : Nat} {x : Reg} {l : List Reg} {al : Alias}
    (h : opt = 2 → x ∉ al.flatten) : constraints opt x l al = l := by
  unfold constraints
  split
  next e => rw [findAliasesOf_none (h e)]
  next => rfl

theorem handleR_spec (opt : Nat) (x : Reg) (al : Alias) (wish l : List Reg) (lt : List Tmp)
    (hn : l.Nodup) :
    (handleR opt x al wish l lt).1.Nodup ∧
    (∀ z, z ∈ (handleR opt x al wish l lt).1 ↔ z = x ∨ z ∈ l) ∧
    ∃ cs, x ∉ cs ∧ (∀ z ∈ cs, z ∈ l) ∧
      (x ∉ l → cs = constraints opt x l al ∧
        ∀ m, x = .tmp m → Key (handleR opt x al wish l lt).2 m) ∧
      Eff x cs wish lt (handleR opt x al wish l lt).2 := by
  unfold handleR
  by_cases hx : x ∈ l
  · rw [if_pos (setElt_init.2 hx)]
    refine ⟨hn, ?_, [], by simp, by simp, fun h => absurd hx h, ?_⟩
    · intro z
      constructor
      · exact .inr
      · rintro (rfl | h)
        · exact hx
        · exact h
    · cases x with
      | arg k => exact ⟨by simp, by simp, fun _ h => h, fun h => h⟩
      | tmp n =>
        dsimp only
        split
        next e => subst e; exact ⟨by simp, by simp, fun _ h => h, fun h => h⟩
        next e =>
          exact ⟨by simp [updateTmp_imp], by simp [updateTmp_wsh, eq_comm],
            fun _ h => updateTmp_key.2 (.inl h), updateTmp_nodup⟩
  · have hx' : ¬ setElt .init l x = true := fun h => hx (setElt_init.1 h)
    rw [if_neg hx']
    have hxc : x ∉ constraints opt x l al := fun h => hx (constraints_sub h)
    refine ⟨List.nodup_cons.2 ⟨hx, hn⟩, fun z => by simp, constraints opt x l al, hxc,
      fun z => constraints_sub, fun _ => ⟨rfl, ?_⟩, ?_⟩
    · intro m hm; subst hm; exact updateTmp_key.2 (.inr rfl)
    · cases x with
      | arg k =>
        exact ⟨by simp [makeImposs_imp], by simp [makeImposs_wsh],
          fun _ h => makeImposs_key.2 (.inl h), makeImposs_nodup⟩
      | tmp n =>
        refine ⟨?_, ?_, fun _ h => updateTmp_key.2 (.inl (makeImposs_key.2 (.inl h))),
          fun h => updateTmp_nodup (makeImposs_nodup h)⟩
        · intro m y
          simp only [updateTmp_imp, makeImposs_imp, List.mem_singleton, Reg.tmp.injEq, or_assoc,
            eq_comm (a := m) (b := n)]
        · intro m y
          simp only [updateTmp_wsh, makeImposs_wsh, Reg.tmp.injEq, eq_comm (a := m) (b := n)]

theorem handleW_spec (opt : Nat) (x : Reg) (al : Alias) (wish l : List Reg) (lt : List Tmp)
    (hn : l.Nodup) :
    (handleW opt x al wish l lt).1.Nodup ∧
    (∀ z, z ∈ (handleW opt x al wish l lt).1 ↔ z ≠ x ∧ z ∈ l) ∧
    ∃ cs, x ∉ cs ∧ (∀ z ∈ cs, z ∈ l) ∧
      (x ∉ l → ∀ m, x = .tmp m → Key (handleW opt x al wish l lt).2 m ∧
        ∀ z ∈ constraints opt x l al, z ∈ wish ∨ z ∈ cs) ∧
      Eff x cs wish lt (handleW opt x al wish l lt).2 := by
  unfold handleW
  rw [setDelete_init]
  by_cases hx : x ∈ l
  · simp only [hx, if_true]
    refine ⟨hn.erase x, fun z => hn.mem_erase_iff, [], by simp, by simp,
      fun h => absurd trivial h, ?_⟩
    cases x with
    | arg k => exact ⟨by simp, by simp, fun _ h => h, fun h => h⟩
    | tmp n =>
      dsimp only
      split
      next e => subst e; exact ⟨by simp, by simp, fun _ h => h, fun h => h⟩
      next e =>
        exact ⟨by simp [updateTmp_imp], by simp [updateTmp_wsh, eq_comm],
          fun _ h => updateTmp_key.2 (.inl h), updateTmp_nodup⟩
  · simp only [hx, if_false]
    refine ⟨hn, fun z => ⟨fun h => ⟨fun e => hx (e ▸ h), h⟩, fun h => h.2⟩, ?_⟩
    cases x with
    | arg k =>
      exact ⟨[], by simp, by simp, fun _ m h => by simp at h,
        ⟨by simp, by simp, fun _ h => h, fun h => h⟩⟩
    | tmp n =>
      dsimp only
      have hs : ∀ z, z ∈ (if wish = [] then constraints opt (.tmp n) l al
          else setDiff .init (constraints opt (.tmp n) l al) wish) ↔
          z ∈ constraints opt (.tmp n) l al ∧ z ∉ wish := by
        intro z
        split
        next e => subst e; simp
        next => exact mem_setDiff_init
      generalize (if wish = [] then constraints opt (.tmp n) l al
          else setDiff .init (constraints opt (.tmp n) l al) wish) = cs at hs
      refine ⟨cs, fun h => hx (constraints_sub ((hs _).1 h).1),
        fun z hz => constraints_sub ((hs z).1 hz).1, ?_, ?_, ?_, ?_, ?_⟩
      · intro _ m hm
        cases hm
        refine ⟨updateTmp_key.2 (.inr rfl), fun z hz => ?_⟩
        by_cases hw : z ∈ wish
        · exact .inl hw
        · exact .inr ((hs z).2 ⟨hz, hw⟩)
      · intro m y
        simp only [updateTmp_imp, makeImposs_imp, List.mem_singleton, Reg.tmp.injEq, or_assoc,
          eq_comm (a := m) (b := n)]
      · intro m y
        simp only [updateTmp_wsh, makeImposs_wsh, Reg.tmp.injEq, eq_comm (a := m) (b := n)]
      · exact fun _ h => updateTmp_key.2 (.inl (makeImposs_key.2 (.inl h)))
      · exact fun h => updateTmp_nodup (makeImposs_nodup h)

end Gp.RegAlloc
