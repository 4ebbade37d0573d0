/-
Lifetimes: two registers in life at the same point are incompatible or have the same value.
-/
import Verif.RegAlloc.Lemmas

namespace Gp.RegAlloc

/-! ### The shape of the codification -/

theorem lstRForCall_eq (i n : Nat) :
    lstRForCall i n = ((List.range' i n).map Reg.arg).map Code.r := by
  induction n generalizing i with
  | zero => rfl
  | succ n ih => simp [lstRForCall, ih, List.range'_succ]

theorem lstRwForC_eq (args : List CArg) (e : List Code) (h : ∀ r, CArg.adr r ∉ args) :
    lstRwForC args e = (args.flatMap CArg.reads).map Code.r ++
      ((args.flatMap CArg.reads).reverse.map Code.w ++ e) := by
  induction args generalizing e with
  | nil => rfl
  | cons a l ih =>
    have h' : ∀ r, CArg.adr r ∉ l := fun r hr => h r (List.mem_cons_of_mem _ hr)
    cases a with
    | x r => simp [lstRwForC, ih _ h', CArg.reads]
    | adr r => exact absurd (List.mem_cons_self ..) (h r)
    | other => simp [lstRwForC, ih _ h', CArg.reads]

theorem flatMap_writes_nil (args : List CArg) (h : ∀ r, CArg.adr r ∉ args) :
    args.flatMap CArg.writes = [] := by
  induction args with
  | nil => rfl
  | cons a l ih =>
    have h' : ∀ r, CArg.adr r ∉ l := fun r hr => h r (List.mem_cons_of_mem _ hr)
    cases a with
    | x r => simp [CArg.writes, ih h']
    | adr r => exact absurd (List.mem_cons_self ..) (h r)
    | other => simp [CArg.writes, ih h']

/-- The instruction has no address of register. -/
def NoAdr (i : WInst) : Prop :=
  ∀ j u res args, i = WInst.callC j u res args → ∀ r, CArg.adr r ∉ args

/-- The codes of an instruction: a copy, or reads followed by writes.  The registers which are
    really set come last; the others (arguments of a C function) are among those read. -/
inductive Shape (i : WInst) : Prop
  | copy (a b : Reg) (h : copyOf i = some (a, b)) (hc : codif i = [.c a b])
      (hr : reads i = [a]) (hw : writes i = [b]) (hk : clobbers i = false)
  | rw (pw : List Reg) (h : copyOf i = none)
      (hc : codif i = (reads i).map .r ++ (pw ++ writes i).map .w)
      (hp : ∀ x ∈ pw, x ∈ reads i)

theorem shape (i : WInst) (h : NoAdr i) : Shape i := by
  cases i
  case getVariable v a =>
    cases v
    · exact .copy _ _ rfl rfl rfl rfl rfl
    · exact .rw [] rfl rfl (by simp)
  case putValue v a =>
    cases v
    · exact .copy _ _ rfl rfl rfl rfl rfl
    · exact .rw [] rfl rfl (by simp)
  case getValue v a => cases v <;> exact .rw [] rfl rfl (by simp)
  case putVariable v a => cases v <;> exact .rw [] rfl rfl (by simp)
  case mathLoadValue v a => cases v <;> exact .rw [] rfl rfl (by simp)
  case mathFastLoadValue v a => cases v <;> exact .rw [] rfl rfl (by simp)
  case unifyVariable v => cases v <;> exact .rw [] rfl rfl (by simp)
  case unifyValue v => cases v <;> exact .rw [] rfl rfl (by simp)
  case unifyLocalValue v => cases v <;> exact .rw [] rfl rfl (by simp)
  case getCurrentChoice v => cases v <;> exact .rw [] rfl rfl (by simp)
  case cut v => cases v <;> exact .rw [] rfl rfl (by simp)
  case softCut v => cases v <;> exact .rw [] rfl rfl (by simp)
  case call n =>
    refine .rw [] rfl ?_ (by simp)
    simp only [codif, reads, writes, lstRForCall_eq, List.range_eq_range']; simp
  case execute n =>
    refine .rw [] rfl ?_ (by simp)
    simp only [codif, reads, writes, lstRForCall_eq, List.range_eq_range']; simp
  case callC j u res args =>
    have ha := h j u res args rfl
    refine .rw (args.flatMap CArg.reads).reverse rfl ?_ (by simp [reads])
    simp only [codif, reads, writes, lstRwForC_eq _ _ ha, flatMap_writes_nil _ ha]
    cases res <;> simp
  all_goals exact .rw [] rfl rfl (by simp)

theorem aliasStop_eq (i : WInst) : aliasStop i = clobbers i := by cases i <;> rfl

/-! ### The dictionary -/

/-- Incompatibility is irreflexive and symmetric, the wishes between temporaries are symmetric,
    each temporary has one entry. -/
structure DInv (lt : List Tmp) : Prop where
  nodup : NodupKeys lt
  irr : ∀ m y, Imp lt m y → y ≠ .tmp m
  sym : ∀ n m, Imp lt n (.tmp m) → Imp lt m (.tmp n)

def WSym (lt : List Tmp) : Prop := ∀ n m, Wsh lt n (.tmp m) → Wsh lt m (.tmp n)

/-- The two registers are recorded as incompatible. -/
def Conf (lt : List Tmp) (x y : Reg) : Prop :=
  (∀ m, x = .tmp m → Imp lt m y) ∧ (∀ m, y = .tmp m → Imp lt m x)

theorem Conf.symm {lt : List Tmp} {x y : Reg} (h : Conf lt x y) : Conf lt y x := ⟨h.2, h.1⟩

theorem Conf.mono {lt lt' : List Tmp} (hm : ∀ m y, Imp lt m y → Imp lt' m y) {x y : Reg}
    (h : Conf lt x y) : Conf lt' x y :=
  ⟨fun m e => hm m y (h.1 m e), fun m e => hm m x (h.2 m e)⟩

theorem Eff.mono {x : Reg} {cs wish : List Reg} {lt lt' : List Tmp} (h : Eff x cs wish lt lt')
    (m : Nat) (y : Reg) (hi : Imp lt m y) : Imp lt' m y := (h.imp m y).2 (.inl hi)

theorem Eff.conf {x z : Reg} {cs wish : List Reg} {lt lt' : List Tmp}
    (h : Eff x cs wish lt lt') (hz : z ∈ cs) : Conf lt' x z :=
  ⟨fun m e => (h.imp m z).2 (.inr (.inr ⟨e, hz⟩)),
   fun m e => (h.imp m x).2 (.inr (.inl ⟨e ▸ hz, rfl⟩))⟩

theorem Eff.dinv {x : Reg} {cs wish : List Reg} {lt lt' : List Tmp} (h : Eff x cs wish lt lt')
    (hx : x ∉ cs) (hd : DInv lt) : DInv lt' := by
  refine ⟨h.nodup hd.nodup, ?_, ?_⟩
  · intro m y hi
    rcases (h.imp m y).1 hi with hi | ⟨hi, rfl⟩ | ⟨rfl, hi⟩
    · exact hd.irr m y hi
    · exact fun e => hx (e ▸ hi)
    · exact fun e => hx (e ▸ hi)
  · intro n m hi
    rcases (h.imp n (.tmp m)).1 hi with hi | ⟨hi, e⟩ | ⟨e, hi⟩
    · exact (h.imp m _).2 (.inl (hd.sym n m hi))
    · exact (h.imp m _).2 (.inr (.inr ⟨e.symm, hi⟩))
    · exact (h.imp m _).2 (.inr (.inl ⟨hi, e.symm⟩))

/-- The state of the backward traversal. -/
structure SInv (st : List Reg × List Tmp) : Prop where
  nodup : st.1.Nodup
  d : DInv st.2
  w : WSym st.2
  key : ∀ m, .tmp m ∈ st.1 → Key st.2 m

/-- The dictionary grows. -/
structure Grow (lt lt' : List Tmp) : Prop where
  imp : ∀ m y, Imp lt m y → Imp lt' m y
  key : ∀ m, Key lt m → Key lt' m

theorem Grow.refl (lt : List Tmp) : Grow lt lt := ⟨fun _ _ h => h, fun _ h => h⟩

theorem Grow.trans {a b c : List Tmp} (h1 : Grow a b) (h2 : Grow b c) : Grow a c :=
  ⟨fun m y h => h2.imp m y (h1.imp m y h), fun m h => h2.key m (h1.key m h)⟩

theorem Eff.grow {x : Reg} {cs wish : List Reg} {lt lt' : List Tmp} (h : Eff x cs wish lt lt') :
    Grow lt lt' := ⟨h.mono, h.key⟩

/-- The temporaries of a code. -/
def Code.has : Code → Reg → Prop
  | .r x, z => z = x
  | .w x, z => z = x
  | .c x y, z => z = x ∨ z = y

theorem handleOneCode_inv (opt : Nat) (c : Code) (al : Alias) (st : List Reg × List Tmp)
    (h : SInv st) :
    SInv (handleOneCode opt c al st) ∧ Grow st.2 (handleOneCode opt c al st).2 ∧
    ∀ m, c.has (.tmp m) → Key (handleOneCode opt c al st).2 m := by
  cases c with
  | r x =>
    simp only [handleOneCode]
    obtain ⟨h1, h2, cs, h3, h4, h5, he⟩ := handleR_spec opt x al [] st.1 st.2 h.nodup
    have hk : ∀ m, x = .tmp m → Key (handleR opt x al [] st.1 st.2).2 m := by
      intro m e
      by_cases hx : x ∈ st.1
      · exact he.key m (h.key m (e ▸ hx))
      · exact (h5 hx).2 m e
    refine ⟨⟨h1, he.dinv h3 h.d, ?_, ?_⟩, he.grow, fun m e => hk m e.symm⟩
    · intro n m hw
      have := (he.wsh n (.tmp m)).1 hw
      simp only [List.not_mem_nil, and_false, or_false] at this
      exact (he.wsh m _).2 (.inl (h.w n m this))
    · intro m hm
      rcases (h2 _).1 hm with e | hm
      · exact hk m e.symm
      · exact he.key m (h.key m hm)
  | w x =>
    simp only [handleOneCode]
    obtain ⟨h1, h2, cs, h3, h4, h5, he⟩ := handleW_spec opt x al [] st.1 st.2 h.nodup
    have hk : ∀ m, x = .tmp m → Key (handleW opt x al [] st.1 st.2).2 m := by
      intro m e
      by_cases hx : x ∈ st.1
      · exact he.key m (h.key m (e ▸ hx))
      · exact (h5 hx m e).1
    refine ⟨⟨h1, he.dinv h3 h.d, ?_, ?_⟩, he.grow, fun m e => hk m e.symm⟩
    · intro n m hw
      have := (he.wsh n (.tmp m)).1 hw
      simp only [List.not_mem_nil, and_false, or_false] at this
      exact (he.wsh m _).2 (.inl (h.w n m this))
    · intro m hm
      exact he.key m (h.key m ((h2 _).1 hm).2)
  | c x y =>
    simp only [handleOneCode]
    obtain ⟨h1, h2, cs, h3, h4, h5, he⟩ := handleW_spec opt y al [x] st.1 st.2 h.nodup
    have hk : ∀ m, y = .tmp m → Key (handleW opt y al [x] st.1 st.2).2 m := by
      intro m e
      by_cases hx : y ∈ st.1
      · exact he.key m (h.key m (e ▸ hx))
      · exact (h5 hx m e).1
    have hkl : ∀ m, .tmp m ∈ (handleW opt y al [x] st.1 st.2).1 →
        Key (handleW opt y al [x] st.1 st.2).2 m :=
      fun m hm => he.key m (h.key m ((h2 _).1 hm).2)
    have hd := he.dinv h3 h.d
    generalize handleW opt y al [x] st.1 st.2 = st1 at h1 h2 h5 he hk hkl hd
    obtain ⟨g1, g2, cs', g3, g4, g5, ge⟩ := handleR_spec opt x al [y] st1.1 st1.2 h1
    have hk' : ∀ m, x = .tmp m → Key (handleR opt x al [y] st1.1 st1.2).2 m := by
      intro m e
      by_cases hx : x ∈ st1.1
      · exact ge.key m (hkl m (e ▸ hx))
      · exact (g5 hx).2 m e
    refine ⟨⟨g1, ge.dinv g3 hd, ?_, ?_⟩, he.grow.trans ge.grow, ?_⟩
    · intro n m hw
      apply (ge.wsh m _).2
      rcases (ge.wsh n (.tmp m)).1 hw with hw | ⟨e1, hw⟩
      · rcases (he.wsh n (.tmp m)).1 hw with hw | ⟨e1, hw⟩
        · exact .inl ((he.wsh m _).2 (.inl (h.w n m hw)))
        · simp only [List.mem_singleton] at hw
          exact .inr ⟨hw.symm, by simp [e1]⟩
      · simp only [List.mem_singleton] at hw
        exact .inl ((he.wsh m _).2 (.inr ⟨hw.symm, by simp [e1]⟩))
    · intro m hm
      rcases (g2 _).1 hm with e | hm
      · exact hk' m e.symm
      · exact ge.key m (hkl m hm)
    · rintro m (e | e)
      · exact hk' m e.symm
      · exact ge.key m (hk m e.symm)

theorem handleLstCode_inv (opt : Nat) (cs : List Code) (al : Alias) (st : List Reg × List Tmp)
    (h : SInv st) :
    SInv (handleLstCode opt cs al st) ∧ Grow st.2 (handleLstCode opt cs al st).2 ∧
    ∀ c ∈ cs, ∀ m, c.has (.tmp m) → Key (handleLstCode opt cs al st).2 m := by
  induction cs with
  | nil => exact ⟨h, .refl _, by simp⟩
  | cons c cs ih =>
    obtain ⟨i1, i2, i3⟩ := ih
    obtain ⟨j1, j2, j3⟩ := handleOneCode_inv opt c al _ i1
    refine ⟨j1, i2.trans j2, ?_⟩
    intro d hd m hm
    rcases List.mem_cons.1 hd with rfl | hd
    · exact j3 m hm
    · exact j2.key m (i3 d hd m hm)

theorem handleLstCode_append (opt : Nat) (a b : List Code) (al : Alias)
    (st : List Reg × List Tmp) :
    handleLstCode opt (a ++ b) al st = handleLstCode opt a al (handleLstCode opt b al st) := by
  induction a with
  | nil => rfl
  | cons c a ih => simp [handleLstCode, ih]

/-- Reads. -/
theorem handle_reads {V : Type} (opt : Nat) (rs : List Reg) (al : Alias)
    (st : List Reg × List Tmp) (h : SInv st) :
    (∀ z, z ∈ (handleLstCode opt (rs.map .r) al st).1 ↔ z ∈ rs ∨ z ∈ st.1) ∧
    ∀ σ : File V, (opt = 2 → AliasOk σ al) →
      ∀ a ∈ (handleLstCode opt (rs.map .r) al st).1,
      ∀ b ∈ (handleLstCode opt (rs.map .r) al st).1, a ≠ b →
      (a ∈ st.1 ∧ b ∈ st.1) ∨ Conf (handleLstCode opt (rs.map .r) al st).2 a b ∨ σ a = σ b := by
  induction rs with
  | nil => exact ⟨by simp [handleLstCode], fun σ _ a ha b hb _ => .inl ⟨ha, hb⟩⟩
  | cons x rs ih =>
    simp only [List.map_cons, handleLstCode]
    obtain ⟨i1, i2⟩ := ih
    obtain ⟨j1, _, _⟩ := handleLstCode_inv opt (rs.map .r) al st h
    generalize handleLstCode opt (rs.map .r) al st = st1 at i1 i2 j1
    simp only [handleOneCode]
    obtain ⟨h1, h2, cs, h3, h4, h5, he⟩ := handleR_spec opt x al [] st1.1 st1.2 j1.nodup
    refine ⟨fun z => by rw [h2, i1, List.mem_cons, or_assoc], ?_⟩
    intro σ hσ a ha b hb hab
    have key : ∀ a b, a = x → b ∈ st1.1 → x ∉ st1.1 →
        Conf (handleR opt x al [] st1.1 st1.2).2 a b ∨ σ a = σ b := by
      rintro a b rfl hb hx
      rcases constraints_out (x := a) hσ hb with hc | hc
      · exact .inl (he.conf ((h5 hx).1 ▸ hc))
      · exact .inr hc.symm
    have old : a ∈ st1.1 → b ∈ st1.1 → (a ∈ st.1 ∧ b ∈ st.1) ∨
        Conf (handleR opt x al [] st1.1 st1.2).2 a b ∨ σ a = σ b := by
      intro ha hb
      rcases i2 σ hσ a ha b hb hab with h | h | h
      · exact .inl h
      · exact .inr (.inl (h.mono he.mono))
      · exact .inr (.inr h)
    by_cases hx : x ∈ st1.1
    · have ha' : a ∈ st1.1 := by
        rcases (h2 a).1 ha with e | h
        · exact e ▸ hx
        · exact h
      have hb' : b ∈ st1.1 := by
        rcases (h2 b).1 hb with e | h
        · exact e ▸ hx
        · exact h
      exact old ha' hb'
    · rcases (h2 a).1 ha with ea | ha
      · rcases (h2 b).1 hb with eb | hb
        · exact absurd (ea.trans eb.symm) hab
        · exact .inr (key a b ea hb hx)
      · rcases (h2 b).1 hb with eb | hb
        · rcases key b a eb ha hx with h | h
          · exact .inr (.inl h.symm)
          · exact .inr (.inr h.symm)
        · exact old ha hb

/-- Writes. -/
theorem handle_writes (opt : Nat) (ws : List Reg) (al : Alias)
    (st : List Reg × List Tmp) (h : SInv st) :
    (∀ z, z ∈ (handleLstCode opt (ws.map .w) al st).1 ↔ z ∉ ws ∧ z ∈ st.1) ∧
    ∀ pre x post, ws = pre ++ x :: post → x ∉ st.1 → x.isVar = true →
      (opt = 2 → x ∉ al.flatten) → ∀ z ∈ st.1, z ∉ post →
      Conf (handleLstCode opt (ws.map .w) al st).2 x z := by
  induction ws with
  | nil => exact ⟨by simp [handleLstCode], fun pre x post e => by simp at e⟩
  | cons y ws ih =>
    simp only [List.map_cons, handleLstCode]
    obtain ⟨i1, i2⟩ := ih
    obtain ⟨j1, _, _⟩ := handleLstCode_inv opt (ws.map .w) al st h
    generalize handleLstCode opt (ws.map .w) al st = st1 at i1 i2 j1
    simp only [handleOneCode]
    obtain ⟨h1, h2, cs, h3, h4, h5, he⟩ := handleW_spec opt y al [] st1.1 st1.2 j1.nodup
    refine ⟨fun z => ?_, ?_⟩
    · rw [h2, i1, List.mem_cons, not_or, and_assoc]
    · intro pre x post e hx hv ha z hz hzp
      cases pre with
      | nil =>
        simp only [List.nil_append, List.cons.injEq] at e
        obtain ⟨rfl, rfl⟩ := e
        have hy : y ∉ st1.1 := fun h => hx ((i1 y).1 h).2
        cases y with
        | arg k => simp [Reg.isVar] at hv
        | tmp m =>
          have hc := (h5 hy m rfl).2
          rw [constraints_all ha] at hc
          rcases hc z ((i1 z).2 ⟨hzp, hz⟩) with h | h
          · cases h
          · exact he.conf h
      | cons p pre =>
        simp only [List.cons_append, List.cons.injEq] at e
        exact (i2 pre x post e.2 hx hv ha z hz hzp).mono he.mono

/-! ### Aliases along the code -/

theorem aliases1_append (a b : List Code) (al : Alias) :
    aliases1 (a ++ b) al = aliases1 b (aliases1 a al) := by
  induction a generalizing al with
  | nil => rfl
  | cons c a ih => cases c <;> simp [aliases1, ih]

theorem aliases1_reads (rs : List Reg) (al : Alias) : aliases1 (rs.map .r) al = al := by
  induction rs with
  | nil => rfl
  | cons c a ih => simp [aliases1, ih]

theorem aliases1_writes (ws : List Reg) (al : Alias) (hn : al.flatten.Nodup) :
    (aliases1 (ws.map .w) al).flatten.Nodup ∧
    (∀ z ∈ (aliases1 (ws.map .w) al).flatten, z ∈ al.flatten) ∧
    ∀ {V : Type} (σ σ' : File V), AliasOk σ al → (∀ z, z ∉ ws → σ' z = σ z) →
      AliasOk σ' (aliases1 (ws.map .w) al) := by
  induction ws generalizing al with
  | nil =>
    refine ⟨hn, fun z h => h, ?_⟩
    intro V σ σ' h he
    have : σ' = σ := funext (fun z => he z (by simp))
    exact this ▸ h
  | cons x ws ih =>
    obtain ⟨r1, _, _⟩ := removeAliasesOf_spec (x := x) hn
    obtain ⟨i1, i2, i3⟩ := ih _ r1
    simp only [List.map_cons, aliases1]
    refine ⟨i1, fun z h => (removeAliasesOf_sub hn (i2 z h)).1, ?_⟩
    intro V σ σ' h he
    have h1 : AliasOk (fun z => if z = x then σ' x else σ z) (removeAliasesOf al x) :=
      removeAliasesOf_ok hn h (fun y hy => if_neg hy)
    refine i3 _ σ' h1 ?_
    intro z hz
    split
    next e => rw [e]
    next e => exact he z (by simp [e, hz])

/-- Aliases after an instruction (they do not matter when `opt` is not 2). -/
def aliasNext (opt : Nat) (i : WInst) (al : Alias) : Alias :=
  if aliasStop i = true ∨ opt ≠ 2 then [] else aliases1 (codif i) al

/-- An instruction copies no register into itself. -/
def NoSelf (opt : Nat) (i : WInst) : Prop :=
  opt = 2 → ∀ a b, copyOf i = some (a, b) → a ≠ b

theorem aliasNext_nodup {opt : Nat} {i : WInst} {al : Alias} (ha : NoAdr i) (hs : NoSelf opt i)
    (hn : al.flatten.Nodup) : (aliasNext opt i al).flatten.Nodup := by
  unfold aliasNext
  split
  · simp
  next hk =>
    have h2 : opt = 2 := by simp only [not_or, ne_eq, Decidable.not_not] at hk; exact hk.2
    rcases shape i ha with ⟨a, b, h, hc, _, _, _⟩ | ⟨pw, h, hc, _⟩
    · rw [hc]
      simp only [aliases1]
      obtain ⟨r1, r2, _⟩ := removeAliasesOf_spec (x := b) hn
      exact (addAlias_spec r1 r2 (hs h2 a b h)).1
    · rw [hc, aliases1_append, aliases1_reads]
      exact (aliases1_writes _ _ hn).1

/-- The aliased registers come from copies. -/
theorem aliasNext_from {opt : Nat} {i : WInst} {al : Alias} (ha : NoAdr i) (hs : NoSelf opt i)
    (hn : al.flatten.Nodup) {z : Reg} (hz : z ∈ (aliasNext opt i al).flatten) :
    z ∈ al.flatten ∨ ∃ a b, copyOf i = some (a, b) ∧ (z = a ∨ z = b) := by
  unfold aliasNext at hz
  split at hz
  · simp at hz
  next hk =>
    have h2 : opt = 2 := by simp only [not_or, ne_eq, Decidable.not_not] at hk; exact hk.2
    rcases shape i ha with ⟨a, b, h, hc, _, _, _⟩ | ⟨pw, h, hc, _⟩
    · rw [hc] at hz
      simp only [aliases1] at hz
      obtain ⟨r1, r2, _⟩ := removeAliasesOf_spec (x := b) hn
      rcases (addAlias_spec r1 r2 (hs h2 a b h)).2.1 z hz with h' | h'
      · exact .inl (removeAliasesOf_sub hn h').1
      · exact .inr ⟨a, b, h, h'⟩
    · rw [hc, aliases1_append, aliases1_reads] at hz
      exact .inl ((aliases1_writes _ _ hn).2.1 z hz)

theorem aliasNext_copy {V : Type} {opt : Nat} {i : WInst} {al : Alias} {a b : Reg} {σ : File V}
    (h : copyOf i = some (a, b)) (hc : codif i = [.c a b]) (hs : NoSelf opt i)
    (hn : al.flatten.Nodup) (ho : AliasOk σ al) :
    AliasOk (σ.set b (σ a)) (aliasNext opt i al) := by
  unfold aliasNext
  split
  · exact .nil _
  next hk =>
    have h2 : opt = 2 := by simp only [not_or, ne_eq, Decidable.not_not] at hk; exact hk.2
    rw [hc]
    simp only [aliases1]
    obtain ⟨r1, r2, _⟩ := removeAliasesOf_spec (x := b) hn
    have hab := hs h2 a b h
    refine addAlias_ok r1 r2 hab ?_ ?_
    · exact removeAliasesOf_ok hn ho (fun y hy => by simp [File.set, hy])
    · simp [File.set, hab]

theorem aliasNext_rw {V : Type} {opt : Nat} {i : WInst} {al : Alias} {ws : List Reg} {σ σ' : File V}
    (hc : codif i = (reads i).map .r ++ ws.map .w)
    (hn : al.flatten.Nodup) (ho : AliasOk σ al)
    (he : clobbers i = false → ∀ z, z ∉ ws → σ' z = σ z) :
    AliasOk σ' (aliasNext opt i al) := by
  unfold aliasNext
  split
  · exact .nil _
  next hk =>
    simp only [not_or, aliasStop_eq, Bool.not_eq_true] at hk
    rw [hc, aliases1_append, aliases1_reads]
    exact (aliases1_writes _ _ hn).2.2 σ σ' ho (he hk.1)

/-! ### Registers in life -/

/-- The list of aliases handed to the traversal. -/
def Als (opt : Nat) (p : List WInst) (al : Alias) (als : List Alias) : Prop :=
  als.length = p.length ∧ (opt = 2 → als = aliases p al)

theorem Als.cons {opt : Nat} {i : WInst} {p : List WInst} {al : Alias} {als : List Alias}
    (h : Als opt (i :: p) al als) :
    ∃ a as, als = a :: as ∧ (opt = 2 → a = al) ∧ Als opt p (aliasNext opt i al) as := by
  obtain ⟨h1, h2⟩ := h
  cases als with
  | nil => simp at h1
  | cons a as =>
    refine ⟨a, as, rfl, ?_, by simpa using h1, ?_⟩
    · intro e
      have := h2 e
      simp only [aliases, List.cons.injEq] at this
      exact this.1
    · intro e
      have := h2 e
      simp only [aliases, List.cons.injEq] at this
      rw [this.2]
      simp only [aliasNext, e]
      simp

theorem createLstTmp_inv (opt : Nat) (p : List WInst) (als : List Alias) :
    SInv (createLstTmp opt p als) := by
  induction p generalizing als with
  | nil =>
    refine ⟨?_, ⟨?_, ?_, ?_⟩, ?_, ?_⟩ <;>
      simp [createLstTmp, NodupKeys, Imp, WSym, Wsh]
  | cons i p ih =>
    cases als with
    | nil =>
      refine ⟨?_, ⟨?_, ?_, ?_⟩, ?_, ?_⟩ <;>
        simp [createLstTmp, NodupKeys, Imp, WSym, Wsh]
    | cons a as => exact (handleLstCode_inv opt _ a _ (ih as)).1

/-- Two registers in life at the entry of an instruction are recorded as incompatible, or have
    the same value. -/
theorem good {V : Type} (opt : Nat) (p : List WInst) (al : Alias) (als : List Alias)
    (hA : Als opt p al als) (ha : ∀ i ∈ p, NoAdr i) (hs : ∀ i ∈ p, NoSelf opt i)
    (hn : al.flatten.Nodup) (σ : File V) (ho : AliasOk σ al) :
    ∀ a ∈ (createLstTmp opt p als).1, ∀ b ∈ (createLstTmp opt p als).1, a ≠ b →
      Conf (createLstTmp opt p als).2 a b ∨ σ a = σ b := by
  induction p generalizing al als σ with
  | nil => intro a h; simp [createLstTmp] at h
  | cons i p ih =>
    obtain ⟨al0, as, rfl, h0, hA'⟩ := hA.cons
    have hai := ha i (List.mem_cons_self ..)
    have hsi := hs i (List.mem_cons_self ..)
    have ha' : ∀ i ∈ p, NoAdr i := fun j hj => ha j (List.mem_cons_of_mem _ hj)
    have hs' : ∀ i ∈ p, NoSelf opt i := fun j hj => hs j (List.mem_cons_of_mem _ hj)
    have ho0 : opt = 2 → AliasOk σ al0 := fun e => (h0 e).symm ▸ ho
    have hn' := aliasNext_nodup hai hsi hn
    have ih' := fun σ' ho' => ih _ as hA' ha' hs' hn' σ' ho'
    have inv := createLstTmp_inv opt p as
    simp only [createLstTmp]
    generalize createLstTmp opt p as = st at ih' inv
    rcases shape i hai with ⟨x, y, h, hc, _, _, _⟩ | ⟨pw, h, hc, _⟩
    · rw [hc]
      simp only [handleLstCode, handleOneCode]
      obtain ⟨w1, w2, cs, w3, w4, w5, we⟩ := handleW_spec opt y al0 [x] st.1 st.2 inv.nodup
      generalize handleW opt y al0 [x] st.1 st.2 = st1 at w1 w2 w5 we
      obtain ⟨r1, r2, cs', r3, r4, r5, re⟩ := handleR_spec opt x al0 [y] st1.1 st1.2 w1
      have old : ∀ a b, a ∈ st1.1 → b ∈ st1.1 → a ≠ b →
          Conf (handleR opt x al0 [y] st1.1 st1.2).2 a b ∨ σ a = σ b := by
        intro a b h1 h2 hab
        have h1' := (w2 a).1 h1
        have h2' := (w2 b).1 h2
        rcases ih' _ (aliasNext_copy h hc hsi hn ho) a h1'.2 b h2'.2 hab with h | h
        · exact .inl ((h.mono we.mono).mono re.mono)
        · refine .inr ?_
          simpa [File.set, h1'.1, h2'.1] using h
      have key : ∀ a b, a = x → b ∈ st1.1 → x ∉ st1.1 →
          Conf (handleR opt x al0 [y] st1.1 st1.2).2 a b ∨ σ a = σ b := by
        rintro a b rfl hb hx
        rcases constraints_out (x := a) ho0 hb with hc | hc
        · exact .inl (re.conf ((r5 hx).1 ▸ hc))
        · exact .inr hc.symm
      intro a h1 b h2 hab
      by_cases hx : x ∈ st1.1
      · have h1' : a ∈ st1.1 := by
          rcases (r2 a).1 h1 with e | h
          · exact e ▸ hx
          · exact h
        have h2' : b ∈ st1.1 := by
          rcases (r2 b).1 h2 with e | h
          · exact e ▸ hx
          · exact h
        exact old a b h1' h2' hab
      · rcases (r2 a).1 h1 with ea | h1
        · rcases (r2 b).1 h2 with eb | h2
          · exact absurd (ea.trans eb.symm) hab
          · exact key a b ea h2 hx
        · rcases (r2 b).1 h2 with eb | h2
          · rcases key b a eb h1 hx with h | h
            · exact .inl h.symm
            · exact .inr h.symm
          · exact old a b h1 h2 hab
    · rw [hc, handleLstCode_append]
      obtain ⟨w1, w2⟩ := handle_writes opt (pw ++ writes i) al0 st inv
      obtain ⟨v1, v2, _⟩ := handleLstCode_inv opt ((pw ++ writes i).map .w) al0 st inv
      generalize handleLstCode opt ((pw ++ writes i).map .w) al0 st = st1 at w1 w2 v1 v2
      obtain ⟨r1, r2⟩ := handle_reads (V := V) opt (reads i) al0 st1 v1
      obtain ⟨_, u2, _⟩ := handleLstCode_inv opt ((reads i).map .r) al0 st1 v1
      intro a h1 b h2 hab
      rcases r2 σ ho0 a h1 b h2 hab with ⟨h1', h2'⟩ | h | h
      · have hal : AliasOk σ (aliasNext opt i al) := aliasNext_rw hc hn ho (fun _ z _ => rfl)
        rcases ih' σ hal a ((w1 a).1 h1').2 b ((w1 b).1 h2').2 hab with h | h
        · exact .inl ((h.mono v2.imp).mono u2.imp)
        · exact .inr h
      · exact .inl h
      · exact .inr h

/-- The registers in life are those read before being set. -/
theorem inLife_cons {opt : Nat} {i : WInst} {p : List WInst} {al : Alias} {als : List Alias}
    (ha : NoAdr i) (z : Reg) :
    z ∈ (createLstTmp opt (i :: p) (al :: als)).1 ↔
      z ∈ reads i ∨ (z ∉ writes i ∧ z ∈ (createLstTmp opt p als).1) := by
  have inv := createLstTmp_inv opt p als
  simp only [createLstTmp]
  generalize createLstTmp opt p als = st at inv
  rcases shape i ha with ⟨x, y, h, hc, hr, hw, _⟩ | ⟨pw, h, hc, hp⟩
  · rw [hc, hr, hw]
    simp only [handleLstCode, handleOneCode]
    obtain ⟨w1, w2, _⟩ := handleW_spec opt y al [x] st.1 st.2 inv.nodup
    generalize handleW opt y al [x] st.1 st.2 = st1 at w1 w2
    obtain ⟨r1, r2, _⟩ := handleR_spec opt x al [y] st1.1 st1.2 w1
    rw [r2, w2]
    simp
  · rw [hc, handleLstCode_append]
    obtain ⟨w1, _⟩ := handle_writes opt (pw ++ writes i) al st inv
    obtain ⟨v1, _, _⟩ := handleLstCode_inv opt ((pw ++ writes i).map .w) al st inv
    generalize handleLstCode opt ((pw ++ writes i).map .w) al st = st1 at w1 v1
    obtain ⟨r1, _⟩ := handle_reads (V := Unit) opt (reads i) al st1 v1
    rw [r1, w1]
    simp only [List.mem_append, not_or]
    constructor
    · rintro (h | ⟨⟨_, h⟩, h'⟩)
      · exact .inl h
      · exact .inr ⟨h, h'⟩
    · rintro (h | ⟨h, h'⟩)
      · exact .inl h
      · by_cases hz : z ∈ pw
        · exact .inl (hp z hz)
        · exact .inr ⟨⟨hz, h⟩, h'⟩

end Gp.RegAlloc
