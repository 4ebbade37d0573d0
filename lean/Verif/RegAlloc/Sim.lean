/-
A separating assignment preserves the values read.
-/
import Verif.RegAlloc.Live

namespace Gp.RegAlloc

section
variable {f : Reg → Reg} (hf : ∀ k, f (.arg k) = .arg k)
include hf

theorem reads_map (i : WInst) : reads (i.map f) = (reads i).map f := by
  have hr : ∀ n, ((List.range n).map Reg.arg).map f = (List.range n).map Reg.arg := by
    intro n; simp [Function.comp_def, hf]
  have hc : ∀ args : List CArg,
      (args.map (CArg.map f)).flatMap CArg.reads = (args.flatMap CArg.reads).map f := by
    intro args
    induction args with
    | nil => rfl
    | cons a l ih => cases a <;> simp [CArg.map, CArg.reads, ih]
  cases i
  case call n => exact (hr n).symm
  case execute n => exact (hr n).symm
  case callC j u res args => exact hc args
  case getVariable v a => cases v <;> rfl
  case putValue v a => cases v <;> rfl
  case getValue v a => cases v <;> rfl
  case putVariable v a => cases v <;> rfl
  case mathLoadValue v a => cases v <;> rfl
  case mathFastLoadValue v a => cases v <;> rfl
  case unifyVariable v => cases v <;> rfl
  case unifyValue v => cases v <;> rfl
  case unifyLocalValue v => cases v <;> rfl
  case getCurrentChoice v => cases v <;> rfl
  case cut v => cases v <;> rfl
  case softCut v => cases v <;> rfl
  all_goals rfl

omit hf in
theorem writes_map (i : WInst) : writes (i.map f) = (writes i).map f := by
  have hc : ∀ args : List CArg,
      (args.map (CArg.map f)).flatMap CArg.writes = (args.flatMap CArg.writes).map f := by
    intro args
    induction args with
    | nil => rfl
    | cons a l ih => cases a <;> simp [CArg.map, CArg.writes, ih]
  cases i
  case callC j u res args =>
    simp only [WInst.map, writes, hc, List.map_append]
    cases res <;> rfl
  case getVariable v a => cases v <;> rfl
  case putValue v a => cases v <;> rfl
  case getValue v a => cases v <;> rfl
  case putVariable v a => cases v <;> rfl
  case mathLoadValue v a => cases v <;> rfl
  case mathFastLoadValue v a => cases v <;> rfl
  case unifyVariable v => cases v <;> rfl
  case unifyValue v => cases v <;> rfl
  case unifyLocalValue v => cases v <;> rfl
  case getCurrentChoice v => cases v <;> rfl
  case cut v => cases v <;> rfl
  case softCut v => cases v <;> rfl
  all_goals rfl

omit hf in
theorem copyOf_map (i : WInst) : copyOf (i.map f) = (copyOf i).map (fun p => (f p.1, f p.2)) := by
  cases i
  case getVariable v a => cases v <;> rfl
  case putValue v a => cases v <;> rfl
  all_goals rfl

omit hf in
theorem clobbers_map (i : WInst) : clobbers (i.map f) = clobbers i := by
  cases i <;> rfl

end

/-! ### Writing a list of registers -/

theorem sets_not {V : Type} (ρ : File V) (val : Nat → V) (ws : List Reg) (j : Nat) (r : Reg)
    (h : r ∉ ws) : ρ.sets val ws j r = ρ r := by
  induction ws generalizing ρ j with
  | nil => rfl
  | cons x ws ih =>
    simp only [List.mem_cons, not_or] at h
    simp only [File.sets]
    rw [ih _ _ h.2]
    simp [File.set, h.1]

/-- After the writes an assigned register holds what it held, or the value of the last register
    written among those assigned to it. -/
theorem sets_last {V : Type} (f : Reg → Reg) (ρ τ : File V) (val : Nat → V) (ws : List Reg)
    (j : Nat) (r : Reg) :
    ((∀ x ∈ ws, f x ≠ f r) ∧ τ.sets val (ws.map f) j (f r) = τ (f r)) ∨
    ∃ pre x post, ws = pre ++ x :: post ∧ f x = f r ∧ (∀ z ∈ post, f z ≠ f r) ∧
      τ.sets val (ws.map f) j (f r) = ρ.sets val ws j x := by
  induction ws generalizing ρ τ j with
  | nil => exact .inl ⟨by simp, rfl⟩
  | cons y ws ih =>
    simp only [List.map_cons, File.sets]
    rcases ih (ρ.set y (val j)) (τ.set (f y) (val j)) (j + 1) with ⟨h1, h2⟩ | h
    · by_cases hy : f y = f r
      · right
        refine ⟨[], y, ws, rfl, hy, h1, ?_⟩
        rw [h2, sets_not _ _ _ _ _ (fun hm => h1 y hm hy)]
        simp [File.set, hy]
      · left
        refine ⟨?_, ?_⟩
        · intro x hx
          rcases List.mem_cons.1 hx with rfl | hx
          · exact hy
          · exact h1 x hx
        · have hy' : f r ≠ f y := fun e => hy e.symm
          rw [h2]; simp [File.set, hy']
    · obtain ⟨pre, x, post, e, h1, h2, h3⟩ := h
      exact .inr ⟨y :: pre, x, post, by simp [e], h1, h2, h3⟩

/-! ### Liveness -/

theorem live_inLife {opt : Nat} {p : List WInst} {als : List Alias}
    (hl : als.length = p.length) (ha : ∀ i ∈ p, NoAdr i) {z : Reg} (h : Live z p) :
    z ∈ (createLstTmp opt p als).1 := by
  induction p generalizing als with
  | nil => exact h.elim
  | cons i p ih =>
    cases als with
    | nil => simp at hl
    | cons a as =>
      rw [inLife_cons (ha i (List.mem_cons_self ..))]
      rcases h with h | ⟨h1, _, h3⟩
      · exact .inl h
      · exact .inr ⟨h1, ih (by simpa using hl) (fun j hj => ha j (List.mem_cons_of_mem _ hj)) h3⟩

theorem inLife_def {opt : Nat} {p : List WInst} {als : List Alias} {d : Reg → Prop}
    (hl : als.length = p.length) (ha : ∀ i ∈ p, NoAdr i) (hd : WellDef d p) {z : Reg}
    (h : z ∈ (createLstTmp opt p als).1) : d z := by
  induction p generalizing als d with
  | nil => simp [createLstTmp] at h
  | cons i p ih =>
    cases als with
    | nil => simp at hl
    | cons a as =>
      rw [inLife_cons (ha i (List.mem_cons_self ..))] at h
      rcases h with h | ⟨h1, h2⟩
      · exact hd.1 z h
      · rcases ih (by simpa using hl) (fun j hj => ha j (List.mem_cons_of_mem _ hj)) hd.2 h2 with
          h | h
        · exact absurd h h1
        · exact h.2

/-- The assignment gives different registers to incompatible registers. -/
def Sep (lt : List Tmp) (s : Sub) : Prop :=
  ∀ x y, x ≠ y → Conf lt x y → ap s x ≠ ap s y

theorem Sep.mono {lt lt' : List Tmp} {s : Sub} (h : Sep lt' s)
    (hm : ∀ m y, Imp lt m y → Imp lt' m y) : Sep lt s :=
  fun x y hxy hc => h x y hxy (hc.mono hm)

/-- The main simulation. -/
theorem sim {V : Type} (opt : Nat) (s : Sub) (w w' : World V) (hv : w.val = w'.val)
    (all : List WInst) (hall : ∀ i ∈ all, NoAdr i) (hself : ∀ i ∈ all, NoSelf opt i)
    (hu : UselessWrites (opt == 2) all) :
    ∀ (p pre : List WInst) (al : Alias) (als : List Alias) (d : Reg → Prop) (σ τ : File V)
      (h : List (List V)),
      all = pre ++ p → Als opt p al als → al.flatten.Nodup → AliasOk σ al →
      (∀ z ∈ al.flatten, ∃ j ∈ pre, ∃ a b, copyOf j = some (a, b) ∧ (z = a ∨ z = b)) →
      WellDef d p → Sep (createLstTmp opt p als).2 s →
      (∀ r ∈ (createLstTmp opt p als).1, σ r = τ (ap s r)) →
      (execs w p (h, σ)).1 = (execs w' (p.map (WInst.map (ap s))) (h, τ)).1 := by
  intro p
  induction p with
  | nil => intros; rfl
  | cons i p ih =>
    intro pre al als d σ τ h hp hA hn ho hfrom hd hsep hL
    obtain ⟨al0, as, rfl, h0, hA'⟩ := hA.cons
    have hmem : i ∈ all := by rw [hp]; simp
    have hai := hall i hmem
    have hsi := hself i hmem
    have hpall : ∀ j ∈ p, NoAdr j := fun j hj => hall j (by rw [hp]; simp [hj])
    have hpself : ∀ j ∈ p, NoSelf opt j := fun j hj => hself j (by rw [hp]; simp [hj])
    have hn' : (aliasNext opt i al).flatten.Nodup := aliasNext_nodup hai hsi hn
    have hfrom' : ∀ z ∈ (aliasNext opt i al).flatten, ∃ j ∈ pre ++ [i], ∃ a b,
        copyOf j = some (a, b) ∧ (z = a ∨ z = b) := by
      intro z hz
      rcases aliasNext_from hai hsi hn hz with hz | ⟨a, b, h1, h2⟩
      · obtain ⟨j, hj, r⟩ := hfrom z hz
        exact ⟨j, by simp [hj], r⟩
      · exact ⟨i, by simp, a, b, h1, h2⟩
    -- the values read are the same
    have hrd : (reads i).map σ = (reads (i.map (ap s))).map τ := by
      rw [reads_map (ap_arg s), List.map_map]
      apply List.map_congr_left
      intro r hr
      exact hL r ((inLife_cons hai r).2 (.inl hr))
    -- a register set and not used later
    have hdead : ∀ x ∈ writes i, x ∉ (createLstTmp opt p as).1 →
        x.isVar = true ∧ (opt = 2 → x ∉ al0.flatten) := by
      intro x hx hnl
      obtain ⟨h1, h2⟩ := hu pre i p hp x hx (fun hl => hnl (live_inLife hA'.1 hpall hl))
      refine ⟨h1, fun e hm => ?_⟩
      rw [h0 e] at hm
      obtain ⟨j, hj, a, b, hc, hz⟩ := hfrom x hm
      have := h2 (by simp [e]) j hj a b hc
      rcases hz with hz | hz
      · exact this.1 hz
      · exact this.2 hz
    have inv := createLstTmp_inv opt p as
    simp only [execs, List.map_cons]
    have key : ∀ (σ' τ' : File V) (H : List (List V)), AliasOk σ' (aliasNext opt i al) →
        (∀ r ∈ (createLstTmp opt p as).1, σ' r = τ' (ap s r)) →
        (execs w p (H, σ')).1 = (execs w' (p.map (WInst.map (ap s))) (H, τ')).1 := by
      intro σ' τ' H ho' hL'
      have hg : ∀ m y, Imp (createLstTmp opt p as).2 m y →
          Imp (createLstTmp opt (i :: p) (al0 :: as)).2 m y :=
        (handleLstCode_inv opt (codif i) al0 _ inv).2.1.imp
      exact ih (pre ++ [i]) _ as _ σ' τ' H (by simp [hp]) hA' hn' ho' hfrom' hd.2
        (hsep.mono hg) hL'
    have hsepn : Sep (createLstTmp opt p as).2 s :=
      hsep.mono (handleLstCode_inv opt (codif i) al0 _ inv).2.1.imp
    have hgood := fun σ' ho' =>
      good (V := V) opt p _ as hA' hpall hpself hn' σ' ho'
    rcases shape i hai with ⟨a, b, hc, hcd, hr, hw, hk⟩ | ⟨pw, hc, hcd, hpw⟩
    · -- a copy
      have e1 : exec w i (h, σ) = ((reads i).map σ :: h, σ.set b (σ a)) := by
        simp [exec, hc]
      have e2 : exec w' (i.map (ap s)) (h, τ) =
          ((reads i).map σ :: h, τ.set (ap s b) (τ (ap s a))) := by
        simp [exec, copyOf_map, hc, ← hrd]
      rw [e1, e2]
      have ho' := aliasNext_copy (opt := opt) hc hcd hsi hn ho
      refine key _ _ _ ho' ?_
      have hva : σ a = τ (ap s a) := hL a ((inLife_cons hai a).2 (.inl (by simp [hr])))
      intro r hrl
      by_cases hrb : r = b
      · subst hrb; simp [File.set, hva]
      · by_cases hs : ap s r = ap s b
        · -- the register of `b` is shared
          have e3 : τ.set (ap s b) (τ (ap s a)) (ap s r) = σ a := by simp [File.set, hs, hva]
          rw [e3]
          by_cases hbl : b ∈ (createLstTmp opt p as).1
          · rcases hgood _ ho' r hrl b hbl hrb with hcf | he
            · exact absurd hs (hsepn r b hrb hcf)
            · rw [he]; simp [File.set]
          · obtain ⟨hbv, hba⟩ := hdead b (by simp [hw]) hbl
            have hcs : r = a ∨ Conf (createLstTmp opt (i :: p) (al0 :: as)).2 b r := by
              simp only [createLstTmp, hcd, handleLstCode, handleOneCode]
              obtain ⟨w1, w2, cs, w3, w4, w5, we⟩ := handleW_spec opt b al0 [a]
                (createLstTmp opt p as).1 (createLstTmp opt p as).2 inv.nodup
              obtain ⟨_, _, _, _, _, _, re⟩ := handleR_spec opt a al0 [b]
                (handleW opt b al0 [a] (createLstTmp opt p as).1 (createLstTmp opt p as).2).1
                (handleW opt b al0 [a] (createLstTmp opt p as).1 (createLstTmp opt p as).2).2 w1
              cases b with
              | arg k => simp [Reg.isVar] at hbv
              | tmp m =>
                have h5 := (w5 hbl m rfl).2
                rw [constraints_all hba] at h5
                rcases h5 r hrl with h5 | h5
                · exact .inl (by simpa using h5)
                · exact .inr ((we.conf h5).mono re.mono)
            rcases hcs with rfl | hcf
            · simp [File.set, hrb]
            · exact absurd hs.symm (hsep b r (fun e => hrb e.symm) hcf)
        · have : σ r = τ (ap s r) :=
            hL r ((inLife_cons hai r).2 (.inr ⟨by simp [hw, hrb], hrl⟩))
          simp [File.set, hrb, hs, this]
    · -- reads, then writes
      have e1 : exec w i (h, σ) = ((reads i).map σ :: h,
          (if clobbers i then w.left ((reads i).map σ :: h) else σ).sets
            (w.val ((reads i).map σ :: h)) (writes i) 0) := by
        simp [exec, hc]
      have e2 : exec w' (i.map (ap s)) (h, τ) = ((reads i).map σ :: h,
          (if clobbers i then w'.left ((reads i).map σ :: h) else τ).sets
            (w.val ((reads i).map σ :: h)) ((writes i).map (ap s)) 0) := by
        simp [exec, copyOf_map, hc, ← hrd, writes_map, clobbers_map, hv]
      rw [e1, e2]
      generalize ((reads i).map σ :: h) = H
      have ho' : AliasOk ((if clobbers i then w.left H else σ).sets (w.val H) (writes i) 0)
          (aliasNext opt i al) := by
        refine aliasNext_rw hcd hn ho ?_
        intro hk z hz
        simp only [List.mem_append, not_or] at hz
        rw [sets_not _ _ _ _ _ hz.2, hk]
        rfl
      refine key _ _ _ ho' ?_
      intro r hrl
      rcases sets_last (ap s) (if clobbers i then w.left H else σ)
          (if clobbers i then w'.left H else τ) (w.val H) (writes i) 0 r with ⟨h1, h2⟩ | h2
      · have hrw : r ∉ writes i := fun hm => h1 r hm rfl
        rw [h2, sets_not _ _ _ _ _ hrw]
        rcases inLife_def hA'.1 hpall hd.2 hrl with h' | ⟨hk, _⟩
        · exact absurd h' hrw
        · rw [hk]
          exact hL r ((inLife_cons hai r).2 (.inr ⟨hrw, hrl⟩))
      · obtain ⟨pr, x, post, he, hx, hpost, hval⟩ := h2
        rw [hval]
        by_cases hxr : r = x
        · rw [hxr]
        · by_cases hxl : x ∈ (createLstTmp opt p as).1
          · rcases hgood _ ho' r hrl x hxl hxr with hcf | he'
            · exact absurd hx.symm (hsepn r x hxr hcf)
            · exact he'
          · obtain ⟨hxv, hxa⟩ := hdead x (by rw [he]; simp) hxl
            have hrp : r ∉ post := fun hm => hpost r hm rfl
            obtain ⟨_, w2⟩ := handle_writes opt (pw ++ writes i) al0 (createLstTmp opt p as) inv
            obtain ⟨v1, _, _⟩ := handleLstCode_inv opt ((pw ++ writes i).map .w) al0
              (createLstTmp opt p as) inv
            have hcf := w2 (pw ++ pr) x post (by rw [he]; simp) hxl hxv hxa r hrl hrp
            have hg := (handleLstCode_inv opt ((reads i).map .r) al0 _ v1).2.1.imp
            have hcf' : Conf (createLstTmp opt (i :: p) (al0 :: as)).2 x r := by
              simp only [createLstTmp, hcd, handleLstCode_append]
              exact hcf.mono hg
            exact absurd hx (hsep x r (fun e => hxr e.symm) hcf')

end Gp.RegAlloc
