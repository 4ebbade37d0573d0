import Verif.Rw.Write
/-
The induction over terms: what the writer writes is parsed as the term.
-/
namespace Gp.Rw

open Gp.Quote

theorem tm_ind {P : Tm → Prop} (hv : ∀ s, P (.var s)) (hi : ∀ n, P (.int n)) (hf : ∀ b s, P (.flt b s))
    (ha : ∀ s, P (.atom s)) (hl : ∀ h t, P h → P t → P (.lst h t))
    (hs : ∀ f args, (∀ a ∈ args, P a) → P (.str f args)) : ∀ t, P t := by
  intro t
  refine Tm.rec (motive_1 := P) (motive_2 := fun as => ∀ a ∈ as, P a) hv hi hf ha hl hs ?_ ?_ t
  · intro a h; cases h
  · intro a as h1 h2 b hb
    rcases List.mem_cons.1 hb with rfl | hb
    · exact h1
    · exact h2 b hb

theorem TmsOk.mem {o : Opts} : ∀ {as : List Tm}, TmsOk o as → ∀ a ∈ as, TmOk o a
  | [], _, a, h => by cases h
  | b :: as, h, a, hm => by
    simp only [TmsOk] at h
    rcases List.mem_cons.1 hm with rfl | hm
    · exact h.1
    · exact TmsOk.mem h.2 a hm

theorem showVarTerm_none {l : Loc} {o : Opts} {f : Name} {args : List Tm}
    (h1 : o.numVars = true → f = dollarVar → ∀ n, args ≠ [.int n])
    (h2 : o.nameVars = true → f = dollarVarName → ∀ s, args ≠ [.atom s]) : showVarTerm l o f args = none := by
  unfold showVarTerm
  split
  · rw [if_neg]; rintro ⟨a, b⟩; exact h2 a b _ rfl
  · rw [if_neg]; rintro ⟨a, b, _⟩; exact h1 a b _ rfl
  · rfl

section
variable {l : Loc} {fl : Flags} {vo : Bool} {E : Env} {o : Opts}

theorem Wn.bar {A : List Act} {t : Tm} (h : WT l fl vo E A t 999 .general) :
    Wn l fl vo ([.chr 124] ++ A) (PTail E t) := by
  refine ((Wk.punct type_124 (by decide) (by decide)).wn.seq h.wn).mono ?_
  rintro ts ⟨t1, t2, rfl, rfl, h⟩
  exact PTail_bar h

theorem Wk.brackets {A : List Act} {t : Tm} {p p' : Nat} {ctx ctx' : Ctx} (h : WT l fl vo E A t p' ctx')
    (hp : p' ≤ 1200) : WT l fl vo E ([.chr 40] ++ A ++ [.chr 41]) t p ctx := by
  refine ((Wk.open.seq h.wn).seq (Wk.punct type_41 (by decide) (by decide)).wn).mono ?_
  rintro ts ⟨t1, t2, rfl, ⟨t3, t4, rfl, ⟨o, ho, rfl⟩, h4, _⟩, rfl, _⟩
  exact PS_brack ho h4 hp

theorem WT.showAtom (hl : l.Ok) {s : Name} (hs : Bytes s) (p : Nat) (ctx : Ctx) :
    WT l fl vo E (showAtomActs l E.O ctx s) (.atom s) p ctx := by
  unfold showAtomActs
  split
  · exact Wk.brackets (p' := 1200) (ctx' := .general) ((Wk.atom hl hs).mono (fun ts h => PS_atom E s ts h _ _ (Or.inl rfl)))
      (by decide)
  · rename_i h
    refine (Wk.atom hl hs).mono (fun ts ht => PS_atom E s ts ht _ _ ?_)
    by_cases hc : ctx = .general
    · exact Or.inl hc
    · right
      cases ha : E.O.any s with
      | false => rfl
      | true => exact absurd (by simp [hc, ha]) h

theorem WT.number {c : Nat} {s : List Nat} {t : Tm} {ts : List Tok} {p : Nat} {ctx : Ctx}
    (ht : TxtToks l fl vo (c :: s) (fun _ => ts) (numLast (c :: s))) (h0 : c ≠ 0) (hne : ts ≠ [])
    (ho : ts.head? ≠ some .openCt) (hn : numHead ts = true → charType l c = .DI) (hp : PS E t p ctx ts) :
    WT l fl vo E (showNumber (c :: s)) t p ctx := by
  refine (Wk.put (by simp [showNumber]) (fun w => ?_) ht h0 (fun h => ?_) (fun _ => hne) (fun _ h => absurd h ho)
    (fun _ h => ?_)).mono ?_
  · unfold showNumber numLast; rw [run_str_last]
  · simp [showNumber, digitFirst, h]
  · simp [showNumber, digitFirst, hn h]
  · rintro ts' ⟨b, rfl⟩; exact hp

theorem WT.int {n : Int} (hn : -2 ^ 60 ≤ n ∧ n ≤ 2 ^ 60 - 1) (p : Nat) (ctx : Ctx) :
    WT l fl vo E (showNumber (intText n)) (.int n) p ctx := by
  have hib : inBounds n = true := by simp [inBounds]; omega
  unfold intText
  by_cases h : n < 0
  · rw [if_pos h]
    have hps : PS E (.int n) p ctx [.name [45] false, .int n.natAbs] := by
      have := PS_negInt E (n.natAbs : Int) (by rw [show -(n.natAbs : Int) = n by omega]; exact hib) p ctx
      rw [show -(n.natAbs : Int) = n by omega] at this
      exact this
    exact WT.number (txt_negNat l fl vo n.natAbs (by omega) _ (by unfold numLast; rw [if_neg (by simp)]) (by omega))
      (by decide) (by simp) (by simp) (by simp [numHead]) hps
  · rw [if_neg h]
    obtain ⟨c, s, hcs, hc⟩ := natText_cons n.natAbs
    have ht := txt_nat l fl vo n.natAbs (by omega)
    rw [hcs] at ht ⊢
    have hps := PS_int E n hib p ctx
    rw [show (n.natAbs : Int) = n by omega] at ht
    exact WT.number ht (by omega) (by simp) (by simp) (fun _ => type_digit hc) hps

theorem FloatText.ne (s : List Nat) (h : FloatText s) : numLast s = .number ∧ numLast (45 :: s) = .number := by
  constructor
  · unfold numLast
    rw [if_neg]
    rintro rfl
    obtain ⟨ip, fp, ex, h1, h2, h3, _⟩ := h
    have := congrArg List.length h1
    cases ip with
    | nil => exact h2 rfl
    | cons a ip =>
      cases fp with
      | nil => exact h3 rfl
      | cons b fp => simp at this
  · unfold numLast; rw [if_neg (by simp)]

theorem WT.flt {neg : Bool} {s : List Nat} (h : FloatText s) (p : Nat) (ctx : Ctx) :
    WT l fl vo E (showNumber (if neg then 45 :: s else s)) (.flt neg s) p ctx := by
  obtain ⟨ht, c, s', hcs, hc⟩ := txt_float l fl vo s h
  have hk := FloatText.ne s h
  cases neg with
  | true =>
    rw [if_pos rfl]
    exact WT.number (by rw [hk.2]; exact txt_negFloat l fl vo s h) (by decide) (by simp) (by simp)
      (by simp [numHead]) (PS_negFlt E s p ctx)
  | false =>
    rw [if_neg (by simp)]
    have hps := PS_flt E s p ctx
    have hk1 := hk.1
    clear hk
    rw [← hk1] at ht
    clear hk1
    subst hcs
    exact WT.number ht (by omega) (by simp) (by simp) (fun _ => type_digit hc) hps

theorem WT.var {n : Nat} (p : Nat) (ctx : Ctx) :
    WT l fl vo E [.str (95 :: natText n), .last .ident] (.var (95 :: natText n)) p ctx := by
  refine (Wk.put (by simp) (fun w => run_str_last l w _ _) (txt_var l fl vo n) (by decide) (fun h => ?_)
    (fun _ => by simp) (fun _ h => by simp at h) (fun _ h => by simp [numHead] at h)).mono ?_
  · rw [type_95] at h; cases h
  · rintro ts ⟨b, rfl⟩; exact PS_var E _ p ctx

/-- What is to be shown of a term: it is written as itself, and as the rest of a list. -/
def Both (l : Loc) (fl : Flags) (vo : Bool) (E : Env) (o : Opts) (t : Tm) : Prop :=
  (∀ p ctx, WT l fl vo E (showT l o E.O false p ctx t) t p ctx) ∧
  Wn l fl vo (showT l o E.O true 999 .general t) (PTail E t)

theorem Wn.argsTl (as : List Tm) (h : ∀ a ∈ as, Both l fl vo E o a) :
    Wn l fl vo (showArgsTl l o E.O as)
      (fun ts => (as = [] ∧ ts = []) ∨ ∃ ts', ts = .name [44] false :: ts' ∧ PA E as ts') := by
  induction as with
  | nil =>
    rw [showArgsTl]
    exact Wn.nil.mono (fun ts h => Or.inl ⟨rfl, h⟩)
  | cons a as ih =>
    rw [showArgsTl]
    have h1 := ((h a (by simp)).1 999 .general).wn
    refine (((Wk.comma o).wn.seq h1).seq (ih (fun b hb => h b (by simp [hb])))).mono ?_
    rintro ts ⟨t1, t2, rfl, ⟨t3, t4, rfl, rfl, h4⟩, h2⟩
    right
    rcases h2 with ⟨rfl, rfl⟩ | ⟨ts', rfl, h2⟩
    · exact ⟨t4, by simp, PA_one h4⟩
    · exact ⟨t4 ++ .name [44] false :: ts', by simp, PA_cons h4 h2⟩

theorem Wn.args (as : List Tm) (hne : as ≠ []) (h : ∀ a ∈ as, Both l fl vo E o a) :
    Wn l fl vo (showArgs l o E.O as) (PA E as) := by
  cases as with
  | nil => exact absurd rfl hne
  | cons a as =>
    rw [showArgs]
    have h1 := ((h a (by simp)).1 999 .general).wn
    refine (h1.seq (Wn.argsTl as (fun b hb => h b (by simp [hb])))).mono ?_
    rintro ts ⟨t1, t2, rfl, h1, ⟨rfl, rfl⟩ | ⟨ts', rfl, h2⟩⟩
    · simpa using PA_one h1
    · exact PA_cons h1 h2

theorem WT.functional (hl : l.Ok) {f : Name} (hf : Bytes f) {as : List Tm} (hne : as ≠ [])
    (hlen : as.length ≤ 255) (hdot : ¬ (f = [46] ∧ as.length = 2)) (h : ∀ a ∈ as, Both l fl vo E o a) (p : Nat)
    (ctx : Ctx) : WT l fl vo E (functional l E.O f (showArgs l o E.O as)) (.str f as) p ctx := by
  unfold Gp.Rw.functional
  rw [showAtomActs_general]
  refine (((Wk.functor hl hf).seq (Wn.args as hne h)).seq (Wk.punct type_41 (by decide) (by decide)).wn).mono ?_
  rintro ts ⟨t1, t2, rfl, ⟨t3, t4, rfl, ⟨fs, hfs, rfl⟩, h4, _⟩, rfl, _⟩
  have hm : mkStruct f as = .str f as := by
    unfold mkStruct
    split
    · rename_i h46
      split
      · exact absurd ⟨h46, rfl⟩ hdot
      · rfl
    · rfl
  have := PS_fun (p := p) (ctx := ctx) hfs h4 hlen
  rw [hm] at this
  simpa using this

/-- An infix operator. -/
theorem Wn.infix (hl : l.Ok) (hO : E.O.Ok) {f : Name} (hf : Bytes f) {op : OpInf} (hop : E.O.inf f = some op) :
    Wn l fl vo (infixActs l o E.O f) (fun ts => ∃ t0, ts = [t0] ∧ InfTok f t0) := by
  unfold infixActs
  split
  · rename_i h; subst h
    refine (((Wn.optSpace o.spaceArgs).seq (Wk.punct type_124 (by decide) (by decide)).wn).seq
      (Wn.optSpace o.spaceArgs)).mono ?_
    rintro ts ⟨t1, t2, rfl, ⟨t3, t4, rfl, rfl, rfl⟩, rfl⟩
    exact ⟨_, rfl, .bar⟩
  · rename_i h124
    split
    · rename_i h; subst h
      exact (Wk.comma o).wn.mono (fun ts h => ⟨_, h, .comma⟩)
    · rename_i h44
      have hsp : ∀ (P : Prop) [Decidable P], Wn l fl vo (if P then [.space] else []) (· = []) := by
        intro P _
        have := Wn.optSpace (l := l) (fl := fl) (vo := vo) (decide P)
        unfold Gp.Rw.optSpace at this
        simpa using this
      rw [showAtomActs_general]
      refine (((hsp _).seq (Wk.atom hl hf).wn).seq (hsp _)).mono ?_
      rintro ts ⟨t1, t2, rfl, ⟨t3, t4, rfl, rfl, h4⟩, rfl⟩
      have hany : E.O.any f = true := by unfold Ops.any; rw [hop]; simp
      cases h4 with
      | nil => rw [hO.nil] at hany; cases hany
      | curly => rw [hO.curly] at hany; cases hany
      | name _ q h => exact ⟨.name f q, by simp, .name f q h124 h44⟩

theorem form_prefix {O : Ops} {f : Name} {a : Tm} {op : OpInf} (h : form o O f [a] = .prefix op) :
    O.pre f = some op := by
  unfold form at h
  split at h
  · cases h
  · dsimp only at h
    split at h
    · cases h
    · cases hp : O.pre f with
      | none =>
        rw [hp] at h
        cases hq : O.post f <;> rw [hq] at h <;> simp at h
      | some op' =>
        rw [hp] at h
        cases hq : O.post f with
        | none => rw [hq] at h; simpa using h
        | some op1 =>
          rw [hq] at h
          dsimp only at h
          split at h
          · cases h
          · simpa using h

theorem form_postfix {O : Ops} {f : Name} {a : Tm} {op : OpInf} (h : form o O f [a] = .postfix op) :
    O.post f = some op := by
  unfold form at h
  split at h
  · cases h
  · dsimp only at h
    split at h
    · cases h
    · cases hp : O.pre f with
      | none =>
        rw [hp] at h
        cases hq : O.post f <;> rw [hq] at h <;> simp at h
        rw [h]
      | some op' =>
        rw [hp] at h
        cases hq : O.post f with
        | none => rw [hq] at h; simp at h
        | some op1 =>
          rw [hq] at h
          dsimp only at h
          split at h
          · simpa using h
          · cases h

theorem form_curly {O : Ops} {f : Name} {a : Tm} (h : form o O f [a] = .curly) : f = [123, 125] := by
  unfold form at h
  split at h
  · cases h
  · dsimp only at h
    split at h
    · assumption
    · cases hp : O.pre f with
      | none =>
        rw [hp] at h
        cases hq : O.post f <;> rw [hq] at h <;> simp at h
      | some op' =>
        rw [hp] at h
        cases hq : O.post f with
        | none => rw [hq] at h; simp at h
        | some op1 =>
          rw [hq] at h
          dsimp only at h
          split at h <;> cases h

theorem form_infix {O : Ops} {f : Name} {a b : Tm} {op : OpInf} (h : form o O f [a, b] = .infix op) :
    O.inf f = some op := by
  unfold form at h
  split at h
  · cases h
  · dsimp only at h
    cases hp : O.inf f with
    | none => rw [hp] at h; simp at h
    | some op' => rw [hp] at h; simpa using h

theorem needBr_false {op : OpInf} {prec : Nat} {ctx : Ctx} (h : needBr op prec ctx = false) :
    op.prec ≤ prec ∧ (ctx = .leftAssoc → ¬ (op.prec = op.right ∧ op.prec = prec)) := by
  simp only [needBr, Bool.or_eq_false_iff, decide_eq_false_iff_not, Nat.not_lt, Bool.and_eq_false_iff,
    beq_eq_false_iff_ne] at h
  refine ⟨h.1, ?_⟩
  rintro hc ⟨h1, h2⟩
  rcases h.2 with (h | h) | h
  · exact h hc
  · exact h h1
  · exact h h2

theorem WT.prefix (hl : l.Ok) (hO : E.O.Ok) {f : Name} (hf : Bytes f) {op : OpInf}
    (hop : E.O.pre f = some op) {a : Tm} (ha : Both l fl vo E o a) (p : Nat) (ctx : Ctx) :
    WT l fl vo E ((if needBr op p ctx then [.chr 40] else []) ++
      [.push (if needBr op p ctx then 1 else 0)] ++ showAtomActs l E.O .general f ++ [.pfxAny] ++
      optSpace o.spaceArgs ++ (if f = [45] then [.minus] else []) ++ showT l o E.O false op.right .anyOp a ++
      [.close]) (.str f [a]) p ctx := by
  have h1200 := (hO.pre f op hop).2.1
  cases hb : needBr op p ctx with
  | false =>
    obtain ⟨h1, h2⟩ := needBr_false hb
    refine (Wk_prefix (o := o) hl hO hf hop h1 h2 (ha.1 op.right .anyOp) 0).mono ?_
    rintro ts ⟨ts', rfl, h⟩
    simpa using h
  | true =>
    have h := Wk_prefix (o := o) (p := op.prec) (ctx := .general) hl hO hf hop (Nat.le_refl _) (by simp)
      (ha.1 op.right .anyOp) 1
    have h2 := (Wk.open (l := l) (fl := fl) (vo := vo)).seq h.wn
    simp only [if_true, List.append_assoc] at h2 ⊢
    refine h2.mono ?_
    rintro ts ⟨t1, t2, rfl, ⟨o, ho, rfl⟩, ⟨ts', rfl, h⟩, _⟩
    have := PS_brack (p := p) (ctx := ctx) ho h h1200
    simpa using this

theorem WT.postfix (hl : l.Ok) (hO : E.O.Ok) {f : Name} (hf : Bytes f) {op : OpInf}
    (hop : E.O.post f = some op) {a : Tm} (ha : Both l fl vo E o a) (p : Nat) (ctx : Ctx) :
    WT l fl vo E ((if op.prec > p then [.chr 40] else []) ++
      showT l o E.O false op.left (leftCtx op) a ++ optSpace o.spaceArgs ++ showAtomActs l E.O .general f ++
      (if op.prec > p then [.chr 41] else [])) (.str f [a]) p ctx := by
  obtain ⟨h1, h1200, hlr⟩ := hO.post f op hop
  have hinf : E.O.inf f = none := by
    cases h : E.O.inf f with
    | none => rfl
    | some op' => have := hO.excl f op' h; rw [hop] at this; cases this
  have hany : E.O.any f = true := by unfold Ops.any; rw [hop]; simp
  have hf44 : f ≠ [44] := by intro h; subst h; rw [hO.comma.2.1] at hop; cases hop
  have core : ∀ p ctx, op.prec ≤ p → WT l fl vo E (showT l o E.O false op.left (leftCtx op) a ++
      optSpace o.spaceArgs ++ showAtomActs l E.O .general f) (.str f [a]) p ctx := by
    intro p ctx hp
    rw [showAtomActs_general]
    refine (((ha.1 op.left (leftCtx op)).seq (Wn.optSpace o.spaceArgs)).seq (Wk.atom hl hf).wn).mono ?_
    rintro ts ⟨t1, t2, rfl, ⟨t3, t4, rfl, h3, rfl, _⟩, h4, _⟩
    cases h4 with
    | nil => rw [hO.nil] at hany; cases hany
    | curly => rw [hO.curly] at hany; cases hany
    | name _ q h =>
      have := PS_postfix (q := q) (ctx := ctx) hop hinf (by omega) h1 hp hf44 h3
      simpa using this
  by_cases hp : op.prec > p
  · rw [if_pos hp, if_pos hp]
    have := Wk.brackets (p := p) (ctx := ctx) (core op.prec .general (Nat.le_refl _)) h1200
    simpa only [List.append_assoc] using this
  · rw [if_neg hp, if_neg hp]
    have := core p ctx (by omega)
    simpa using this

theorem WT.infix (hl : l.Ok) (hO : E.O.Ok) {f : Name} (hf : Bytes f) (hdot : f ≠ [46]) {op : OpInf}
    (hop : E.O.inf f = some op) {a b : Tm} (ha : Both l fl vo E o a) (hb : Both l fl vo E o b) (p : Nat) (ctx : Ctx) :
    WT l fl vo E ((if needBr op p ctx then [.chr 40] else []) ++
      showT l o E.O false op.left (leftCtx op) a ++ infixActs l o E.O f ++
      showT l o E.O false op.right .anyOp b ++ (if needBr op p ctx then [.chr 41] else [])) (.str f [a, b]) p ctx := by
  obtain ⟨h1, h1200, hlr⟩ := hO.inf f op hop
  have core : ∀ p ctx, op.prec ≤ p → (ctx = .leftAssoc → ¬ (op.prec = op.right ∧ op.prec = p)) →
      WT l fl vo E (showT l o E.O false op.left (leftCtx op) a ++ infixActs l o E.O f ++
        showT l o E.O false op.right .anyOp b) (.str f [a, b]) p ctx := by
    intro p ctx hp hc
    refine (((ha.1 op.left (leftCtx op)).seq (Wn.infix hl hO hf hop)).seq (hb.1 op.right .anyOp).wn).mono ?_
    rintro ts ⟨t1, t2, rfl, ⟨t3, t4, rfl, h3, ⟨t0, rfl, h0⟩, _⟩, h4, _⟩
    have := PS_infix (ctx := ctx) hO hop h0 hp hc hdot h3 h4
    simpa using this
  cases hn : needBr op p ctx with
  | true =>
    have := Wk.brackets (p := p) (ctx := ctx) (core op.prec .general (Nat.le_refl _) (by simp)) h1200
    simpa only [List.append_assoc, if_true] using this
  | false =>
    obtain ⟨h1, h2⟩ := needBr_false hn
    have := core p ctx h1 h2
    simpa using this

theorem form_ops {O : Ops} {f : Name} {as : List Tm} (h : form o O f as ≠ .functional) : o.ignoreOp = false := by
  cases hi : o.ignoreOp with
  | false => rfl
  | true => exact absurd (by unfold form; rw [if_pos hi]) h

/-- Every term. -/
theorem both (hl : l.Ok) (hO : o.ignoreOp = false → E.O.Ok) : ∀ t, TmOk o t → Both l fl vo E o t := by
  intro t
  induction t using tm_ind with
  | hv s =>
    intro h
    simp only [TmOk] at h
    obtain ⟨n, rfl⟩ := h
    refine ⟨fun p ctx => ?_, ?_⟩
    · rw [showT]; exact WT.var p ctx
    · rw [showT]; exact Wn.bar (WT.var _ _)
  | hi n =>
    intro h
    simp only [TmOk] at h
    refine ⟨fun p ctx => ?_, ?_⟩
    · rw [showT]; exact WT.int h p ctx
    · rw [showT]; exact Wn.bar (WT.int h _ _)
  | hf b s =>
    intro h
    simp only [TmOk] at h
    refine ⟨fun p ctx => ?_, ?_⟩
    · rw [showT]; exact WT.flt h p ctx
    · rw [showT]; exact Wn.bar (WT.flt h _ _)
  | ha s =>
    intro h
    simp only [TmOk] at h
    refine ⟨fun p ctx => ?_, ?_⟩
    · rw [showT, if_neg (by simp)]; exact WT.showAtom hl h p ctx
    · rw [showT]
      by_cases hs : s = [91, 93]
      · rw [if_pos ⟨rfl, hs⟩, hs]
        exact Wn.nil.mono (fun ts h => by rw [h]; exact PTail_nil E)
      · rw [if_neg (fun h => hs h.2)]
        exact Wn.bar (WT.showAtom hl h _ _)
  | hl h t ih1 ih2 =>
    intro hok
    simp only [TmOk] at hok
    have b1 := ih1 hok.1
    have b2 := ih2 hok.2
    refine ⟨fun p ctx => ?_, ?_⟩
    · rw [showT, if_neg (by simp)]
      split
      · have hd : Wk l fl vo [.str [39, 46, 39, 40]] (· = [.name [46] true, .openCt]) := by
          refine (Wk.put (by simp) (fun w => rfl) (txt_dot l hl fl vo) (by decide) (fun h => ?_) (fun _ => by simp)
            (fun _ h => by simp at h) (fun _ h => by simp [numHead] at h)).mono ?_
          · rw [type_39] at h; cases h
          · rintro ts ⟨b, rfl⟩; rfl
        refine ((((hd.seq (b1.1 999 .general).wn).seq (Wk.comma o).wn).seq (b2.1 999 .general).wn).seq
          (Wk.punct type_41 (by decide) (by decide)).wn).mono ?_
        rintro ts ⟨t1, t2, rfl, ⟨t3, t4, rfl, ⟨t5, t6, rfl, ⟨t7, t8, rfl, rfl, h8, _⟩, rfl, _⟩, h4, _⟩, rfl, _⟩
        have := PS_fun (p := p) (ctx := ctx) (AtomToks.name [46] true (by simp)) (PA_cons h8 (PA_one h4)) (by simp)
        simpa [mkStruct] using this
      · refine ((((Wk.punct type_91 (by decide) (by decide)).seq (b1.1 999 .general).wn).seq b2.2).seq
          (Wk.punct type_93 (by decide) (by decide)).wn).mono ?_
        rintro ts ⟨t1, t2, rfl, ⟨t3, t4, rfl, ⟨t5, t6, rfl, rfl, h6, _⟩, h4, _⟩, rfl, _⟩
        exact PS_list h6 h4
    · rw [showT, if_pos rfl]
      refine (((Wk.comma o).wn.seq (b1.1 999 .general).wn).seq b2.2).mono ?_
      rintro ts ⟨t1, t2, rfl, ⟨t3, t4, rfl, rfl, h4⟩, h2⟩
      exact PTail_cons h4 h2
  | hs f args ih =>
    intro hok
    simp only [TmOk] at hok
    obtain ⟨hf, hlen1, hlen2, hdot, hv1, hv2, hargs⟩ := hok
    have hb : ∀ a ∈ args, Both l fl vo E o a := fun a ha => ih a ha (hargs.mem a ha)
    have hvar := showVarTerm_none (l := l) hv1 hv2
    have main : ∀ p ctx, WT l fl vo E (showT l o E.O false p ctx (.str f args)) (.str f args) p ctx := by
      intro p ctx
      have hfun := WT.functional (E := E) (o := o) (fl := fl) (vo := vo) hl hf (as := args)
        (by intro h; rw [h] at hlen1; simp at hlen1) hlen2 hdot hb p ctx
      rw [showT.eq_def]
      dsimp only
      rw [hvar]
      dsimp only
      rw [show bar false = [] from rfl, List.nil_append]
      clear hvar hargs hv1 hv2 hlen1 hlen2 ih
      match args, hfun, hb, hdot with
      | [a], hfun, hb, _ =>
        have ha := hb a (by simp)
        dsimp only
        cases hform : form o E.O f [a] with
        | functional => exact hfun
        | «infix» op => exact hfun
        | curly =>
          have := form_curly hform
          subst this
          refine (((((Wk.punct type_123 (by decide) (by decide)).seq (Wn.optSpace o.spaceArgs)).seq
            (ha.1 1200 .general).wn).seq (Wn.optSpace o.spaceArgs)).seq
            (Wk.punct type_125 (by decide) (by decide)).wn).mono ?_
          rintro ts ⟨t1, t2, rfl, ⟨t3, t4, rfl, ⟨t5, t6, rfl, ⟨t7, t8, rfl, rfl, rfl, _⟩, h6, _⟩, rfl, _⟩, rfl, _⟩
          have := PS_curly (p := p) (ctx := ctx) h6 (Nat.le_refl _)
          simpa using this
        | «prefix» op => exact WT.prefix hl (hO (form_ops (by rw [hform]; simp))) hf (form_prefix hform) ha p ctx
        | «postfix» op => exact WT.postfix hl (hO (form_ops (by rw [hform]; simp))) hf (form_postfix hform) ha p ctx
      | [a, b], hfun, hb, hdot =>
        dsimp only
        cases hform : form o E.O f [a, b] with
        | functional => exact hfun
        | curly => exact hfun
        | «prefix» op => exact hfun
        | «postfix» op => exact hfun
        | «infix» op =>
          exact WT.infix hl (hO (form_ops (by rw [hform]; simp))) hf (fun h => hdot ⟨h, rfl⟩) (form_infix hform) (hb a (by simp)) (hb b (by simp)) p ctx
      | [], hfun, _, _ => exact hfun
      | _ :: _ :: _ :: _, hfun, _, _ => exact hfun
    refine ⟨main, ?_⟩
    have h := main 999 .general
    rw [showT.eq_def] at h ⊢
    dsimp only at h ⊢
    exact Wn.bar h

end

end Gp.Rw
