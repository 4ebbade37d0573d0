import Verif.Rw.Lex
/-
The writer: the tokens of the text written for a term are parsed as the term.
-/
namespace Gp.Rw

open Gp.Quote

/-- The first thing written is a text starting with a digit. -/
def digitFirst (l : Loc) : List Act → Bool
  | .str (c :: _) :: _ => charType l c == .DI
  | _ => false

/-- A piece of writing which may start an operand: from any state where it does not start with a digit after
the prefix operator `-`, it writes tokens satisfying `Q`. -/
def Wk (l : Loc) (fl : Flags) (vo : Bool) (acts : List Act) (Q : List Tok → Prop) : Prop :=
  acts ≠ [] ∧ ∀ w its, Lexed l fl vo w its → (w.pfx = .minus → digitFirst l acts = false) →
    ∃ ts, Q ts ∧ Lexed l fl vo (run l w acts) (its ++ ts) ∧ (run l w acts).pfx = .no ∧
      (run l w acts).brs = w.brs ∧ (w.pfx ≠ .no → ts.head? ≠ some .openCt) ∧
      (numHead ts = true → digitFirst l acts = true) ∧ ts ≠ []

/-- A piece of writing which does not start an operand. -/
def Wn (l : Loc) (fl : Flags) (vo : Bool) (acts : List Act) (Q : List Tok → Prop) : Prop :=
  ∀ w its, Lexed l fl vo w its → w.pfx = .no →
    ∃ ts, Q ts ∧ Lexed l fl vo (run l w acts) (its ++ ts) ∧ (run l w acts).pfx = .no ∧
      (run l w acts).brs = w.brs

section
variable {l : Loc} {fl : Flags} {vo : Bool} {A B : List Act} {Q R : List Tok → Prop}

theorem Wk.wn (h : Wk l fl vo A Q) : Wn l fl vo A Q := by
  intro w its hl hp
  obtain ⟨ts, h1, h2, h3, h4, _⟩ := h.2 w its hl (by rw [hp]; simp)
  exact ⟨ts, h1, h2, h3, h4⟩

theorem Wk.mono (h : Wk l fl vo A Q) (hq : ∀ ts, Q ts → R ts) : Wk l fl vo A R := by
  refine ⟨h.1, fun w its hl hp => ?_⟩
  obtain ⟨ts, h1, h2⟩ := h.2 w its hl hp
  exact ⟨ts, hq ts h1, h2⟩

theorem Wn.mono (h : Wn l fl vo A Q) (hq : ∀ ts, Q ts → R ts) : Wn l fl vo A R := by
  intro w its hl hp
  obtain ⟨ts, h1, h2⟩ := h w its hl hp
  exact ⟨ts, hq ts h1, h2⟩

theorem Wn.nil : Wn l fl vo [] (· = []) := fun w its hl hp => ⟨[], rfl, by simpa [run] using hl, hp, rfl⟩

theorem Wn.seq (h1 : Wn l fl vo A Q) (h2 : Wn l fl vo B R) :
    Wn l fl vo (A ++ B) (fun ts => ∃ t1 t2, ts = t1 ++ t2 ∧ Q t1 ∧ R t2) := by
  intro w its hl hp
  obtain ⟨t1, q1, l1, p1, b1⟩ := h1 w its hl hp
  obtain ⟨t2, q2, l2, p2, b2⟩ := h2 _ _ l1 p1
  rw [run_append]
  exact ⟨t1 ++ t2, ⟨t1, t2, rfl, q1, q2⟩, by rw [← List.append_assoc]; exact l2, p2, by rw [b2, b1]⟩

theorem digitFirst_append (h : A ≠ []) : digitFirst l (A ++ B) = digitFirst l A := by
  cases A with
  | nil => exact absurd rfl h
  | cons a A =>
    cases a with
    | str s => cases s <;> rfl
    | _ => rfl

theorem Wk.seq (h1 : Wk l fl vo A Q) (h2 : Wn l fl vo B R) :
    Wk l fl vo (A ++ B) (fun ts => ∃ t1 t2, ts = t1 ++ t2 ∧ Q t1 ∧ R t2 ∧ t1 ≠ []) := by
  refine ⟨by simp [h1.1], fun w its hl hp => ?_⟩
  rw [digitFirst_append h1.1] at hp ⊢
  obtain ⟨t1, q1, l1, p1, b1, o1, n1, ne1⟩ := h1.2 w its hl hp
  obtain ⟨t2, q2, l2, p2, b2⟩ := h2 _ _ l1 p1
  rw [run_append]
  refine ⟨t1 ++ t2, ⟨t1, t2, rfl, q1, q2, ne1⟩, by rw [← List.append_assoc]; exact l2, p2, by rw [b2, b1], ?_, ?_,
    by simp [ne1]⟩
  · cases t1 with
    | nil => exact absurd rfl ne1
    | cons x t1 => simpa using o1
  · cases t1 with
    | nil => exact absurd rfl ne1
    | cons x t1 =>
      intro h
      apply n1
      cases x <;> simp_all [numHead]

/-- A text. -/
theorem Wk.put {c : Nat} {s : List Nat} {ts : Bool → List Tok} {k : LW} (hA : A ≠ [])
    (hrun : ∀ w, run l w A = put l w (c :: s) k) (ht : TxtToks l fl vo (c :: s) ts k) (h0 : c ≠ 0)
    (hd : charType l c = .DI → digitFirst l A = true) (hne : ∀ b, ts b ≠ [])
    (hop : ∀ b, (ts b).head? = some .openCt → c = 40 ∧ b = false)
    (hnum : ∀ b, numHead (ts b) = true → digitFirst l A = true) :
    Wk l fl vo A (fun x => ∃ b, x = ts b) := by
  refine ⟨hA, fun w its hl hp => ?_⟩
  obtain ⟨lay, h1, h2, h3, h4, h5, h6, h7⟩ := put_lexed hl ht h0 (by
    intro hm hdi
    rw [hp hm] at hd
    exact absurd (hd hdi) (by simp))
  rw [hrun]
  refine ⟨ts lay, ⟨lay, rfl⟩, h1, h2, h3, ?_, hnum lay, hne lay⟩
  intro hpx ho
  obtain ⟨h40, hlay⟩ := hop lay ho
  rw [h6 h40 hpx] at hlay
  cases hlay

theorem Wk.chr {c : Nat} {ts : Bool → List Tok} (ht : TxtToks l fl vo [c] ts .nothing) (h0 : c ≠ 0)
    (hd : charType l c ≠ .DI) (hne : ∀ b, ts b ≠ [])
    (hop : ∀ b, (ts b).head? = some .openCt → c = 40 ∧ b = false) (hnum : ∀ b, numHead (ts b) = false) :
    Wk l fl vo [.chr c] (fun x => ∃ b, x = ts b) :=
  Wk.put (by simp) (fun w => rfl) ht h0 (fun h => absurd h hd) hne hop
    (fun b h => by rw [hnum b] at h; cases h)

theorem Wk.open : Wk l fl vo [.chr 40] (fun x => ∃ o, IsOpen o ∧ x = [o]) := by
  refine (Wk.chr (txt_open l fl vo) (by decide) (by rw [type_40]; simp) (by simp) ?_ ?_).mono ?_
  · intro b h; cases b <;> simp at h ⊢
  · intro b; cases b <;> rfl
  · rintro ts ⟨b, rfl⟩
    cases b
    · exact ⟨_, Or.inl rfl, rfl⟩
    · exact ⟨_, Or.inr rfl, rfl⟩

theorem Wk.punct {c : Nat} (hc : charType l c = .PC) (h40 : c ≠ 40) (h0 : c ≠ 0) :
    Wk l fl vo [.chr c] (· = [.punct c]) := by
  refine (Wk.chr (txt_punct l fl vo c hc h40) h0 (by rw [hc]; simp) (by simp) ?_ ?_).mono ?_
  · intro b h; simp at h
  · intro b; rfl
  · rintro ts ⟨b, rfl⟩; rfl

theorem Wn.optSpace (b : Bool) : Wn l fl vo (optSpace b) (· = []) := by
  cases b with
  | false => exact Wn.nil
  | true =>
    intro w its hl hp
    exact ⟨[], rfl, by simpa [run, Gp.Rw.optSpace, act] using outSpace_lexed hl, hp, rfl⟩

theorem Wk.comma (o : Opts) : Wk l fl vo (showComma o) (· = [.name [44] false]) := by
  have h : Wk l fl vo [.chr 44] (· = [.name [44] false]) := by
    refine (Wk.chr (txt_comma l fl vo) (by decide) (by rw [type_44]; simp) (by simp) ?_ ?_).mono ?_
    · intro b h; simp at h
    · intro b; rfl
    · rintro ts ⟨b, rfl⟩; rfl
  refine (h.seq (Wn.optSpace o.spaceArgs)).mono ?_
  rintro ts ⟨t1, t2, rfl, rfl, rfl, _⟩
  rfl

theorem showAtom_notDigit (l : Loc) (s : Name) (c : Nat) (t : List Nat)
    (h : showAtom l s = c :: t) : charType l c ≠ .DI ∧ c ≠ 40 := by
  cases hq : (atomProp l s).2 with
  | true =>
    have : showAtom l s = 39 :: ((if needsScan l s then s.flatMap (showChar l) else s) ++ [39]) := by
      unfold showAtom; rw [hq]; simp
    rw [this] at h
    simp only [List.cons.injEq] at h
    rw [← h.1, type_39]; simp
  | false =>
    have : showAtom l s = s := by unfold showAtom; rw [hq]; simp
    rw [this] at h
    subst h
    have hne : ∀ {t : CT}, charType l c = t → t ≠ .PC → c ≠ 40 := by
      intro t ht hp h40; subst h40; rw [type_40] at ht; exact hp ht.symm
    rcases atomProp_cases l _ hq with h' | ⟨h', _⟩ | ⟨d, hd, hc, h44⟩ | h' | h'
    · simp only [isIdent, Bool.and_eq_true, beq_iff_eq] at h'
      exact ⟨by rw [h'.2]; simp, hne h'.2 (by simp)⟩
    · simp only [isGraphic, List.all_cons, Bool.and_eq_true, beq_iff_eq] at h'
      exact ⟨by rw [h'.2.1]; simp, hne h'.2.1 (by simp)⟩
    · simp only [List.cons.injEq] at hd
      rw [← hd.1] at hc
      exact ⟨by rw [hc]; simp, hne hc (by simp)⟩
    · simp only [List.cons.injEq] at h'
      rw [h'.1, type_91]; simp
    · simp only [List.cons.injEq] at h'
      rw [h'.1, type_123]; simp

theorem AtomToks.head {s : Name} {ts : List Tok} (h : AtomToks s ts) :
    ts ≠ [] ∧ ts.head? ≠ some .openCt ∧ numHead ts = false := by
  cases h <;> simp [numHead]

theorem atomActs_ne (l : Loc) (s : Name) : atomActs l true s ≠ [] := by
  unfold atomActs; split <;> simp

/-- An atom. -/
theorem Wk.atom (hl : l.Ok) {s : Name} (hs : Bytes s) : Wk l fl vo (atomActs l true s) (AtomToks s) := by
  obtain ⟨ts, h1, h2⟩ := txt_atom l hl fl vo s hs
  obtain ⟨c, t, hct, h0⟩ := showAtom_cons l s hs
  have hr := fun w => run_atomActs l w s
  obtain ⟨hd, h40⟩ := showAtom_notDigit l s c t hct
  rw [hct] at h2
  simp only [hct] at hr
  refine (Wk.put (atomActs_ne l s) hr h2 h0 (fun h => absurd h hd) (fun _ => h1.head.1)
    (fun _ h => absurd h h1.head.2.1) (fun _ h => by rw [h1.head.2.2] at h; cases h)).mono ?_
  rintro ts' ⟨b, rfl⟩
  exact h1

theorem showAtomActs_general (l : Loc) (O : Ops) (s : Name) : showAtomActs l O .general s = atomActs l true s := by
  unfold showAtomActs; rw [if_neg (by simp)]

end

/-- `f(`: the parenthesis follows the name immediately. -/
theorem Wk.functor {l : Loc} {fl : Flags} {vo : Bool} (hl : l.Ok) {s : Name} (hs : Bytes s) :
    Wk l fl vo (atomActs l true s ++ [.chr 40]) (fun x => ∃ fs, AtomToks s fs ∧ x = fs ++ [.openCt]) := by
  have h := Wk.atom (fl := fl) (vo := vo) hl hs
  refine ⟨by simp, fun w its hlx hp => ?_⟩
  rw [digitFirst_append h.1] at hp ⊢
  obtain ⟨ts, h1, h2, h3, h4, h5, h6, h7⟩ := h.2 w its hlx hp
  have hsp : (run l w (atomActs l true s)).sp = false := by rw [run_atomActs]; rfl
  obtain ⟨lay, k1, k2, k3, k4, k5, k6, k7⟩ := put_lexed h2 (txt_open l fl vo) (by decide)
    (by rw [h3]; simp)
  rw [k7 rfl h3 hsp] at k1
  rw [run_append]
  refine ⟨ts ++ [.openCt], ⟨ts, h1, rfl⟩, by rw [← List.append_assoc]; exact k1, k2, k3.trans h4, ?_, ?_, by simp⟩
  · intro _
    cases ts with
    | nil => exact absurd rfl h7
    | cons x ts => simpa using h1.head.2.1
  · intro hn
    cases ts with
    | nil => exact absurd rfl h7
    | cons x ts =>
      have := h1.head.2.2
      cases x <;> simp_all [numHead]

/-! ## Terms -/

mutual
/-- The terms for which the round trip is claimed: variables have a name of the form the writer gives, integers
are in range, floats are finite, atoms are byte strings without NUL, a structure has at least one and at most 255
arguments and is not a `'.'/2` structure (which the system represents as a list), and the terms the options
number_vars and name_vars write as variables do not occur. -/
def TmOk (o : Opts) : Tm → Prop
  | .var s => ∃ n, s = 95 :: natText n
  | .int n => -2 ^ 60 ≤ n ∧ n ≤ 2 ^ 60 - 1
  | .flt _ s => FloatText s
  | .atom s => Bytes s
  | .lst h t => TmOk o h ∧ TmOk o t
  | .str f args => Bytes f ∧ 1 ≤ args.length ∧ args.length ≤ 255 ∧ ¬ (f = [46] ∧ args.length = 2) ∧
    (o.numVars = true → f = dollarVar → ∀ n, args ≠ [.int n]) ∧
    (o.nameVars = true → f = dollarVarName → ∀ s, args ≠ [.atom s]) ∧ TmsOk o args
/-- `TmOk` for a list of terms. -/
def TmsOk (o : Opts) : List Tm → Prop
  | [] => True
  | a :: as => TmOk o a ∧ TmsOk o as
end

/-- The writing of a term. -/
def WT (l : Loc) (fl : Flags) (vo : Bool) (E : Env) (acts : List Act) (t : Tm) (p : Nat) (ctx : Ctx) : Prop :=
  Wk l fl vo acts (PS E t p ctx)

theorem closeN_lexed {l : Loc} {fl : Flags} {vo : Bool} (n : Nat) : ∀ (w : W) (its : List Tok),
    Lexed l fl vo w its → w.pfx = .no →
    Lexed l fl vo (closeN l n w) (its ++ List.replicate n (.punct 41)) ∧ (closeN l n w).pfx = .no ∧
      (closeN l n w).brs = w.brs := by
  induction n with
  | zero => intro w its h hp; exact ⟨by simpa [closeN] using h, hp, rfl⟩
  | succ n ih =>
    intro w its h hp
    have h1 : Wn l fl vo [.chr 41] (· = [.punct 41]) := (Wk.punct type_41 (by decide) (by decide)).wn
    obtain ⟨ts, rfl, h2, h3, h4⟩ := h1 w its h hp
    obtain ⟨k1, k2, k3⟩ := ih _ _ h2 h3
    refine ⟨?_, k2, k3.trans h4⟩
    rw [List.replicate_succ, ← List.singleton_append, ← List.append_assoc]
    exact k1

theorem modify_last (L : List Nat) (b : Nat) : (L ++ [b]).modify ((L ++ [b]).length - 1) (· + 1) = L ++ [b + 1] := by
  have : (L ++ [b]).length - 1 = L.length := by simp
  rw [this]
  induction L with
  | nil => rfl
  | cons a L ih =>
    simp only [List.cons_append, List.length_cons, List.modify_succ_cons]
    rw [ih (by simp)]

theorem lexed_congr {l : Loc} {fl : Flags} {vo : Bool} {w v : W} {its : List Tok} (h : Lexed l fl vo w its)
    (h1 : v.out = w.out) (h2 : v.sp = w.sp) (h3 : v.last = w.last) : Lexed l fl vo v its := by
  unfold Lexed at h ⊢
  rw [h1, h2, h3]; exact h

/-- After the prefix operator `-`, a number gets a bracket. -/
theorem run_minus_digit {l : Loc} {fl : Flags} {vo : Bool} {acts : List Act} {w : W} {its : List Tok}
    (h : Lexed l fl vo w its) (hd : digitFirst l acts = true) (hm : w.pfx = .minus)
    (hlast : w.last = .graphic ∨ w.last = .nothing) :
    ∃ v, run l w acts = run l v acts ∧ Lexed l fl vo v (its ++ [.punct 40]) ∧ v.pfx = .no ∧
      v.brs = w.brs.modify w.p (· + 1) := by
  cases acts with
  | nil => simp [digitFirst] at hd
  | cons a acts =>
    cases a with
    | str s =>
      cases s with
      | nil => simp [digitFirst] at hd
      | cons c s =>
        simp only [digitFirst, beq_iff_eq] at hd
        have h1 : Lexed l fl vo { outSpace { w with brs := w.brs.modify w.p (· + 1) } with pfx := .any } its :=
          lexed_congr (outSpace_lexed (lexed_congr h rfl rfl rfl : Lexed l fl vo
            { w with brs := w.brs.modify w.p (· + 1) } its)) rfl rfl rfl
        obtain ⟨lay, k1, k2, k3, k4, k5, k6, k7⟩ := put_lexed h1 (txt_open l fl vo) (by decide) (by simp)
        rw [k6 rfl (by simp)] at k1
        refine ⟨_, ?_, k1, k2, k3⟩
        rw [run_cons, run_cons]
        congr 1
        have hns : needSpace l w.last c = false := by
          rcases hlast with h | h <;> rw [h] <;> simp [needSpace, hd]
        have h40 : c ≠ 40 := by intro h; subst h; rw [type_40] at hd; cases hd
        simp only [act, outString, List.headD_cons]
        rw [act_quiet k2 k5]
        have he : emit l w c = put l { outSpace { w with brs := w.brs.modify w.p (· + 1) } with pfx := .any }
            [40] .nothing := by
          unfold emit
          rw [if_neg (by simp [hns, h40]), if_pos (by simp [hd, hm])]
          simp only [put, List.headD_cons, emit]
          simp [outSpace]
        rw [he]
    | _ => simp [digitFirst] at hd

/-- A prefix operator and its operand, without the brackets around. -/
theorem Wk_prefix {l : Loc} {fl : Flags} {vo : Bool} {E : Env} (hl : l.Ok) (hO : E.O.Ok) {o : Opts} {f : Name}
    (hf : Bytes f) {op : OpInf} (hop : E.O.pre f = some op) {a : Tm} {acts : List Act} {p : Nat} {ctx : Ctx}
    (hp : op.prec ≤ p) (hb : ctx = .leftAssoc → ¬ (op.prec = op.right ∧ op.prec = p))
    (ha : WT l fl vo E acts a op.right .anyOp) (b : Nat) :
    Wk l fl vo ([.push b] ++ showAtomActs l E.O .general f ++ [.pfxAny] ++ optSpace o.spaceArgs ++
        (if f = [45] then [.minus] else []) ++ acts ++ [.close])
      (fun ts => ∃ ts', ts = ts' ++ List.replicate b (.punct 41) ∧ PS E (.str f [a]) p ctx ts') := by
  obtain ⟨hpr1, hpr2, hpr3⟩ := hO.pre f op hop
  have hany : E.O.any f = true := by unfold Ops.any; rw [hop]; rfl
  have hbr : ¬ brackets f := by
    rintro (rfl | rfl)
    · rw [hO.nil] at hany; cases hany
    · rw [hO.curly] at hany; cases hany
  have hf44 : f ≠ [44] := by intro h; subst h; rw [hO.comma.1] at hop; cases hop
  refine ⟨by simp, fun w its hlx _ => ?_⟩
  rw [showAtomActs_general]
  -- the name of the operator
  obtain ⟨c, t, hct, h0⟩ := showAtom_cons l f hf
  obtain ⟨hnd, hn40⟩ := showAtom_notDigit l f c t hct
  have htx := txt_name l hl fl vo f hf hbr
  rw [hct] at htx
  have hx1 : Lexed l fl vo { w with brs := w.brs ++ [b] } its := lexed_congr hlx rfl rfl rfl
  obtain ⟨lay, k1, k2, k3, k4, k5, _, _⟩ := put_lexed hx1 htx h0 (fun _ => hnd)
  have hrun1 : ∀ v : W, run l v (atomActs l true f) = put l v (c :: t) (atomLast l f) := by
    intro v; rw [run_atomActs, hct]
  generalize hw2 : put l { w with brs := w.brs ++ [b] } (c :: t) (atomLast l f) = w2 at k1 k2 k3 k4 k5
  -- up to the operand
  obtain ⟨w4, hw4, l4, p4, b4, s4⟩ : ∃ w4 : W, run l { w2 with pfx := .any } (optSpace o.spaceArgs) = w4 ∧
      Lexed l fl vo w4 (its ++ [.name f (atomProp l f).2]) ∧ w4.pfx = .any ∧ w4.brs = w.brs ++ [b] ∧
      (w4.last = atomLast l f ∨ w4.last = .nothing) := by
    cases o.spaceArgs with
    | false => exact ⟨_, rfl, lexed_congr k1 rfl rfl rfl, rfl, k3, Or.inl k5⟩
    | true =>
      exact ⟨_, rfl, lexed_congr (outSpace_lexed k1) rfl rfl rfl, rfl, k3, Or.inr rfl⟩
  obtain ⟨w5, hw5, l5, p5, b5, m5⟩ : ∃ w5 : W, run l w4 (if f = [45] then [.minus] else []) = w5 ∧
      Lexed l fl vo w5 (its ++ [.name f (atomProp l f).2]) ∧ w5.pfx ≠ .no ∧ w5.brs = w.brs ++ [b] ∧
      (if f = [45] then w5.pfx = .minus ∧ (w5.last = .graphic ∨ w5.last = .nothing) ∧ w5.p = w5.brs.length - 1
        else w5.pfx = .any) := by
    by_cases h45 : f = [45]
    · simp only [if_pos h45]
      refine ⟨_, rfl, lexed_congr l4 rfl rfl rfl, by simp [run, act], b4, rfl, ?_, ?_⟩
      · rcases s4 with h | h
        · left
          have : atomLast l [45] = .graphic := by
            simp [atomLast, lastOfAtom, atomProp, isIdent, isGraphic, type_45]
          rw [h45, this] at h
          exact h
        · exact Or.inr h
      · rfl
    · simp only [if_neg h45]
      exact ⟨w4, rfl, l4, by rw [p4]; simp, b4, p4⟩
  have hrun : run l w ([.push b] ++ atomActs l true f ++ [.pfxAny] ++ optSpace o.spaceArgs ++
      (if f = [45] then [.minus] else []) ++ acts ++ [.close]) = run l (run l w5 acts) [.close] := by
    simp only [run_append]
    rw [show run l w [.push b] = { w with brs := w.brs ++ [b] } from rfl, hrun1, hw2,
      show run l w2 [.pfxAny] = { w2 with pfx := .any } from rfl, hw4, hw5]
  -- the operand
  obtain ⟨n, ts, h1, h2, h3, h4, h5, h6, h7⟩ : ∃ n ts, PS E a op.right .anyOp ts ∧
      Lexed l fl vo (run l w5 acts) (its ++ [.name f (atomProp l f).2] ++ (ts.take (ts.length - n))) ∧
      (run l w5 acts).pfx = .no ∧ (run l w5 acts).brs = w.brs ++ [b + n] ∧ ts.head? ≠ some .openCt ∧
      (f = [45] → numHead ts = false) ∧ ts ≠ [] ∧
      ts = ts.take (ts.length - n) ++ List.replicate n (.punct 41) := by
    by_cases hdg : w5.pfx = .minus ∧ digitFirst l acts = true
    · have h45 : f = [45] := by
        by_cases h45 : f = [45]
        · exact h45
        · rw [if_neg h45, hdg.1] at m5; cases m5
      rw [if_pos h45] at m5
      obtain ⟨v, hv1, hv2, hv3, hv4⟩ := run_minus_digit l5 hdg.2 hdg.1 m5.2.1
      obtain ⟨ts, h1, h2, h3, h4, h5, h6, h7⟩ := ha.2 v _ hv2 (by rw [hv3]; simp)
      refine ⟨1, .punct 40 :: ts ++ [.punct 41], PS_brack (Or.inr rfl) h1 (by omega), ?_, ?_, ?_, by simp,
        fun _ => rfl, by simp, by simp⟩
      · rw [hv1]
        simpa using h2
      · rw [hv1]; exact h3
      · rw [hv1, h4, hv4, m5.2.2, b5, modify_last]
    · obtain ⟨ts, h1, h2, h3, h4, h5, h6, h7⟩ := ha.2 w5 _ l5 (fun h => by
        cases hh : digitFirst l acts with
        | false => rfl
        | true => exact absurd ⟨h, hh⟩ hdg)
      refine ⟨0, ts, h1, by simpa using h2, h3, by rw [h4, b5]; rfl, h5 p5, ?_, h7, by simp⟩
      intro h45
      rw [if_pos h45] at m5
      cases hh : numHead ts with
      | false => rfl
      | true => exact absurd ⟨m5.1, h6 hh⟩ hdg
  obtain ⟨h7, h8⟩ := h7
  rw [hrun]
  generalize hw6 : run l w5 acts = w6 at h2 h3 h4
  have hcl : run l w6 [.close] = closeN l (b + n) { w6 with pfx := .no, brs := w.brs } := by
    simp [run, act, h4]
  obtain ⟨c1, c2, c3⟩ := closeN_lexed (l := l) (fl := fl) (vo := vo) (b + n)
    { w6 with pfx := .no, brs := w.brs } _ (lexed_congr h2 rfl rfl rfl) rfl
  rw [hcl]
  refine ⟨.name f (atomProp l f).2 :: ts ++ List.replicate b (.punct 41), ⟨_, rfl, PS_prefix hop (by omega) hp hb hf44 h1
    h7 h5 h6⟩, ?_, c2, c3, by simp, by simp [numHead], by simp⟩
  have : List.replicate (b + n) (Tok.punct 41) = List.replicate n (.punct 41) ++ List.replicate b (.punct 41) := by
    rw [List.replicate_append_replicate, Nat.add_comm]
  rw [this] at c1
  have e : its ++ (.name f (atomProp l f).2 :: ts ++ List.replicate b (.punct 41)) =
      its ++ [.name f (atomProp l f).2] ++ ts.take (ts.length - n) ++
        (List.replicate n (.punct 41) ++ List.replicate b (.punct 41)) := by
    conv => lhs; rw [h8]
    simp
  rw [e]
  exact c1

end Gp.Rw
