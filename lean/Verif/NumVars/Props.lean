import Verif.NumVars.Lemmas
import Verif.NumVars.Names
import Verif.TermInl.Functor
import Verif.TermInl.Props
/-
C59. bind_variables/2 and numbervars/1-3: the variables of a finite term are bound, in the order of their first occurrence, to
'$VAR'(N) (or '$VARNAME'(Name)) where the N are the first numbers from From which are not excluded, Next is unified with
the number which follows the last one, and nothing else is bound.
-/
namespace Gp.NumVars
open Gp.Heap Gp.Unify Gp.ListBip Gp.TermInl

variable {N : Adr} {s : St} {C : Ctx}

/-- The variables of `t` are bound to the values of the numbers `ns`, and the next number is `next`. -/
def Numbered (s : St) (C : Ctx) (t : T) (nw : Cell) (ns : List Nat) (next : Nat) (ρ : Adr → T) : Prop :=
  (∀ p ∈ (firsts (T.vars t)).zip ns, ρ p.1 = value C p.2) ∧ eval s.mem ρ nw = .int next

/-- bind_variables(Term, [exclude(List), from(From), next(Next)]): `t` is the term, `xt` the list of exclusions, and the words
`fw` and `nw` are From and Next. -/
def BindSpec (N : Adr) (s : St) (C : Ctx) (t xt : T) (fw nw : Cell) (o : TermInl.Out) : Prop :=
  let numbers := fun (Q : ((Adr → T) → Prop) → Prop) => ∃ (z ts : _) (ns : List Nat) (next : Nat),
    (∀ ρ, Model N s.mem ρ → eval s.mem ρ fw = .int (z : Nat)) ∧ xt = listT ts nil ∧
      ns.length = (firsts (T.vars t)).length ∧ Numbering (Excluded C ts) z ns next ∧ Q (Numbered s C t nw ns next)
  let badFrom := ∀ ρ, Model N s.mem ρ → ∀ z : Int, 0 ≤ z → eval s.mem ρ fw ≠ .int z
  match o with
  | .ret true s' => numbers fun P => Answer N s P s'
  | .ret false _ => numbers fun P => NoAnswer N s P
  | .err .instantiation => Unbound s.mem fw ∨ ∃ ts v, xt = listT ts (.var v)
  | .err .typeList => ∃ ts t', xt = listT ts t' ∧ t' ≠ nil ∧ (∀ v, t' ≠ .var v) ∧ (∀ x y, t' ≠ .lst x y)
  | .err .domainNotLessThanZero => badFrom
  | .err .typeInteger => badFrom ∨ numbers fun P => NoAnswer N s P
  | .err _ => False

/-- bind_variables/2 and numbervars/1-3, whatever the content of the array of the excluded numbers left by the previous
calls. -/
theorem C59_bind_variables {dico : Nat → Nat} {fuel : Nat} {tw xw fw nw : Cell} {t xt : T} {o : TermInl.Out} (hC : C.dvar ≠ C.dname)
    (hok : Ok N s) (ht : ValidWord N s.lssa s.mem tw) (rt : Reads s.mem tw t) (rx : Reads s.mem xw xt)
    (hf : ValidWord N s.lssa s.mem fw) (hn : ValidWord N s.lssa s.mem nw)
    (h : bindVariables C dico fuel s tw xw fw nw = some o) : BindSpec N s C t xt fw nw o := by
  unfold bindVariables at h
  cases h1 : rdPositive s.mem fw with
  | none => rw [h1] at h; simp at h
  | some r =>
    rw [h1] at h
    rcases rdPositive_res hok hf h1 with ⟨z, rfl, hz, hev⟩ | ⟨rfl, hu⟩ | ⟨e, hb⟩
    · simp only at h
      cases h2 : exclList C s.mem fuel fuel ⟨dico, 0⟩ xw with
      | none => rw [h2] at h; simp at h
      | some r2 =>
        rw [h2] at h
        rcases exclList_res hC rx (marks_nil dico) h2 with ⟨ts, tab, e1, rfl, hm⟩ | ⟨ts, v, e1, rfl⟩ | ⟨ts, t', e1, e2, e3, e4, rfl⟩
        · simp only at h
          cases h3 : bindAll C tab fuel (s, z.toNat) tw with
          | none => rw [h3] at h; simp at h
          | some r3 =>
            rw [h3] at h
            obtain ⟨s1, k⟩ := r3
            simp only at h
            have hfold := bindAll_res hok hok (Inv.refl _) ht rt h3
            have hvars := vars_valid hok rt ht
            obtain ⟨ns, l1, l2, l3⟩ := foldB_res (D := []) (X := Excluded C ts) (m := s.mem)
              (fun i => by have := hm i; rw [List.nil_append] at this; exact this) hvars hok (Inv.refl _)
              (fun a ha => by simp [(hvars a ha).2]) hfold
            rw [left_nil] at l1 l3
            have num : ∀ Q : ((Adr → T) → Prop) → Prop, Q (Numbered s C t nw ns k) → ∃ (z ts : _) (ns : List Nat) (next : Nat),
                (∀ ρ, Model N s.mem ρ → eval s.mem ρ fw = .int (z : Nat)) ∧ xt = listT ts nil ∧
                  ns.length = (firsts (T.vars t)).length ∧ Numbering (Excluded C ts) z ns next ∧ Q (Numbered s C t nw ns next) :=
              fun Q hQ => ⟨z.toNat, ts, ns, k, fun ρ hρ => by rw [hev ρ hρ]; congr 1; omega, e1, l1, l2, hQ⟩
            have hun : andThen (some (.ret true s1)) (fun s' => unInteger s' k nw) = some o := h
            rcases andThen_int hok hn (P := fun ρ => ∀ p ∈ (firsts (T.vars t)).zip ns, ρ p.1 = value C p.2)
              (fun o ho => .inl ⟨true, s1, (Option.some.inj ho).symm, fun _ => l3, by simp⟩) hun with ⟨r, s', rfl, hF⟩ | ⟨he, hno⟩
            · cases r with
              | true => exact num (fun P => Answer N s P s') (Step.answer (hF.1 rfl))
              | false => exact num (fun P => NoAnswer N s P) (hF.2 rfl)
            · rcases he with rfl | rfl
              · exfalso
                unfold andThen unInteger at hun
                simp only at hun
                cases hd : deref s1.mem nw with
                | none => rw [hd] at hun; simp at hun
                | some v => rw [hd] at hun; cases v <;> simp at hun
              · exact .inr (num (fun P => NoAnswer N s P) hno)
        · simp only [Option.some.injEq] at h
          subst h
          exact .inr ⟨ts, v, e1⟩
        · simp only [Option.some.injEq] at h
          subst h
          exact ⟨ts, t', e1, e2, e3, e4⟩
    · simp only [Option.some.injEq] at h
      subst h
      exact .inl hu
    · rcases e with rfl | rfl
      · simp only [Option.some.injEq] at h
        subst h
        exact .inl hb
      · simp only [Option.some.injEq] at h
        subst h
        exact hb

/-! ## The exclusions -/

theorem exclNums_sub {x t : T} (h : Sub x t) {z : Int} (hz : z ∈ exclNums C x) : z ∈ exclNums C t := by
  induction h with
  | refl => exact hz
  | head _ ih => rw [exclNums]; exact List.mem_append_left _ ih
  | tail _ ih => rw [exclNums]; exact List.mem_append_right _ ih
  | @arg u f l hu _ ih =>
    by_cases h1 : ∃ z, l = [.int z]
    · obtain ⟨z, rfl⟩ := h1
      simp only [List.mem_singleton] at hu; subst hu
      simp [exclNums] at ih
    · by_cases h2 : ∃ z, l = [.atm z]
      · obtain ⟨z, rfl⟩ := h2
        simp only [List.mem_singleton] at hu; subst hu
        simp [exclNums] at ih
      · rw [exclNums_other (fun h => absurd h h1) (fun h => absurd h h2)]
        exact List.mem_flatMap.mpr ⟨u, hu, ih⟩

/-- The name of a number gives back the number. -/
theorem C59_name {n : Nat} (h : n < 2 ^ 31 - 65) : varNumber (varName n) = some (n : Int) := varNumber_varName h

/-- A number below 1048576 is not given to a variable when the list has a sub-term '$VAR'(N), a sub-term '$VARNAME'(Name)
or an element Name=Var where Name is the name of N. Missing: the numbers from 1048576 (`C59_exclude_large`). -/
theorem C59_exclude_partial {ts : List T} {t : T} {k next n : Nat} {ns : List Nat} (hn : n < MAX_VAR) (ht : t ∈ ts)
    (h : Sub (.app C.dvar [.int n]) t ∨ (∃ a, C.name a = varName n ∧ Sub (.app C.dname [.atm a]) t) ∨
      ∃ a v, C.name a = varName n ∧ t = .app C.eq [.atm a, v])
    (hnum : Numbering (Excluded C ts) k ns next) : n ∉ ns := by
  intro hmem
  have hno := ((hnum.mem n).mp hmem).2.2
  apply hno
  refine ⟨hn, List.mem_flatMap.mpr ⟨t, ht, ?_⟩⟩
  have hnm : ∀ a, C.name a = varName n → (n : Int) ∈ nameNum C a := by
    intro a ha
    unfold nameNum
    rw [ha, varNumber_varName (by simp only [MAX_VAR] at hn; omega)]
    simp
  unfold exclElem
  rcases h with h | ⟨a, ha, h⟩ | ⟨a, v, ha, rfl⟩
  · exact List.mem_append_left _ (exclNums_sub h (by simp [exclNums]))
  · exact List.mem_append_left _ (exclNums_sub h (by simp [exclNums, hnm a ha]))
  · exact List.mem_append_right _ (by simp [pairNums, hnm a ha])

/-- Without exclusions (numbervars/1-3) the numbers are From, From+1, ... -/
theorem C59_numbervars {k next : Nat} {ns : List Nat} (h : Numbering (Excluded C []) k ns next) :
    next = k + ns.length ∧ ∀ i, i < ns.length → ns[i]? = some (k + i) := by
  have key : ∀ (ns : List Nat) (k next : Nat), Numbering (fun _ => False) k ns next →
      next = k + ns.length ∧ ∀ i, i < ns.length → ns[i]? = some (k + i) := by
    intro ns
    induction ns with
    | nil =>
      intro k next h
      rcases h.last with ⟨_, e⟩ | ⟨n, hn, _⟩
      · exact ⟨by simp [e], by simp⟩
      · simp at hn
    | cons n ns ih =>
      intro k next h
      have hp := List.pairwise_cons.mp h.sorted
      have hn := (h.mem n).mp (by simp)
      have hk : n = k := by
        have : k ∈ n :: ns := (h.mem k).mpr ⟨Nat.le_refl _, by omega, id⟩
        rcases List.mem_cons.mp this with e | e
        · exact e.symm
        · have := hp.1 k e; omega
      subst hk
      have h' : Numbering (fun _ => False) (n + 1) ns next := by
        refine ⟨hp.2, fun x => ?_, ?_⟩
        · constructor
          · intro hx
            have := (h.mem x).mp (by simp [hx])
            exact ⟨hp.1 x hx, this.2⟩
          · rintro ⟨a, b⟩
            rcases List.mem_cons.mp ((h.mem x).mpr ⟨by omega, b⟩) with e | e
            · omega
            · exact e
        · rcases h.last with ⟨e, _⟩ | ⟨x, e1, e2⟩
          · simp at e
          · rcases List.mem_cons.mp e1 with rfl | e1
            · cases ns with
              | nil => exact .inl ⟨rfl, e2⟩
              | cons y ys =>
                have := hp.1 y (by simp)
                have := (h.mem y).mp (by simp)
                omega
            · exact .inr ⟨x, e1, e2⟩
      obtain ⟨e1, e2⟩ := ih _ _ h'
      refine ⟨by simp; omega, fun i hi => ?_⟩
      cases i with
      | zero => rfl
      | succ i =>
        simp only [List.length_cons] at hi
        rw [List.getElem?_cons_succ, e2 i (by omega)]
        congr 1; omega
  refine key ns k next ⟨h.sorted, fun n => ?_, h.last⟩
  rw [h.mem]
  simp [Excluded]

/-! ## The hypotheses are met, and what is not satisfied -/

/-- `X` (0), `Y` (1), `f(X, Y)` (2-4), `['$VAR'(z)]` (5-8), `Next` (9). -/
def exM (z : Int) : Heap.Mem := memL [.ref 0, .ref 1, .fn 7 2, .ref 0, .ref 1, .stc 7, NIL_WORD, .fn 40 1, .int z, .ref 9]

def exS (z : Int) : St := { mem := exM z, trail := [], h := 10, hb1 := 0, b := 0, lssa := 20 }

def exC : Ctx := ⟨40, 41, 42, fun _ => [], fun _ => 0, true⟩

theorem exS_ok (z : Int) : Ok 20 (exS z) := by
  refine ⟨?_, ?_, Nat.le_refl 20⟩
  · intro a ha ht
    have hle : ∀ a b, exM z a = .ref b → b ≤ a := by
      intro a b h
      match a with
      | 0 | 1 | 2 | 3 | 4 | 5 | 6 | 7 | 8 | 9 => simp [exM, memL, NIL_WORD] at h <;> omega
      | a + 10 => simp [exM, memL] at h
    refine ⟨?_, fun b hb hlt => Nat.lt_of_le_of_lt (hle a b hb) hlt, acc_of_le hle a⟩
    match a with
    | 0 | 1 | 2 | 3 | 4 | 6 | 7 | 8 | 9 =>
      first | exact trivial | exact ⟨by decide, rfl⟩ | simp [exS, exM, memL, isTerm] at ht
    | 5 =>
      refine ⟨40, 1, rfl, by decide, by decide, (by decide : 7 + 1 < 20), ?_⟩
      intro i hi
      match i with
      | 0 => rfl
      | i + 1 => omega
    | a + 10 => simp [exS, exM, memL, isTerm] at ht
  · intro a h1 h2
    have h1 : 10 ≤ a := h1
    show exM z a = _
    match a, h1 with
    | a + 10, _ => simp [exM, memL]

theorem exS_stc (z : Int) : ValidWord 20 (exS z).lssa (exS z).mem (.stc 2) := by
  refine ⟨7, 2, rfl, by decide, by decide, (by decide : 2 + 2 < 20), ?_⟩
  intro i hi
  match i with
  | 0 | 1 => rfl
  | i + 2 => omega

theorem exS_reads (z : Int) : Reads (exS z).mem (.stc 2) (.app 7 [.var 0, .var 1]) := by
  have := Reads.stc (m := (exS z).mem) (a := 2) (f := 7) (n := 2) (g := fun i => if i = 0 then .var 0 else .var 1) rfl ?_
  · exact this
  · intro i hi
    match i with
    | 0 => exact Reads.var rfl
    | 1 => exact Reads.var rfl
    | i + 2 => omega

theorem exS_list (z : Int) : Reads (exS z).mem (.lst 5) (listT [.app 40 [.int z]] nil) := by
  refine .lst ?_ .atm
  have := Reads.stc (m := (exS z).mem) (a := 7) (f := 40) (n := 1) (g := fun _ => .int z) rfl ?_
  · exact this
  · intro i hi
    match i with
    | 0 => exact .int
    | i + 1 => omega

local macro "run_ex" : tactic => `(tactic|
  simp [gives, bindVariables, rdPositive, rdInteger, exclList, collectExcl, exclStc, exclude, exclEq, bindAll, bindArgs, bindVar,
    skip, binding, unInteger, push, exS, exM, exC, memL, MAX_VAR, deref_ref, deref_nonref, St.bindUV, Mem.set])

/-- `bind_variables(f(X,Y), [exclude(['$VAR'(1)]), next(Next)])` at the level of the C function: X = '$VAR'(0),
Y = '$VAR'(2), Next = 3. -/
example : ∃ s', bindVariables exC (fun _ => 5) 5 (exS 1) (.stc 2) (.lst 5) (.int 0) (.ref 9) = some (.ret true s') ∧
    (s'.mem 0 = .stc 10 ∧ s'.mem 10 = .fn 40 1 ∧ s'.mem 11 = .int 0 ∧ s'.mem 1 = .stc 12 ∧ s'.mem 13 = .int 2 ∧ s'.mem 9 = .int 3) ∧
    BindSpec 20 (exS 1) exC (.app 7 [.var 0, .var 1]) (listT [.app 40 [.int 1]] nil) (.int 0) (.ref 9) (.ret true s') := by
  obtain ⟨s', h, hm⟩ := gives_iff (show gives true [(0, .stc 10), (10, .fn 40 1), (11, .int 0), (1, .stc 12), (13, .int 2), (9, .int 3)]
    (bindVariables exC (fun _ => 5) 5 (exS 1) (.stc 2) (.lst 5) (.int 0) (.ref 9)) = true by run_ex)
  refine ⟨s', h, ⟨hm (0, .stc 10) (by simp), hm (10, .fn 40 1) (by simp), hm (11, .int 0) (by simp), hm (1, .stc 12) (by simp),
    hm (13, .int 2) (by simp), hm (9, .int 3) (by simp)⟩, ?_⟩
  exact C59_bind_variables (by decide) (exS_ok 1) (exS_stc 1) (exS_reads 1) (exS_list 1) trivial ⟨by decide, rfl⟩ h

/-- The numbers from 1048576 are not excluded: `bind_variables(f(X,Y), [exclude(['$VAR'(1048576)]), from(1048576)])` binds X
to '$VAR'(1048576). -/
theorem C59_exclude_large : ∃ s', bindVariables exC (fun _ => 0) 5 (exS 1048576) (.stc 2) (.lst 5) (.int 1048576) (.ref 9) =
    some (.ret true s') ∧ s'.mem 0 = .stc 10 ∧ s'.mem 10 = .fn exC.dvar 1 ∧ s'.mem 11 = .int 1048576 := by
  obtain ⟨s', h, hm⟩ := gives_iff (show gives true [(0, .stc 10), (10, .fn 40 1), (11, .int 1048576)]
    (bindVariables exC (fun _ => 0) 5 (exS 1048576) (.stc 2) (.lst 5) (.int 1048576) (.ref 9)) = true by run_ex)
  exact ⟨s', h, hm (0, .stc 10) (by simp), hm (10, .fn 40 1) (by simp), hm (11, .int 1048576) (by simp)⟩

example : Numbering (Excluded exC [.app 40 [.int 1]]) 0 [0, 2] 3 := by
  have hX : ∀ n, Excluded exC [.app 40 [.int 1]] n ↔ n = 1 := by
    intro n
    simp only [Excluded, List.flatMap_cons, List.flatMap_nil, List.append_nil, exclElem, exclNums, exC, pairNums, if_true,
      List.mem_singleton, MAX_VAR]
    omega
  refine ⟨by decide, fun n => ?_, .inr ⟨2, by simp, rfl⟩⟩
  rw [hX]
  simp only [List.mem_cons, List.not_mem_nil, or_false]
  omega

example : Sub (.app exC.dvar [.int 1]) (.app 9 [.var 3, .lst (.app 40 [.int 1]) nil]) :=
  .arg (u := .lst (.app 40 [.int 1]) nil) (by simp) (.head .refl)

example : varName 53 = [66, 50] ∧ varNumber [66, 50] = some 53 := ⟨by decide, by decide⟩

/-- The name of a variable whose number is not an int: the multiplication overflows (undefined behaviour), for instance for
'A99999999'. -/
theorem C59_name_overflow : varNumber (65 :: List.replicate 8 57) = none := by decide

/-- The option next(Next) is refused when Next is a variable, although the documentation says that Next is then unified with
the next number. -/
theorem C59_next_option {K : OptCtx} {m : Heap.Mem} {o : Opts} {w : Cell} {a b : Nat} (hK : K.next ≠ K.exclude) (hK' : K.next ≠ K.from)
    (hw : deref m w = some (.stc a)) (hf : m a = .fn K.next 1) (hv : deref m (m (a + 1)) = some (.ref b)) :
    optStep K m o w = some (.error .instantiation) := by
  unfold optStep optInt
  rw [hw]
  simp [hf, hK, hK', hv]

example : optStep ⟨1, 2, 3, 4, 5⟩ (memL [.fn 3 1, .ref 1]) ⟨NIL_WORD, .int 0, .ref 1, true⟩ (.stc 0) = some (.error .instantiation) :=
  C59_next_option (a := 0) (b := 1) (by decide) (by decide) (deref_nonref (by simp)) rfl (by simp [memL, deref_ref])

end Gp.NumVars
