import Verif.ListBip.Member2
import Verif.Unify.Props
/-
C34. The list predicates written in C enumerate the answers of their usual definitions, in the same order.

In all the theorems `N` is the end of the memory, `s` the state at the call, which is well formed (`Ok`), and
the arguments are words of this memory, whatever they are (variables, partial lists, proper lists, other
terms, terms which share variables).
-/
namespace Gp.ListBip
open Gp.Heap Gp.Unify

variable {N : Adr} {s : St} {E : Env}

/-- append/3. -/
theorem C34_append {l1 l2 l3 : Cell} {os : List Out} (hok : Ok N s) (h1 : ValidWord N s.lssa s.mem l1)
    (h2 : ValidWord N s.lssa s.mem l2) (h3 : ValidWord N s.lssa s.mem l3)
    (h : Run (append3 E l2 E.fuel s l1 l3) (appendAlt E) os) :
    Follows N s (fun k ρ => App k (eval s.mem ρ l1) (eval s.mem ρ l2) (eval s.mem ρ l3)) 0 os := by
  refine run_follows (Inv := InvA N s _) (fun o ho => append3_good (k := 0) (Sim.refl hok ?_) h1 h2 h3 ho)
    (fun lo c o hi ho => appendAlt_good hi ho) h
  intro j ρ _
  constructor
  · intro h; exact ⟨j, by omega, h⟩
  · rintro ⟨i, hi, h⟩; rw [Nat.zero_add] at hi; subst hi; exact h

/-- reverse/2. -/
theorem C34_reverse {l1 l2 : Cell} {os : List Out} (hok : Ok N s) (h1 : ValidWord N s.lssa s.mem l1)
    (h2 : ValidWord N s.lssa s.mem l2) (h : Run (reverse2 E s l1 l2) (reverseAlt E) os) :
    Follows N s (fun k ρ => Rev k (eval s.mem ρ l1) (eval s.mem ρ l2) nil) 0 os := by
  refine run_follows (Inv := InvR N s _)
    (fun o ho => reverseLoop_good (k := 0) (r := NIL_WORD) (Sim.refl hok ?_) h1 h2 trivial (by simp [Global])
      (fun _ _ => .base) ho) (fun lo c o hi ho => reverseAlt_good hi ho) h
  intro j ρ _
  constructor
  · intro h; exact ⟨j, by omega, h⟩
  · rintro ⟨i, hi, h⟩; rw [Nat.zero_add] at hi; subst hi; exact h

/-- length/2, whatever the flag strict_iso. -/
theorem C34_length {l n : Cell} {iso : Bool} {os : List Out} (hok : Ok N s) (h1 : ValidWord N s.lssa s.mem l)
    (h2 : ValidWord N s.lssa s.mem n) (h : Run (length2 E iso s l n) (lengthAlt E) os) :
    Follows N s (fun k ρ => Len k (eval s.mem ρ l) 0 (eval s.mem ρ n)) 0 os := by
  have e : BL s l n 0 = fun k ρ => Len k (eval s.mem ρ l) 0 (eval s.mem ρ n) := by
    funext j ρ
    simp only [BL, eq_iff_iff]
    constructor
    · rintro ⟨i, hi, h⟩; rw [Nat.zero_add] at hi; subst hi; exact h
    · intro h; exact ⟨j, by omega, h⟩
  rw [← e]
  exact run_follows (fun o ho => length2_good hok h1 h2 ho) (fun lo c o hi ho => lengthAlt_good hi ho) h

/-- nth0/3 (`base` = 0), nth1/3 and nth/3 (`base` = 1), for the integer `z`: one answer or none, no choice
point. -/
theorem C34_nth {l x : Cell} {z base : Int} {o : Out} (hok : Ok N s) (h1 : ValidWord N s.lssa s.mem l)
    (h2 : ValidWord N s.lssa s.mem x) (h : nth3 E s z l x base = some o) :
    ∃ r s', o = .ret r s' none ∧
      (r = true → base ≤ z ∧ Answer N s (fun ρ => Nth (z - base).toNat (eval s.mem ρ l) (eval s.mem ρ x)) s') ∧
      (r = false → z < base ∨ NoAnswer N s (fun ρ => Nth (z - base).toNat (eval s.mem ρ l) (eval s.mem ρ x))) := by
  unfold nth3 at h
  split at h
  · simp only [Option.some.injEq] at h
    subst h
    exact ⟨false, s, rfl, by simp, fun _ => .inl (by omega)⟩
  · obtain ⟨r, s', e, q1, q2⟩ := nthLoop_res (Sim.refl hok (fun _ _ _ => Iff.rfl)) h1 h2 h
    exact ⟨r, s', e, fun hr => ⟨by omega, q1 hr⟩, fun hr => .inr (q2 hr)⟩

/-- member/2, when the variable at the end of the list (if the list is partial) occurs neither in X nor in the
elements of the list. Missing: the other partial lists, for which the result may be wrong
(`C34_member_incomplete`, `C34_member_wrong_answer`). -/
theorem C34_member_partial {x l : Cell} {os : List Out} (hok : Ok N s) (h1 : ValidWord N s.lssa s.mem x)
    (h2 : ValidWord N s.lssa s.mem l) (hf : TailFree s.mem x l) (h : Run (member2 E s x l) (memberAlt E) os) :
    Follows N s (fun k ρ => Mem k (eval s.mem ρ x) (eval s.mem ρ l)) 0 os := by
  have e : BM s x l 0 = fun k ρ => Mem k (eval s.mem ρ x) (eval s.mem ρ l) := by
    funext j ρ
    simp only [BM, eq_iff_iff]
    constructor
    · rintro ⟨i, hi, h⟩; rw [Nat.zero_add] at hi; subst hi; exact h
    · intro h; exact ⟨j, by omega, h⟩
  rw [← e]
  exact run_follows (fun o ho => member2_good hok h1 h2 hf ho) (fun lo c o hi ho => memberAlt_good hi ho) h

/-- member/2 on the terms which are not partial lists, without other condition. -/
theorem C34_member_proper {x l : Cell} {os : List Out} (hok : Ok N s) (h1 : ValidWord N s.lssa s.mem x)
    (h2 : ValidWord N s.lssa s.mem l) (hp : ∀ as v, ¬ Partial s.mem l as v)
    (h : Run (member2 E s x l) (memberAlt E) os) :
    Follows N s (fun k ρ => Mem k (eval s.mem ρ x) (eval s.mem ρ l)) 0 os :=
  C34_member_partial hok h1 h2 (fun as v hv => absurd hv (hp as v)) h

/-- memberchk/2: the first answer of member/2, if any, and no choice point. When the list is partial, X must
not be a reference to a variable of the local stack (`C34_memberchk_local`: the memory is then corrupted). -/
theorem C34_memberchk_partial {x l : Cell} {o : Out} (hok : Ok N s) (h1 : ValidWord N s.lssa s.mem x)
    (h2 : ValidWord N s.lssa s.mem l) (hg : ∀ as v, Partial s.mem l as v → ∀ b, x = .ref b → b < s.lssa)
    (h : memberchk2 E s x l = some o) :
    ∃ r s', o = .ret r s' none ∧
      (r = true → ∃ k, (∀ j, j < k → NoAnswer N s (fun ρ => Mem j (eval s.mem ρ x) (eval s.mem ρ l))) ∧
        Answer N s (fun ρ => Mem k (eval s.mem ρ x) (eval s.mem ρ l)) s') ∧
      (r = false → ∀ j, NoAnswer N s (fun ρ => Mem j (eval s.mem ρ x) (eval s.mem ρ l))) := by
  refine memberchk_res (k := 0) (A := fun j ρ => Mem j (eval s.mem ρ x) (eval s.mem ρ l)) (Sim.refl hok ?_) h1 h2 hg h
  intro j ρ _
  constructor
  · intro h; exact ⟨j, by omega, h⟩
  · rintro ⟨i, hi, h⟩; rw [Nat.zero_add] at hi; subst hi; exact h

/-! The defects -/

/-- The words given, then free words. -/
def memL (l : List Cell) : Heap.Mem := fun a => l.getD a (.fn 0 0)

def stL (l : List Cell) (lssa : Adr) : St := { mem := memL l, trail := [], h := l.length, hb1 := 0, b := 0, lssa := lssa }

def exE (n : Nat) : Env := ⟨n, noFd⟩

theorem ok_stL {l : List Cell} {lssa N : Adr} (hN : lssa ≤ N)
    (hacc : ∀ a b, memL l a = .ref b → b ≤ a)
    (hv : ∀ a, a < l.length → isTerm (memL l a) = true → ValidWord N lssa (memL l) (memL l a) ∧
      (∀ b, memL l a = .ref b → a < lssa → b < lssa)) : Ok N (stL l lssa) where
  wf a ha ht := by
    have hlt : a < l.length := by
      refine Nat.lt_of_not_le (fun h => ?_)
      simp [stL, memL, List.getElem?_eq_none h, isTerm] at ht
    exact ⟨(hv a hlt ht).1, (hv a hlt ht).2, acc_of_le hacc a⟩
  free a h1 _ := by
    have h1 : l.length ≤ a := h1
    simp [stL, memL, List.getElem?_eq_none h1]
  top := hN

/-- `member(a, [T|T])`: T (0), the list (1, 2). -/
def exW1 : St := stL [.ref 0, .ref 0, .ref 0] 10

/-- The code finds T = a and leaves no choice point. -/
theorem exW1_run : ∃ s', member2 (exE 5) exW1 (.atm 97) (.lst 1) = some (.ret true s' none) := by
  simp [member2, getList, deref_ref, deref_nonref, unifyVariable, exW1, stL, memL, copyWord, member3, exE, unify, bindTo,
    St.bindUV, Mem.set, varOrList]

theorem exW1_ok : Ok 10 exW1 := by
  refine ok_stL (by omega) ?_ ?_
  · intro a b h
    match a with
    | 0 | 1 | 2 => simp [memL] at h; omega
    | a + 3 => simp [memL] at h
  · intro a ha _
    have ha : a < 3 := ha
    match a with
    | 0 | 1 | 2 => simp [memL, ValidWord, isTerm]
    | a + 3 => omega

theorem exW1_model (t : T) : Model 10 exW1.mem (fun _ => t) := by
  intro a ha ht
  match a with
  | 0 | 1 | 2 => rfl
  | a + 3 => simp [exW1, stL, memL, isTerm] at ht

/-- Finding: `member(a, [T|T])` has a second answer (T = [a|_]), which the code does not give. -/
theorem C34_member_incomplete : ∃ (N : Adr) (E : Env) (s : St) (x l : Cell) (o : Out), Ok N s ∧
    ValidWord N s.lssa s.mem x ∧ ValidWord N s.lssa s.mem l ∧ Run (member2 E s x l) (memberAlt E) [o] ∧
    ¬ Follows N s (fun k ρ => Mem k (eval s.mem ρ x) (eval s.mem ρ l)) 0 [o] := by
  obtain ⟨s', hs'⟩ := exW1_run
  refine ⟨10, exE 5, exW1, .atm 97, .lst 1, _, exW1_ok, trivial, ?_, ⟨_, [], hs', rfl, .stop⟩, ?_⟩
  · simp [exW1, stL, memL, ValidWord, isTerm]
  · rintro ⟨k, _, h1, _, _, h2, _⟩
    have hk : k = 0 := by
      cases k with
      | zero => rfl
      | succ k => exact absurd .base (h1 0 (by omega) (by omega) _ (exW1_model (.atm 97)))
    subst hk
    exact (h2 rfl).2 1 (by omega) _ (exW1_model (.lst (.atm 97) nil)) (.step .base)

/-- `member(f(P,P), [f(T,[f(1,1)])|T])`: T (0), P (1), f(P,P) (2-4), f(1,1) (5-7), [f(1,1)] (8, 9),
f(T,[f(1,1)]) (10-12), the list (13, 14). -/
def exW2 : St := stL [.ref 0, .ref 1, .fn 7 2, .ref 1, .ref 1, .fn 7 2, .int 1, .int 1, .stc 5, NIL_WORD,
  .fn 7 2, .ref 0, .lst 8, .stc 10, .ref 0] 20

theorem exW2_ok : Ok 20 exW2 := by
  refine ok_stL (by omega) ?_ ?_
  · intro a b h
    match a with
    | 0 | 1 | 2 | 3 | 4 | 5 | 6 | 7 | 8 | 9 | 10 | 11 | 12 | 13 | 14 => simp [memL] at h <;> omega
    | a + 15 => simp [memL] at h
  · intro a ha _
    have ha : a < 15 := ha
    match a with
    | 0 | 1 | 3 | 4 | 6 | 7 | 9 | 11 | 12 | 14 => simp [memL, ValidWord, isTerm]
    | 2 | 5 | 10 => simp [memL, isTerm] at *
    | 8 =>
      refine ⟨⟨7, 2, rfl, by omega, by omega, by omega, ?_⟩, by simp [memL]⟩
      intro i hi
      match i with
      | 0 | 1 => rfl
      | i + 2 => omega
    | 13 =>
      refine ⟨⟨7, 2, rfl, by omega, by omega, by omega, ?_⟩, by simp [memL]⟩
      intro i hi
      match i with
      | 0 | 1 => rfl
      | i + 2 => omega
    | a + 15 => omega

/-- The two results: the second one binds P to 1 and does not bind T. -/
theorem exW2_run : ∃ o1 s2, Run (member2 (exE 6) exW2 (.stc 2) (.lst 13)) (memberAlt (exE 6)) [o1, .ret true s2 none] ∧
    s2.mem = exW2.mem.set 1 (.int 1) := by
  have h1 : ∃ s1, member2 (exE 6) exW2 (.stc 2) (.lst 13) = some (.ret true s1 (some ⟨exW2, .stc 2, .stc 10, .lst 8⟩)) := by
    simp [member2, getList, deref_ref, deref_nonref, unifyVariable, exW2, stL, memL, copyWord, member3, exE, unify, bindTo,
      unifyNonVar, unifyArgs, St.bindUV, Mem.set, varOrList]
  obtain ⟨s1, h1⟩ := h1
  have h2 : ∃ s2, memberAlt (exE 6) ⟨exW2, .stc 2, .stc 10, .lst 8⟩ = some (.ret true s2 none) ∧
      s2.mem = exW2.mem.set 1 (.int 1) := by
    simp [memberAlt, getList, deref_ref, deref_nonref, unifyVariable, exW2, stL, memL, copyWord, member3, exE, unify, bindTo,
      unifyNonVar, unifyArgs, St.bindUV, Mem.set, varOrList]
  obtain ⟨s2, h2, h3⟩ := h2
  exact ⟨_, s2, ⟨_, _, h1, rfl, .redo h2 .stop⟩, h3⟩

def exW2_ρ : Adr → T := fun a =>
  match a with
  | 0 => .atm 1 | 1 => .int 1 | 3 => .int 1 | 4 => .int 1 | 6 => .int 1 | 7 => .int 1
  | 8 => .app 7 [.int 1, .int 1] | 9 => nil | 11 => .atm 1 | 12 => .lst (.app 7 [.int 1, .int 1]) nil
  | 13 => .app 7 [.atm 1, .lst (.app 7 [.int 1, .int 1]) nil] | _ => .atm 1

/-- Finding: `member(f(P,P), [f(T,[f(1,1)])|T])` has a second answer P = 1, T unbound: for a value of T which
is not a list, f(1,1) is not a member of the list. -/
theorem C34_member_wrong_answer : ∃ (N : Adr) (E : Env) (s s2 : St) (x l : Cell) (o1 : Out), Ok N s ∧
    ValidWord N s.lssa s.mem x ∧ ValidWord N s.lssa s.mem l ∧
    Run (member2 E s x l) (memberAlt E) [o1, .ret true s2 none] ∧
    ∃ ρ, Model N s2.mem ρ ∧ ∀ k, ¬ Mem k (eval s.mem ρ x) (eval s.mem ρ l) := by
  obtain ⟨o1, s2, hr, hm⟩ := exW2_run
  refine ⟨20, exE 6, exW2, s2, .stc 2, .lst 13, o1, exW2_ok, ?_, ?_, hr, exW2_ρ, ?_, ?_⟩
  · refine ⟨7, 2, rfl, by omega, by decide, by decide, ?_⟩
    intro i hi
    match i with
    | 0 | 1 => rfl
    | i + 2 => omega
  · simp [exW2, stL, memL, ValidWord, isTerm]
  · rw [hm]
    intro a ha ht
    match a with
    | 0 | 1 | 3 | 4 | 6 | 7 | 8 | 9 | 11 | 12 | 13 | 14 => rfl
    | 2 | 5 | 10 => simp [exW2, stL, memL, isTerm, Mem.set] at ht
    | a + 15 => simp [exW2, stL, memL, isTerm, Mem.set] at ht
  · intro k h
    have e1 : eval exW2.mem exW2_ρ (.stc 2) = .app 7 [.int 1, .int 1] := rfl
    have e2 : eval exW2.mem exW2_ρ (.lst 13) = .lst (.app 7 [.atm 1, .lst (.app 7 [.int 1, .int 1]) nil]) (.atm 1) := rfl
    rw [e1, e2] at h
    cases k with
    | zero =>
      obtain ⟨t, ht⟩ := mem_zero.mp h
      simp at ht
    | succ k =>
      obtain ⟨y, t, ht, h⟩ := mem_succ.mp h
      simp only [T.lst.injEq] at ht
      rw [← ht.2] at h
      obtain ⟨y, z, e⟩ := h.list
      simp at e

/-- `memberchk(X, L)`: L (0) in the global stack (0-9), X (10) in the local stack. -/
def exW3 : St := { mem := fun a => if a = 0 then .ref 0 else if a = 10 then .ref 10 else .fn 0 0, trail := [], h := 1, hb1 := 0,
                   b := 0, lssa := 10 }

theorem exW3_ok : Ok 11 exW3 where
  wf a ha ht := by
    refine ⟨?_, ?_, acc_of_le ?_ a⟩
    · by_cases h0 : a = 0
      · subst h0; simp [exW3, ValidWord, isTerm]
      · by_cases h1 : a = 10
        · subst h1; simp [exW3, ValidWord, isTerm]
        · simp [exW3, h0, h1, isTerm] at ht
    · intro b hb hlt
      simp only [exW3] at hb hlt ⊢
      split at hb
      · simp at hb; omega
      · split at hb
        · omega
        · simp at hb
    · intro a b hb
      simp only [exW3] at hb
      split at hb
      · simp at hb; omega
      · split at hb
        · simp at hb; omega
        · simp at hb
  free a h1 h2 := by
    simp only [exW3] at h1 h2 ⊢
    rw [if_neg (by omega), if_neg (by omega)]
  top := by decide

/-- Finding: when X is an unbound variable of the local stack and the list is partial, the list created in the
global stack refers to the local stack. -/
theorem C34_memberchk_local : ∃ (N : Adr) (E : Env) (s s' : St) (x l : Cell), Ok N s ∧
    ValidWord N s.lssa s.mem x ∧ ValidWord N s.lssa s.mem l ∧ memberchk2 E s x l = some (.ret true s' none) ∧
    ∃ a b, a < s'.h ∧ s'.h ≤ s'.lssa ∧ s'.lssa ≤ b ∧ s'.mem a = .ref b ∧ ¬ Ok N s' := by
  have h : ∃ s', memberchk2 (exE 5) exW3 (.ref 10) (.ref 0) = some (.ret true s' none) ∧ s'.mem 1 = .ref 10 ∧
      s'.h = 3 ∧ s'.lssa = 10 := by
    simp [memberchk2, memberchkLoop, getList, deref_ref, unifyValue, unifyVoid1, push, exE, exW3, St.bindUV, Mem.set]
  obtain ⟨s', h1, h2, h3, h4⟩ := h
  refine ⟨11, exE 5, exW3, s', .ref 10, .ref 0, exW3_ok, ?_, ?_, h1, 1, 10, by omega, by omega, by omega, h2, ?_⟩
  · simp [exW3, ValidWord, isTerm]
  · simp [exW3, ValidWord, isTerm]
  · intro hok
    have := (hok.wf 1 (by omega) (by rw [h2]; rfl)).2.1 10 h2 (by omega)
    omega

/-! Examples: the hypotheses are met and the runs exist -/

/-- L1 (0), L2 (1), [1,2] (2-5). -/
def exSt : St := stL [.ref 0, .ref 1, .int 1, .lst 4, .int 2, NIL_WORD] 30

theorem exSt_ok : Ok 30 exSt := by
  refine ok_stL (by omega) ?_ ?_
  · intro a b h
    match a with
    | 0 | 1 | 2 | 3 | 4 | 5 => simp [memL] at h <;> omega
    | a + 6 => simp [memL] at h
  · intro a ha _
    have ha : a < 6 := ha
    match a with
    | 0 | 1 | 2 | 3 | 4 | 5 => simp [memL, ValidWord, isTerm]
    | a + 6 => omega

theorem exSt_v0 : ValidWord 30 exSt.lssa exSt.mem (.ref 0) := by simp [exSt, stL, memL, ValidWord, isTerm]
theorem exSt_v1 : ValidWord 30 exSt.lssa exSt.mem (.ref 1) := by simp [exSt, stL, memL, ValidWord, isTerm]
theorem exSt_v2 : ValidWord 30 exSt.lssa exSt.mem (.lst 2) := by simp [exSt, stL, memL, ValidWord, isTerm]

/-- The value of the first word in the successive results. -/
def oks (os : List Out) : List (Option Cell) := os.map fun o => match o with
  | .ret true s _ => some (s.mem 0)
  | _ => none

/-- The states of two successive answers. -/
def two (alt : CP → Option Out) (o : Option Out) : Option (St × St) :=
  match o with
  | some (.ret true s1 (some c)) =>
    match alt c with
    | some (.ret true s2 _) => some (s1, s2)
    | _ => none
  | _ => none

theorem two_run {alt : CP → Option Out} {o : Option Out} {s1 s2 : St} (h : two alt o = some (s1, s2)) :
    ∃ c1 c2, o = some (.ret true s1 (some c1)) ∧ alt c1 = some (.ret true s2 c2) := by
  unfold two at h
  split at h
  next t1 c =>
    split at h
    next t2 c2 hc =>
      simp only [Option.some.injEq, Prod.mk.injEq] at h
      obtain ⟨rfl, rfl⟩ := h
      exact ⟨c, c2, rfl, hc⟩
    next => simp at h
  next => simp at h

theorem two_map {α : Type} {alt : CP → Option Out} {o : Option Out} {f : St × St → α} {v : α}
    (h : (two alt o).map f = some v) :
    ∃ s1 s2 c1 c2, o = some (.ret true s1 (some c1)) ∧ alt c1 = some (.ret true s2 c2) ∧ f (s1, s2) = v := by
  cases ht : two alt o with
  | none => rw [ht] at h; simp at h
  | some p =>
    rw [ht] at h
    simp only [Option.map_some, Option.some.injEq] at h
    obtain ⟨c1, c2, h1, h2⟩ := two_run (s1 := p.1) (s2 := p.2) ht
    exact ⟨_, _, c1, c2, h1, h2, h⟩

/-- append(L1, L2, [1,2]): three answers, the first one is L1 = []. -/
example : ∃ os, Run (append3 (exE 9) (.ref 1) 9 exSt (.ref 0) (.lst 2)) (appendAlt (exE 9)) os ∧
    oks os = [some NIL_WORD, some (.lst 6), some (.lst 6)] ∧
    Follows 30 exSt (fun k ρ => App k (eval exSt.mem ρ (.ref 0)) (eval exSt.mem ρ (.ref 1)) (eval exSt.mem ρ (.lst 2))) 0 os := by
  have h1 : ∃ s1, append3 (exE 9) (.ref 1) 9 exSt (.ref 0) (.lst 2) = some (.ret true s1 (some ⟨exSt, .ref 0, .ref 1, .lst 2⟩)) ∧
      s1.mem 0 = NIL_WORD := by
    simp [append3, appendVar, listLength, nilUnify, getNil, retUnify, deref_ref, deref_nonref, exSt, stL, memL, exE, unify, bindTo,
      St.bindUV, Mem.set, varOrList, copyWord]
  obtain ⟨s1, h1, e1⟩ := h1
  have h2 : (two (appendAlt (exE 9)) (appendAlt (exE 9) ⟨exSt, .ref 0, .ref 1, .lst 2⟩)).map
      (fun p => (p.1.mem 0, p.2.mem 0)) = some (.lst 6, .lst 6) := by
    simp [two, appendAlt, getList, unifyVariable, unifyValue, push, nilUnify, getNil, retUnify, deref_ref, deref_nonref, exSt, stL, memL,
      exE, unify, bindTo, St.bindUV, Mem.set, varOrList, copyWord]
  obtain ⟨s2, s3, c2, c3, h2, h3, e⟩ := two_map h2
  simp only [Prod.mk.injEq] at e
  obtain ⟨e2, e3⟩ := e
  have hrun : Run (append3 (exE 9) (.ref 1) 9 exSt (.ref 0) (.lst 2)) (appendAlt (exE 9))
      [.ret true s1 (some ⟨exSt, .ref 0, .ref 1, .lst 2⟩), .ret true s2 (some c2), .ret true s3 c3] :=
    ⟨_, _, h1, rfl, .redo h2 (.redo h3 .stop)⟩
  refine ⟨_, hrun, ?_, C34_append exSt_ok exSt_v0 exSt_v1 exSt_v2 hrun⟩
  simp [oks, e1, e2, e3]

/-- reverse([1,2], L): one answer. -/
example : ∃ s1, Run (reverse2 (exE 9) exSt (.lst 2) (.ref 0)) (reverseAlt (exE 9)) [.ret true s1 none] ∧
    [s1.mem 0, s1.mem 8, s1.mem 9, s1.mem 6, s1.mem 7] = [.lst 8, .int 2, .lst 6, .int 1, NIL_WORD] := by
  have h1 : ∃ s1, reverse2 (exE 9) exSt (.lst 2) (.ref 0) = some (.ret true s1 none) ∧
      [s1.mem 0, s1.mem 8, s1.mem 9, s1.mem 6, s1.mem 7] = [.lst 8, .int 2, .lst 6, .int 1, NIL_WORD] := by
    simp [reverse2, reverseLoop, pushList, push, retUnify, deref_ref, deref_nonref, exSt, stL, memL, exE, unify, bindTo,
      St.bindUV, Mem.set, copyWord]
  obtain ⟨s1, h1, e1⟩ := h1
  exact ⟨s1, ⟨_, _, h1, rfl, .stop⟩, e1⟩

/-- reverse(L1, L2) with two variables: [], [], then [X], [X]. -/
example : ∃ s1 s2 c1 c2, Run (reverse2 (exE 9) exSt (.ref 0) (.ref 1)) (reverseAlt (exE 9)) [.ret true s1 (some c1), .ret true s2 c2] ∧
    [s1.mem 0, s1.mem 1] = [NIL_WORD, NIL_WORD] ∧ [s2.mem 0, s2.mem 7, s2.mem 1, s2.mem 8, s2.mem 9] =
      [.lst 6, NIL_WORD, .lst 8, .ref 6, NIL_WORD] := by
  have h1 : ∃ s1, reverse2 (exE 9) exSt (.ref 0) (.ref 1) = some (.ret true s1 (some ⟨exSt, .ref 0, .ref 1, NIL_WORD⟩)) ∧
      [s1.mem 0, s1.mem 1] = [NIL_WORD, NIL_WORD] := by
    simp [reverse2, reverseLoop, listLength, nilUnify, getNil, retUnify, deref_ref, deref_nonref, exSt, stL, memL, exE, unify, bindTo,
      St.bindUV, Mem.set, copyWord]
  have h2 : ∃ s2 c2, reverseAlt (exE 9) ⟨exSt, .ref 0, .ref 1, NIL_WORD⟩ = some (.ret true s2 c2) ∧
      [s2.mem 0, s2.mem 7, s2.mem 1, s2.mem 8, s2.mem 9] = [.lst 6, NIL_WORD, .lst 8, .ref 6, NIL_WORD] := by
    simp [reverseAlt, getList, unifyVariable, pushList, push, nilUnify, getNil, retUnify, deref_ref, deref_nonref, exSt, stL, memL, exE,
      unify, bindTo, St.bindUV, Mem.set, copyWord]
  obtain ⟨s1, h1, e1⟩ := h1
  obtain ⟨s2, c2, h2, e2⟩ := h2
  exact ⟨s1, s2, _, c2, ⟨_, _, h1, rfl, .redo h2 .stop⟩, e1, e2⟩

/-- length([1,2], N): N = 2; length(L, N): 0, then 1; length([1,2], 5) fails; length(L, L): an error. -/
example : (∃ s1, length2 (exE 9) false exSt (.lst 2) (.ref 0) = some (.ret true s1 none) ∧ s1.mem 0 = .int 2) ∧
    (∃ s1 s2 c2, Run (length2 (exE 9) false exSt (.ref 0) (.ref 1)) (lengthAlt (exE 9))
      [.ret true s1 (some ⟨exSt, .ref 0, .ref 1, .int 0⟩), .ret true s2 c2] ∧ [s1.mem 1, s2.mem 1] = [.int 0, .int 1]) ∧
    (∃ s1, length2 (exE 9) false exSt (.lst 2) (.int 5) = some (.ret false s1 none)) ∧
    length2 (exE 9) false exSt (.ref 0) (.ref 0) = some (.err .resourceFiniteMemory) := by
  refine ⟨?_, ?_, ?_, ?_⟩
  · simp [length2, lengthLoop, getInteger, deref_ref, deref_nonref, exSt, stL, memL, exE, St.bindUV, Mem.set]
  · have h1 : ∃ s1, length2 (exE 9) false exSt (.ref 0) (.ref 1) = some (.ret true s1 (some ⟨exSt, .ref 0, .ref 1, .int 0⟩)) ∧
        s1.mem 1 = .int 0 := by
      simp [length2, lengthLoop, lengthNil, getNil, getInteger, deref_ref, deref_nonref, exSt, stL, memL, exE, St.bindUV, Mem.set]
    have h2 : ∃ s2 c2, lengthAlt (exE 9) ⟨exSt, .ref 0, .ref 1, .int 0⟩ = some (.ret true s2 c2) ∧ s2.mem 1 = .int 1 := by
      simp [lengthAlt, getList, unifyVoid1, unifyVariable, push, lengthNil, getNil, getInteger, deref_ref, deref_nonref, exSt, stL,
        memL, exE, St.bindUV, Mem.set]
    obtain ⟨s1, h1, e1⟩ := h1
    obtain ⟨s2, c2, h2, e2⟩ := h2
    exact ⟨s1, s2, c2, ⟨_, _, h1, rfl, .redo h2 .stop⟩, by simp [e1, e2]⟩
  · simp [length2, lengthLoop, getInteger, deref_ref, deref_nonref, exSt, stL, memL, exE]
  · simp [length2, lengthLoop, deref_ref, exSt, stL, memL, exE]

/-- nth(2, [1,2], X): X = 2. -/
example : ∃ s1, nth3 (exE 9) exSt 2 (.lst 2) (.ref 0) 1 = some (.ret true s1 none) ∧ s1.mem 0 = .int 2 := by
  simp [nth3, nthLoop, getList, unifyVariable, retUnify, deref_ref, deref_nonref, exSt, stL, memL, exE, unify, bindTo,
    St.bindUV, Mem.set, copyWord]

/-- member(X, [1,2]): two answers, then no choice point; the list is not partial. -/
example : ∃ s1 s2 c1, Run (member2 (exE 9) exSt (.ref 0) (.lst 2)) (memberAlt (exE 9)) [.ret true s1 (some c1), .ret true s2 none] ∧
    [s1.mem 0, s2.mem 0] = [.int 1, .int 2] ∧ TailFree exSt.mem (.ref 0) (.lst 2) := by
  have h1 : ∃ s1, member2 (exE 9) exSt (.ref 0) (.lst 2) = some (.ret true s1 (some ⟨exSt, .ref 0, .int 1, .lst 4⟩)) ∧
      s1.mem 0 = .int 1 := by
    simp [member2, member3, getList, unifyVariable, deref_ref, deref_nonref, exSt, stL, memL, exE, unify, bindTo,
      St.bindUV, Mem.set, copyWord, varOrList]
  have h2 : ∃ s2, memberAlt (exE 9) ⟨exSt, .ref 0, .int 1, .lst 4⟩ = some (.ret true s2 none) ∧ s2.mem 0 = .int 2 := by
    simp [memberAlt, member3, getList, unifyVariable, deref_ref, deref_nonref, exSt, stL, memL, exE, unify, bindTo,
      St.bindUV, Mem.set, copyWord, varOrList]
  obtain ⟨s1, h1, e1⟩ := h1
  obtain ⟨s2, h2, e2⟩ := h2
  refine ⟨s1, s2, _, ⟨_, _, h1, rfl, .redo h2 .stop⟩, by simp [e1, e2], ?_⟩
  intro as v hp
  cases hp with
  | var h => rw [deref_nonref (by simp)] at h; simp at h
  | cons h hp =>
    rw [deref_nonref (by simp)] at h
    simp only [Option.some.injEq, Cell.lst.injEq] at h
    subst h
    cases hp with
    | var h => rw [deref_nonref (by simp [exSt, stL, memL])] at h; simp [exSt, stL, memL] at h
    | cons h hp =>
      rw [deref_nonref (by simp [exSt, stL, memL])] at h
      simp [exSt, stL, memL] at h
      subst h
      cases hp with
      | var h => rw [deref_nonref (by simp [exSt, stL, memL])] at h; simp [exSt, stL, memL] at h
      | cons h _ => rw [deref_nonref (by simp [exSt, stL, memL])] at h; simp [exSt, stL, memL] at h

/-- member(X, L) with two variables: L is partial and X does not contain its end; L = [X|_], then [_, X|_]. -/
example : (∃ s1 s2 c1 c2, Run (member2 (exE 9) exSt (.ref 0) (.ref 1)) (memberAlt (exE 9)) [.ret true s1 (some c1), .ret true s2 c2] ∧
    [s1.mem 1, s1.mem 6, s2.mem 1, s2.mem 7, s2.mem 8] = [.lst 6, .ref 0, .lst 6, .lst 8, .ref 0]) ∧
    TailFree exSt.mem (.ref 0) (.ref 1) := by
  constructor
  · have h1 : (two (memberAlt (exE 9)) (member2 (exE 9) exSt (.ref 0) (.ref 1))).map
        (fun p => [p.1.mem 1, p.1.mem 6, p.2.mem 1, p.2.mem 7, p.2.mem 8]) =
        some [.lst 6, .ref 0, .lst 6, .lst 8, .ref 0] := by
      simp [two, member2, memberAlt, member3, getList, unifyVariable, push, deref_ref, deref_nonref, exSt, stL, memL, exE, unify, bindTo,
        St.bindUV, Mem.set, copyWord, varOrList]
    obtain ⟨s1, s2, c1, c2, h1, h2, e⟩ := two_map h1
    exact ⟨s1, s2, c1, c2, ⟨_, _, h1, rfl, .redo h2 .stop⟩, e⟩
  · have hd : deref exSt.mem (.ref 1) = some (.ref 1) := by
      rw [deref_ref]; simp [exSt, stL, memL]
    intro as v hp
    cases hp with
    | var h =>
      rw [hd] at h
      simp only [Option.some.injEq, Cell.ref.injEq] at h
      subst h
      refine ⟨?_, by simp⟩
      intro b hb hf
      simp only [Kid] at hb
      subst hb
      have := from_self (m := exSt.mem) (a := 0) rfl hf
      omega
    | cons h _ => rw [hd] at h; simp at h

/-- memberchk(2, [1,2]) and memberchk(X, L). -/
example : (∃ s1, memberchk2 (exE 9) exSt (.int 2) (.lst 2) = some (.ret true s1 none)) ∧
    ∃ s1, memberchk2 (exE 9) exSt (.ref 0) (.ref 1) = some (.ret true s1 none) ∧ [s1.mem 1, s1.mem 6] = [.lst 6, .ref 0] := by
  constructor
  · simp [memberchk2, memberchkLoop, getList, unifyValue, unifyVariable, unifyVoid1, deref_ref, deref_nonref, exSt, stL, memL, exE,
      unify, unifyNonVar, copyWord]
  · simp [memberchk2, memberchkLoop, getList, unifyValue, unifyVoid1, push, deref_ref, exSt, stL, memL, exE, St.bindUV, Mem.set]

end Gp.ListBip
