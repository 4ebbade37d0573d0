import Verif.Singl.Model
import Verif.NumVars.Props
/-
C64. name_singleton_vars/1: exactly the variables which occur once in the (finite) term are bound, to '$VARNAME'('_').
-/
namespace Gp.Singl
open Gp.Heap Gp.Unify Gp.ListBip Gp.TermInl

variable {N : Adr} {s s' : St} {dname under : Nat}

/-! ## The array -/

theorem firsts_snoc (L : List Nat) (a : Nat) : firsts (L ++ [a]) = if a ∈ L then firsts L else firsts L ++ [a] := by
  induction L with
  | nil => simp [firsts]
  | cons b L ih =>
    simp only [List.cons_append, firsts, ih]
    by_cases h : a ∈ L
    · rw [if_pos h, if_pos (by simp [h])]
    · rw [if_neg h]
      by_cases h' : a = b
      · subst h'
        rw [if_pos (by simp), List.filter_append]
        simp
      · rw [if_neg (by simp [h, h']), List.filter_append]
        simp [h']

theorem mark_none {a : Adr} {l : List (Adr × Bool)} (h : mark a l = none) : a ∉ l.map Prod.fst := by
  induction l with
  | nil => simp
  | cons p l ih =>
    obtain ⟨b, m⟩ := p
    simp only [mark] at h
    by_cases q : b = a
    · rw [if_pos q] at h; simp at h
    · rw [if_neg q] at h
      cases hm : mark a l with
      | none => simp only [List.map_cons, List.mem_cons, not_or]; exact ⟨fun e => q e.symm, ih hm⟩
      | some r => rw [hm] at h; simp at h

theorem mark_some {a : Adr} {l : List (Adr × Bool)} : ∀ {l' : List (Adr × Bool)} {f : Bool}, (l.map Prod.fst).Nodup →
    mark a l = some (l', f) →
    l'.map Prod.fst = l.map Prod.fst ∧ a ∈ l.map Prod.fst ∧ (∀ p ∈ l', if p.1 = a then p.2 = true else p ∈ l) ∧
      (l'.filter fun p => !p.2).length + (if f then 1 else 0) = (l.filter fun p => !p.2).length := by
  induction l with
  | nil => intro l' f _ h; simp [mark] at h
  | cons p l ih =>
    intro l' f hn h
    obtain ⟨b, m⟩ := p
    simp only [mark] at h
    simp only [List.map_cons, List.nodup_cons] at hn
    by_cases q : b = a
    · rw [if_pos q] at h
      simp only [Option.some.injEq, Prod.mk.injEq] at h
      obtain ⟨rfl, rfl⟩ := h
      subst q
      refine ⟨rfl, by simp, ?_, ?_⟩
      · intro p hp
        rcases List.mem_cons.mp hp with rfl | hp
        · simp
        · have : p.1 ≠ b := by
            intro e
            exact hn.1 (List.mem_map.mpr ⟨p, hp, e⟩)
          rw [if_neg this]; exact List.mem_cons_of_mem _ hp
      · cases m <;> simp
    · rw [if_neg q] at h
      cases hm : mark a l with
      | none => rw [hm] at h; simp at h
      | some r =>
        obtain ⟨l1, f1⟩ := r
        rw [hm] at h
        simp only [Option.some.injEq, Prod.mk.injEq] at h
        obtain ⟨rfl, rfl⟩ := h
        obtain ⟨e1, e2, e3, e4⟩ := ih hn.2 hm
        refine ⟨by simp [e1], by simp [e2], ?_, ?_⟩
        · intro p hp
          rcases List.mem_cons.mp hp with rfl | hp
          · rw [if_neg q]; simp
          · have := e3 p hp
            by_cases h : p.1 = a
            · rw [if_pos h] at this ⊢; exact this
            · rw [if_neg h] at this ⊢; exact List.mem_cons_of_mem _ this
        · cases m
          · simp only [Bool.not_false, List.filter_cons_of_pos, List.length_cons]; omega
          · simp only [Bool.not_true, Bool.false_eq_true, not_false_eq_true, List.filter_cons_of_neg]; exact e4

/-- The array after the occurrences `L`. -/
structure Desc (L : List Nat) (x : Sg) : Prop where
  vars : x.dico.map Prod.fst = firsts L
  marks : ∀ p ∈ x.dico, p.2 = decide (L.count p.1 ≠ 1)
  nb : x.nb = ((x.dico.filter fun p => !p.2).length : Nat)
  size : x.dico.length ≤ MAX_VAR

theorem desc_step {L : List Nat} {x : Sg} (h : Desc L x) (a : Nat) :
    (∃ x', collectSingl x (.ref a) = .go x' ∧ Desc (L ++ [a]) x') ∨
      (collectSingl x (.ref a) = .err .reprTooManyVariables ∧ MAX_VAR < (firsts (L ++ [a])).length) := by
  have hnd : (x.dico.map Prod.fst).Nodup := by rw [h.vars]; exact firsts_nodup L
  have hlen : x.dico.length = (firsts L).length := by rw [← h.vars, List.length_map]
  simp only [collectSingl]
  cases hm : mark a x.dico with
  | some r =>
    obtain ⟨l, f⟩ := r
    obtain ⟨e1, e2, e3, e4⟩ := mark_some hnd hm
    have haL : a ∈ L := by rw [h.vars] at e2; exact firsts_mem.mp e2
    refine .inl ⟨_, rfl, ?_, ?_, ?_, ?_⟩
    · simp only; rw [e1, h.vars, firsts_snoc, if_pos haL]
    · intro p hp
      have := e3 p hp
      by_cases q : p.1 = a
      · rw [if_pos q] at this
        rw [this, q, List.count_append]
        have : 0 < L.count a := List.count_pos_iff.mpr haL
        simp only [List.count_singleton_self]
        symm; rw [decide_eq_true_eq]; omega
      · rw [if_neg q] at this
        rw [h.marks p this, List.count_append]
        have : List.count p.1 [a] = 0 := by
          rw [List.count_eq_zero]; simpa using q
        rw [this, Nat.add_zero]
    · simp only
      rw [h.nb]
      cases f
      · simp only [Bool.false_eq_true, if_false] at e4 ⊢; omega
      · simp only [if_true] at e4 ⊢; omega
    · simp only
      have : l.length = x.dico.length := by rw [← List.length_map (f := Prod.fst), e1, List.length_map]
      rw [this]; exact h.size
  | none =>
    have ha := mark_none hm
    have haL : a ∉ L := by rw [h.vars] at ha; exact fun h => ha (firsts_mem.mpr h)
    simp only
    by_cases q : x.dico.length ≥ MAX_VAR
    · rw [if_pos q]
      refine .inr ⟨rfl, ?_⟩
      rw [firsts_snoc, if_neg haL, List.length_append, ← hlen]
      simp only [List.length_singleton]; omega
    · rw [if_neg q]
      refine .inl ⟨_, rfl, ?_, ?_, ?_, ?_⟩
      · simp only [List.map_append, List.map_cons, List.map_nil]
        rw [h.vars, firsts_snoc, if_neg haL]
      · intro p hp
        rcases List.mem_append.mp hp with hp' | hp
        · have q : p.1 ≠ a := by rintro rfl; exact ha (List.mem_map.mpr ⟨p, hp', rfl⟩)
          rw [h.marks p hp', List.count_append]
          have : List.count p.1 [a] = 0 := by rw [List.count_eq_zero]; simpa using q
          rw [this, Nat.add_zero]
        · simp only [List.mem_singleton] at hp
          subst hp
          simp [List.count_append, List.count_eq_zero.mpr haL]
      · simp only [List.filter_append, List.length_append]
        rw [h.nb]
        simp
      · simp only [List.length_append, List.length_singleton]; omega

theorem firsts_len_le (L L' : List Nat) : (firsts L).length ≤ (firsts (L ++ L')).length := by
  induction L' generalizing L with
  | nil => simp
  | cons a L' ih =>
    have h1 := ih (L ++ [a])
    rw [List.append_assoc, List.singleton_append] at h1
    refine Nat.le_trans ?_ h1
    rw [firsts_snoc]
    split <;> simp

theorem desc_fold {L' : List Nat} : ∀ {L : List Nat} {x : Sg}, Desc L x →
    (∃ x', foldTr collectSingl L' x = .go x' ∧ Desc (L ++ L') x') ∨
      (foldTr collectSingl L' x = .err .reprTooManyVariables ∧ MAX_VAR < (firsts (L ++ L')).length) := by
  induction L' with
  | nil => intro L x h; exact .inl ⟨x, rfl, by simpa using h⟩
  | cons a L' ih =>
    intro L x h
    simp only [foldTr]
    rcases desc_step h a with ⟨x1, e1, h1⟩ | ⟨e1, h1⟩
    · rw [e1]
      have := ih h1
      simpa [List.append_assoc] using this
    · rw [e1]
      refine .inr ⟨rfl, Nat.lt_of_lt_of_le h1 ?_⟩
      have := firsts_len_le (L ++ [a]) L'
      simpa [List.append_assoc] using this

/-! ## The bindings -/

theorem bindSingl_step {p dname under : Nat} {l : List (Adr × Bool)} : ∀ {s : St}, Ok N s → (l.map Prod.fst).Nodup →
    (∀ q ∈ l, q.1 < N ∧ s.mem q.1 = .ref q.1) → ValidWord N s.lssa s.mem (.stc p) → s.mem p = .fn dname 1 → p + 1 < N →
    s.mem (p + 1) = .atm under →
    Step N s (fun ρ => ∀ q ∈ l, q.2 = false → ρ q.1 = .app dname [.atm under]) (bindSingl (.stc p) l s) ∧
      ∀ a, (∀ q ∈ l, q.2 = false → q.1 ≠ a) → (bindSingl (.stc p) l s).mem a = s.mem a := by
  induction l with
  | nil => intro s hok _ _ _ _ _ _; exact ⟨Step.refl hok (by simp), fun _ _ => rfl⟩
  | cons q l ih =>
    intro s hok hnd hun hw hf hp hv
    obtain ⟨a, m⟩ := q
    simp only [List.map_cons, List.nodup_cons] at hnd
    simp only [bindSingl]
    cases m with
    | true =>
      simp only [if_true]
      obtain ⟨i1, i2⟩ := ih hok hnd.2 (fun q hq => hun q (List.mem_cons_of_mem _ hq)) hw hf hp hv
      exact ⟨i1.congr fun ρ _ => by simp, fun b hb => i2 b fun q hq => hb q (List.mem_cons_of_mem _ hq)⟩
    | false =>
      simp only [Bool.false_eq_true, if_false]
      obtain ⟨haN, hau⟩ := hun (a, false) (by simp)
      simp only at haN hau
      have bs := bind_step hok haN hau hw (by simp)
      have ne1 : p ≠ a := by rintro rfl; rw [hau] at hf; simp at hf
      have ne2 : p + 1 ≠ a := by intro e; rw [e, hau] at hv; simp at hv
      have ev : ∀ ρ, Model N s.mem ρ → eval s.mem ρ (.stc p) = .app dname [.atm under] := by
        intro ρ hρ
        have h3 := hρ (p + 1) hp (by rw [hv]; rfl)
        rw [hv] at h3
        rw [eval_stc hf]
        simp only [List.range_succ, List.range_zero, List.nil_append, List.map_cons, List.map_nil, Nat.add_zero]
        rw [h3]; rfl
      obtain ⟨i1, i2⟩ := ih (s := s.bindUV a (.stc p)) bs.ok hnd.2
        (fun q hq => by
          refine ⟨(hun q (List.mem_cons_of_mem _ hq)).1, ?_⟩
          have : q.1 ≠ a := by rintro rfl; exact hnd.1 (List.mem_map.mpr ⟨q, hq, rfl⟩)
          show Heap.Mem.set s.mem a _ q.1 = _
          rw [set_other _ _ _ _ this]
          exact (hun q (List.mem_cons_of_mem _ hq)).2)
        (bs.grow.valid hw)
        (by show Heap.Mem.set s.mem a _ p = _; rw [set_other _ _ _ _ ne1, hf])
        hp
        (by show Heap.Mem.set s.mem a _ (p + 1) = _; rw [set_other _ _ _ _ ne2, hv])
      refine ⟨bs.trans i1 ?_ ?_ ?_, ?_⟩
      · intro ρ h1 h2 h3 h4 q hq hq2
        rcases List.mem_cons.mp hq with rfl | hq
        · exact h3.trans (ev ρ h1)
        · exact h4 q hq hq2
      · intro ρ h1 h2
        rw [ev ρ h1]
        exact h2 (a, false) (by simp) rfl
      · intro ρ ρ' _ hag hR q hq hq2
        rw [hag q.1 (by rw [(hun q (List.mem_cons_of_mem _ hq)).2]; rfl)]
        exact hR q (List.mem_cons_of_mem _ hq) hq2
      · intro b hb
        rw [i2 b fun q hq => hb q (List.mem_cons_of_mem _ hq)]
        show Heap.Mem.set s.mem a _ b = _
        exact set_other _ _ _ _ (Ne.symm (hb (a, false) (by simp) rfl))

/-- name_singleton_vars(Term): `t` is the term and `T.vars t` its variables, one per occurrence. The call succeeds; its
answer is that each variable which occurs once is '$VARNAME'('_'); the other unbound variables of the memory are still
unbound. The error means that the term has more variables than the array. -/
def SinglSpec (N : Adr) (s : St) (dname under : Nat) (t : T) (o : TermInl.Out) : Prop :=
  match o with
  | .ret true s' => Answer N s (fun ρ => ∀ a, (T.vars t).count a = 1 → ρ a = .app dname [.atm under]) s' ∧
      ∀ a, s.mem a = .ref a → (T.vars t).count a ≠ 1 → s'.mem a = .ref a
  | .ret false _ => False
  | .err .reprTooManyVariables => MAX_VAR < (firsts (T.vars t)).length
  | .err _ => False

theorem C64_name_singletons {fuel : Nat} {tw : Cell} {t : T} {o : TermInl.Out} (hok : Ok N s)
    (ht : ValidWord N s.lssa s.mem tw) (rt : Reads s.mem tw t) (h : nameSingletons dname under fuel s tw = some o) :
    SinglSpec N s dname under t o := by
  unfold nameSingletons at h
  cases hc : treat collectSingl s.mem fuel ⟨[], 0⟩ tw with
  | none => rw [hc] at h; simp at h
  | some r =>
    rw [hc] at h
    have hr := treat_res rt hc
    rcases desc_fold (L' := T.vars t) (L := []) (x := ⟨[], 0⟩) ⟨rfl, by simp, rfl, by simp⟩ with ⟨x, e1, hD⟩ | ⟨e1, hbig⟩
    · rw [e1] at hr
      subst hr
      rw [List.nil_append] at hD
      simp only at h
      have hin : ∀ a, (T.vars t).count a = 1 → (a, false) ∈ x.dico := by
        intro a ha
        have : a ∈ firsts (T.vars t) := firsts_mem.mpr (List.count_pos_iff.mp (by omega))
        rw [← hD.vars] at this
        obtain ⟨⟨b, m⟩, hp, rfl⟩ := List.mem_map.mp this
        have := hD.marks _ hp
        simp only at this ha
        rw [ha] at this
        simp only [ne_eq, not_true_eq_false, decide_false] at this
        rw [this] at hp; exact hp
      have hout : ∀ q ∈ x.dico, q.2 = false → (T.vars t).count q.1 = 1 := by
        intro q hq h2
        have := hD.marks q hq
        rw [h2] at this
        have := of_decide_eq_false this.symm
        omega
      by_cases hz : x.nb = 0
      · rw [if_pos hz] at h
        simp only [Option.some.injEq] at h
        subst h
        have none' : ∀ a, (T.vars t).count a ≠ 1 := by
          intro a ha
          have h1 := hD.nb
          rw [hz] at h1
          have h2 : x.dico.filter (fun p => !p.2) = [] := List.length_eq_zero_iff.mp (by omega)
          have : (a, false) ∈ x.dico.filter (fun p => !p.2) := List.mem_filter.mpr ⟨hin a ha, rfl⟩
          rw [h2] at this; simp at this
        exact ⟨Step.answer (Step.refl hok fun ρ _ a ha => absurd ha (none' a)), fun a ha _ => ha⟩
      · rw [if_neg hz] at h
        cases h1 : push s (.fn dname 1) with
        | none => rw [h1] at h; simp at h
        | some s1 =>
          rw [h1] at h
          simp only at h
          cases h2 : push s1 (.atm under) with
          | none => rw [h2] at h; simp at h
          | some s2 =>
            rw [h2] at h
            simp only [Option.some.injEq] at h
            subst h
            obtain ⟨st1, a1, a2, a3, -⟩ := pushFn_step hok h1
            obtain ⟨st2, b1, b2, b3⟩ := push_step (w := .atm under) st1.ok trivial (by intro b hb; simp at hb) h2
            have hl1 := st1.lssa
            have hl2 := st2.lssa
            have htop := hok.top
            have s12 := st1.trans (R := fun _ => True) st2 (fun _ _ _ _ _ => trivial) (fun _ _ _ => trivial)
              (fun _ _ _ _ _ => trivial)
            have f2 : s2.mem s.h = .fn dname 1 := by rw [b1, set_other _ _ _ _ (by omega), a1, set_same]
            have f3 : s2.mem (s.h + 1) = .atm under := by rw [b1, a2, set_same]
            have hvars := vars_valid hok rt ht
            have keep : ∀ a, s.mem a = .ref a → s2.mem a = .ref a := by
              intro a ha
              have hpl := var_place hok ha
              rw [b1, set_other _ _ _ _ (by omega), a1, set_other _ _ _ _ (by omega), ha]
            have hmem : ∀ q ∈ x.dico.reverse, q.1 < N ∧ s.mem q.1 = .ref q.1 := by
              intro q hq
              refine hvars q.1 (firsts_mem.mp ?_)
              rw [← hD.vars]
              exact List.mem_map.mpr ⟨q, List.mem_reverse.mp hq, rfl⟩
            obtain ⟨i1, i2⟩ := bindSingl_step (N := N) (p := s.h) (dname := dname) (under := under) (l := x.dico.reverse) st2.ok
              (by
                rw [List.map_reverse, hD.vars]
                exact List.pairwise_reverse.mpr ((firsts_nodup _).imp fun h => Ne.symm h))
              (fun q hq => ⟨(hmem q hq).1, keep _ (hmem q hq).2⟩)
              ⟨_, 1, f2, by omega, by omega, by omega, fun i hi => by
                rw [show s.h + 1 + i = s.h + 1 by omega, f3]; rfl⟩
              f2 (by omega) f3
            refine ⟨Step.answer (s12.trans i1 ?_ ?_ ?_), ?_⟩
            · intro ρ _ _ _ hq a ha
              exact hq (a, false) (List.mem_reverse.mpr (hin a ha)) rfl
            · intro _ _ _; trivial
            · intro ρ ρ' _ hag hR q hq hq2
              rw [hag q.1 (by rw [(hmem q hq).2]; rfl)]
              exact hR q.1 (hout q (List.mem_reverse.mp hq) hq2)
            · intro a ha hna
              rw [i2 a ?_]
              · exact keep a ha
              · rintro q hq hq2 rfl
                exact hna (hout q (List.mem_reverse.mp hq) hq2)
    · rw [e1] at hr
      subst hr
      simp only [Option.some.injEq] at h
      subst h
      exact (show MAX_VAR < (firsts (T.vars t)).length by simpa using hbig)

/-! ## The hypotheses are met -/

/-- `X` (0), `Y` (1), `f(X, Y, X)` (2-5). -/
def exM : Heap.Mem := memL [.ref 0, .ref 1, .fn 7 3, .ref 0, .ref 1, .ref 0]

def exS : St := { mem := exM, trail := [], h := 6, hb1 := 0, b := 0, lssa := 20 }

theorem exS_ok : Ok 20 exS := by
  refine ⟨?_, ?_, Nat.le_refl 20⟩
  · intro a ha ht
    have hle : ∀ a b, exM a = .ref b → b ≤ a := by
      intro a b h
      match a with
      | 0 | 1 | 2 | 3 | 4 | 5 => simp [exM, memL] at h <;> omega
      | a + 6 => simp [exM, memL] at h
    refine ⟨?_, fun b hb hlt => Nat.lt_of_le_of_lt (hle a b hb) hlt, acc_of_le hle a⟩
    match a with
    | 0 | 1 | 2 | 3 | 4 | 5 =>
      first | exact trivial | exact ⟨by decide, rfl⟩ | simp [exS, exM, memL, isTerm] at ht
    | a + 6 => simp [exS, exM, memL, isTerm] at ht
  · intro a h1 h2
    have h1 : 6 ≤ a := h1
    show exM a = _
    match a, h1 with
    | a + 6, _ => simp [exM, memL]

theorem exS_stc : ValidWord 20 exS.lssa exS.mem (.stc 2) := by
  refine ⟨7, 3, rfl, by decide, by decide, (by decide : 2 + 3 < 20), ?_⟩
  intro i hi
  match i with
  | 0 | 1 | 2 => rfl
  | i + 3 => omega

theorem exS_reads : Reads exS.mem (.stc 2) (.app 7 [.var 0, .var 1, .var 0]) := by
  have := Reads.stc (m := exS.mem) (a := 2) (f := 7) (n := 3) (g := fun i => if i = 1 then .var 1 else .var 0) rfl ?_
  · exact this
  · intro i hi
    match i with
    | 0 => exact Reads.var rfl
    | 1 => exact Reads.var rfl
    | 2 => exact Reads.var rfl
    | i + 3 => omega

/-- name_singleton_vars(f(X, Y, X)): Y = '$VARNAME'('_'), X is still a variable. -/
example : ∃ s', nameSingletons 41 50 5 exS (.stc 2) = some (.ret true s') ∧
    (s'.mem 0 = .ref 0 ∧ s'.mem 1 = .stc 6 ∧ s'.mem 6 = .fn 41 1 ∧ s'.mem 7 = .atm 50) ∧
    SinglSpec 20 exS 41 50 (.app 7 [.var 0, .var 1, .var 0]) (.ret true s') := by
  obtain ⟨s', h, hm⟩ := gives_iff (show gives true [(0, .ref 0), (1, .stc 6), (6, .fn 41 1), (7, .atm 50)]
    (nameSingletons 41 50 5 exS (.stc 2)) = true by
      simp [gives, nameSingletons, treat, treatArgs, collectSingl, mark, bindSingl, push, exS, exM, memL, MAX_VAR, deref_ref,
        deref_nonref, St.bindUV, Mem.set])
  exact ⟨s', h, ⟨hm (0, .ref 0) (by simp), hm (1, .stc 6) (by simp), hm (6, .fn 41 1) (by simp), hm (7, .atm 50) (by simp)⟩,
    C64_name_singletons exS_ok exS_stc exS_reads h⟩

end Gp.Singl
