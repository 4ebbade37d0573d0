import Verif.TermInl.Univ
namespace Gp.TermInl
open Gp.Heap Gp.Unify Gp.ListBip

variable {N : Adr} {s s1 s2 s3 s' s'' : St} {E : Env} {σ : Type}

/-- A function called on each element of a list, until it does not continue. -/
def foldTr (fct : σ → Cell → Tr σ) : List Nat → σ → Tr σ
  | [], st => .go st
  | a :: l, st =>
    match fct st (.ref a) with
    | .go st' => foldTr fct l st'
    | r => r

theorem foldTr_append (fct : σ → Cell → Tr σ) (l l' : List Nat) (st : σ) :
    foldTr fct (l ++ l') st = (match foldTr fct l st with
      | .go st' => foldTr fct l' st'
      | r => r) := by
  induction l generalizing st with
  | nil => rfl
  | cons a l ih =>
    simp only [List.cons_append, foldTr]
    cases h : fct st (.ref a) with
    | go st' => exact ih st'
    | stop st' => rfl
    | err e => rfl

theorem foldTr_one (fct : σ → Cell → Tr σ) (a : Nat) (st : σ) : foldTr fct [a] st = fct st (.ref a) := by
  simp only [foldTr]
  cases fct st (.ref a) <;> rfl

theorem reads_deref {m : Heap.Mem} {w : Cell} {t : T} (h : Reads m w t) :
    ∃ v, deref m w = some v ∧ Reads m v t ∧ ∀ a, v = .ref a → m a = .ref a := by
  induction h with
  | @var a h => exact ⟨.ref a, by rw [deref_ref, if_pos h], .var h, fun b hb => by cases hb; exact h⟩
  | @bound a t h _ ih =>
    obtain ⟨v, h1, h2, h3⟩ := ih
    exact ⟨v, by rw [deref_ref, if_neg h]; exact h1, h2, h3⟩
  | @atm i => exact ⟨_, deref_nonref (by simp), .atm, by simp⟩
  | @int i => exact ⟨_, deref_nonref (by simp), .int, by simp⟩
  | flt h1 h2 => exact ⟨_, deref_nonref (by simp), .flt h1 h2, by simp⟩
  | nan h1 h2 => exact ⟨_, deref_nonref (by simp), .nan h1 h2, by simp⟩
  | lst h1 h2 => exact ⟨_, deref_nonref (by simp), .lst h1 h2, by simp⟩
  | stc h1 h2 => exact ⟨_, deref_nonref (by simp), .stc h1 h2, by simp⟩

theorem treatArgs_res {fct : σ → Cell → Tr σ} {rec : σ → Cell → Option (Tr σ)} {m : Heap.Mem}
    (hrec : ∀ st w t r, Reads m w t → rec st w = some r → r = foldTr fct (T.vars t) st) {k : Nat} :
    ∀ {st : σ} {a : Adr} {g : Nat → T} {r : Tr σ}, (∀ i, i < k → Reads m (m (a + i)) (g i)) →
    treatArgs rec m k st a = some r → r = foldTr fct (((List.range k).map g).flatMap fun t => T.vars t) st := by
  induction k with
  | zero => intro st a g r _ h; simp [treatArgs] at h
  | succ k ih =>
    intro st a g r hg h
    cases k with
    | zero =>
      simp only [treatArgs] at h
      have := hrec st (m a) (g 0) r (hg 0 (by omega)) h
      simpa using this
    | succ k =>
      simp only [treatArgs] at h
      rw [List.range_succ_eq_map, List.map_cons, List.map_map, List.flatMap_cons, foldTr_append]
      cases h1 : rec st (m a) with
      | none => rw [h1] at h; simp at h
      | some r1 =>
        have e1 := hrec st (m a) (g 0) r1 (hg 0 (by omega)) h1
        rw [h1] at h
        rw [← e1]
        cases r1 with
        | go st' =>
          simp only at h ⊢
          refine ih (g := g ∘ Nat.succ) ?_ h
          intro i hi
          have := hg (i + 1) (by omega)
          rw [show a + 1 + i = a + (i + 1) by omega]; exact this
        | stop st' => simp only [Option.some.injEq] at h; exact h.symm
        | err e => simp only [Option.some.injEq] at h; exact h.symm

/-- The traversal calls the function on the variables of the term, from left to right. -/
theorem treat_res {fct : σ → Cell → Tr σ} {m : Heap.Mem} {n : Nat} : ∀ {st : σ} {w : Cell} {t : T} {r : Tr σ},
    Reads m w t → treat fct m n st w = some r → r = foldTr fct (T.vars t) st := by
  induction n with
  | zero => intro st w t r _ h; simp [treat] at h
  | succ n ih =>
    intro st w t r hr h
    obtain ⟨v, d1, d2, d3⟩ := reads_deref hr
    simp only [treat, d1] at h
    cases d2 with
    | var h1 =>
      simp only [Option.some.injEq] at h
      rw [T.vars, foldTr_one]; exact h.symm
    | bound h1 h2 => exact absurd (d3 _ rfl) h1
    | atm => simp only [Option.some.injEq] at h; rw [T.vars] <;> first | exact h.symm | simp
    | int => simp only [Option.some.injEq] at h; rw [T.vars] <;> first | exact h.symm | simp
    | flt h1 h2 => simp only [Option.some.injEq] at h; rw [T.vars] <;> first | exact h.symm | simp
    | nan h1 h2 => simp only [Option.some.injEq] at h; rw [T.vars] <;> first | exact h.symm | simp
    | @lst a t1 t2 h1 h2 =>
      simp only at h
      rw [T.vars, foldTr_append]
      cases h3 : treat fct m n st (m a) with
      | none => rw [h3] at h; simp at h
      | some r1 =>
        rw [h3] at h
        rw [← ih h1 h3]
        cases r1 with
        | go st' => exact ih h2 h
        | stop st' => simp only [Option.some.injEq] at h; exact h.symm
        | err e => simp only [Option.some.injEq] at h; exact h.symm
    | @stc a f k g h1 h2 =>
      simp only [h1] at h
      rw [T.vars]
      exact treatArgs_res (fun st w t r h h' => ih h h') h2 h

theorem firsts_mem {l : List Nat} {a : Nat} : a ∈ firsts l ↔ a ∈ l := by
  induction l with
  | nil => simp [firsts]
  | cons b l ih =>
    simp only [firsts, List.mem_cons, List.mem_filter, ih]
    constructor
    · rintro (h | ⟨h, _⟩)
      · exact .inl h
      · exact .inr h
    · rintro (h | h)
      · exact .inl h
      · by_cases hab : a = b
        · exact .inl hab
        · exact .inr ⟨h, by simpa using hab⟩

theorem firsts_nodup (l : List Nat) : (firsts l).Nodup := by
  induction l with
  | nil => exact List.nodup_nil
  | cons b l ih =>
    simp only [firsts, List.nodup_cons, List.mem_filter]
    refine ⟨by simp, List.Nodup.sublist List.filter_sublist ih⟩

/-- What is left of the first occurrences. -/
def left (D L : List Nat) : List Nat := (firsts L).filter fun a => decide (a ∉ D)

theorem left_nil (L : List Nat) : left [] L = firsts L := by simp [left]

theorem left_in {D L : List Nat} {a : Nat} (h : a ∈ D) : left D (a :: L) = left D L := by
  simp only [left, firsts]
  rw [List.filter_cons_of_neg (by simpa using h), List.filter_filter]
  refine List.filter_congr fun b _ => ?_
  by_cases hb : b ∈ D
  · simp [hb]
  · have : b ≠ a := by rintro rfl; exact hb h
    simp [hb, this]

theorem left_out {D L : List Nat} {a : Nat} (h : a ∉ D) : left D (a :: L) = a :: left (D ++ [a]) L := by
  simp only [left, firsts]
  rw [List.filter_cons_of_pos (by simpa using h), List.filter_filter]
  congr 1
  refine List.filter_congr fun b _ => ?_
  by_cases hb : b ∈ D <;> simp [hb]

/-- The variables collected. -/
theorem collect_fold {L : List Nat} : ∀ {D : List Nat}, D.length ≤ MAX_VAR →
    (foldTr collect L D = .go (D ++ left D L) ∧ (D ++ left D L).length ≤ MAX_VAR) ∨
    (foldTr collect L D = .err .reprTooManyVariables ∧ MAX_VAR < (D ++ left D L).length) := by
  induction L with
  | nil => intro D h; left; simpa [foldTr, left, firsts] using h
  | cons a L ih =>
    intro D h
    simp only [foldTr]
    by_cases ha : a ∈ D
    · have e : collect D (.ref a) = .go D := if_pos ha
      rw [e, left_in ha]
      exact ih h
    · rw [left_out ha]
      by_cases hl : D.length ≥ MAX_VAR
      · have e : collect D (.ref a) = .err .reprTooManyVariables := by unfold collect; exact (if_neg ha).trans (if_pos hl)
        rw [e]
        refine .inr ⟨rfl, ?_⟩
        simp only [List.length_append, List.length_cons]
        omega
      · have e : collect D (.ref a) = .go (D ++ [a]) := by unfold collect; exact (if_neg ha).trans (if_neg hl)
        rw [e]
        have := ih (D := D ++ [a]) (by simp only [List.length_append, List.length_singleton]; omega)
        simpa [List.append_assoc] using this

theorem collect_res {n : Nat} {w : Cell} {t : T} {r : Tr (List Adr)} (hr : Reads s.mem w t)
    (h : treat collect s.mem n [] w = some r) :
    (r = .go (firsts (T.vars t)) ∧ (firsts (T.vars t)).length ≤ MAX_VAR) ∨
      (r = .err .reprTooManyVariables ∧ MAX_VAR < (firsts (T.vars t)).length) := by
  have := collect_fold (L := T.vars t) (D := []) (by simp)
  rw [← treat_res hr h] at this
  simpa [left_nil] using this

/-- The variables of a term are unbound variables of the memory; those of a term of the global stack are in the global
stack. -/
theorem vars_valid (hok : Ok N s) {w : Cell} {t : T} (hr : Reads s.mem w t) :
    ValidWord N s.lssa s.mem w → ∀ a ∈ T.vars t, a < N ∧ s.mem a = .ref a := by
  induction hr with
  | var h => intro hw b hb; simp only [T.vars, List.mem_singleton] at hb; subst hb; exact ⟨hw.1, h⟩
  | bound h _ ih => intro hw; exact ih (hok.wf _ hw.1 hw.2).1
  | lst h1 h2 ih1 ih2 =>
    intro hw b hb
    obtain ⟨c1, c2, c3, c4, c5, c6, c7, c8⟩ := lst_cells hok hw
    simp only [T.vars, List.mem_append] at hb
    rcases hb with hb | hb
    · exact ih1 c7 b hb
    · exact ih2 c5 b hb
  | @stc a f n g h1 h2 ih =>
    rintro ⟨f', n', h3, h4, h5, h6, h7⟩ b hb
    rw [h1] at h3
    cases h3
    simp only [T.vars, List.mem_flatMap, List.mem_map, List.mem_range] at hb
    obtain ⟨_, ⟨i, hi, rfl⟩, hb⟩ := hb
    exact ih i hi (hok.wf _ (by omega) (h7 i hi)).1 b hb
  | _ => intro _ b hb; simp [T.vars] at hb

theorem vars_global (hok : Ok N s) {w : Cell} {t : T} (hr : Reads s.mem w t) :
    ValidWord N s.lssa s.mem w → Global s.lssa w → ∀ a ∈ T.vars t, a < s.lssa := by
  have htop := hok.top
  induction hr with
  | var h => intro hw hg b hb; simp only [T.vars, List.mem_singleton] at hb; subst hb; exact hg _ rfl
  | @bound a t h _ ih =>
    intro hw hg
    have := hok.wf _ hw.1 hw.2
    exact ih this.1 (fun b hb => this.2.1 b hb (hg a rfl))
  | @lst a t1 t2 h1 h2 ih1 ih2 =>
    intro hw _ b hb
    obtain ⟨c1, c2, c3, c4, c5, c6, c7, c8⟩ := lst_cells hok hw
    simp only [T.vars, List.mem_append] at hb
    rcases hb with hb | hb
    · exact ih1 c7 (fun c hc => (hok.wf a (by omega) c3).2.1 c hc (by omega)) b hb
    · exact ih2 c5 (fun c hc => (hok.wf (a + 1) (by omega) c4).2.1 c hc (by omega)) b hb
  | @stc a f n g h1 h2 ih =>
    rintro ⟨f', n', h3, h4, h5, h6, h7⟩ _ b hb
    rw [h1] at h3
    cases h3
    simp only [T.vars, List.mem_flatMap, List.mem_map, List.mem_range] at hb
    obtain ⟨_, ⟨i, hi, rfl⟩, hb⟩ := hb
    have := hok.wf (a + 1 + i) (by omega) (h7 i hi)
    exact ih i hi this.1 (fun c hc => this.2.1 c hc (by omega)) b hb
  | _ => intro _ _ b hb; simp [T.vars] at hb

/-- A term which is not a variable of the local stack has its variables in the global stack. -/
theorem vars_global' (hok : Ok N s) {w : Cell} {t : T} (hr : Reads s.mem w t) (hw : ValidWord N s.lssa s.mem w)
    (hg : ∀ a, deref s.mem w = some (.ref a) → a < s.lssa) : ∀ a ∈ T.vars t, a < s.lssa := by
  obtain ⟨v, d1, d2, d3, d4⟩ := deref_ok hok hw
  obtain ⟨v', e1, e2, e3⟩ := reads_deref hr
  rw [d1] at e1
  cases e1
  exact vars_global hok e2 d2 (fun b hb => hg b (by rw [d1, hb]))

/-- The result of term_variables. -/
def VarsOut (N : Adr) (s : St) (t : T) (P : (Adr → T) → Prop) : Out → Prop
  | .ret true s' => Step N s P s' ∧ NoDot s'.mem
  | .ret false _ => NoAnswer N s P
  | .err .reprTooManyVariables => MAX_VAR < (firsts (T.vars t)).length
  | .err .typeList => NoAnswer N s P
  | .err _ => False

theorem termVars3_res (hok : Ok N s) (hnd : NoDot s.mem) {tw lw : Cell} {tail : Option Cell} {t : T} {o : Out}
    (hr : Reads s.mem tw t) (ht : ValidWord N s.lssa s.mem tw) (hl : ValidWord N s.lssa s.mem lw)
    (htl : ∀ w, tail = some w → ValidWord N s.lssa s.mem w)
    (hg : ∀ a, deref s.mem tw = some (.ref a) → a < s.lssa) (h : termVars3 E s tw lw tail = some o) :
    VarsOut N s t (fun ρ => eval s.mem ρ lw =
      listT ((firsts (T.vars t)).map ρ) ((tail.map fun w => eval s.mem ρ w).getD nil)) o := by
  unfold termVars3 at h
  cases h1 : treat collect s.mem E.fuel [] tw with
  | none => rw [h1] at h; simp at h
  | some r =>
    rw [h1] at h
    rcases collect_res hr h1 with ⟨rfl, _⟩ | ⟨rfl, hm⟩
    · have hi : ∀ i ∈ (firsts (T.vars t)).map fun a => Item.word (.ref a), GoodItem N s i := by
        intro i hi
        obtain ⟨a, ha, rfl⟩ := List.mem_map.mp hi
        have h2 := vars_valid hok hr ht a (firsts_mem.mp ha)
        have h3 := vars_global' hok hr ht hg a (firsts_mem.mp ha)
        exact ⟨⟨h2.1, by rw [h2.2]; rfl⟩, fun b hb => by cases hb; exact h3⟩
      have hv : ∀ ρ, vals s.mem ρ ((firsts (T.vars t)).map fun a => Item.word (.ref a)) = (firsts (T.vars t)).map ρ := by
        intro ρ; simp [vals, Item.val, Unify.eval, Function.comp]
      cases tail with
      | none =>
        obtain ⟨r, s', rfl, ho⟩ := fillNil_res hok hnd hi hl h
        have ho := ho.congr (Q := fun ρ => eval s.mem ρ lw = listT ((firsts (T.vars t)).map ρ) nil)
          (fun ρ _ => by rw [hv ρ])
        cases r <;> exact ho
      | some tl =>
        simp only at h
        cases h2 : fill E ((firsts (T.vars t)).map fun a => Item.word (.ref a)) s lw with
        | none => rw [h2] at h; simp at h
        | some p =>
          obtain ⟨ol, s1⟩ := p
          have hf := fill_res hok hnd hi hl h2
          rw [h2] at h
          cases ol with
          | none =>
            simp only [Option.some.injEq] at h; subst h
            intro ρ hρ he
            exact hf ρ hρ ⟨_, by rw [hv ρ]; exact he⟩
          | some l' =>
            simp only at h
            obtain ⟨st, v1, _, nd1⟩ := hf
            have vtl := htl tl rfl
            have v1' : ValidWord N s1.lssa s1.mem l' := by rw [st.lssa]; exact v1
            have vt1 : ValidWord N s1.lssa s1.mem tl := by rw [st.lssa]; exact st.grow.valid vtl
            obtain ⟨r, s2, rfl, hfi⟩ := unifyOut_res st.ok v1' vt1 h
            have hfi := hfi.congr (Q := fun ρ => eval s1.mem ρ l' = eval s.mem ρ tl) (fun ρ _ => by rw [st.grow.eval vtl])
            have h3 := fill_then (R := fun ρ y => y = eval s.mem ρ tl) hok hnd hi hl h2 hfi
              (fun ρ ρ' y a => by rw [a.eval vtl])
            have h4 := h3.congr (Q := fun ρ => eval s.mem ρ lw = listT ((firsts (T.vars t)).map ρ) (eval s.mem ρ tl))
              (fun ρ _ => by
                rw [hv ρ]
                exact ⟨fun ⟨y, h, h'⟩ => by rw [h, h'], fun h => ⟨_, h, rfl⟩⟩)
            cases r with
            | true => exact ⟨h4.1 rfl, unifyOut_nodot st.ok nd1 v1' vt1 h⟩
            | false => exact h4.2 rfl
    · simp only [Option.some.injEq] at h; subst h; exact hm

theorem termVariables_res (hok : Ok N s) (hnd : NoDot s.mem) {tw lw : Cell} {tail : Option Cell} {t : T} {o : Out}
    (hr : Reads s.mem tw t) (ht : ValidWord N s.lssa s.mem tw) (hl : ValidWord N s.lssa s.mem lw)
    (htl : ∀ w, tail = some w → ValidWord N s.lssa s.mem w)
    (hg : ∀ a, deref s.mem tw = some (.ref a) → a < s.lssa) (h : termVariables E s tw lw tail = some o) :
    VarsOut N s t (fun ρ => eval s.mem ρ lw =
      listT ((firsts (T.vars t)).map ρ) ((tail.map fun w => eval s.mem ρ w).getD nil)) o := by
  unfold termVariables at h
  cases tail with
  | some w => exact termVars3_res hok hnd hr ht hl htl hg h
  | none =>
    simp only at h
    cases hp : listOrPartial s.mem E.fuel lw with
    | none => rw [hp] at h; simp at h
    | some b =>
      rw [hp] at h
      cases b with
      | false =>
        simp only [Option.some.injEq] at h; subst h
        intro ρ hρ he
        exact listOrPartial_false hok hl hp ρ hρ _ he
      | true => exact termVars3_res hok hnd hr ht hl htl hg h

end Gp.TermInl
