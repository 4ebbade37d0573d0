import Verif.Dcg.Spec

namespace Gp.Dcg

variable {ν τ γ L : Type}

/-! ### Valuations -/

/-- The same values but for the variables of `[n, n')`. -/
def Agree (n n' : Nat) (ρ ρ' : Nat → L) : Prop := ∀ v, v < n ∨ n' ≤ v → ρ' v = ρ v

def upd (ρ : Nat → L) (w : Nat) (x : L) : Nat → L := fun v => if v = w then x else ρ v

theorem upd_same (ρ : Nat → L) (w : Nat) (x : L) : upd ρ w x w = x := by simp [upd]
theorem upd_ne (ρ : Nat → L) {w v : Nat} (x : L) (h : v ≠ w) : upd ρ w x v = ρ v := by simp [upd, h]

def Eqn.within (P : Nat → Prop) : Eqn τ → Prop
  | .vv a b => P a ∧ P b
  | .vl a _ b => P a ∧ P b

def Goal.within : Goal ν τ γ → (Nat → Prop) → Prop
  | .true, _ | .ext _, _ | .cut, _ => True
  | .eqn e, P => e.within P
  | .call _ a b, P | .phrase _ a b, P => P a ∧ P b
  | .conj p q, P | .ifThen _ p q, P | .alt p q, P => p.within P ∧ q.within P
  | .neg lo hi es p, P =>
    (∀ e ∈ es, e.within (fun v => P v ∨ (lo ≤ v ∧ v < hi))) ∧
      p.within (fun v => P v ∨ (lo ≤ v ∧ v < hi))

theorem Eqn.within_mono {P Q : Nat → Prop} (h : ∀ v, P v → Q v) {e : Eqn τ} (he : e.within P) :
    e.within Q := by
  cases e <;> exact ⟨h _ he.1, h _ he.2⟩

theorem Goal.within_mono {g : Goal ν τ γ} : ∀ {P Q : Nat → Prop}, (∀ v, P v → Q v) →
    g.within P → g.within Q := by
  induction g with
  | true | ext | cut => intro P Q _ _; trivial
  | eqn e => intro P Q h hg; exact Eqn.within_mono h hg
  | call n a b => intro P Q h hg; exact ⟨h _ hg.1, h _ hg.2⟩
  | phrase n a b => intro P Q h hg; exact ⟨h _ hg.1, h _ hg.2⟩
  | conj p q ihp ihq => intro P Q h hg; exact ⟨ihp h hg.1, ihq h hg.2⟩
  | ifThen s p q ihp ihq => intro P Q h hg; exact ⟨ihp h hg.1, ihq h hg.2⟩
  | alt p q ihp ihq => intro P Q h hg; exact ⟨ihp h hg.1, ihq h hg.2⟩
  | neg lo hi es p ih =>
    intro P Q h hg
    have h' : ∀ v, (P v ∨ (lo ≤ v ∧ v < hi)) → (Q v ∨ (lo ≤ v ∧ v < hi)) :=
      fun v hv => hv.imp (h v) id
    exact ⟨fun e he => Eqn.within_mono h' (hg.1 e he), ih h' hg.2⟩

theorem Eqn.congr (I : Interp ν τ γ L) {P : Nat → Prop} {ρ ρ' : Nat → L}
    (h : ∀ v, P v → ρ v = ρ' v) {e : Eqn τ} (he : e.within P) : e.holds I ρ ↔ e.holds I ρ' := by
  cases e with
  | vv a b => simp only [Eqn.holds]; rw [h _ he.1, h _ he.2]
  | vl a ts b => simp only [Eqn.holds]; rw [h _ he.1, h _ he.2]

theorem Sat.congr (I : Interp ν τ γ L) {P : Nat → Prop} {ρ ρ' : Nat → L}
    (h : ∀ v, P v → ρ v = ρ' v) {es : List (Eqn τ)} (he : ∀ e ∈ es, e.within P) :
    Sat I ρ es ↔ Sat I ρ' es :=
  ⟨fun hs e hm => (Eqn.congr I h (he e hm)).1 (hs e hm),
   fun hs e hm => (Eqn.congr I h (he e hm)).2 (hs e hm)⟩

theorem Holds.congr (I : Interp ν τ γ L) {g : Goal ν τ γ} : ∀ {P : Nat → Prop} {ρ ρ' : Nat → L},
    (∀ v, P v → ρ v = ρ' v) → g.within P → (Holds I g ρ ↔ Holds I g ρ') := by
  induction g with
  | true | ext | cut => intro P ρ ρ' _ _; exact Iff.rfl
  | eqn e => intro P ρ ρ' h hg; exact Eqn.congr I h hg
  | call n a b => intro P ρ ρ' h hg; simp only [Holds]; rw [h _ hg.1, h _ hg.2]
  | phrase n a b => intro P ρ ρ' h hg; simp only [Holds]; rw [h _ hg.1, h _ hg.2]
  | conj p q ihp ihq =>
    intro P ρ ρ' h hg; simp only [Holds]; rw [ihp h hg.1, ihq h hg.2]
  | ifThen s p q ihp ihq =>
    intro P ρ ρ' h hg; simp only [Holds]; rw [ihp h hg.1, ihq h hg.2]
  | alt p q ihp ihq =>
    intro P ρ ρ' h hg; simp only [Holds]; rw [ihp h hg.1, ihq h hg.2]
  | neg lo hi es p ih =>
    have key : ∀ {P : Nat → Prop} {ρ ρ' : Nat → L}, (∀ v, P v → ρ v = ρ' v) →
        (Goal.neg lo hi es p).within P → Holds I (.neg lo hi es p) ρ →
        Holds I (.neg lo hi es p) ρ' := by
      intro P ρ ρ' h hg hh
      simp only [Holds] at hh ⊢
      rintro ⟨ρ1, h1, h2, h3⟩
      apply hh
      refine ⟨fun v => if lo ≤ v ∧ v < hi then ρ1 v else ρ v, ?_, ?_, ?_⟩
      · intro v hv
        have : ¬(lo ≤ v ∧ v < hi) := by omega
        simp [this]
      all_goals
        have hag : ∀ v, (P v ∨ (lo ≤ v ∧ v < hi)) →
            ρ1 v = (fun v => if lo ≤ v ∧ v < hi then ρ1 v else ρ v) v := by
          intro v hv
          by_cases hz : lo ≤ v ∧ v < hi
          · simp [hz]
          · simp only [hz, if_false]
            rcases hv with hv | hv
            · rw [h1 v (by omega), h v hv]
            · exact absurd hv hz
      · exact (Sat.congr I hag hg.1).1 h2
      · exact (ih hag hg.2).1 h3
    intro P ρ ρ' h hg
    exact ⟨key h hg, key (fun v hv => (h v hv).symm) hg⟩

/-! ### Lists of goals -/

def HoldsAll (I : Interp ν τ γ L) (gs : List (Goal ν τ γ)) (ρ : Nat → L) : Prop :=
  ∀ g ∈ gs, Holds I g ρ

theorem holds_seq (I : Interp ν τ γ L) (gs : List (Goal ν τ γ)) (ρ : Nat → L) :
    Holds I (seqGoals gs) ρ ↔ HoldsAll I gs ρ := by
  induction gs with
  | nil => exact ⟨fun _ g h => absurd h (by simp), fun _ => trivial⟩
  | cons g gs ih =>
    cases gs with
    | nil => simp [seqGoals, HoldsAll]
    | cons g' gs =>
      simp only [seqGoals, Holds]
      rw [ih]
      simp [HoldsAll]

theorem within_seq {gs : List (Goal ν τ γ)} {P : Nat → Prop} (h : ∀ g ∈ gs, g.within P) :
    (seqGoals gs).within P := by
  induction gs with
  | nil => trivial
  | cons g gs ih =>
    cases gs with
    | nil => exact h g (by simp)
    | cons g' gs => exact ⟨h g (by simp), ih (fun x hx => h x (by simp [hx]))⟩

theorem HoldsAll.append (I : Interp ν τ γ L) {a b : List (Goal ν τ γ)} {ρ : Nat → L} :
    HoldsAll I (a ++ b) ρ ↔ HoldsAll I a ρ ∧ HoldsAll I b ρ := by
  simp only [HoldsAll, List.mem_append]
  exact ⟨fun h => ⟨fun g hg => h g (.inl hg), fun g hg => h g (.inr hg)⟩,
    fun h g hg => hg.elim (h.1 g) (h.2 g)⟩

theorem Sat.append (I : Interp ν τ γ L) {a b : List (Eqn τ)} {ρ : Nat → L} :
    Sat I ρ (a ++ b) ↔ Sat I ρ a ∧ Sat I ρ b := by
  simp only [Sat, List.mem_append]
  exact ⟨fun h => ⟨fun g hg => h g (.inl hg), fun g hg => h g (.inr hg)⟩,
    fun h g hg => hg.elim (h.1 g) (h.2 g)⟩

theorem Sat.one (I : Interp ν τ γ L) {e : Eqn τ} {ρ : Nat → L} : Sat I ρ [e] ↔ e.holds I ρ := by
  simp [Sat]

theorem Sat.nil (I : Interp ν τ γ L) {ρ : Nat → L} : Sat I ρ ([] : List (Eqn τ)) := by
  simp [Sat]

theorem HoldsAll.one (I : Interp ν τ γ L) {g : Goal ν τ γ} {ρ : Nat → L} :
    HoldsAll I [g] ρ ↔ Holds I g ρ := by
  simp [HoldsAll]

theorem HoldsAll.congr (I : Interp ν τ γ L) {P : Nat → Prop} {ρ ρ' : Nat → L}
    (h : ∀ v, P v → ρ v = ρ' v) {gs : List (Goal ν τ γ)} (hg : ∀ g ∈ gs, g.within P) :
    HoldsAll I gs ρ ↔ HoldsAll I gs ρ' :=
  ⟨fun hs g hm => (Holds.congr I h (hg g hm)).1 (hs g hm),
   fun hs g hm => (Holds.congr I h (hg g hm)).2 (hs g hm)⟩

/-! ### The variables of a part -/

/-- The variables which may occur in a part from `i` to `o` which made `[n, n')`. -/
def Zone (n n' i o : Nat) (v : Nat) : Prop := v = i ∨ v = o ∨ (n ≤ v ∧ v < n')

/-- The variables made, the variables used and the bindings of a part. -/
structure Bounds (gs : List (Goal ν τ γ)) (es : List (Eqn τ)) (st st' : St) (i o : Nat) : Prop where
  le : st.next ≤ st'.next
  eqs : ∀ e ∈ es, e.within (Zone st.next st'.next i o)
  goals : ∀ g ∈ gs, g.within (Zone st.next st'.next i o)
  rep : ∀ a b, st.rep a = st.rep b → st'.rep a = st'.rep b

theorem merge_rep (st : St) (a b : Nat) : (st.merge a b).rep a = (st.merge a b).rep b := by
  simp [St.merge]
theorem merge_mono (st : St) (a b : Nat) {x y : Nat} (h : st.rep x = st.rep y) :
    (st.merge a b).rep x = (st.merge a b).rep y := by
  simp [St.merge, h]

theorem inIsOut_bounds {gs : List (Goal ν τ γ)} {es : List (Eqn τ)} {opt : Bool} {i o : Nat}
    {st st' : St} (h : Bounds gs es st st' i o) :
    Bounds (inIsOut gs opt i o st').goals (es ++ (inIsOut gs opt i o st').eqs) st
      (inIsOut gs opt i o st').st i o := by
  unfold inIsOut
  cases opt with
  | true =>
    refine ⟨h.le, ?_, h.goals, fun a b hab => merge_mono _ _ _ (h.rep a b hab)⟩
    intro e he
    rcases List.mem_append.1 he with he | he
    · exact h.eqs e he
    · cases List.mem_singleton.1 he; exact ⟨.inl rfl, .inr (.inl rfl)⟩
  | false =>
    refine ⟨h.le, by simpa using h.eqs, ?_, h.rep⟩
    intro g hg
    rcases List.mem_append.1 hg with hg | hg
    · exact h.goals g hg
    · cases List.mem_singleton.1 hg; exact ⟨.inl rfl, .inr (.inl rfl)⟩

theorem bodyAlt_bounds {r : Res ν τ γ} {st : St} {i w o : Nat} {flag : Bool} (hw : st.next = w + 1)
    (hi : i < w) (h : Bounds r.goals r.eqs st r.st i w) :
    Bounds [(bodyAlt r i w o flag).1] (bodyAlt r i w o flag).2.1 { st with next := w }
      (bodyAlt r i w o flag).2.2 i o := by
  have hle := h.le
  have hz : ∀ v, Zone st.next r.st.next i w v → Zone w r.st.next i o v := by
    intro v hv; unfold Zone at *; omega
  have hzw : Zone w r.st.next i o w := by unfold Zone; omega
  have hzo : Zone w r.st.next i o o := by unfold Zone; omega
  unfold bodyAlt
  split
  · refine ⟨by simp; omega, fun e he => Eqn.within_mono hz (h.eqs e he), ?_, h.rep⟩
    intro g hg
    cases List.mem_singleton.1 hg
    refine within_seq (fun g hg => ?_)
    rcases List.mem_cons.1 hg with rfl | hg
    · exact ⟨hzw, hzo⟩
    · exact Goal.within_mono hz (h.goals g hg)
  · refine ⟨by simp [St.merge]; omega, ?_, ?_, fun a b hab => merge_mono _ _ _ (h.rep a b hab)⟩
    · intro e he
      rcases List.mem_append.1 he with he | he
      · exact Eqn.within_mono hz (h.eqs e he)
      · cases List.mem_singleton.1 he; exact ⟨hzw, hzo⟩
    · intro g hg
      cases List.mem_singleton.1 hg
      exact within_seq (fun g hg => Goal.within_mono hz (h.goals g hg))

theorem onStack_bounds (b : Body ν τ γ) : ∀ (opt : Bool) (i o : Nat) (st : St),
    i < st.next → o < st.next →
    Bounds (onStack b opt i o st).goals (onStack b opt i o st).eqs st (onStack b opt i o st).st i o := by
  have nilB : ∀ (st : St) (i o : Nat) (f : Bool),
      Bounds ([] : List (Goal ν τ γ)) ([] : List (Eqn τ)) st { st with flag := f } i o :=
    fun st i o f => ⟨Nat.le_refl _, by simp, by simp, fun _ _ h => h⟩
  have goalB : ∀ (st : St) (i o : Nat) (f : Bool) (g : Goal ν τ γ), (∀ P, P i → P o → g.within P) →
      Bounds [g] ([] : List (Eqn τ)) st { st with flag := f } i o :=
    fun st i o f g hg => ⟨Nat.le_refl _, by simp, fun x hx => by
      cases List.mem_singleton.1 hx; exact hg _ (.inl rfl) (.inr (.inl rfl)), fun _ _ h => h⟩
  induction b with
  | var x => intro opt i o st _ _; exact goalB st i o st.flag _ (fun P h1 h2 => ⟨h1, h2⟩)
  | nil =>
    intro opt i o st _ _
    exact inIsOut_bounds (opt := Bool.true) (es := []) (nilB st i o st.flag)
  | terms t ts =>
    intro opt i o st _ _
    unfold onStack termList
    split
    · exact ⟨Nat.le_refl _, fun e he => by
        cases List.mem_singleton.1 he; exact ⟨.inl rfl, .inr (.inl rfl)⟩, by simp, fun _ _ h => h⟩
    · exact goalB st i o Bool.true _ (fun P h1 h2 => ⟨h1, h2⟩)
  | conj a b iha ihb =>
    intro opt i o st hi ho
    have ha := iha Bool.true i st.next { st with next := st.next + 1 } (by simp; omega) (by simp)
    have hb := ihb opt st.next o (onStack a Bool.true i st.next { st with next := st.next + 1 }).st
      (by have := ha.le; simp at this; omega) (by have := ha.le; simp at this; omega)
    have hla := ha.le
    have hlb := hb.le
    simp at hla
    unfold onStack
    simp only
    refine ⟨by first | omega | (simp only; omega), ?_, ?_, fun x y h => hb.rep _ _ (ha.rep _ _ h)⟩
    · intro e he
      rcases List.mem_append.1 he with he | he
      · exact Eqn.within_mono (fun v hv => by unfold Zone at *; simp at hv; omega) (ha.eqs e he)
      · exact Eqn.within_mono (fun v hv => by unfold Zone at *; omega) (hb.eqs e he)
    · intro e he
      rcases List.mem_append.1 he with he | he
      · exact Goal.within_mono (fun v hv => by unfold Zone at *; simp at hv; omega) (ha.goals e he)
      · exact Goal.within_mono (fun v hv => by unfold Zone at *; omega) (hb.goals e he)
  | ifThen s a b iha ihb =>
    intro opt i o st hi ho
    have ha := iha Bool.false i st.next ⟨st.next + 1, st.rep, Bool.false⟩ (by simp; omega) (by simp)
    have hla := ha.le
    have hb := ihb Bool.false st.next o
      { (onStack a Bool.false i st.next ⟨st.next + 1, st.rep, Bool.false⟩).st with flag := Bool.false }
      (by simp at hla ⊢; omega) (by simp at hla ⊢; omega)
    have hlb := hb.le
    simp at hla hlb
    unfold onStack bodyPlain
    simp only
    refine ⟨by first | omega | (simp only; omega), ?_, ?_, fun x y h => hb.rep _ _ (ha.rep _ _ h)⟩
    · intro e he
      rcases List.mem_append.1 he with he | he
      · exact Eqn.within_mono (fun v hv => by unfold Zone at *; simp at hv ⊢; omega) (ha.eqs e he)
      · exact Eqn.within_mono (fun v hv => by unfold Zone at *; simp at hv ⊢; omega) (hb.eqs e he)
    · intro g hg
      cases List.mem_singleton.1 hg
      exact ⟨within_seq (fun e he => Goal.within_mono
          (fun v hv => by unfold Zone at *; simp at hv ⊢; omega) (ha.goals e he)),
        within_seq (fun e he => Goal.within_mono
          (fun v hv => by unfold Zone at *; simp at hv ⊢; omega) (hb.goals e he))⟩
  | alt a b iha ihb =>
    intro opt i o st hi ho
    have ha := bodyAlt_bounds (o := o) (flag := Bool.false) (w := st.next)
      (st := ⟨st.next + 1, st.rep, Bool.false⟩) rfl hi
      (iha Bool.false i st.next ⟨st.next + 1, st.rep, Bool.false⟩ (by simp; omega) (by simp))
    have hla := ha.le
    unfold onStack
    simp only
    generalize hA : bodyAlt (onStack a Bool.false i st.next ⟨st.next + 1, st.rep, Bool.false⟩)
      i st.next o Bool.false = A at *
    obtain ⟨gA, eA, sA⟩ := A
    simp only at *
    have hb := bodyAlt_bounds (o := o) (flag := Bool.false) (w := sA.next)
      (st := { sA with next := sA.next + 1 }) rfl (by omega)
      (ihb Bool.false i sA.next { sA with next := sA.next + 1 }
        (by simp at hla ⊢; omega) (by simp))
    have hlb := hb.le
    generalize hB : bodyAlt (onStack b Bool.false i sA.next { sA with next := sA.next + 1 })
      i sA.next o Bool.false = B at *
    obtain ⟨gB, eB, sB⟩ := B
    simp at hla hlb
    refine ⟨by first | omega | (simp only; omega), ?_, ?_, fun x y h => hb.rep _ _ (ha.rep _ _ h)⟩
    · intro e he
      rcases List.mem_append.1 he with he | he
      · exact Eqn.within_mono (fun v hv => by unfold Zone at *; simp at hv ⊢; omega) (ha.eqs e he)
      · exact Eqn.within_mono (fun v hv => by unfold Zone at *; simp at hv ⊢; omega) (hb.eqs e he)
    · intro g hg
      cases List.mem_singleton.1 hg
      exact ⟨Goal.within_mono (fun v hv => by unfold Zone at *; simp at hv ⊢; omega)
          (ha.goals _ (by simp)),
        Goal.within_mono (fun v hv => by unfold Zone at *; simp at hv ⊢; omega)
          (hb.goals _ (by simp))⟩
  | neg a ih =>
    intro opt i o st hi ho
    have ha := ih Bool.false i st.next ⟨st.next + 1, st.rep, Bool.false⟩ (by simp; omega) (by simp)
    have hla := ha.le
    simp at hla
    unfold onStack bodyPlain
    simp only
    refine inIsOut_bounds (es := (onStack a Bool.false i st.next ⟨st.next + 1, st.rep, Bool.false⟩).eqs)
      ⟨by simp only; omega, ?_, ?_, ha.rep⟩
    · intro e he
      exact Eqn.within_mono (fun v hv => by unfold Zone at *; simp at hv ⊢; omega) (ha.eqs e he)
    · intro g hg
      cases List.mem_singleton.1 hg
      refine ⟨fun e he => Eqn.within_mono (fun v hv => ?_) (ha.eqs e he),
        within_seq (fun g hg => Goal.within_mono (fun v hv => ?_) (ha.goals g hg))⟩
      all_goals unfold Zone at *; simp at hv ⊢; omega
  | cut =>
    intro opt i o st _ _
    exact inIsOut_bounds (es := []) (goalB st i o Bool.false _ (fun P _ _ => trivial))
  | curly g =>
    intro opt i o st _ _
    exact inIsOut_bounds (es := []) (goalB st i o Bool.false _ (fun P _ _ => trivial))
  | nt n => intro opt i o st _ _; exact goalB st i o Bool.false _ (fun P h1 h2 => ⟨h1, h2⟩)

end Gp.Dcg
