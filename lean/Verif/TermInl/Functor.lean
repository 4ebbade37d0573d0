import Verif.TermInl.Build
namespace Gp.TermInl
open Gp.Heap Gp.Unify Gp.ListBip

variable {N : Adr} {s s1 s2 s' s'' : St} {E : Env}

theorem rdInteger_res (hok : Ok N s) {w : Cell} {r : Except Err Int} (hw : ValidWord N s.lssa s.mem w)
    (h : rdInteger s.mem w = some r) :
    (∃ z, r = .ok z ∧ ∀ ρ, Model N s.mem ρ → eval s.mem ρ w = .int z) ∨
    (r = .error .instantiation ∧ Unbound s.mem w) ∨
    (r = .error .typeInteger ∧ ∀ ρ, Model N s.mem ρ → ∀ z, eval s.mem ρ w ≠ .int z) := by
  obtain ⟨v, d1, d2, d3, d4⟩ := deref_ok hok hw
  unfold rdInteger at h
  rw [d1] at h
  cases v with
  | ref a => simp only [Option.some.injEq] at h; subst h; exact .inr (.inl ⟨rfl, a, d1⟩)
  | int z => simp only [Option.some.injEq] at h; subst h; exact .inl ⟨z, rfl, d4⟩
  | atm i =>
    simp only [Option.some.injEq] at h; subst h
    exact .inr (.inr ⟨rfl, fun ρ hρ z he => by rw [d4 ρ hρ] at he; simp [Unify.eval] at he⟩)
  | lst i =>
    simp only [Option.some.injEq] at h; subst h
    exact .inr (.inr ⟨rfl, fun ρ hρ z he => by rw [d4 ρ hρ] at he; simp [Unify.eval] at he⟩)
  | stc i =>
    simp only [Option.some.injEq] at h; subst h
    obtain ⟨f, n, h1, _⟩ := d2
    exact .inr (.inr ⟨rfl, fun ρ hρ z he => by rw [d4 ρ hρ, eval_stc h1] at he; simp at he⟩)
  | flt a =>
    simp only [Option.some.injEq] at h; subst h
    obtain ⟨b, hb⟩ := d2
    refine .inr (.inr ⟨rfl, fun ρ hρ z he => ?_⟩)
    rw [d4 ρ hρ] at he
    simp only [Unify.eval, hb] at he
    split at he <;> simp at he
  | fdv i => exact d2.elim
  | fn i j => exact d2.elim
  | raw i => exact d2.elim

theorem rdPositive_res (hok : Ok N s) {w : Cell} {r : Except Err Int} (hw : ValidWord N s.lssa s.mem w)
    (h : rdPositive s.mem w = some r) :
    (∃ z, r = .ok z ∧ 0 ≤ z ∧ ∀ ρ, Model N s.mem ρ → eval s.mem ρ w = .int z) ∨
    (r = .error .instantiation ∧ Unbound s.mem w) ∨
    ((r = .error .typeInteger ∨ r = .error .domainNotLessThanZero) ∧
      ∀ ρ, Model N s.mem ρ → ∀ z : Int, 0 ≤ z → eval s.mem ρ w ≠ .int z) := by
  unfold rdPositive at h
  cases hr : rdInteger s.mem w with
  | none => rw [hr] at h; simp at h
  | some r1 =>
    rw [hr] at h
    rcases rdInteger_res hok hw hr with ⟨z, rfl, hz⟩ | ⟨rfl, hu⟩ | ⟨rfl, hn⟩
    · simp only at h
      by_cases hz0 : z < 0
      · rw [if_pos hz0] at h
        simp only [Option.some.injEq] at h; subst h
        refine .inr (.inr ⟨.inr rfl, fun ρ hρ y hy he => ?_⟩)
        rw [hz ρ hρ] at he
        cases he; omega
      · rw [if_neg hz0] at h
        simp only [Option.some.injEq] at h; subst h
        exact .inl ⟨z, rfl, by omega, hz⟩
    · simp only [Option.some.injEq] at h; subst h; exact .inr (.inl ⟨rfl, hu⟩)
    · simp only [Option.some.injEq] at h; subst h; exact .inr (.inr ⟨.inl rfl, fun ρ hρ z _ => hn ρ hρ z⟩)

theorem unAtom_nodot {i : Nat} {w : Cell} (hnd : NoDot s.mem) {r : Bool} (h : unAtom s i w = some (.ret r s')) : NoDot s'.mem := by
  unfold unAtom at h
  split at h
  · simp at h
  · simp at h; rw [← h.2]; exact NoDot.set hnd (by simp)
  · simp at h; rw [← h.2]; exact hnd
  · simp at h

theorem unInteger_nodot {i : Int} {w : Cell} (hnd : NoDot s.mem) {r : Bool} (h : unInteger s i w = some (.ret r s')) : NoDot s'.mem := by
  unfold unInteger at h
  split at h
  · simp at h
  · simp at h; rw [← h.2]; exact NoDot.set hnd (by simp)
  · simp at h; rw [← h.2]; exact hnd
  · simp at h

theorem Same.nodot {m m' : Heap.Mem} (h : Same m m') (hnd : NoDot m) : NoDot m' := by
  intro a ha
  rcases h a with h1 | ⟨_, h1⟩
  · exact hnd a (by rw [h1]; exact ha)
  · rw [ha] at h1; simp [isTerm] at h1

theorem unifyOut_nodot (hok : Ok N s) (hnd : NoDot s.mem) {u v : Cell} {r : Bool} (hu : ValidWord N s.lssa s.mem u)
    (hv : ValidWord N s.lssa s.mem v) (h : unifyOut E s u v = some (.ret r s')) : NoDot s'.mem := by
  unfold unifyOut at h
  split at h
  · simp at h
  · next r1 s1 hun =>
    simp at h
    obtain ⟨rfl, rfl⟩ := h
    exact Same.nodot (unify_res E.fuel s u v _ s1 rfl hok.wf hu hv hun).same hnd

theorem andThen_nodot {o1 : Option Out} {z : Int} {w : Cell} {r : Bool} (h1 : ∀ r s', o1 = some (.ret r s') → NoDot s'.mem)
    (h : andThen o1 (fun s' => unInteger s' z w) = some (.ret r s')) : NoDot s'.mem := by
  unfold andThen at h
  split at h
  · next s1 => exact unInteger_nodot (h1 _ _ rfl) h
  · exact h1 _ _ h

/-- The result of functor/3. -/
def FunctorOut (N : Adr) (s : St) (tw fw nw : Cell) : Out → Prop
  | .ret true s' =>
    Step N s (fun ρ => FunctorRel (eval s.mem ρ tw) (eval s.mem ρ fw) (eval s.mem ρ nw)) s' ∧ NoDot s'.mem
  | .ret false _ => NoAnswer N s fun ρ => FunctorRel (eval s.mem ρ tw) (eval s.mem ρ fw) (eval s.mem ρ nw)
  | .err .instantiation => Unbound s.mem tw ∧ (Unbound s.mem fw ∨ Unbound s.mem nw)
  | .err .reprMaxArity => Unbound s.mem tw ∧ ∃ z : Int, 255 < z ∧ ∀ ρ, Model N s.mem ρ → eval s.mem ρ nw = .int z
  | .err _ => NoAnswer N s fun ρ => FunctorRel (eval s.mem ρ tw) (eval s.mem ρ fw) (eval s.mem ρ nw)

theorem functorRel_arity {t f n : T} (h : FunctorRel t f n) : ∃ k : Int, 0 ≤ k ∧ n = .int k := by
  rcases h with ⟨g, l, _, _, h⟩ | ⟨_, _, h⟩
  · exact ⟨_, by omega, h⟩
  · exact ⟨0, by omega, h⟩

theorem functorRel_zero {t f : T} : FunctorRel t f (.int 0) ↔ Atomic f ∧ t = f := by
  constructor
  · rintro (⟨g, l, hv, h1, h2⟩ | ⟨h1, h2, h3⟩)
    · cases hv with
      | app h _ =>
        simp only [T.int.injEq] at h2
        have : l.length = 0 := by omega
        exact absurd (List.length_eq_zero_iff.mp this) h
      | lst => simp at h2
    · subst h2; exact ⟨h1, rfl⟩
  · rintro ⟨h, rfl⟩; exact .inr ⟨h, rfl, rfl⟩

theorem functorRel_pos {t f : T} {k : Nat} (hk : 0 < k) : FunctorRel t f (.int k) ↔
    ∃ g l, View t g l ∧ f = .atm g ∧ l.length = k := by
  constructor
  · rintro (⟨g, l, hv, h1, h2⟩ | ⟨h1, h2, h3⟩)
    · simp only [T.int.injEq] at h2; exact ⟨g, l, hv, h1, by omega⟩
    · simp only [T.int.injEq] at h3; omega
  · rintro ⟨g, l, hv, h1, h2⟩; exact .inl ⟨g, l, hv, h1, by rw [h2]⟩

theorem view_name {t : T} {g : Nat} {l : List T} : View t g l ↔
    (g = 46 ∧ ∃ x y, l = [x, y] ∧ t = .lst x y) ∨ (l ≠ [] ∧ ¬ (g = 46 ∧ l.length = 2) ∧ t = .app g l) := by
  constructor
  · intro h
    cases h with
    | app h1 h2 => exact .inr ⟨h1, h2, rfl⟩
    | lst => exact .inl ⟨rfl, _, _, rfl, rfl⟩
  · rintro (⟨rfl, x, y, rfl, rfl⟩ | ⟨h1, h2, rfl⟩)
    · exact .lst
    · exact .app h1 h2

theorem functorNew_res (hok : Ok N s) (hnd : NoDot s.mem) {a : Adr} {tw fw nw : Cell} {o : Out} (haN : a < N)
    (ha : s.mem a = .ref a) (htw : deref s.mem tw = some (.ref a)) (het : ∀ ρ, Model N s.mem ρ → eval s.mem ρ tw = ρ a)
    (hf : ValidWord N s.lssa s.mem fw) (hn : ValidWord N s.lssa s.mem nw) (h : functorNew s a fw nw = some o) :
    FunctorOut N s tw fw nw o := by
  obtain ⟨v, d1, d2, d3, d4⟩ := deref_ok hok hf
  unfold functorNew at h
  rw [d1] at h
  have atomicEq : ∀ w, v = w → isAtomic w = true → ∀ z : Int, z = 0 → (∀ ρ, Model N s.mem ρ → eval s.mem ρ nw = .int z) →
      FunctorOut N s tw fw nw (.ret true (s.bindUV a w)) := by
    rintro w rfl hat z rfl hz
    refine ⟨?_, NoDot.set hnd ?_⟩
    · refine (bind_step hok haN ha d2 ?_).congr ?_
      · intro b hb; subst hb; simp [isAtomic] at hat
      · intro ρ hρ
        rw [het ρ hρ, hz ρ hρ, d4 ρ hρ, functorRel_zero]
        exact ⟨fun h => ⟨(eval_atomic d2 hat ρ ρ).1, h⟩, fun h => h.2⟩
    · intro h; rw [h] at hat; simp [isAtomic] at hat
  have bad : ∀ e, e ≠ .instantiation → e ≠ .reprMaxArity →
      (∀ ρ, Model N s.mem ρ → ¬ FunctorRel (eval s.mem ρ tw) (eval s.mem ρ fw) (eval s.mem ρ nw)) →
      FunctorOut N s tw fw nw (.err e) := by
    intro e h1 h2 h
    cases e <;> first | exact absurd rfl h1 | exact absurd rfl h2 | exact h
  have posErr : ∀ e, rdPositive s.mem nw = some (.error e) → FunctorOut N s tw fw nw (.err e) := by
    intro e he
    rcases rdPositive_res hok hn he with ⟨z, h, _⟩ | ⟨h, hu⟩ | ⟨h, hx⟩
    · simp at h
    · cases h; exact ⟨⟨a, htw⟩, .inr hu⟩
    · refine bad e (by rcases h with h | h <;> cases h <;> simp) (by rcases h with h | h <;> cases h <;> simp) ?_
      intro ρ hρ hfr
      obtain ⟨k, hk, he⟩ := functorRel_arity hfr
      exact hx ρ hρ k hk he
  have posOk : ∀ z, rdPositive s.mem nw = some (.ok z) → 0 ≤ z ∧ ∀ ρ, Model N s.mem ρ → eval s.mem ρ nw = .int z := by
    intro z he
    rcases rdPositive_res hok hn he with ⟨z', h, h1, h2⟩ | ⟨h, hu⟩ | ⟨h, hx⟩
    · cases h; exact ⟨h1, h2⟩
    · simp at h
    · rcases h with h | h <;> simp at h
  have num : ∀ w, v = w → isAtomic w = true → (∀ i, w ≠ .atm i) → ∀ o, (match rdPositive s.mem nw with
      | none => none
      | some (.error e) => some (.err e)
      | some (.ok n) =>
        if n > MAX_ARITY then some (.err .reprMaxArity)
        else if n ≠ 0 then some (.err .typeAtom)
        else some (.ret true (s.bindUV a w))) = some o → FunctorOut N s tw fw nw o := by
    rintro w hv hat hna o h
    cases hp : rdPositive s.mem nw with
    | none => rw [hp] at h; simp at h
    | some r =>
      rw [hp] at h
      cases r with
      | error e => simp only [Option.some.injEq] at h; subst h; exact posErr e hp
      | ok z =>
        obtain ⟨hz0, hz⟩ := posOk z hp
        simp only at h
        by_cases h1 : z > MAX_ARITY
        · rw [if_pos h1] at h
          simp only [Option.some.injEq] at h; subst h
          exact ⟨⟨a, htw⟩, z, h1, hz⟩
        · rw [if_neg h1] at h
          by_cases h2 : z ≠ 0
          · rw [if_pos h2] at h
            simp only [Option.some.injEq] at h; subst h
            refine bad _ (by simp) (by simp) fun ρ hρ hfr => ?_
            rw [hz ρ hρ, show z = ((z.toNat : Nat) : Int) by omega, functorRel_pos (by omega)] at hfr
            obtain ⟨g, l, _, hg, _⟩ := hfr
            rw [d4 ρ hρ, hv] at hg
            have hat2 := hat
            cases w <;> simp [isAtomic] at hat
            · exact hna _ rfl
            · simp [Unify.eval] at hg
            · subst hv
              obtain ⟨x, hx⟩ := d2
              simp only [Unify.eval, hx] at hg
              split at hg <;> simp at hg
          · rw [if_neg h2] at h
            simp only [Option.some.injEq] at h; subst h
            exact atomicEq w hv hat z (by omega) hz
  cases v with
  | ref b =>
    simp only [Option.some.injEq] at h; subst h
    exact ⟨⟨a, htw⟩, .inl ⟨b, d1⟩⟩
  | int z => exact num _ rfl rfl (by simp) o h
  | flt z => exact num _ rfl rfl (by simp) o h
  | atm f =>
    simp only at h
    cases hp : rdPositive s.mem nw with
    | none => rw [hp] at h; simp at h
    | some r =>
      rw [hp] at h
      cases r with
      | error e => simp only [Option.some.injEq] at h; subst h; exact posErr e hp
      | ok z =>
        obtain ⟨hz0, hz⟩ := posOk z hp
        simp only at h
        by_cases h1 : z > MAX_ARITY
        · rw [if_pos h1] at h
          simp only [Option.some.injEq] at h; subst h
          exact ⟨⟨a, htw⟩, z, h1, hz⟩
        · rw [if_neg h1] at h
          by_cases h2 : f = DOT ∧ z = 2
          · rw [if_pos h2] at h
            obtain ⟨rfl, rfl⟩ := h2
            obtain ⟨s', rfl, hnd', st⟩ := newList_res hok hnd haN ha h
            refine ⟨st.congr fun ρ hρ => ?_, hnd'⟩
            rw [het ρ hρ, hz ρ hρ, d4 ρ hρ, show (2 : Int) = ((2 : Nat) : Int) by rfl, functorRel_pos (by omega)]
            constructor
            · rintro ⟨x, y, he⟩; exact ⟨46, [x, y], by rw [he]; exact .lst, rfl, rfl⟩
            · rintro ⟨g, l, hv, hg, hl⟩
              simp only [Unify.eval, T.atm.injEq] at hg; subst hg
              rcases view_name.mp hv with ⟨_, x, y, _, h⟩ | ⟨_, h, _⟩
              · exact ⟨x, y, h⟩
              · exact absurd ⟨rfl, hl⟩ h
          · rw [if_neg h2] at h
            by_cases h3 : z > 0
            · rw [if_pos h3] at h
              have hd : ¬ (f = 46 ∧ z.toNat = 2) := by rintro ⟨h4, h5⟩; exact h2 ⟨h4, by omega⟩
              obtain ⟨s', rfl, hnd', st⟩ := newStruct_res hok hnd haN ha (by omega) hd h
              refine ⟨st.congr fun ρ hρ => ?_, hnd'⟩
              rw [het ρ hρ, hz ρ hρ, d4 ρ hρ, show z = ((z.toNat : Nat) : Int) by omega, functorRel_pos (by omega)]
              simp only [Int.toNat_natCast]
              constructor
              · rintro ⟨l, hl, he⟩
                refine ⟨f, l, ?_, rfl, hl⟩
                rw [he]
                refine .app ?_ (by rw [hl]; exact hd)
                intro h; subst h; simp at hl; omega
              · rintro ⟨g, l, hv, hg, hl⟩
                simp only [Unify.eval, T.atm.injEq] at hg; subst hg
                rcases view_name.mp hv with ⟨h4, x, y, h5, h⟩ | ⟨_, _, h⟩
                · subst h5; exact absurd ⟨h4, hl.symm⟩ hd
                · exact ⟨l, hl, h⟩
            · rw [if_neg h3] at h
              simp only [Option.some.injEq] at h; subst h
              exact atomicEq _ rfl rfl z (by omega) hz
  | lst b =>
    simp only [Option.some.injEq] at h; subst h
    refine bad _ (by simp) (by simp) fun ρ hρ hfr => ?_
    rw [d4 ρ hρ] at hfr
    rcases hfr with ⟨g, l, _, h, _⟩ | ⟨h1, h2, _⟩
    · simp [Unify.eval] at h
    · rw [← h2] at h1; exact h1
  | stc b =>
    simp only [Option.some.injEq] at h; subst h
    obtain ⟨f, n, h1, _⟩ := d2
    refine bad _ (by simp) (by simp) fun ρ hρ hfr => ?_
    rw [d4 ρ hρ, eval_stc h1] at hfr
    rcases hfr with ⟨g, l, _, h, _⟩ | ⟨h1, h2, _⟩
    · simp at h
    · rw [← h2] at h1; exact h1
  | fdv i => exact d2.elim
  | fn i j => exact d2.elim
  | raw i => exact d2.elim

theorem functor3_res (hok : Ok N s) (hnd : NoDot s.mem) {tw fw nw : Cell} {o : Out} (ht : ValidWord N s.lssa s.mem tw)
    (hf : ValidWord N s.lssa s.mem fw) (hn : ValidWord N s.lssa s.mem nw) (h : functor3 E s tw fw nw = some o) :
    FunctorOut N s tw fw nw o := by
  obtain ⟨v, d1, d2, d3, d4⟩ := deref_ok hok ht
  unfold functor3 at h
  rw [d1] at h
  have fin : ∀ {P : (Adr → T) → Prop} {z : Int},
      ((∃ r s', o = .ret r s' ∧ Fine N s (fun ρ => P ρ ∧ eval s.mem ρ nw = .int z) r s') ∨
        ((o = .err .typeAtom ∨ o = .err .typeInteger) ∧ NoAnswer N s (fun ρ => P ρ ∧ eval s.mem ρ nw = .int z))) →
      (∀ r s', o = .ret r s' → NoDot s'.mem) →
      (∀ ρ, Model N s.mem ρ → (P ρ ∧ eval s.mem ρ nw = .int z ↔
        FunctorRel (eval s.mem ρ tw) (eval s.mem ρ fw) (eval s.mem ρ nw))) → FunctorOut N s tw fw nw o := by
    intro P z h1 h2 h3
    rcases h1 with ⟨r, s', rfl, hf⟩ | ⟨rfl | rfl, hno⟩
    · have hf := hf.congr h3
      cases r with
      | true => exact ⟨hf.1 rfl, h2 _ _ rfl⟩
      | false => exact hf.2 rfl
    · exact NoAnswer.congr hno h3
    · exact NoAnswer.congr hno h3
  have unOr : ∀ {u : Cell}, ValidWord N s.lssa s.mem u → ∀ o, unifyOut E s u fw = some o →
      (∃ r s', o = .ret r s' ∧ Fine N s (fun ρ => eval s.mem ρ u = eval s.mem ρ fw) r s') ∨
      (o = .err .typeAtom ∧ NoAnswer N s (fun ρ => eval s.mem ρ u = eval s.mem ρ fw)) := by
    intro u hu o h; exact .inl (unifyOut_res hok hu hf h)
  have atomic : ∀ {w : Cell}, v = w → isAtomic w = true →
      andThen (unifyOut E s w fw) (fun s' => unInteger s' 0 nw) = some o → FunctorOut N s tw fw nw o := by
    rintro w rfl hat h
    refine fin (andThen_int hok hn (unOr d2) h) (fun r s' hr => ?_) fun ρ hρ => ?_
    · subst hr; exact andThen_nodot (fun r s' h => unifyOut_nodot hok hnd d2 hf h) h
    · rw [d4 ρ hρ, functorRel_atomic (eval_atomic d2 hat ρ ρ).1, eq_comm]
  cases v with
  | ref a => exact functorNew_res hok hnd d2.1 (d3 a rfl) d1 d4 hf hn h
  | lst a =>
    simp only at h
    refine fin (andThen_int hok hn (fun o h => unAtom_res hok hf h) h) (fun r s' hr => ?_) fun ρ hρ => ?_
    · subst hr; exact andThen_nodot (fun r s' h => unAtom_nodot hnd h) h
    · rw [d4 ρ hρ]; exact functorRel_lst.symm
  | stc a =>
    obtain ⟨f, n, h1, _, _, _, _, h2⟩ := eval_struct hnd d2
    simp only [h1] at h
    refine fin (andThen_int hok hn (fun o h => unAtom_res hok hf h) h) (fun r s' hr => ?_) fun ρ hρ => ?_
    · subst hr; exact andThen_nodot (fun r s' h => unAtom_nodot hnd h) h
    · obtain ⟨h3, h4, h5⟩ := h2 ρ
      rw [d4 ρ hρ, h3, functorRel_app h4 h5]; simp
  | atm i => exact atomic rfl rfl h
  | int i => exact atomic rfl rfl h
  | flt i => exact atomic rfl rfl h
  | fdv i => exact d2.elim
  | fn i j => exact d2.elim
  | raw i => exact d2.elim

/-! ## arg/3 -/

/-- The result of arg/3. -/
def ArgOut (N : Adr) (s : St) (nw tw aw : Cell) : Out → Prop
  | .ret true s' =>
    Step N s (fun ρ => ArgRel (eval s.mem ρ nw) (eval s.mem ρ tw) (eval s.mem ρ aw)) s' ∧ NoDot s'.mem
  | .ret false _ => NoAnswer N s fun ρ => ArgRel (eval s.mem ρ nw) (eval s.mem ρ tw) (eval s.mem ρ aw)
  | .err .instantiation => Unbound s.mem nw ∨ Unbound s.mem tw
  | .err _ => NoAnswer N s fun ρ => ArgRel (eval s.mem ρ nw) (eval s.mem ρ tw) (eval s.mem ρ aw)

/-- The compound term read. -/
theorem rdCompound_res (hok : Ok N s) (hnd : NoDot s.mem) {w : Cell} {r : Except Err (Adr × Nat × Nat)}
    (hw : ValidWord N s.lssa s.mem w) (h : rdCompound s.mem w = some r) :
    (∃ a f k, r = .ok (a, f, k) ∧ 0 < k ∧ a + k ≤ N ∧ a + k ≤ s.lssa ∧ (∀ i, i < k → isTerm (s.mem (a + i)) = true) ∧
      ∀ ρ, Model N s.mem ρ → View (eval s.mem ρ w) f ((List.range k).map fun i => ρ (a + i))) ∨
    (r = .error .instantiation ∧ Unbound s.mem w) ∨
    (r = .error .typeCompound ∧ ∀ ρ, Model N s.mem ρ → ∀ f l, ¬ View (eval s.mem ρ w) f l) := by
  obtain ⟨v, d1, d2, d3, d4⟩ := deref_ok hok hw
  unfold rdCompound at h
  rw [d1] at h
  have atomic : ∀ w', v = w' → isAtomic w' = true → r = .error .typeCompound →
    (r = .error .typeCompound ∧ ∀ ρ, Model N s.mem ρ → ∀ f l, ¬ View (eval s.mem ρ w) f l) := by
    rintro w' rfl hat hr
    refine ⟨hr, fun ρ hρ f l hv => ?_⟩
    rw [d4 ρ hρ] at hv
    exact view_atomic (eval_atomic d2 hat ρ ρ).1 hv
  cases v with
  | ref a => simp only [Option.some.injEq] at h; subst h; exact .inr (.inl ⟨rfl, a, d1⟩)
  | lst a =>
    simp only [Option.some.injEq] at h; subst h
    obtain ⟨h1, h2, h3, h4⟩ := d2
    refine .inl ⟨a, 46, 2, rfl, by omega, by omega, by omega, ?_, fun ρ hρ => ?_⟩
    · intro i hi
      rcases (by omega : i = 0 ∨ i = 1) with rfl | rfl
      · exact h3
      · exact h4
    · rw [d4 ρ hρ]; exact .lst
  | stc a =>
    obtain ⟨f, n, h1, h2, h3, h4, h5, h6⟩ := eval_struct hnd d2
    simp only [h1, Option.some.injEq] at h; subst h
    refine .inl ⟨a + 1, f, n, rfl, h2, by omega, by omega, h5, fun ρ hρ => ?_⟩
    rw [d4 ρ hρ, (h6 ρ).1]
    exact .app (h6 ρ).2.1 (h6 ρ).2.2
  | atm i => simp only [Option.some.injEq] at h; exact .inr (.inr (atomic _ rfl rfl h.symm))
  | int i => simp only [Option.some.injEq] at h; exact .inr (.inr (atomic _ rfl rfl h.symm))
  | flt i => simp only [Option.some.injEq] at h; exact .inr (.inr (atomic _ rfl rfl h.symm))
  | fdv i => exact d2.elim
  | fn i j => exact d2.elim
  | raw i => exact d2.elim

theorem View.unique {t : T} {f g : Nat} {l l' : List T} (h : View t f l) (h' : View t g l') : f = g ∧ l = l' := by
  cases h <;> cases h' <;> exact ⟨rfl, rfl⟩

theorem arg3_res (hok : Ok N s) (hnd : NoDot s.mem) {nw tw aw : Cell} {o : Out} (hn : ValidWord N s.lssa s.mem nw)
    (ht : ValidWord N s.lssa s.mem tw) (ha : ValidWord N s.lssa s.mem aw) {bits : Nat}
    (hsz : ∀ z : Int, deref s.mem nw = some (.int z) → z < 2 ^ bits) (hN : N < 2 ^ bits)
    (h : arg3 bits E s nw tw aw = some o) : ArgOut N s nw tw aw o := by
  have bad : ∀ e, e ≠ .instantiation → (∀ ρ, Model N s.mem ρ → ¬ ArgRel (eval s.mem ρ nw) (eval s.mem ρ tw) (eval s.mem ρ aw)) →
      ArgOut N s nw tw aw (.err e) := by
    intro e h1 h
    cases e <;> first | exact absurd rfl h1 | exact h
  unfold arg3 at h
  cases hp : rdPositive s.mem nw with
  | none => rw [hp] at h; simp at h
  | some r =>
    rw [hp] at h
    rcases rdPositive_res hok hn hp with ⟨z, rfl, hz0, hz⟩ | ⟨rfl, hu⟩ | ⟨he, hx⟩
    · simp only at h
      have hzb : z < 2 ^ bits := by
        refine hsz z ?_
        obtain ⟨v, d1, d2, d3, d4⟩ := deref_ok hok hn
        unfold rdPositive rdInteger at hp
        rw [d1] at hp ⊢
        cases v <;> simp at hp
        split at hp <;> simp at hp
        rw [hp]
      cases hc : rdCompound s.mem tw with
      | none => rw [hc] at h; simp at h
      | some r =>
        rw [hc] at h
        rcases rdCompound_res hok hnd ht hc with ⟨a, f, k, rfl, hk0, hk1, hk2, hk3, hv⟩ | ⟨rfl, hu⟩ | ⟨rfl, hx⟩
        · simp only at h
          have rel : ∀ ρ, Model N s.mem ρ → (ArgRel (eval s.mem ρ nw) (eval s.mem ρ tw) (eval s.mem ρ aw) ↔
              ∃ i, i < k ∧ z = (i + 1 : Nat) ∧ ρ (a + i) = eval s.mem ρ aw) := by
            intro ρ hρ
            constructor
            · rintro ⟨g, l, i, hvw, hni, hi⟩
              obtain ⟨rfl, rfl⟩ := View.unique hvw (hv ρ hρ)
              rw [hz ρ hρ] at hni
              simp only [T.int.injEq] at hni
              have hik : i < k := by
                by_cases hik : i < k
                · exact hik
                · rw [List.getElem?_eq_none (by simp; omega)] at hi; simp at hi
              refine ⟨i, hik, hni, ?_⟩
              simpa [hik] using hi
            · rintro ⟨i, h1, h2, h3⟩
              refine ⟨f, _, i, hv ρ hρ, by rw [hz ρ hρ, h2], ?_⟩
              simp [h1, h3]
          have hpow : (0 : Int) < 2 ^ bits := by exact_mod_cast Nat.two_pow_pos bits
          have hpN : (N : Int) < 2 ^ bits := by exact_mod_cast hN
          by_cases hm : (z - 1) % 2 ^ bits < k
          · rw [if_pos hm] at h
            by_cases hz1 : z < 1
            · rw [if_pos hz1] at h; simp at h
            · rw [if_neg hz1] at h
              rw [Int.emod_eq_of_lt (by omega) (by omega)] at hm
              have hi : (z - 1).toNat < k := by omega
              have htm := hk3 _ hi
              have hcv := (hok.wf (a + (z - 1).toNat) (by omega) htm).1
              obtain ⟨r, s', rfl, hf⟩ := unifyOut_res hok ha hcv h
              have hf := hf.congr (Q := fun ρ => ArgRel (eval s.mem ρ nw) (eval s.mem ρ tw) (eval s.mem ρ aw)) (by
                intro ρ hρ
                rw [rel ρ hρ, ← hρ _ (by omega) htm]
                constructor
                · intro he; exact ⟨(z - 1).toNat, hi, by omega, he.symm⟩
                · rintro ⟨i, h1, h2, h3⟩
                  rw [show (z - 1).toNat = i by omega, h3])
              cases r with
              | true => exact ⟨hf.1 rfl, unifyOut_nodot hok hnd ha hcv h⟩
              | false => exact hf.2 rfl
          · rw [if_neg hm] at h
            simp only [Option.some.injEq] at h; subst h
            intro ρ hρ hr
            obtain ⟨i, h1, h2, _⟩ := (rel ρ hρ).mp hr
            apply hm
            rw [Int.emod_eq_of_lt (by omega) (by omega)]
            omega
        · simp only [Option.some.injEq] at h; subst h; exact .inr hu
        · simp only [Option.some.injEq] at h; subst h
          refine bad _ (by simp) fun ρ hρ hr => ?_
          obtain ⟨g, l, i, hv, _⟩ := hr
          exact hx ρ hρ _ _ hv
    · simp only [Option.some.injEq] at h; subst h; exact .inl hu
    · have hb : ∀ e, r = .error e → e ≠ .instantiation → ArgOut N s nw tw aw (.err e) := by
        intro e _ hne
        refine bad e hne fun ρ hρ hr => ?_
        obtain ⟨g, l, i, _, hni, _⟩ := hr
        exact hx ρ hρ _ (by omega) hni
      rcases he with rfl | rfl <;>
      · simp only [Option.some.injEq] at h; subst h; exact hb _ rfl (by simp)

end Gp.TermInl
