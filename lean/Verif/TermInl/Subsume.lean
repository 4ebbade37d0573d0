import Verif.TermInl.Vars
import Verif.Unify.Props
namespace Gp.TermInl
open Gp.Heap Gp.Unify Gp.ListBip

variable {N : Adr} {s s1 s2 s3 s' s'' : St} {E : Env} {σ : Type}

/-! ## Substitutions -/

theorem vars_subst (θ : Nat → T) (t : T) : T.vars (t.subst θ) = (T.vars t).flatMap fun v => T.vars (θ v) := by
  induction t using T.rec (motive_2 := fun l =>
      (l.map fun t => t.subst θ).flatMap (fun t => T.vars t) = (l.flatMap fun t => T.vars t).flatMap fun v => T.vars (θ v)) with
  | lst h t ih1 ih2 => simp [T.subst, T.vars, ih1, ih2, List.flatMap_append]
  | app f l ih => simp only [T.subst, T.vars]; exact ih
  | nil => rfl
  | cons t l ih1 ih2 => simp only [List.map_cons, List.flatMap_cons, List.flatMap_append, ih1, ih2]
  | _ => simp [T.subst, T.vars]

theorem subst_comp (θ δ : Nat → T) (t : T) : (t.subst θ).subst δ = t.subst fun v => (θ v).subst δ := by
  induction t using T.rec (motive_2 := fun l =>
      (l.map fun t => t.subst θ).map (fun t => t.subst δ) = l.map fun t => t.subst fun v => (θ v).subst δ) with
  | lst h t ih1 ih2 => simp [T.subst, ih1, ih2]
  | app f l ih => simp only [T.subst, T.app.injEq, true_and]; exact ih
  | nil => rfl
  | cons t l ih1 ih2 => simp only [List.map_cons, ih1, ih2]
  | _ => simp [T.subst]

theorem subst_id (θ : Nat → T) (t : T) : t.subst θ = t ↔ ∀ v ∈ T.vars t, θ v = .var v := by
  induction t using T.rec (motive_2 := fun l =>
      (l.map fun t => t.subst θ) = l ↔ ∀ v ∈ l.flatMap (fun t => T.vars t), θ v = .var v) with
  | lst h t ih1 ih2 =>
    simp only [T.subst, T.vars, T.lst.injEq, ih1, ih2, List.mem_append]
    constructor
    · rintro ⟨h1, h2⟩ v (h | h)
      · exact h1 v h
      · exact h2 v h
    · intro h; exact ⟨fun v hv => h v (.inl hv), fun v hv => h v (.inr hv)⟩
  | app f l ih => simp only [T.subst, T.vars, T.app.injEq, true_and]; exact ih
  | nil => simp
  | cons t l ih1 ih2 =>
    simp only [List.map_cons, List.cons.injEq, List.flatMap_cons, ih1, ih2, List.mem_append]
    constructor
    · rintro ⟨h1, h2⟩ v (h | h)
      · exact h1 v h
      · exact h2 v h
    · intro h; exact ⟨fun v hv => h v (.inl hv), fun v hv => h v (.inr hv)⟩
  | _ => simp [T.subst, T.vars]

theorem subst_congr {θ δ : Nat → T} {t : T} (h : ∀ v ∈ T.vars t, θ v = δ v) : t.subst θ = t.subst δ := by
  induction t using T.rec (motive_2 := fun l =>
      (∀ v ∈ l.flatMap (fun t => T.vars t), θ v = δ v) → (l.map fun t => t.subst θ) = l.map fun t => t.subst δ) with
  | var n => simp only [T.subst]; exact h n (by simp [T.vars])
  | lst h t ih1 ih2 =>
    simp only [T.vars, List.mem_append] at h
    simp only [T.subst, ih1 (fun v hv => h v (.inl hv)), ih2 (fun v hv => h v (.inr hv))]
  | app f l ih => simp only [T.vars] at h; simp only [T.subst, ih h]
  | nil => rfl
  | cons t l ih1 ih2 =>
    rename_i h
    simp only [List.flatMap_cons, List.mem_append] at h
    simp only [List.map_cons, ih1 (fun v hv => h v (.inl hv)), ih2 (fun v hv => h v (.inr hv))]
  | _ => simp [T.subst]

theorem reads_var_deref {m : Heap.Mem} {w : Cell} {t : T} (h : Reads m w t) :
    (∀ u, t = .var u → Heap.deref m w = some (.ref u)) ∧ (∀ u, Heap.deref m w = some (.ref u) → t = .var u) := by
  obtain ⟨v, h1, h2, h3⟩ := reads_deref h
  rw [h1]
  constructor
  · rintro u rfl
    cases h2 with
    | var _ => rfl
    | bound hb _ => exact absurd (h3 _ rfl) hb
  · intro u hu
    simp only [Option.some.injEq] at hu
    subst hu
    cases h2 with
    | var _ => rfl
    | bound hb _ => exact absurd (h3 _ rfl) hb

/-! ## The check of the variables -/

/-- What the check has established: `P` associates a variable of the specific term to the variable it is now. -/
structure Assoc (m : Heap.Mem) (V : List Nat) (P : List (Nat × Nat)) (D todo : List Nat) : Prop where
  snd : D = P.map Prod.snd
  fst : V = P.map Prod.fst ++ todo
  nodup : D.Nodup
  deref : ∀ p ∈ P, Heap.deref m (.ref p.1) = some (.ref p.2)

theorem check_go {m : Heap.Mem} {V L : List Nat} : ∀ {P : List (Nat × Nat)} {D todo D' todo' : List Nat},
    Assoc m V P D todo → foldTr (check m) L (D, todo) = .go (D', todo') → ∃ P', Assoc m V P' D' todo' := by
  induction L with
  | nil =>
    intro P D todo D' todo' hA h
    simp only [foldTr, Tr.go.injEq, Prod.mk.injEq] at h
    obtain ⟨rfl, rfl⟩ := h
    exact ⟨P, hA⟩
  | cons a L ih =>
    intro P D todo D' todo' hA h
    simp only [foldTr] at h
    by_cases ha : a ∈ D
    · have e : check m (D, todo) (.ref a) = .go (D, todo) := if_pos ha
      rw [e] at h
      exact ih hA h
    · cases todo with
      | nil =>
        have e : check m (D, []) (.ref a) = .stop (D, []) := if_neg ha
        rw [e] at h; simp at h
      | cons p rest =>
        have e : check m (D, p :: rest) (.ref a) = (match Heap.deref m (.ref p) with
          | some (.ref b) => if b ≠ a then .stop (D, p :: rest) else .go (D ++ [b], rest)
          | _ => .stop (D, p :: rest)) := if_neg ha
        rw [e] at h
        cases hd : Heap.deref m (.ref p) with
        | none => rw [hd] at h; simp at h
        | some w =>
          rw [hd] at h
          cases w with
          | ref b =>
            simp only at h
            by_cases hb : b ≠ a
            · rw [if_pos hb] at h; simp at h
            · rw [if_neg hb] at h
              have hb : b = a := Decidable.not_not.mp hb
              subst hb
              refine ih (P := P ++ [(p, b)]) ⟨?_, ?_, ?_, ?_⟩ h
              · simp [hA.snd]
              · rw [hA.fst]; simp
              · rw [List.nodup_append]
                refine ⟨hA.nodup, by simp, ?_⟩
                intro x hx y hy hxy
                simp only [List.mem_singleton] at hy
                subst hy; subst hxy; exact ha hx
              · intro q hq
                rcases List.mem_append.mp hq with hq | hq
                · exact hA.deref q hq
                · simp only [List.mem_singleton] at hq; subst hq; exact hd
          | _ => simp at h

theorem check_ok {m : Heap.Mem} {u : Nat → Nat} {L : List Nat} : ∀ {D : List Nat},
    (∀ v, v ∈ D ∨ v ∈ L → Heap.deref m (.ref v) = some (.ref (u v))) →
    (∀ v v', v ∈ D ∨ v ∈ L → v' ∈ D ∨ v' ∈ L → u v = u v' → v = v') →
    foldTr (check m) (L.map u) (D.map u, left D L) = .go ((D ++ left D L).map u, []) := by
  induction L with
  | nil => intro D _ _; simp [foldTr, left, firsts]
  | cons a L ih =>
    intro D hd hi
    simp only [List.map_cons, foldTr]
    by_cases ha : a ∈ D
    · have e : check m (D.map u, left D (a :: L)) (.ref (u a)) = .go (D.map u, left D (a :: L)) :=
        if_pos (show u a ∈ D.map u from List.mem_map.mpr ⟨a, ha, rfl⟩)
      rw [e, left_in ha]
      refine ih ?_ ?_
      · intro v hv; exact hd v (by simp only [List.mem_cons]; rcases hv with h | h <;> simp [h])
      · intro v v' hv hv'
        exact hi v v' (by simp only [List.mem_cons]; rcases hv with h | h <;> simp [h])
          (by simp only [List.mem_cons]; rcases hv' with h | h <;> simp [h])
    · rw [left_out ha]
      have hna : ¬ u a ∈ D.map u := by
        intro h
        obtain ⟨b, hb, hab⟩ := List.mem_map.mp h
        have := hi b a (.inl hb) (.inr (by simp)) hab
        subst this; exact ha hb
      have e : check m (D.map u, a :: left (D ++ [a]) L) (.ref (u a)) = (match Heap.deref m (.ref a) with
          | some (.ref b) => if b ≠ u a then .stop (D.map u, a :: left (D ++ [a]) L) else .go (D.map u ++ [b], left (D ++ [a]) L)
          | _ => .stop (D.map u, a :: left (D ++ [a]) L)) := if_neg hna
      rw [e, hd a (.inr (by simp))]
      simp only [ne_eq, not_true_eq_false, if_false]
      have := ih (D := D ++ [a]) ?_ ?_
      · simpa using this
      · intro v hv
        refine hd v ?_
        simp only [List.mem_append, List.mem_singleton, List.mem_cons] at *
        grind
      · intro v v' hv hv'
        refine hi v v' ?_ ?_ <;>
        · simp only [List.mem_append, List.mem_singleton, List.mem_cons] at *
          grind

theorem check_noerr {m : Heap.Mem} {L : List Nat} {e : Err} : ∀ {st : List Nat × List Nat}, foldTr (check m) L st ≠ .err e := by
  induction L with
  | nil => intro st h; simp [foldTr] at h
  | cons a L ih =>
    intro st h
    simp only [foldTr] at h
    cases hc : check m st (.ref a) with
    | go st' => rw [hc] at h; exact ih h
    | stop st' => rw [hc] at h; simp at h
    | err e' =>
      unfold check at hc
      simp only at hc
      split at hc
      · simp at hc
      · split at hc
        · simp at hc
        · split at hc
          · split at hc <;> simp at hc
          · simp at hc

/-- The inverse of the renaming. -/
def back (P : List (Nat × Nat)) (u : Nat) : T :=
  match P.find? fun p => p.2 == u with
  | some p => .var p.1
  | none => .var u

theorem back_mem {P : List (Nat × Nat)} (hn : (P.map Prod.snd).Nodup) {v u : Nat} (h : (v, u) ∈ P) : back P u = .var v := by
  induction P with
  | nil => simp at h
  | cons q P ih =>
    simp only [List.map_cons, List.nodup_cons] at hn
    unfold back
    by_cases hq : q.2 = u
    · rw [List.find?_cons_of_pos (by simpa using hq)]
      rcases List.mem_cons.mp h with h | h
      · rw [← h]
      · exfalso; apply hn.1; rw [hq]; exact List.mem_map.mpr ⟨_, h, rfl⟩
    · rw [List.find?_cons_of_neg (by simpa using hq)]
      rcases List.mem_cons.mp h with h | h
      · rw [← h] at hq; exact absurd rfl hq
      · exact ih hn.2 h

/-! ## The trail -/

theorem untrail_append {new : List Adr} {tr : List TrRec} : ∀ {m : Heap.Mem},
    ∀ a, untrail new.length (new.map TrRec.uv ++ tr) m a = if a ∈ new then .ref a else m a := by
  induction new with
  | nil => intro m a; simp [untrail]
  | cons b new ih =>
    intro m a
    simp only [List.length_cons, List.map_cons, List.cons_append, untrail]
    rw [ih]
    by_cases h1 : a ∈ new
    · simp [h1]
    · by_cases h2 : a = b
      · subst h2; simp [h1, set_same]
      · simp [h1, h2, set_other _ _ _ _ h2]

theorem close_open (hok : Ok N s) {top : Adr} (htop : N ≤ top) {oc : Bool} {u v : Cell} {r : Bool}
    (hu : ValidWord N s.lssa s.mem u) (hv : ValidWord N s.lssa s.mem v)
    (h : unify oc E.fd E.fuel (openChoice s top) u v = some (r, s1)) : closeChoice s s1 = s := by
  have hwf : WF N (openChoice s top).lssa (openChoice s top).mem := hok.wf
  obtain ⟨new, h1, h2, h3⟩ := C13_trailed hwf hu hv h
  have hk := (C13_binds_only_variables hwf hu hv h).1
  have e : closeChoice s s1 = { s with mem := untrail (s1.trail.length - s.trail.length) s1.trail s1.mem } := rfl
  rw [e]
  have ht : s1.trail = new.map TrRec.uv ++ s.trail := h1
  rw [ht, show (new.map TrRec.uv ++ s.trail).length - s.trail.length = new.length by simp]
  have : untrail new.length (new.map TrRec.uv ++ s.trail) s1.mem = s.mem := by
    funext a
    rw [untrail_append]
    by_cases hc : s1.mem a = s.mem a
    · by_cases hn : a ∈ new
      · rw [if_pos hn]; exact (h3 a hn).1.symm
      · rw [if_neg hn, hc]
    · obtain ⟨k1, k2⟩ := hk a hc
      refine h2 a ?_
      rcases var_place hok k1 with h | h
      · exact .inl h
      · exact .inr ⟨h, by show a < top; omega⟩
  rw [this]

theorem subsumes_res (hok : Ok N s) (hfin : Unify.Finite N s.mem) {top : Adr} (htop : N ≤ top) {gw sw : Cell} {tg ts : T} {o : Out}
    (hg : ValidWord N s.lssa s.mem gw) (hs : ValidWord N s.lssa s.mem sw) (rg : Reads s.mem gw tg) (rs : Reads s.mem sw ts)
    (h : subsumes E s top gw sw = some o) :
    (∃ b, o = .ret b s ∧ (b = true ↔ Subsumes tg ts)) ∨
      (o = .err .reprTooManyVariables ∧ MAX_VAR < (firsts (T.vars ts)).length) := by
  unfold subsumes at h
  cases h1 : treat collect s.mem E.fuel [] sw with
  | none => rw [h1] at h; simp at h
  | some r1 =>
    rw [h1] at h
    rcases collect_res rs h1 with ⟨rfl, _⟩ | ⟨rfl, hm⟩
    · left
      simp only at h
      have hwf : WF N (openChoice s top).lssa (openChoice s top).mem := hok.wf
      cases h2 : unify true E.fd E.fuel (openChoice s top) gw sw with
      | none => rw [h2] at h; simp at h
      | some p =>
        obtain ⟨r, s1⟩ := p
        rw [h2] at h
        have hclose := close_open hok htop hg hs h2
        have uni : ∀ θ, tg.subst θ = ts → ts.subst θ = ts → Unifies θ tg ts := fun θ h1 h2 => by
          unfold Unifies; rw [h1, h2]
        cases r with
        | false =>
          simp only [Option.some.injEq] at h; subst h
          refine ⟨false, by rw [hclose], by simp, ?_⟩
          rintro ⟨θ, h3, h4⟩
          exact absurd (uni θ h3 h4) (C14_fail_no_unifier hwf hfin hg hs rg rs h2 θ)
        | true =>
          simp only at h
          have hr := unify_res E.fuel (openChoice s top) gw sw true s1 rfl hwf hg hs h2
          have hac1 := hr.acyc rfl ((finite_iff hwf).mp hfin)
          have hfin1 : Unify.Finite N s1.mem := (finite_iff hr.wf).mpr hac1
          obtain ⟨ρ, m1, m2⟩ := model_exists hr.wf hac1 T.var
          obtain ⟨k1, k2⟩ := (hr.sol rfl ρ).mp m1
          have k1 : Model N s.mem ρ := k1
          have eg : eval s.mem ρ gw = tg.subst ρ := reads_eval hok.wf k1 (fun _ _ => rfl) rg hg
          have es : eval s.mem ρ sw = ts.subst ρ := reads_eval hok.wf k1 (fun _ _ => rfl) rs hs
          have hs1 : ValidWord N s.lssa s1.mem sw := hr.same.valid hs
          obtain ⟨t1, rt1⟩ := hfin1.reads hs1
          have et1 : ts.subst ρ = t1 := by
            have := reads_eval hr.wf m1 m2 rt1 hs1
            rw [subst_var, hr.same.eval hs] at this
            rw [← this]; exact es.symm
          have eqs : tg.subst ρ = ts.subst ρ := by rw [← eg, ← es]; exact k2
          have rv : ∀ v ∈ T.vars ts, ValidWord N s.lssa s.mem (.ref v) ∧ Reads s.mem (.ref v) (.var v) ∧
              Reads s1.mem (.ref v) (ρ v) := by
            intro v hv
            obtain ⟨n1, n2⟩ := vars_valid hok rs hs v hv
            have vv : ValidWord N s.lssa s.mem (.ref v) := ⟨n1, by rw [n2]; rfl⟩
            refine ⟨vv, .var n2, ?_⟩
            obtain ⟨t', r'⟩ := hfin1.reads (hr.same.valid vv)
            have := reads_eval hr.wf m1 m2 r' (hr.same.valid vv)
            rw [subst_var] at this
            have e : eval s1.mem ρ (.ref v) = ρ v := rfl
            rw [e] at this
            rw [this]; exact r'
          cases h3 : treat (check s1.mem) s1.mem E.fuel ([], firsts (T.vars ts)) sw with
          | none => rw [h3] at h; simp at h
          | some rr =>
            have hf := treat_res rt1 h3
            rw [h3] at h
            have back1 : Subsumes tg ts → ∃ D, rr = .go (D, []) := by
              rintro ⟨θ, e1, e2⟩
              have hid := (subst_id θ ts).mp e2
              have key : ∀ v ∈ T.vars ts, ∃ u, ρ v = .var u ∧ θ u = .var v := by
                intro v hv
                obtain ⟨q1, q2, q3⟩ := rv v hv
                have := C14_most_general hwf hfin hg hs rg rs h2 θ (uni θ e1 e2) (.ref v) q1 _ _ q2 q3
                have e3 : (T.var v).subst θ = θ v := by simp [T.subst]
                rw [e3, hid v hv] at this
                cases hρ : ρ v with
                | var u => rw [hρ] at this; refine ⟨u, rfl, ?_⟩; simpa [T.subst] using this
                | _ => rw [hρ] at this; simp [T.subst] at this
              have key2 : ∃ u : Nat → Nat, ∀ v ∈ T.vars ts, ρ v = .var (u v) ∧ θ (u v) = .var v := by
                refine ⟨fun v => match ρ v with | .var u => u | _ => 0, ?_⟩
                intro v hv
                obtain ⟨u, hu1, hu2⟩ := key v hv
                simp only [hu1]
                exact ⟨trivial, hu2⟩
              obtain ⟨u, hu⟩ := key2
              have et : T.vars t1 = (T.vars ts).map u := by
                have : t1 = ts.subst fun v => .var (u v) := by
                  rw [← et1]; exact subst_congr fun v hv => (hu v hv).1
                rw [this, vars_subst, List.map_eq_flatMap]
                simp only [T.vars]
              have hck := check_ok (m := s1.mem) (u := u) (L := T.vars ts) (D := []) ?_ ?_
              · rw [hf, et]
                rw [left_nil] at hck
                exact ⟨_, hck⟩
              · intro v hv
                have hv : v ∈ T.vars ts := by simpa using hv
                have := (rv v hv).2.2
                rw [(hu v hv).1] at this
                exact (reads_var_deref this).1 _ rfl
              · intro v v' hv hv' hvv
                have hv : v ∈ T.vars ts := by simpa using hv
                have hv' : v' ∈ T.vars ts := by simpa using hv'
                have a1 := (hu v hv).2
                rw [hvv, (hu v' hv').2] at a1
                injection a1 with a1; exact a1.symm
            have fwd : ∀ D, rr = .go (D, []) → Subsumes tg ts := by
              rintro D rfl
              obtain ⟨P, hP⟩ := check_go (V := firsts (T.vars ts)) (P := []) ⟨rfl, rfl, .nil, by simp⟩ hf.symm
              have hn : (P.map Prod.snd).Nodup := by rw [← hP.snd]; exact hP.nodup
              have hV : firsts (T.vars ts) = P.map Prod.fst := by simpa using hP.fst
              have fix : ∀ v ∈ T.vars ts, (ρ v).subst (back P) = .var v := by
                intro v hv
                have : v ∈ P.map Prod.fst := by rw [← hV]; exact firsts_mem.mpr hv
                obtain ⟨⟨v', u⟩, hp, rfl⟩ := List.mem_map.mp this
                have hd := hP.deref _ hp
                have hρ : ρ v' = .var u := (reads_var_deref (rv v' hv).2.2).2 u hd
                simp only [hρ, T.subst]
                exact back_mem hn hp
              have e2 : (ts.subst ρ).subst (back P) = ts := by
                rw [subst_comp]; exact (subst_id _ _).mpr fix
              refine ⟨fun v => (ρ v).subst (back P), ?_, ?_⟩
              · rw [← subst_comp, eqs]; exact e2
              · rw [← subst_comp]; exact e2
            cases rr with
            | go st =>
              obtain ⟨D, todo⟩ := st
              simp only [Option.some.injEq] at h; subst h
              refine ⟨_, by rw [hclose], ?_⟩
              rw [decide_eq_true_iff]
              constructor
              · rintro rfl; exact fwd D rfl
              · intro hsub
                obtain ⟨D', hD'⟩ := back1 hsub
                simp only [Tr.go.injEq, Prod.mk.injEq] at hD'
                exact hD'.2
            | stop st =>
              simp only [Option.some.injEq] at h; subst h
              refine ⟨false, by rw [hclose], by simp, ?_⟩
              intro hsub
              obtain ⟨D', hD'⟩ := back1 hsub
              cases hD'
            | err e => exact absurd hf.symm check_noerr
    · simp only [Option.some.injEq] at h; subst h
      exact .inr ⟨rfl, hm⟩

end Gp.TermInl
