import Verif.Between.Model
import Verif.ListBip.Props
/-
C63: between/3. Specification, on the terms denoted by the arguments: the solution number `k` is
X = L + k, for L + k ≤ U.
-/
namespace Gp.Between
open Gp.Heap Gp.Unify Gp.ListBip

/-- The solution number `k` of between(L, U, X). -/
def Sol (k : Nat) (tl tu tx : T) : Prop := ∃ l u : Int, tl = .int l ∧ tu = .int u ∧ l + k ≤ u ∧ tx = .int (l + k)

variable {N : Adr} {s s' : St} {E : Env}

theorem rdInteger_ok (hok : ListBip.Ok N s) {w : Cell} (hw : ValidWord N s.lssa s.mem w) {n : Int} (h : rdInteger s w = some (.ok n)) :
    ∀ ρ, Model N s.mem ρ → eval s.mem ρ w = .int n := by
  obtain ⟨v, d1, d2, d3, d4⟩ := deref_ok hok hw
  unfold rdInteger at h
  rw [d1] at h
  intro ρ hρ
  rw [d4 ρ hρ]
  cases v <;> simp at h
  subst h; rfl

/-- The invariant of the choice points. -/
def Inv (s : St) (N : Adr) (l u : Int) (iw : Cell) (lo : Nat) (c : CP) : Prop :=
  c.st = s ∧ c.a0 = .int (l + lo) ∧ c.a1 = .int u ∧ l + lo ≤ u ∧ ValidWord N s.lssa s.mem c.a2 ∧
    ∀ ρ, Model N s.mem ρ → eval s.mem ρ iw = eval s.mem ρ c.a2

theorem Step.toAnswer {P Q : (Adr → T) → Prop} (h : Step N s P s') (hq : ∀ ρ, Model N s.mem ρ → (Q ρ ↔ P ρ)) : Answer N s Q s' where
  ok := h.ok
  sound ρ hρ := ⟨(h.down ρ hρ).1, (hq ρ (h.down ρ hρ).1).mpr (h.down ρ hρ).2⟩
  complete ρ hρ hp := h.up ρ hρ ((hq ρ hρ).mp hp)

theorem bindInt_good (hok : ListBip.Ok N s) {l u : Int} {lw uw iw w : Cell} {lo : Nat} {cp : Option CP} {o : Out}
    (hl : ∀ ρ, Model N s.mem ρ → eval s.mem ρ lw = .int l) (hu : ∀ ρ, Model N s.mem ρ → eval s.mem ρ uw = .int u)
    (hw : ValidWord N s.lssa s.mem w) (he : ∀ ρ, Model N s.mem ρ → eval s.mem ρ iw = eval s.mem ρ w)
    (hlo : l + lo ≤ u) (hnone : cp = none → l + lo = u) (hsome : ∀ c, cp = some c → Inv s N l u iw (lo + 1) c)
    (h : bindInt E s (l + lo) w cp = some o) :
    Good N s (fun k ρ => Sol k (eval s.mem ρ lw) (eval s.mem ρ uw) (eval s.mem ρ iw)) (Inv s N l u iw) lo o := by
  unfold bindInt at h
  cases hg : getInteger E s (l + lo) w with
  | none => rw [hg] at h; simp at h
  | some rs =>
    obtain ⟨r, s'⟩ := rs
    rw [hg] at h
    simp only [Option.some.injEq] at h
    subst h
    obtain ⟨g1, g2⟩ := getInteger_res hok hw hg
    have key : ∀ ρ, Model N s.mem ρ → ∀ k, (Sol k (eval s.mem ρ lw) (eval s.mem ρ uw) (eval s.mem ρ iw) ↔
        l + k ≤ u ∧ eval s.mem ρ w = .int (l + k)) := by
      intro ρ hρ k
      rw [hl ρ hρ, hu ρ hρ, he ρ hρ]
      constructor
      · rintro ⟨l', u', e1, e2, e3, e4⟩
        simp only [T.int.injEq] at e1 e2
        subst e1 e2
        exact ⟨e3, e4⟩
      · rintro ⟨e3, e4⟩; exact ⟨l, u, rfl, rfl, e3, e4⟩
    refine ⟨lo, Nat.le_refl _, fun j h1 h2 => by omega, ?_, ?_, ?_, fun c hc => hsome c hc⟩
    · intro hr
      refine Step.toAnswer (g1 hr) (fun ρ hρ => ?_)
      refine (key ρ hρ lo).trans ?_
      exact ⟨fun h => h.2, fun h => ⟨hlo, h⟩⟩
    · intro hr ρ hρ hs
      exact g2 hr ρ hρ ((key ρ hρ lo).mp hs).2
    · intro hc j hj ρ hρ hs
      have := ((key ρ hρ j).mp hs).1
      have := hnone hc
      omega

theorem betweenFrom_good (hok : ListBip.Ok N s) {l u : Int} {lw uw iw : Cell} {o : Out}
    (hl : ∀ ρ, Model N s.mem ρ → eval s.mem ρ lw = .int l) (hu : ∀ ρ, Model N s.mem ρ → eval s.mem ρ uw = .int u)
    (hi : ValidWord N s.lssa s.mem iw) (h : betweenFrom E s l u iw = some (.ok o)) :
    Good N s (fun k ρ => Sol k (eval s.mem ρ lw) (eval s.mem ρ uw) (eval s.mem ρ iw)) (Inv s N l u iw) 0 o := by
  obtain ⟨v, d1, d2, d3, d4⟩ := deref_ok hok hi
  have key : ∀ ρ, Model N s.mem ρ → ∀ k, (Sol k (eval s.mem ρ lw) (eval s.mem ρ uw) (eval s.mem ρ iw) ↔
      l + k ≤ u ∧ eval s.mem ρ v = .int (l + k)) := by
    intro ρ hρ k
    rw [hl ρ hρ, hu ρ hρ, d4 ρ hρ]
    constructor
    · rintro ⟨l', u', e1, e2, e3, e4⟩
      simp only [T.int.injEq] at e1 e2
      subst e1 e2
      exact ⟨e3, e4⟩
    · rintro ⟨e3, e4⟩; exact ⟨l, u, rfl, rfl, e3, e4⟩
  unfold betweenFrom at h
  rw [d1] at h
  have nonref : (∀ a, v ≠ .ref a) → (match rdInteger s v with
      | none => none
      | some (.error e) => some (.error e)
      | some (.ok i) => some (.ok (.ret (decide (i ≥ l ∧ i ≤ u)) s none)) : Option (Except BErr Out)) = some (.ok o) →
      Good N s (fun k ρ => Sol k (eval s.mem ρ lw) (eval s.mem ρ uw) (eval s.mem ρ iw)) (Inv s N l u iw) 0 o := by
    intro _ h
    cases hr : rdInteger s v with
    | none => rw [hr] at h; simp at h
    | some e =>
      rw [hr] at h
      cases e with
      | error e => simp at h
      | ok i =>
        simp only [Option.some.injEq, Except.ok.injEq] at h
        subst h
        have hv := rdInteger_ok hok d2 hr
        by_cases q : i ≥ l ∧ i ≤ u
        · rw [decide_eq_true q]
          have hk : l + ((i - l).toNat : Int) = i := by omega
          refine ⟨(i - l).toNat, Nat.zero_le _, ?_, ?_, by simp, ?_, by simp⟩
          · intro j _ hj ρ hρ hs
            have := ((key ρ hρ j).mp hs).2
            rw [hv ρ hρ] at this
            simp only [T.int.injEq] at this
            omega
          · intro _
            refine Step.toAnswer (Step.refl (P := fun _ => True) hok (fun _ _ => trivial)) (fun ρ hρ => ?_)
            refine (key ρ hρ _).trans ?_
            rw [hv ρ hρ, hk]
            exact ⟨fun _ => trivial, fun _ => ⟨q.2, rfl⟩⟩
          · intro _ j hj ρ hρ hs
            have := ((key ρ hρ j).mp hs).2
            rw [hv ρ hρ] at this
            simp only [T.int.injEq] at this
            omega
        · rw [decide_eq_false q]
          have none' : ∀ j, NoAnswer N s (fun ρ => Sol j (eval s.mem ρ lw) (eval s.mem ρ uw) (eval s.mem ρ iw)) := by
            intro j ρ hρ hs
            have h1 := (key ρ hρ j).mp hs
            rw [hv ρ hρ] at h1
            simp only [T.int.injEq] at h1
            omega
          exact ⟨0, Nat.le_refl _, fun j _ _ => none' j, by simp, fun _ => none' 0, fun _ j _ => none' j, by simp⟩
  cases v with
  | ref a =>
    simp only at h
    by_cases q : l > u
    · rw [if_pos q] at h
      simp only [Option.some.injEq, Except.ok.injEq] at h
      subst h
      have none' : ∀ j, NoAnswer N s (fun ρ => Sol j (eval s.mem ρ lw) (eval s.mem ρ uw) (eval s.mem ρ iw)) := by
        intro j ρ hρ hs
        have h1 := (key ρ hρ j).mp hs
        omega
      exact ⟨0, Nat.le_refl _, fun j _ _ => none' j, by simp, fun _ => none' 0, fun _ j _ => none' j, by simp⟩
    · rw [if_neg q] at h
      have hb : bindInt E s (l + (0 : Nat)) (.ref a) (if l < u then some ⟨s, .int (l + 1), .int u, .ref a⟩ else none) = some o := by
        simp only [Option.map_eq_some_iff, Except.ok.injEq] at h
        obtain ⟨o', h1, rfl⟩ := h
        rw [show l + ((0 : Nat) : Int) = l by simp]; exact h1
      refine bindInt_good hok hl hu d2 d4 (by omega) ?_ ?_ hb
      · intro hc; split at hc
        · simp at hc
        · omega
      · intro c hc
        split at hc
        · simp only [Option.some.injEq] at hc
          subst hc
          exact ⟨rfl, by simp, rfl, by omega, d2, d4⟩
        · simp at hc
  | int i => exact nonref (by simp) h
  | fdv a => exact d2.elim
  | fn i j => exact d2.elim
  | raw i => exact d2.elim
  | atm i => exact nonref (by simp) h
  | lst i => exact nonref (by simp) h
  | stc i => exact nonref (by simp) h
  | flt i => exact nonref (by simp) h

theorem betweenAlt_good (hok : ListBip.Ok N s) {l u : Int} {lw uw iw : Cell} {o : Out} {lo : Nat} {c : CP}
    (hl : ∀ ρ, Model N s.mem ρ → eval s.mem ρ lw = .int l) (hu : ∀ ρ, Model N s.mem ρ → eval s.mem ρ uw = .int u)
    (hinv : Inv s N l u iw lo c) (h : betweenAlt E c = some o) :
    Good N s (fun k ρ => Sol k (eval s.mem ρ lw) (eval s.mem ρ uw) (eval s.mem ρ iw)) (Inv s N l u iw) lo o := by
  obtain ⟨h1, h2, h3, h4, h5, h6⟩ := hinv
  unfold betweenAlt at h
  rw [h2, h3] at h
  simp only at h
  rw [h1] at h
  refine bindInt_good hok hl hu h5 h6 h4 ?_ ?_ h
  · intro hc; split at hc
    · assumption
    · simp at hc
  · intro c' hc
    split at hc
    · simp at hc
    · simp only [Option.some.injEq] at hc
      subst hc
      refine ⟨rfl, ?_, rfl, by omega, h5, h6⟩
      simp only [Cell.int.injEq]; omega

/-- between(L, U, X): the call and the retries enumerate L, L + 1, …, U; each solution binds X to it and nothing
else, no solution is missed or repeated, and no choice point is left with the last one. -/
theorem C63_between {lw uw iw : Cell} {os : List Out} (hok : ListBip.Ok N s) (h1 : ValidWord N s.lssa s.mem lw)
    (h2 : ValidWord N s.lssa s.mem uw) (h3 : ValidWord N s.lssa s.mem iw)
    (h : Run (noError (between3 E s lw uw iw)) (betweenAlt E) os) :
    Follows N s (fun k ρ => Sol k (eval s.mem ρ lw) (eval s.mem ρ uw) (eval s.mem ρ iw)) 0 os := by
  obtain ⟨o, os', e, _⟩ := id h
  cases hl : rdInteger s lw with
  | none => simp [between3, hl, noError] at e
  | some x =>
    cases x with
    | error x => simp [between3, hl, noError] at e
    | ok l =>
      cases hu : rdInteger s uw with
      | none => simp [between3, hl, hu, noError] at e
      | some y =>
        cases y with
        | error y => simp [between3, hl, hu, noError] at e
        | ok u =>
          have vl := rdInteger_ok hok h1 hl
          have vu := rdInteger_ok hok h2 hu
          refine run_follows (Inv := Inv s N l u iw) (fun o ho => ?_) (fun lo c o hi ho => betweenAlt_good hok vl vu hi ho) h
          have e' : betweenFrom E s l u iw = some (.ok o) := by
            simp only [between3, hl, hu] at ho
            cases hb : betweenFrom E s l u iw with
            | none => rw [hb] at ho; simp [noError] at ho
            | some z =>
              rw [hb] at ho
              cases z with
              | error z => simp [noError] at ho
              | ok z => simp only [noError, Option.some.injEq] at ho; rw [ho]
          exact betweenFrom_good hok vl vu h3 e'

/-- The kind of a word, after dereferencing. -/
def IsVar (s : St) (w : Cell) : Prop := ∃ a, deref s.mem w = some (.ref a)
def IsInt (s : St) (w : Cell) : Prop := ∃ n, deref s.mem w = some (.int n)
def Bad (s : St) (w v : Cell) : Prop := deref s.mem w = some v ∧ (∀ a, v ≠ .ref a) ∧ ∀ n, v ≠ .int n

/-- `rdInteger` on a dereferenced word. -/
def rdCell : Cell → Option (Except BErr Int)
  | .ref _ => some (.error .inst)
  | .int n => some (.ok n)
  | v => some (.error (.typeInteger v))

/-- The errors: an instantiation error for a bound which is a variable, a type error for a bound, then for X, which
is not an integer; no other. The call always ends. -/
theorem C63_errors {lw uw iw : Cell} (hok : ListBip.Ok N s) (h1 : ValidWord N s.lssa s.mem lw)
    (h2 : ValidWord N s.lssa s.mem uw) (h3 : ValidWord N s.lssa s.mem iw) :
    ∃ r, between3 E s lw uw iw = some r ∧
      ((∃ o, r = .ok o) ↔ IsInt s lw ∧ IsInt s uw ∧ (IsVar s iw ∨ IsInt s iw)) ∧
      (r = .error .inst ↔ IsVar s lw ∨ (IsInt s lw ∧ IsVar s uw)) ∧
      (∀ v, r = .error (.typeInteger v) ↔
        Bad s lw v ∨ (IsInt s lw ∧ Bad s uw v) ∨ (IsInt s lw ∧ IsInt s uw ∧ Bad s iw v)) := by
  obtain ⟨vl, a1, a2, _⟩ := deref_ok hok h1
  obtain ⟨vu, b1, b2, _⟩ := deref_ok hok h2
  obtain ⟨vi, c1, c2, c3, _⟩ := deref_ok hok h3
  have hdd : ∀ n, vi = n → (∀ a, n ≠ .ref a) → deref s.mem n = some n := by
    intro n _ hn; exact deref_nonref hn
  unfold between3 Bad IsInt IsVar
  rw [a1, b1, c1]
  have ra : rdInteger s lw = rdCell vl := by
    unfold rdInteger; rw [a1]; cases vl <;> rfl
  have rb : rdInteger s uw = rdCell vu := by
    unfold rdInteger; rw [b1]; cases vu <;> rfl
  rw [ra, rb]
  cases vl with
  | ref a => exact ⟨_, rfl, by simp, by simp, by simp <;> grind⟩
  | int l =>
    simp only [rdCell]
    cases vu with
    | ref a => exact ⟨_, rfl, by simp, by simp, by simp <;> grind⟩
    | int u =>
      simp only [betweenFrom, c1]
      cases vi with
      | ref a =>
        simp only
        by_cases q : l > u
        · rw [if_pos q]; exact ⟨_, rfl, by simp, by simp, by simp <;> grind⟩
        · rw [if_neg q]
          have hd : deref s.mem (.ref a) = some (.ref a) := by
            rw [deref_ref, if_pos (c3 a rfl)]
          simp only [bindInt, getInteger, hd, Option.map_some]
          exact ⟨_, rfl, by simp, by simp, by simp <;> grind⟩
      | int i => simp only [rdInteger, deref_nonref (show ∀ a, Cell.int i ≠ .ref a by simp)]; exact ⟨_, rfl, by simp, by simp, by simp <;> grind⟩
      | fdv a => exact c2.elim
      | fn i j => exact c2.elim
      | raw i => exact c2.elim
      | atm i => simp only [rdInteger, deref_nonref (show ∀ a, Cell.atm i ≠ .ref a by simp)]; exact ⟨_, rfl, by simp, by simp, by simp <;> grind⟩
      | lst i => simp only [rdInteger, deref_nonref (show ∀ a, Cell.lst i ≠ .ref a by simp)]; exact ⟨_, rfl, by simp, by simp, by simp <;> grind⟩
      | stc i => simp only [rdInteger, deref_nonref (show ∀ a, Cell.stc i ≠ .ref a by simp)]; exact ⟨_, rfl, by simp, by simp, by simp <;> grind⟩
      | flt i => simp only [rdInteger, deref_nonref (show ∀ a, Cell.flt i ≠ .ref a by simp)]; exact ⟨_, rfl, by simp, by simp, by simp <;> grind⟩
    | fdv a => exact b2.elim
    | fn i j => exact b2.elim
    | raw i => exact b2.elim
    | _ => exact ⟨_, rfl, by simp, by simp, by simp <;> grind⟩
  | fdv a => exact a2.elim
  | fn i j => exact a2.elim
  | raw i => exact a2.elim
  | _ => exact ⟨_, rfl, by simp, by simp, by simp <;> grind⟩

/-- All the retries of between(L, U, X) from the choice point of the value `l`: they succeed, with the values `l` to
`u`, and the last one leaves no choice point. -/
theorem redo_all (E : Env) (s : St) (a : Adr) (ha : s.mem a = .ref a) (n : Nat) (l u : Int) (h : u = l + n) :
    Redo (betweenAlt E) (some ⟨s, .int l, .int u, .ref a⟩)
      ((List.range (n + 1)).map fun (k : Nat) => Out.ret true (s.bindUV a (.int (l + k)))
        (if k = n then none else some ⟨s, .int (l + k + 1), .int u, .ref a⟩)) := by
  have hd : deref s.mem (.ref a) = some (.ref a) := by rw [deref_ref, if_pos ha]
  induction n generalizing l with
  | zero =>
    have h1 : betweenAlt E ⟨s, .int l, .int u, .ref a⟩ = some (.ret true (s.bindUV a (.int l)) none) := by
      simp [betweenAlt, bindInt, getInteger, hd, h]
    have := Redo.redo h1 .stop
    simpa using this
  | succ n ih =>
    have ih' := ih (l + 1) (by omega)
    have h1 : betweenAlt E ⟨s, .int l, .int u, .ref a⟩ =
        some (.ret true (s.bindUV a (.int l)) (some ⟨s, .int (l + 1), .int u, .ref a⟩)) := by
      simp only [betweenAlt, bindInt, getInteger, hd]
      rw [if_neg (by omega)]
    refine cast ?_ (Redo.redo h1 ih')
    congr 1
    rw [List.range_succ_eq_map (n := n + 1), List.map_cons, List.map_map]
    congr 1
    · simp
    · refine List.map_congr_left fun k _ => ?_
      simp only [Function.comp, Nat.succ_eq_add_one, Nat.add_right_cancel_iff]
      have e1 : l + 1 + (k : Int) = l + ((k + 1 : Nat) : Int) := by omega
      rw [e1]

/-- between(L, U, X) with L ≤ U and X a variable: the call and U - L retries succeed, with X = L, …, U, and the
last one leaves no choice point: it terminates after exactly U - L + 1 solutions. -/
theorem C63_all {lw uw iw : Cell} (E : Env) (s : St) (a : Adr) (l u : Int) (h1 : deref s.mem lw = some (.int l))
    (h2 : deref s.mem uw = some (.int u)) (h3 : deref s.mem iw = some (.ref a)) (ha : s.mem a = .ref a) (hlu : l ≤ u) :
    ∃ f : Nat → Option CP, Run (noError (between3 E s lw uw iw)) (betweenAlt E)
      ((List.range ((u - l).toNat + 1)).map fun (k : Nat) => Out.ret true (s.bindUV a (.int (l + k))) (f k)) ∧
      ∀ k, k ≤ (u - l).toNat → (f k = none ↔ k = (u - l).toNat) := by
  refine ⟨fun k => if k = (u - l).toNat then none else some ⟨s, .int (l + k + 1), .int u, .ref a⟩, ?_, ?_⟩
  · have hd : deref s.mem (.ref a) = some (.ref a) := by rw [deref_ref, if_pos ha]
    have hc : between3 E s lw uw iw = some (.ok (.ret true (s.bindUV a (.int l))
        (if l < u then some ⟨s, .int (l + 1), .int u, .ref a⟩ else none))) := by
      simp only [between3, rdInteger, h1, h2, betweenFrom, h3]
      rw [if_neg (by omega)]
      simp [bindInt, getInteger, hd]
    rw [hc]
    refine ⟨_, ((List.range (u - l).toNat).map fun (k : Nat) => Out.ret true (s.bindUV a (.int (l + ((k + 1 : Nat) : Int))))
      (if k + 1 = (u - l).toNat then none else some ⟨s, .int (l + ((k + 1 : Nat) : Int) + 1), .int u, .ref a⟩)), rfl, ?_, ?_⟩
    · rw [List.range_succ_eq_map, List.map_cons, List.map_map]
      congr 1
      by_cases q : l < u
      · have q0 : ¬ (0 = (u - l).toNat) := by omega
        simp [q, q0]
      · have q0 : 0 = (u - l).toNat := by omega
        simp [q, q0.symm]
    · by_cases q : l < u
      · simp only [Out.cp, if_pos q]
        obtain ⟨n, hn⟩ : ∃ n, (u - l).toNat = n + 1 := ⟨(u - l).toNat - 1, by omega⟩
        have := redo_all E s a ha n (l + 1) u (by omega)
        rw [hn]
        refine cast ?_ this
        congr 1
        refine List.map_congr_left fun k _ => ?_
        have e1 : l + 1 + (k : Int) = l + ((k + 1 : Nat) : Int) := by omega
        rw [e1]
        simp only [Nat.add_right_cancel_iff]
      · simp only [Out.cp, if_neg q]
        rw [show (u - l).toNat = 0 by omega]
        exact .stop
  · intro k _
    by_cases q : k = (u - l).toNat
    · simp [q]
    · simp [q]

/-- A variable with a domain (an FD variable) is not a variable for between/3: it is a type error, although some
integers between the bounds may be in its domain. -/
theorem C63_fd_variable {lw uw iw : Cell} (E : Env) (s : St) (a : Adr) (l u : Int) (h1 : deref s.mem lw = some (.int l))
    (h2 : deref s.mem uw = some (.int u)) (h3 : deref s.mem iw = some (.fdv a)) :
    between3 E s lw uw iw = some (.error (.typeInteger (.fdv a))) := by
  simp only [between3, rdInteger, h1, h2, betweenFrom, h3, deref_nonref (show ∀ b, Cell.fdv a ≠ .ref b by simp)]

/-- `C63_all` on between(1, 3, X), and `C63_fd_variable`. -/
example : (∃ f : Nat → Option CP, Run (noError (between3 (exE 9) ListBip.exSt (.int 1) (.int 3) (.ref 0))) (betweenAlt (exE 9))
      ((List.range 3).map fun (k : Nat) => Out.ret true (ListBip.exSt.bindUV 0 (.int (1 + k))) (f k))) ∧
    between3 (exE 9) ListBip.exSt (.int 1) (.int 3) (.fdv 5) = some (.error (.typeInteger (.fdv 5))) := by
  constructor
  · obtain ⟨f, h, _⟩ := C63_all (exE 9) ListBip.exSt 0 1 3 (lw := .int 1) (uw := .int 3) (iw := .ref 0)
      (by simp [deref_nonref]) (by simp [deref_nonref]) (by simp [deref_ref, ListBip.exSt, stL, memL])
      (by simp [ListBip.exSt, stL, memL]) (by decide)
    exact ⟨f, h⟩
  · exact C63_fd_variable _ _ _ 1 3 (by simp [deref_nonref]) (by simp [deref_nonref]) (by simp [deref_nonref])

/-! Examples -/

/-- between(1, 2, X): 1, then 2; between(1, 5, 3) succeeds; between(3, 1, X) fails; between(X, 1, Y) is an error. -/
example : (∃ s1 s2, Run (noError (between3 (exE 9) ListBip.exSt (.int 1) (.int 2) (.ref 0))) (betweenAlt (exE 9))
      [.ret true s1 (some ⟨ListBip.exSt, .int 2, .int 2, .ref 0⟩), .ret true s2 none] ∧ [s1.mem 0, s2.mem 0] = [.int 1, .int 2]) ∧
    between3 (exE 9) ListBip.exSt (.int 1) (.int 5) (.int 3) = some (.ok (.ret true ListBip.exSt none)) ∧
    between3 (exE 9) ListBip.exSt (.int 3) (.int 1) (.ref 0) = some (.ok (.ret false ListBip.exSt none)) ∧
    between3 (exE 9) ListBip.exSt (.ref 0) (.int 1) (.ref 1) = some (.error .inst) ∧
    between3 (exE 9) ListBip.exSt (.int 0) (.int 1) (.atm 3) = some (.error (.typeInteger (.atm 3))) := by
  refine ⟨?_, ?_, ?_, ?_, ?_⟩
  · refine ⟨ListBip.exSt.bindUV 0 (.int 1), ListBip.exSt.bindUV 0 (.int 2), ⟨_, _, ?_, rfl, .redo ?_ .stop⟩, ?_⟩
    · simp [noError, between3, rdInteger, betweenFrom, bindInt, getInteger, deref_ref, deref_nonref, ListBip.exSt, stL, memL]
    · simp [betweenAlt, bindInt, getInteger, deref_ref, ListBip.exSt, stL, memL]
    · simp [St.bindUV, Mem.set]
  · simp [between3, rdInteger, betweenFrom, deref_nonref]
  · simp [between3, rdInteger, betweenFrom, deref_ref, deref_nonref, ListBip.exSt, stL, memL]
  · simp [between3, rdInteger, deref_ref, ListBip.exSt, stL, memL]
  · simp [between3, rdInteger, betweenFrom, deref_nonref]

/-- The hypotheses of `C63_between` are met by this state and these arguments. -/
example : ListBip.Ok 30 ListBip.exSt ∧ ValidWord 30 ListBip.exSt.lssa ListBip.exSt.mem (.int 1) ∧ ValidWord 30 ListBip.exSt.lssa ListBip.exSt.mem (.ref 0) :=
  ⟨exSt_ok, trivial, by simp [ValidWord, ListBip.exSt, stL, memL, isTerm]⟩

end Gp.Between
