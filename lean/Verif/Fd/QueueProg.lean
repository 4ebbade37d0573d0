import Verif.Fd.CstrCheck
/- Sequences of constraints. -/
namespace Gp.Fd

open Gp.FdRange

/-- The initial state: no constraint, the queue is empty. -/
def start (s : Store) : QSt :=
  ⟨s, fun _ => 1#64, fun _ => Ev.empty, fun _ => false, fun x => x, 0, none, fun _ _ => [], [], 1#64⟩

/-- Constraints posted one after the other, up to a failure. -/
def run (c : Cfg) (fuel : Nat) : QSt → List UserCstr → Option (Bool × QSt)
  | st, [] => some (true, st)
  | st, u :: us =>
    match post c fuel st u with
    | some (true, st) => run c fuel st us
    | r => r

variable {c : Cfg} {G : Store → Prop} {vs : List Nat}

theorem start_ready {s : Store} (h : G s) : Ready c G vs (start s) where
  good := h
  frames := fun id fr h => by simp [start] at h
  ids := fun x i id h => by simp [start] at h
  wired := fun id fr h => by simp [start] at h
  date := fun x => Or.inl rfl
  notIn := fun x => rfl
  settled := fun id fr h => by simp [start] at h

theorem run_ok (hc : c.Ok) (hG : StoreOk c G) : ∀ (us : List UserCstr) (st : QSt), Ready c G vs st → NoSwt st.frames →
    (∀ u ∈ us, UserOk c G vs u ∧ u.swt = none) →
    ∃ n0 res, (∀ n, n0 ≤ n → run c n st us = some res) ∧ Sub res.2.dom st.dom ∧ (∀ x, res.2.inQ x = false) ∧
      (∀ D, (∀ u ∈ us, KeepUser G D u) → KeepSt G D st → res.1 = true ∧ KeepSt G D res.2) ∧
      (res.1 = true → Ready c G vs res.2 ∧ NoSwt res.2.frames ∧
        ∀ w, UserOk c G vs w → (w ∈ us ∨ (Posted st w ∧ ∀ V, Checked G V w st)) → Posted res.2 w ∧ ∀ V, Checked G V w res.2) := by
  intro us
  induction us with
  | nil =>
    intro st hR hn _
    refine ⟨0, (true, st), fun n _ => rfl, fun v n h => h, hR.notIn, fun D _ hD => ⟨rfl, hD⟩, fun _ => ⟨hR, hn, fun w _ hw => ?_⟩⟩
    rcases hw with hw | hw
    · cases hw
    · exact hw
  | cons u us ih =>
    intro st hR hn hu
    obtain ⟨hu1, hu2⟩ := hu u (by simp)
    obtain ⟨n0, res, p1, p2, p3, p4, p5, p6, _⟩ := post_ok hc hG hR u hu1
    obtain ⟨ok, st1⟩ := res
    cases ok with
    | false =>
      refine ⟨n0, (false, st1), fun n h => ?_, p2, p4.notIn, fun D hD hk => ?_, fun h => by cases h⟩
      · unfold run; rw [p1 n h]
      · have := (p6 D (hD u (by simp)) hk).1; cases this
    | true =>
      obtain ⟨hR1, _⟩ := p5 rfl
      obtain ⟨c1, c2, c3, c4⟩ := post_checked hc hG hR hn hu1 hu2 (p1 n0 (Nat.le_refl _))
      obtain ⟨n1, res1, q1, q2, q3, q4, q5⟩ := ih st1 hR1 c1 (fun u' hu' => hu u' (by simp [hu']))
      refine ⟨max n0 n1, res1, fun n h => ?_, fun v n h => p2 v n (q2 v n h), q3, fun D hD hk => ?_, fun h => ?_⟩
      · unfold run
        rw [p1 n (by omega)]
        exact q1 n (by omega)
      · exact q4 D (fun u' hu' => hD u' (by simp [hu'])) (p6 D (hD u (by simp)) hk).2
      · obtain ⟨r1, r2, r3⟩ := q5 h
        refine ⟨r1, r2, fun w hw hmem => ?_⟩
        rcases hmem with hmem | hmem
        · rcases List.mem_cons.1 hmem with e | e
          · rw [e] at hw ⊢
            exact r3 u hw (Or.inr ⟨c2, c3⟩)
          · exact r3 w hw (Or.inl e)
        · have := c4 w hw hmem.1
          exact r3 w hw (Or.inr ⟨this.1, fun V => this.2 V (hmem.2 V)⟩)

end Gp.Fd
