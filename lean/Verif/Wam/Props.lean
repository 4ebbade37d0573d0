import Verif.Wam.Inv
/-
Theorems about backtracking (property C15). `Reach fc m (S :: ss)`: in the state `m`, reached by any
execution, `S :: ss` are the current choice points, `S.st` is a copy of the whole state when `S` was created.
-/
namespace Gp.Wam
open Gp.Heap
variable {X : Type} {fc : Nat → List Cell → X → X} {m : M X} {S S' : Snap X} {ss ss' : List (Snap X)}

/-- The state `m'` is the state when the choice point `S` was created, for what is visible: the argument
registers, the continuation, the environment, the tops of stacks, the trail, the data outside the
stacks, and the contents of the cells which were allocated (but those assigned without trailing). -/
structure Restored (m' : M X) (S : Snap X) : Prop where
  args : ∀ i, i < S.arity → m'.areg i = S.st.areg i
  cp : m'.cp = S.st.cp
  e : m'.e = S.st.e
  h : m'.h = S.st.h
  cs : m'.cs = S.st.cs
  trail : m'.trail = S.st.trail
  ext : m'.ext = S.st.ext
  mem : ∀ a, (a < S.st.h ∨ (S.st.lssa ≤ a ∧ (a < S.st.b ∨ a < S.st.e))) → a ∉ S.dirty → m'.mem a = S.st.mem a

/-- C15: the return to a choice point which keeps it (`retry`) restores the state of its creation, the choice
points remain the same with the new alternative. -/
theorem C15_retry_restores (h : Reach fc m (S :: ss)) (alt : Nat) :
    Restored (update fc m alt S.arity) S ∧ (update fc m alt S.arity).b = S.b ∧
      (update fc m alt S.arity).hb1 = S.st.h ∧ (update fc m alt S.arity).mem (S.b - 1) = .int alt := by
  have hi := reach_inv h
  have hbk := hi.back
  obtain ⟨S0, ss0, hss, hb, hb1⟩ := hi.top
  simp only [List.cons.injEq] at hss
  obtain ⟨rfl, rfl⟩ := hss
  have hs := hi.snaps S (by simp)
  have hi' := hi.update alt
  have hs' := hi'.snaps _ (List.mem_cons_self)
  refine ⟨⟨?_, hbk.cp, hbk.e, hbk.h, hbk.cs, hbk.trail, hbk.ext, ?_⟩, hbk.b.trans hb, hbk.h, hs'.frame.alt⟩
  · intro i hi
    have := hs'.frame.args i hi
    simp only [update, loadArgs] at this ⊢
    rw [if_pos hi, hb]
    rw [hb] at this
    exact this
  · intro a ha hd
    have hne : a ≠ S.b - 1 := by
      rintro rfl
      exact (frame_not_old hs (a := S.b - 1) (by have := hs.b7; unfold Snap.frame; omega)).1 ha
    show ((backCommon fc m).mem.set (m.b - 1) _) a = _
    rw [hb, set_other _ _ _ _ hne]
    exact hbk.mem a ha hd

/-- C15: the return to a choice point which removes it (`trust`) restores the state of its creation; the
previous choice point becomes the current one. -/
theorem C15_trust_restores (h : Reach fc m (S :: S' :: ss)) :
    Restored (delete fc m S.arity) S ∧ (delete fc m S.arity).b = S'.b ∧ (delete fc m S.arity).hb1 = S'.st.h := by
  have hi := reach_inv h
  have hbk := hi.back
  obtain ⟨S0, ss0, hss, hb, hb1⟩ := hi.top
  simp only [List.cons.injEq] at hss
  obtain ⟨rfl, rfl⟩ := hss
  have hs := hi.snaps S (by simp)
  have hd := hi.delete
  obtain ⟨S1, ss1, hss1, hb', hb1'⟩ := hd.1.top
  simp only [List.cons.injEq] at hss1
  obtain ⟨rfl, rfl⟩ := hss1
  refine ⟨⟨?_, hbk.cp, hbk.e, hbk.h, hbk.cs, hbk.trail, hbk.ext, hbk.mem⟩, hd.2, hb1'⟩
  intro i hi
  show (loadArgs (backCommon fc m).mem m.b m.areg S.arity) i = _
  unfold loadArgs
  rw [if_pos hi, hb, hbk.frames S (by simp) _ (by have := hs.b7; unfold Snap.frame; omega)]
  exact hs.frame.args i hi

/-- C15: in any reachable state the registers B and HB1 and the words of the frames designate the choice
points: a failure resumes at the alternative of the newest one. -/
theorem C15_current_choice (h : Reach fc m (S :: ss)) :
    m.b = S.b ∧ m.hb1 = S.st.h ∧ m.mem (m.b - 1) = .int S.alt := by
  have hi := reach_inv h
  obtain ⟨S0, ss0, hss, hb, hb1⟩ := hi.top
  simp only [List.cons.injEq] at hss
  obtain ⟨rfl, rfl⟩ := hss
  exact ⟨hb, hb1, by rw [hb]; exact (hi.snaps S (by simp)).frame.alt⟩

/-- C15: a cut removes exactly the choice points newer than `S`, and restores nothing: the memory, the trail
and the other registers are unchanged. -/
theorem C15_cut (h : Reach fc m (ss ++ S :: ss')) :
    cut m S.b = { m with b := S.b, hb1 := S.st.h } := by
  have hi := reach_inv h
  unfold cut M.assignB
  rw [rd_int (hi.snaps S (by simp)).frame.h]

/-- C15: a soft cut of the newest choice point makes the previous one the newest and changes nothing else. -/
theorem C15_soft_cut_newest (h : Reach fc m (S :: S' :: ss)) :
    softCut m S.b = { m with b := S'.b, hb1 := S'.st.h } := by
  have hi := reach_inv h
  obtain ⟨S0, ss0, hss, hb, hb1⟩ := hi.top
  simp only [List.cons.injEq] at hss
  obtain ⟨rfl, rfl⟩ := hss
  unfold softCut
  rw [if_pos hb, hb]
  unfold M.assignB
  rw [rd_int hi.chain.1, rd_int (hi.snaps S' (by simp)).frame.h]

/-- C15: a soft cut of an older choice point changes only the link of the choice point above it: when this one
is removed the next is the one below the removed one. -/
theorem C15_soft_cut_older {S'' : Snap X} (h : Reach fc m (ss ++ S :: S' :: S'' :: ss')) :
    softCut m S'.b = { m with mem := m.mem.set (S.b - 4) (.int S''.b) } := by
  have hi := reach_inv h
  have hlen := hi.length_le
  have hS := hi.snaps S (by simp)
  have hgt : S'.b < S.b := by
    have h1 := ((List.pairwise_cons.mp (List.pairwise_append.mp hi.order).2.1).1 S' (by simp)).1
    have h2 := hS.hb
    have h3 := localTop_ge S.st
    omega
  obtain ⟨S0, ss0, hss, hb, hb1⟩ := hi.top
  have hhead : ((ss ++ [S]).headD S).b = m.b := by
    cases ss with
    | nil => simp only [List.nil_append, List.cons.injEq] at hss; simp [hb, hss.1]
    | cons T ss => simp only [List.cons_append, List.cons.injEq] at hss; simp [hb, hss.1]
  unfold softCut
  rw [if_neg (by have := hS.ble; omega)]
  have := softCutLoop_found (ss0 := []) (by simpa using hi) (m.b + 1) (by
    simp only [List.length_append, List.length_cons] at hlen; omega)
  rw [hhead] at this
  rw [this]

/-- C15: no operation but a return to a choice point, a binding or an assignment changes an old cell:
in particular the frames of environments and the variables older than the newest choice point are not
overwritten by the frames created later. -/
theorem C15_protected (h : Reach fc m (S :: ss)) (a : Adr) (ha : S.st.lssa ≤ a ∧ (a < S.st.b ∨ a < S.st.e))
    (n alt arity : Nat) :
    (allocate m n).mem a = m.mem a ∧ (create m alt arity).mem a = m.mem a := by
  have hi := reach_inv h
  have hs := hi.snaps S (by simp)
  have h1 := hs.hb
  have h2 := hs.ble
  have h3 := localTop_ge S.st
  have hlt := localTop_ge m
  refine ⟨?_, create_mem m alt arity a (by omega)⟩
  simp only [allocate]
  rw [set_other _ _ _ _ (by omega), set_other _ _ _ _ (by omega)]

/-! An execution: two global variables at 0 and 1, an environment with a permanent variable (at 107), a choice
point with one argument, bindings of the three variables, another choice point, setarg of the cell 0, a cut
of the second choice point, an assignment of the external data, the return to the first choice point. -/

def fcEx : Nat → List Cell → Int → Int := fun _ args x =>
  match args with
  | [.int z] => z
  | _ => x

def e0 : M Int := reset (fun _ => .raw 0) 0 100 0 77 (fun _ => .atm 0) 5
def e1 : M Int := push (push e0 (.ref 0)) (.ref 1)
def e2 : M Int := store (allocate e1 1) 107 (.ref 107)
def e3 : M Int := { e2 with areg := fun i => if i = 0 then .ref 1 else .atm 3, cp := 8, cs := 9 }
def e4 : M Int := create e3 33 1
def e5 : M Int := bindUV (bindUV (bindUV e4 0 (.atm 1)) 1 (.ref 0)) 107 (.ref 1)
def e6 : M Int := create e5 34 0
def e7 : M Int := bindOV e6 0 (.atm 2)
def e8 : M Int := cut e7 e4.b
def e9 : M Int := trailFC { e8 with areg := fun _ => .atm 9, cp := 1, cs := 2 } 0 [.int 5] 6
def S0 : Snap Int := ⟨⟨fun _ => .raw 0, [], 0, 0, 100, 100, 0, 0, 100, 0, fun _ => .atm 0, 5⟩, 107, 0, 77, [107]⟩
def S1 : Snap Int := ⟨e3, e4.b, 1, 33, []⟩

theorem e9_reach : Reach fcEx e9 [S1, S0] := by
  have h0 : Reach fcEx e0 [{ S0 with dirty := [] }] := .reset _ 0 100 0 77 _ 5 (by omega)
  have hf : Free [{ S0 with dirty := [] }] 107 := by
    intro S hS
    simp only [List.mem_singleton] at hS
    subst hS
    simp [Snap.frame, S0]
  have h2 : Reach fcEx e2 [S0] := .store 107 (.ref 107) (.allocate 1 (.push _ (.push _ h0 (by decide)) (by decide))) hf
  have h3 : Reach fcEx e3 [S0] := .regs _ 8 9 h2
  have h4 : Reach fcEx e4 [S1, S0] := .create 33 1 h3
  have hfree : ∀ a, a < 2 ∨ a = 107 → Free [S1, S0] a := by
    intro a ha S hS
    rcases List.mem_cons.mp hS with rfl | hS
    · have : e4.b = 118 := by decide +kernel
      simp only [Snap.frame, S1, this]; omega
    · simp only [List.mem_singleton] at hS
      subst hS
      simp only [Snap.frame, S0]; omega
  have h5 : Reach fcEx e5 [S1, S0] :=
    .bindUV 107 _ (.bindUV 1 _ (.bindUV 0 _ h4 (by decide +kernel) (hfree 0 (by omega))) (by decide +kernel)
      (hfree 1 (by omega))) (by decide +kernel) (hfree 107 (by omega))
  have h6 := Reach.create 34 0 h5
  have hfree2 : Free (⟨e5, (create e5 34 0).b, 0, 34, []⟩ :: [S1, S0]) 0 := by
    intro S hS
    rcases List.mem_cons.mp hS with rfl | hS
    · have : (create e5 34 0).b = 125 := by decide +kernel
      simp only [Snap.frame, this]; omega
    · exact hfree 0 (by omega) S hS
  have h7 := Reach.bindOV 0 (.atm 2) h6 hfree2
  have h8 : Reach fcEx e8 [S1, S0] := Reach.cut (ss := [_]) (S := S1) h7
  exact .trailFC 0 [.int 5] 6 (.regs _ 1 2 h8) (by decide +kernel)

/-- Before the return the cells are changed, after they are the old ones. -/
example : (e9.mem 0, e9.mem 1, e9.mem 107, e9.ext, e9.trail.length) = (.atm 2, .ref 0, .ref 1, 6, 5) := by
  decide +kernel

example : (update fcEx e9 35 1).mem 0 = .ref 0 ∧ (update fcEx e9 35 1).mem 107 = .ref 107 ∧
    (update fcEx e9 35 1).areg 0 = .ref 1 ∧ (update fcEx e9 35 1).ext = 5 ∧ (update fcEx e9 35 1).cp = 8 := by
  have h := (C15_retry_restores e9_reach 35).1
  have hst : S1.st.h = 2 ∧ S1.st.lssa = 100 ∧ S1.st.e = 110 := by decide +kernel
  refine ⟨?_, ?_, ?_, h.ext, h.cp⟩
  · have := h.mem 0 (by omega) (by simp [S1])
    exact this.trans (by decide +kernel)
  · have := h.mem 107 (by omega) (by simp [S1])
    exact this.trans (by decide +kernel)
  · have := h.args 0 (by simp [S1])
    exact this.trans (by decide +kernel)

end Gp.Wam
