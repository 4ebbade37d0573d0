import Verif.Wam.Model
/-
The specification: a machine which keeps, beside the real one, a copy of the whole state at the creation of
each choice point.
-/
namespace Gp.Wam
open Gp.Heap
variable {X : Type}

/-- A choice point: the state when it was created, the address of its frame, the number of saved arguments,
the alternative, and the addresses assigned without trailing since its creation. -/
structure Snap (X : Type) where
  st : M X
  b : Nat
  arity : Nat
  alt : Nat
  dirty : List Adr

/-- The cells allocated when the choice point was created. -/
def Snap.old (S : Snap X) (a : Adr) : Prop := a < S.st.h ∨ (S.st.lssa ≤ a ∧ (a < S.st.b ∨ a < S.st.e))

/-- The cells of the frame of the choice point. -/
def Snap.frame (S : Snap X) (a : Adr) : Prop := a < S.b ∧ S.b ≤ a + 7 + S.arity

/-- An assignment without trailing at `a`. -/
def Snap.soil (a : Adr) (S : Snap X) : Snap X := { S with dirty := a :: S.dirty }

/-- `a` is not in the frame of a choice point. -/
def Free (ss : List (Snap X)) (a : Adr) : Prop := ∀ S ∈ ss, ¬ S.frame a

/-- The executions of the machine, with the choice points (newest first). Each operation of the real machine
is done by the functions of the model; the list of choice points is maintained by simple operations of
stack. The side conditions are those of the callers: only unbound variables are bound by Bind_UV,
the cells changed are not in the frames of choice points, a value saved by TFC is the right one, the global
stack does not reach the local stack. -/
inductive Reach (fc : Nat → List Cell → X → X) : M X → List (Snap X) → Prop
  | reset (mem : Mem) (h lssa cs fail : Nat) (areg : Nat → Cell) (x : X) : h ≤ lssa →
      Reach fc (reset mem h lssa cs fail areg x)
        [⟨⟨mem, [], h, 0, lssa, lssa, 0, cs, lssa, 0, areg, x⟩, lssa + 7, 0, fail, []⟩]
  | create {m : M X} {ss} (alt arity : Nat) : Reach fc m ss →
      Reach fc (create m alt arity) (⟨m, (create m alt arity).b, arity, alt, []⟩ :: ss)
  | update {m : M X} {S ss} (alt : Nat) : Reach fc m (S :: ss) →
      Reach fc (update fc m alt S.arity) ({ S with alt := alt } :: ss)
  | delete {m : M X} {S S' ss} : Reach fc m (S :: S' :: ss) → Reach fc (delete fc m S.arity) (S' :: ss)
  | cut {m : M X} {ss S ss'} : Reach fc m (ss ++ S :: ss') → Reach fc (cut m S.b) (S :: ss')
  | softCutLast {m : M X} {S S' ss} : Reach fc m (S :: S' :: ss) → Reach fc (softCut m S.b) (S' :: ss)
  | softCut {m : M X} {ss S S' S'' ss'} : Reach fc m (ss ++ S :: S' :: S'' :: ss') →
      Reach fc (softCut m S'.b) ((ss ++ S :: S'' :: ss').map (Snap.soil (S.b - 4)))
  | softCutNone {m : M X} {ss} (kill : Nat) : Reach fc m ss → (∀ S ∈ ss, S.b ≠ kill) → (∃ S ∈ ss, S.b < kill) →
      Reach fc (softCut m kill) ss
  | bindUV {m : M X} {ss} (a : Adr) (w : Cell) : Reach fc m ss → m.mem a = .ref a → Free ss a →
      Reach fc (bindUV m a w) ss
  | bindOV {m : M X} {ss} (a : Adr) (w : Cell) : Reach fc m ss → Free ss a → Reach fc (bindOV m a w) ss
  | bindMV {m : M X} {ss} (a : Adr) (ws : List Cell) : Reach fc m ss → ws ≠ [] → (∀ i, i < ws.length → Free ss (a + i)) →
      (∀ i, i < ws.length → m.needsTrailing (a + i) = m.needsTrailing a) → Reach fc (bindMV m a ws) ss
  | trailFC {m : M X} {ss} (f : Nat) (args : List Cell) (x : X) : Reach fc m ss → fc f args x = m.ext →
      Reach fc (trailFC m f args x) ss
  | push {m : M X} {ss} (w : Cell) : Reach fc m ss → m.h < m.lssa → Reach fc (push m w) ss
  | store {m : M X} {ss} (a : Adr) (w : Cell) : Reach fc m ss → Free ss a →
      Reach fc (store m a w) (ss.map (Snap.soil a))
  | allocate {m : M X} {ss} (n : Nat) : Reach fc m ss → Reach fc (allocate m n) ss
  | deallocate {m : M X} {ss} : Reach fc m ss → Reach fc (deallocate m) ss
  | regs {m : M X} {ss} (areg : Nat → Cell) (cp cs : Nat) : Reach fc m ss →
      Reach fc { m with areg := areg, cp := cp, cs := cs } ss

end Gp.Wam
