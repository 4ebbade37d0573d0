import Verif.FdBool.Spec

namespace Gp.FdBool

variable {α ω : Type}

/-! ### Simplification -/

def NOp.rel : NOp → Int → Int → Prop
  | .eq, x, y => x = y
  | .neq, x, y => x ≠ y
  | .lt, x, y => x < y
  | .lte, x, y => x ≤ y

def Node.tr (σ : Nat → Int) (val : α → Int) : Node α → Prop
  | .zero => False
  | .one => True
  | .var x => σ x = 1
  | .not x => ¬σ x = 1
  | .bin op l r => op.rel (l.tr σ val) (r.tr σ val)
  | .cmp op _ a b => op.rel (val a) (val b)

def Node.const : Node α → Bool
  | .zero | .one => true
  | _ => false

/-- There is no constant in the node. -/
def Node.pure : Node α → Prop
  | .zero | .one => False
  | .var _ | .not _ | .cmp _ _ _ _ => True
  | .bin _ l r => l.pure ∧ r.pure

def Node.vars : Node α → List Nat
  | .zero | .one | .cmp _ _ _ _ => []
  | .var x | .not x => [x]
  | .bin _ l r => l.vars ++ r.vars

def Node.clean (n : Node α) : Prop := n.const = true ∨ n.pure

/-- What is known of a side: `p` its truth, `V` its variables. -/
structure Side (σ : Nat → Int) (val : α → Int) (p : Prop) (V : Nat → Prop) (n m : Node α) : Prop where
  tr : n.tr σ val ↔ p
  ntr : m.tr σ val ↔ ¬p
  clean : n.clean
  nclean : m.clean
  const : n.const = m.const
  vars : ∀ x ∈ n.vars, V x
  nvars : ∀ x ∈ m.vars, V x

/-- The result of the switch. -/
structure Done (σ : Nat → Int) (val : α → Int) (p : Prop) (V : Nat → Prop) (vl vr : List Nat)
    (r : Sres α) (n : Node α) (vs : List Nat) : Prop where
  eq : r = some (n, vs)
  tr : n.tr σ val ↔ p
  clean : n.clean
  vars : ∀ x ∈ n.vars, V x
  sub : vs = [] ∨ vs = vl ∨ vs = vr

set_option maxHeartbeats 4000000 in
theorem simpBin_done {σ : Nat → Int} {val : α → Int} {p q : Prop} {V : Nat → Prop} {nl ml nr mr : Node α}
    (hl : Side σ val p V nl ml) (hr : Side σ val q V nr mr) (vl vr : List Nat) (op : BOp) :
    ∃ n vs, Done σ val (op.rel p q) V vl vr
      (simpBin op nl nr (some (ml, vl)) (some (mr, vr))) n vs := by
  obtain ⟨l1, l2, l3, l4, l5, l6, l7⟩ := hl
  obtain ⟨r1, r2, r3, r4, r5, r6, r7⟩ := hr
  rw [← l1, ← r1]
  rw [← l1] at l2
  rw [← r1] at r2
  clear l1 r1
  cases op <;> cases nl <;> cases nr <;>
    simp only [simpBin, simpEquiv, simpNequiv, simpImply, simpNimply, simpAnd, simpNand, simpOr, simpNor,
      Option.map_some] <;>
    refine ⟨_, _, rfl, ?_, ?_, ?_, by simp⟩ <;>
    simp_all [Node.tr, Node.clean, Node.const, Node.pure, Node.vars, BOp.rel] <;> grind

theorem simpBin_const {σ : Nat → Int} {val : α → Int} {p q : Prop} {V : Nat → Prop} {nl ml nr mr : Node α}
    (hl : Side σ val p V nl ml) (hr : Side σ val q V nr mr) (vl vr : List Nat) (op : BOp) {n m : Node α}
    {vs ws : List Nat} (h1 : simpBin op nl nr (some (ml, vl)) (some (mr, vr)) = some (n, vs))
    (h2 : simpBin op.flip nl nr (some (ml, vl)) (some (mr, vr)) = some (m, ws)) : n.const = m.const := by
  obtain ⟨l1, l2, l3, l4, l5, l6, l7⟩ := hl
  obtain ⟨r1, r2, r3, r4, r5, r6, r7⟩ := hr
  clear l1 l2 r1 r2 l6 l7 r6 r7 l3 l4 r3 r4
  cases op <;> cases nl <;> cases nr <;>
    simp only [BOp.flip, simpBin, simpEquiv, simpNequiv, simpImply, simpNimply, simpAnd, simpNand, simpOr, simpNor,
      Option.map_some, Option.some.injEq, Prod.mk.injEq] at h1 h2 <;>
    rw [← h1.1, ← h2.1] <;> simp_all [Node.const]

theorem flip_rel (op : BOp) (p q : Prop) : op.flip.rel p q ↔ ¬op.rel p q := by
  cases op <;> simp [BOp.flip, BOp.rel] <;> grind

theorem cmpNode_tr (σ : Nat → Int) (val : α → Int) (op : COp) (full : Bool) (a b : α) :
    (cmpNode op full a b).tr σ val ↔ op.rel (val a) (val b) := by
  cases op <;> simp [cmpNode, Node.tr, NOp.rel, COp.rel]

theorem cflip_rel (op : COp) (x y : Int) : op.flip.rel x y ↔ ¬op.rel x y := by
  cases op <;> simp [COp.flip, COp.rel]

/-- Simplify keeps the truth, for both signs, and the constants are removed. -/
theorem simplify_side (σ : Nat → Int) (val : α → Int) (e : Ex α) (h : e.wf) :
    ∃ n m vs ws, simplify e true = some (n, vs) ∧ simplify e false = some (m, ws) ∧
      Side σ val (Tr σ val e) (fun x => x ∈ e.vars) n m ∧
      (∀ x, x ∈ vs ↔ x ∈ e.vars) ∧ (∀ x, x ∈ ws ↔ x ∈ e.vars) := by
  induction e with
  | var x =>
    refine ⟨.var x, .not x, [x], [x], rfl, rfl, ⟨?_, ?_, ?_, ?_, ?_, ?_, ?_⟩, ?_, ?_⟩ <;>
      simp [Node.tr, Node.clean, Node.const, Node.pure, Node.vars, Tr, Ex.vars]
  | int k =>
    rcases h with rfl | rfl
    · refine ⟨.zero, .one, [], [], rfl, rfl, ⟨?_, ?_, ?_, ?_, ?_, ?_, ?_⟩, ?_, ?_⟩ <;>
        simp [Node.tr, Node.clean, Node.const, Node.vars, Tr, Ex.vars]
    · refine ⟨.one, .zero, [], [], rfl, rfl, ⟨?_, ?_, ?_, ?_, ?_, ?_, ?_⟩, ?_, ?_⟩ <;>
        simp [Node.tr, Node.clean, Node.const, Node.vars, Tr, Ex.vars]
  | bad => exact absurd h (by simp [Ex.wf])
  | cmp op full a b =>
    refine ⟨cmpNode op full a b, cmpNode op.flip full a b, [], [], rfl, rfl,
      ⟨cmpNode_tr σ val op full a b, (cmpNode_tr σ val op.flip full a b).trans (cflip_rel op _ _), ?_, ?_, ?_, ?_, ?_⟩,
      ?_, ?_⟩ <;>
      cases op <;> simp [cmpNode, COp.flip, Node.clean, Node.const, Node.pure, Node.vars, Ex.vars]
  | not e ih =>
    obtain ⟨n, m, vs, ws, h1, h2, hs, hv, hw⟩ := ih h
    refine ⟨m, n, ws, vs, h2, h1, ⟨hs.ntr, ?_, hs.nclean, hs.clean, hs.const.symm, hs.nvars, hs.vars⟩, hw, hv⟩
    rw [hs.tr]; simp [Tr]
  | bin op l r ihl ihr =>
    obtain ⟨n1, m1, v1, w1, a1, a2, a3, a4, a5⟩ := ihl h.1
    obtain ⟨n2, m2, v2, w2, b1, b2, b3, b4, b5⟩ := ihr h.2
    have sl : Side σ val (Tr σ val l) (fun x => x ∈ (Ex.bin op l r).vars) n1 m1 :=
      ⟨a3.tr, a3.ntr, a3.clean, a3.nclean, a3.const, fun x hx => List.mem_append.2 (.inl (a3.vars x hx)),
        fun x hx => List.mem_append.2 (.inl (a3.nvars x hx))⟩
    have sr : Side σ val (Tr σ val r) (fun x => x ∈ (Ex.bin op l r).vars) n2 m2 :=
      ⟨b3.tr, b3.ntr, b3.clean, b3.nclean, b3.const, fun x hx => List.mem_append.2 (.inr (b3.vars x hx)),
        fun x hx => List.mem_append.2 (.inr (b3.nvars x hx))⟩
    obtain ⟨n, vs, hn⟩ := simpBin_done sl sr w1 w2 op
    obtain ⟨m, ws, hm⟩ := simpBin_done sl sr w1 w2 op.flip
    refine ⟨n, m, v1 ++ v2 ++ vs, v1 ++ v2 ++ ws, ?_, ?_,
      ⟨hn.tr, hm.tr.trans (flip_rel op _ _), hn.clean, hm.clean, simpBin_const sl sr w1 w2 op hn.eq hm.eq, hn.vars,
        hm.vars⟩, ?_, ?_⟩
    · simp only [simplify, a1, a2, b1, b2, if_true, hn.eq, Option.map_some]
    · simp only [simplify, a1, a2, b1, b2]
      rw [if_neg (by simp), hm.eq, Option.map_some]
    · intro x
      simp only [List.mem_append, Ex.vars, a4, b4]
      have : x ∈ vs → x ∈ l.vars ∨ x ∈ r.vars := by
        rcases hn.sub with h | h | h <;> subst h
        · simp
        · rw [a5]; exact .inl
        · rw [b5]; exact .inr
      grind
    · intro x
      simp only [List.mem_append, Ex.vars, a4, b4]
      have : x ∈ ws → x ∈ l.vars ∨ x ∈ r.vars := by
        rcases hm.sub with h | h | h <;> subst h
        · simp
        · rw [a5]; exact .inl
        · rw [b5]; exact .inr
      grind

end Gp.FdBool
