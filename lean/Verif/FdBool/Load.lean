import Verif.FdBool.Lemmas

namespace Gp.FdBool

variable {α ω : Type}

/-! ### Words below a number -/

def W.below (n : Nat) : W → Prop
  | .user _ => True
  | .new k => k < n

def Prim.below (n : Nat) : Prim α ω → Prop
  | .bool x | .int x _ => x.below n
  | .same x y | .notEq x y | .imply1 x y | .and0 x y | .or1 x y => x.below n ∧ y.below n
  | .tri _ x y b => x.below n ∧ y.below n ∧ b.below n
  | .cmp _ _ _ _ | .load _ _ _ => True
  | .eqC _ _ _ b | .eqY _ _ _ b | .plusEqY _ _ _ _ b | .neqC _ _ _ b | .neqY _ _ _ b | .plusNeqY _ _ _ _ b
  | .ltY _ _ b | .lteC _ _ b | .lteY _ _ b | .plusLteY _ _ _ b | .gteC _ _ b | .plusGteY _ _ _ b => b.below n

/-- The same values for the user's words and the new ones below `n`. -/
def AgreeB (n : Nat) (τ τ' : W → Int) : Prop := ∀ x : W, x.below n → τ' x = τ x

theorem W.below_mono {x : W} {n m : Nat} (h : n ≤ m) (hx : x.below n) : x.below m := by
  cases x with
  | user => trivial
  | new k => exact Nat.lt_of_lt_of_le hx h

theorem Prim.below_mono {p : Prim α ω} {n m : Nat} (h : n ≤ m) (hx : p.below n) : p.below m := by
  cases p <;> simp only [Prim.below] at * <;>
    (try exact W.below_mono h hx) <;>
    (try exact ⟨W.below_mono h hx.1, W.below_mono h hx.2⟩) <;>
    (try exact ⟨W.below_mono h hx.1, W.below_mono h hx.2.1, W.below_mono h hx.2.2⟩)

theorem Prim.sat_congr {p : Prim α ω} {n : Nat} {τ τ' : W → Int} {val : α → Int} {wv : ω → Int}
    (ha : AgreeB n τ τ') (hp : p.below n) : p.sat τ val wv ↔ p.sat τ' val wv := by
  cases p <;> simp only [Prim.below] at hp <;> simp only [Prim.sat] <;>
    (try rw [ha _ hp]) <;>
    (try rw [ha _ hp.1, ha _ hp.2]) <;>
    (try rw [ha _ hp.1, ha _ hp.2.1, ha _ hp.2.2])
  rename_i op _ _ _
  cases op <;> exact Iff.rfl

theorem AgreeB.trans {n m : Nat} {a b c : W → Int} (h : n ≤ m) (h1 : AgreeB n a b) (h2 : AgreeB m b c) :
    AgreeB n a c := fun x hx => (h2 x (W.below_mono h hx)).trans (h1 x hx)

def updNew (τ : W → Int) (k : Nat) (v : Int) : W → Int := fun x => if x = .new k then v else τ x

theorem updNew_same (τ : W → Int) (k : Nat) (v : Int) : updNew τ k v (.new k) = v := by simp [updNew]
theorem updNew_ne (τ : W → Int) {k : Nat} (v : Int) {x : W} (h : x.below k) : updNew τ k v x = τ x := by
  have : x ≠ .new k := by rintro rfl; exact Nat.lt_irrefl _ h
  simp [updNew, this]
theorem updNew_agree (τ : W → Int) (k : Nat) (v : Int) : AgreeB k τ (updNew τ k v) := fun _ hx => updNew_ne τ v hx

theorem satAll_append {τ : W → Int} {val : α → Int} {wv : ω → Int} {a b : List (Prim α ω)} :
    satAll τ val wv (a ++ b) ↔ satAll τ val wv a ∧ satAll τ val wv b := by
  simp only [satAll, List.mem_append]
  exact ⟨fun h => ⟨fun p hp => h p (.inl hp), fun p hp => h p (.inr hp)⟩, fun h p hp => hp.elim (h.1 p) (h.2 p)⟩

/-- The primitive constraint of a comparison. -/
theorem cmpTruth_sat {τ : W → Int} {val : α → Int} {wv : ω → Int} (h0 : ∀ x, 0 ≤ wv x) {w : LR ω} {d1 d2 : Int}
    (hw : w.holds wv (d1 - d2)) (op : NOp) (full : Bool) (b : W) :
    (cmpTruth (α := α) op full w b).sat τ val wv ↔ truth (τ b) (op.rel d1 d2) := by
  obtain ⟨c, l, r⟩ := w
  cases l with
  | none =>
    cases r with
    | none =>
      simp only [LR.holds] at hw
      cases op <;> simp only [cmpTruth, Prim.sat, truth, NOp.rel] <;> split <;> omega
    | some r =>
      have := h0 r
      simp only [LR.holds] at hw
      cases op <;> simp only [cmpTruth] <;> split <;> simp only [Prim.sat, truth, NOp.rel] <;> omega
  | some l =>
    have := h0 l
    cases r with
    | none =>
      simp only [LR.holds] at hw
      cases op <;> simp only [cmpTruth] <;> split <;> simp only [Prim.sat, truth, NOp.rel] <;> omega
    | some r =>
      have := h0 r
      simp only [LR.holds] at hw
      cases op <;> simp only [cmpTruth] <;> repeat' split
      all_goals simp only [Prim.sat, truth, NOp.rel]; omega

theorem cmpTruth_below {w : LR ω} {op : NOp} {full : Bool} {b : W} {n : Nat} (hb : b.below n) :
    (cmpTruth (α := α) op full w b).below n := by
  obtain ⟨c, l, r⟩ := w
  cases l <;> cases r <;> cases op <;> simp only [cmpTruth] <;> repeat' split
  all_goals exact hb

theorem cmpSet_sat {τ : W → Int} {val : α → Int} {wv : ω → Int} (op : NOp) (full : Bool) (a b : α) (v : Bool) :
    (cmpSet (ω := ω) op full a b v).sat τ val wv ↔ (op.rel (val a) (val b) ↔ v = true) := by
  cases op <;> cases v <;> simp [cmpSet, Prim.sat, NOp.rel]

theorem truth_bool {b : Int} {p : Prop} (h : truth b p) : isBool b := by
  rcases h with h | h
  · exact .inr h.1
  · exact .inl h.1
theorem truth_one {b : Int} {p : Prop} (h : truth b p) : b = 1 ↔ p := by
  rcases h with ⟨h, hp⟩ | ⟨h, hp⟩
  · exact ⟨fun _ => hp, fun _ => h⟩
  · exact ⟨fun h1 => by omega, fun h1 => absurd h1 hp⟩
theorem truth_of {b : Int} {p : Prop} (hb : isBool b) (h : b = 1 ↔ p) : truth b p := by
  rcases hb with hb | hb
  · exact .inr ⟨hb, fun hp => by have := h.2 hp; omega⟩
  · exact .inl ⟨hb, h.1 hb⟩
theorem truth_exists (p : Prop) : ∃ b, truth b p := by
  by_cases h : p
  · exact ⟨1, .inl ⟨rfl, h⟩⟩
  · exact ⟨0, .inr ⟨rfl, h⟩⟩

/-! ### The words of the truth values -/

/-- What the loading of a node does: the constraints `ps` are posted. -/
structure Loaded (σ : Nat → Int) (val : α → Int) (wv : ω → Int) (n : Node α) (st st' : St α ω) (x : W)
    (ps : List (Prim α ω)) : Prop where
  posted : st'.posted = st.posted ++ ps
  le : st.next ≤ st'.next
  word : x.below st'.next
  below : ∀ p ∈ ps, p.below st'.next
  sound : ∀ τ : W → Int, (∀ k, τ (.user k) = σ k) → satAll τ val wv ps → truth (τ x) (n.tr σ val)
  complete : (∀ a b w, (Prim.load a b w : Prim α ω) ∈ ps → w.holds wv (val a - val b)) →
    ∀ τ : W → Int, (∀ k, τ (.user k) = σ k) → ∃ τ', AgreeB st.next τ τ' ∧ satAll τ' val wv ps

theorem loadW_loaded {σ : Nat → Int} {val : α → Int} {wv : ω → Int} (h0 : ∀ x, 0 ≤ wv x)
    (lr : α → α → Option (LR ω)) (n : Node α) : n.pure → (∀ k ∈ n.vars, isBool (σ k)) → ∀ st : St α ω,
    (loadW lr n st = .fail ∧ ∃ a b, lr a b = none) ∨
    ∃ x st' ps, loadW lr n st = .ok x st' ∧ Loaded σ val wv n st st' x ps ∧
      (∀ a b w, (Prim.load a b w : Prim α ω) ∈ ps → lr a b = some w) := by
  induction n with
  | zero => intro h; exact absurd h (by simp [Node.pure])
  | one => intro h; exact absurd h (by simp [Node.pure])
  | var y =>
    intro _ hb st
    refine .inr ⟨.user y, st, [], rfl, ⟨by simp, Nat.le_refl _, trivial, by simp, ?_, ?_⟩, by simp⟩
    · intro τ hτ _
      rw [hτ]
      exact truth_of (hb y (by simp [Node.vars])) Iff.rfl
    · intro _ τ _
      exact ⟨τ, fun _ _ => rfl, by simp [satAll]⟩
  | not y =>
    intro _ hb st
    have hy := hb y (by simp [Node.vars])
    refine .inr ⟨.new st.next, _, [.bool (.new st.next), .bool (.user y), .bool (.new st.next),
      .notEq (.user y) (.new st.next)], rfl, ⟨by simp [St.newBool, St.post], by simp [St.newBool, St.post],
      Nat.lt_succ_self _, ?_, ?_, ?_⟩, by simp⟩
    · intro p hp
      have h : (W.new st.next).below (st.newBool.post (α := α) (ω := ω) [Prim.bool (.user y), .bool (.new st.next),
          .notEq (.user y) (.new st.next)]).next := Nat.lt_succ_self _
      simp only [List.mem_cons, List.not_mem_nil, or_false] at hp
      rcases hp with rfl | rfl | rfl | rfl
      · exact h
      · trivial
      · exact h
      · exact ⟨trivial, h⟩
    · intro τ hτ hs
      have h1 := hs (.bool (.new st.next)) (by simp)
      have h2 := hs (.notEq (.user y) (.new st.next)) (by simp)
      simp only [Prim.sat] at h1 h2
      rw [hτ] at h2
      refine truth_of h1 ?_
      simp only [Node.tr]
      unfold isBool at hy
      omega
    · intro _ τ hτ
      refine ⟨updNew τ st.next (1 - σ y), updNew_agree _ _ _, ?_⟩
      have e : updNew τ st.next (1 - σ y) (.user y) = σ y :=
        (updNew_ne (k := st.next) (x := .user y) τ _ trivial).trans (hτ y)
      have h1 : isBool (updNew τ st.next (1 - σ y) (.new st.next)) := by
        rw [updNew_same]; unfold isBool at *; omega
      intro p hp
      simp only [List.mem_cons, List.not_mem_nil, or_false] at hp
      rcases hp with rfl | rfl | rfl | rfl
      · exact h1
      · show isBool (updNew τ st.next (1 - σ y) (.user y)); rw [e]; exact hy
      · exact h1
      · show updNew τ st.next (1 - σ y) (.new st.next) = 1 - updNew τ st.next (1 - σ y) (.user y)
        rw [e, updNew_same]
  | cmp op full a b =>
    intro _ hb st
    unfold loadW
    cases hlr : lr a b with
    | none => exact .inl ⟨rfl, a, b, hlr⟩
    | some w =>
      refine .inr ⟨.new st.next, _, [.bool (.new st.next), .load a b w, cmpTruth op full w (.new st.next)], rfl,
        ⟨by simp [St.newBool, St.post], by simp [St.newBool, St.post], Nat.lt_succ_self _, ?_, ?_, ?_⟩, ?_⟩
      · intro p hp
        simp only [List.mem_cons, List.not_mem_nil, or_false] at hp
        rcases hp with rfl | rfl | rfl
        · exact Nat.lt_succ_self _
        · trivial
        · exact cmpTruth_below (Nat.lt_succ_self _)
      · intro τ hτ hs
        have h1 := hs (.load a b w) (by simp)
        have h2 := hs (cmpTruth op full w (.new st.next)) (by simp)
        exact (cmpTruth_sat h0 h1 op full _).1 h2
      · intro hl τ hτ
        obtain ⟨v, hv⟩ := truth_exists (op.rel (val a) (val b))
        have h1 := hl a b w (by simp)
        refine ⟨updNew τ st.next v, updNew_agree _ _ _, ?_⟩
        intro p hp
        simp only [List.mem_cons, List.not_mem_nil, or_false] at hp
        rcases hp with rfl | rfl | rfl
        · show isBool (updNew τ st.next v (.new st.next)); rw [updNew_same]; exact truth_bool hv
        · exact h1
        · refine (cmpTruth_sat h0 h1 op full _).2 ?_; rw [updNew_same]; exact hv
      · intro a' b' w' hm
        simp only [List.mem_cons, List.not_mem_nil, or_false] at hm
        rcases hm with hm | hm | hm
        · cases hm
        · injection hm with e1 e2 e3; subst e1 e2 e3; exact hlr
        · exfalso
          obtain ⟨c, l, r⟩ := w
          cases l <;> cases r <;> cases op <;> simp only [cmpTruth] at hm <;> (repeat' split at hm) <;> cases hm
  | bin op l r ihl ihr =>
    intro hp hb st
    unfold loadW
    rcases ihl hp.1 (fun k hk => hb k (List.mem_append.2 (.inl hk))) st with
      ⟨h, hx⟩ | ⟨x, st1, ps1, e1, L1, k1⟩
    · exact .inl ⟨by rw [h]; rfl, hx⟩
    · rcases ihr hp.2 (fun k hk => hb k (List.mem_append.2 (.inr hk))) st1 with
        ⟨h, hx⟩ | ⟨y, st2, ps2, e2, L2, k2⟩
      · refine .inl ⟨?_, hx⟩
        rw [e1]; simp only [Out.bind]; rw [h]
      · have hle : st1.next ≤ st2.next := L2.le
        have hle1 : st.next ≤ st1.next := L1.le
        refine .inr ⟨.new st2.next, st2.newBool.post [.bool x, .bool y, .tri op x y (.new st2.next)],
            ps1 ++ ps2 ++ [.bool (.new st2.next), .bool x, .bool y,
            .tri op x y (.new st2.next)], ?_, ⟨?_, ?_, ?_, ?_, ?_, ?_⟩, ?_⟩
        · rw [e1]; simp only [Out.bind]; rw [e2]; rfl
        · show (st2.posted ++ [Prim.bool (W.new st2.next)]) ++ [Prim.bool x, .bool y, .tri op x y (.new st2.next)] = _
          rw [L2.posted, L1.posted]; simp
        · show st.next ≤ st2.next + 1; omega
        · exact Nat.lt_succ_self _
        · intro p hp
          have hn : ∀ {p : Prim α ω}, p.below st2.next → p.below (st2.next + 1) :=
            fun h => Prim.below_mono (Nat.le_succ _) h
          have hwx : x.below (st2.next + 1) := W.below_mono (by omega) L1.word
          have hwy : y.below (st2.next + 1) := W.below_mono (by omega) L2.word
          have hnew : (W.new st2.next).below (st2.next + 1) := Nat.lt_succ_self _
          simp only [List.mem_append, List.mem_cons, List.not_mem_nil, or_false] at hp
          rcases hp with (hp | hp) | hp
          · exact Prim.below_mono (by show st1.next ≤ st2.next + 1; omega) (L1.below p hp)
          · exact hn (L2.below p hp)
          · rcases hp with rfl | rfl | rfl | rfl
            · exact hnew
            · exact hwx
            · exact hwy
            · exact ⟨hwx, hwy, hnew⟩
        · intro τ hτ hs
          rw [satAll_append, satAll_append] at hs
          have t1 := L1.sound τ hτ hs.1.1
          have t2 := L2.sound τ hτ hs.1.2
          have h3 := hs.2 (.tri op x y (.new st2.next)) (by simp)
          simp only [Prim.sat] at h3
          rw [truth_one t1, truth_one t2] at h3
          exact h3
        · intro hl τ hτ
          obtain ⟨τ1, a1, s1⟩ := L1.complete (fun a b w hm => hl a b w (by simp [hm])) τ hτ
          have u1 : ∀ k, τ1 (.user k) = σ k := fun k => (a1 (.user k) trivial).trans (hτ k)
          obtain ⟨τ2, a2, s2⟩ := L2.complete (fun a b w hm => hl a b w (by simp [hm])) τ1 u1
          have u2 : ∀ k, τ2 (.user k) = σ k := fun k => (a2 (.user k) trivial).trans (u1 k)
          have s1' : satAll τ2 val wv ps1 := fun p hp => (Prim.sat_congr a2 (L1.below p hp)).1 (s1 p hp)
          have t1 := L1.sound τ2 u2 s1'
          have t2 := L2.sound τ2 u2 s2
          obtain ⟨v, hv⟩ := truth_exists (op.rel (l.tr σ val) (r.tr σ val))
          have ag := updNew_agree τ2 st2.next v
          refine ⟨updNew τ2 st2.next v, AgreeB.trans hle1 a1 (AgreeB.trans hle a2 ag), ?_⟩
          rw [satAll_append, satAll_append]
          have ex : updNew τ2 st2.next v x = τ2 x := ag x (W.below_mono hle L1.word)
          have ey : updNew τ2 st2.next v y = τ2 y := ag y L2.word
          refine ⟨⟨fun p hp => (Prim.sat_congr ag (Prim.below_mono hle (L1.below p hp))).1 (s1' p hp),
            fun p hp => (Prim.sat_congr ag (L2.below p hp)).1 (s2 p hp)⟩, ?_⟩
          intro p hp
          simp only [List.mem_cons, List.not_mem_nil, or_false] at hp
          rcases hp with rfl | rfl | rfl | rfl
          · show isBool (updNew τ2 st2.next v (.new st2.next)); rw [updNew_same]; exact truth_bool hv
          · show isBool (updNew τ2 st2.next v x); rw [ex]; exact truth_bool t1
          · show isBool (updNew τ2 st2.next v y); rw [ey]; exact truth_bool t2
          · show truth (updNew τ2 st2.next v (.new st2.next)) (op.rel (updNew τ2 st2.next v x = 1)
              (updNew τ2 st2.next v y = 1))
            rw [ex, ey, updNew_same, truth_one t1, truth_one t2]; exact hv
        · intro a b w hm
          simp only [List.mem_append, List.mem_cons, List.not_mem_nil, or_false] at hm
          rcases hm with (hm | hm) | hm
          · exact k1 a b w hm
          · exact k2 a b w hm
          · rcases hm with hm | hm | hm | hm <;> cases hm

/-! ### A node made true or false -/

structure SetDone (σ : Nat → Int) (val : α → Int) (wv : ω → Int) (n : Node α) (v : Bool) (st st' : St α ω)
    (ps : List (Prim α ω)) : Prop where
  posted : st'.posted = st.posted ++ ps
  le : st.next ≤ st'.next
  below : ∀ p ∈ ps, p.below st'.next
  sound : ∀ τ : W → Int, (∀ k, τ (.user k) = σ k) → satAll τ val wv ps → (n.tr σ val ↔ v = true)
  complete : (∀ a b w, (Prim.load a b w : Prim α ω) ∈ ps → w.holds wv (val a - val b)) → (n.tr σ val ↔ v = true) →
    ∀ τ : W → Int, (∀ k, τ (.user k) = σ k) → ∃ τ', AgreeB st.next τ τ' ∧ satAll τ' val wv ps

/-- The outcomes of making a node true or false. -/
def SetOut (σ : Nat → Int) (val : α → Int) (wv : ω → Int) (lr : α → α → Option (LR ω)) (n : Node α) (v : Bool)
    (st : St α ω) (o : Out α ω Unit) : Prop :=
  (o = .fail ∧ ((∃ a b, lr a b = none) ∨ ¬(n.tr σ val ↔ v = true))) ∨
  ∃ st' ps, o = .ok () st' ∧ SetDone σ val wv n v st st' ps ∧
    (∀ a b w, (Prim.load a b w : Prim α ω) ∈ ps → lr a b = some w)

/-- Two nodes are set in turn. -/
theorem setOut_pair {σ : Nat → Int} {val : α → Int} {wv : ω → Int} {lr : α → α → Option (LR ω)}
    {l r n : Node α} {vl vr v : Bool} {st : St α ω} {f g : St α ω → Out α ω Unit}
    (hl : ∀ st, SetOut σ val wv lr l vl st (f st)) (hr : ∀ st, SetOut σ val wv lr r vr st (g st))
    (h : (n.tr σ val ↔ v = true) ↔ (l.tr σ val ↔ vl = true) ∧ (r.tr σ val ↔ vr = true)) :
    SetOut σ val wv lr n v st ((f st).bind fun _ st => g st) := by
  rcases hl st with ⟨e, hx⟩ | ⟨st1, ps1, e1, L1, k1⟩
  · refine .inl ⟨by rw [e]; rfl, hx.imp_right fun hn hh => hn (h.1 hh).1⟩
  · rcases hr st1 with ⟨e, hx⟩ | ⟨st2, ps2, e2, L2, k2⟩
    · refine .inl ⟨by rw [e1]; exact e, hx.imp_right fun hn hh => hn (h.1 hh).2⟩
    · refine .inr ⟨st2, ps1 ++ ps2, by rw [e1]; exact e2, ⟨?_, Nat.le_trans L1.le L2.le, ?_, ?_, ?_⟩, ?_⟩
      · rw [L2.posted, L1.posted, List.append_assoc]
      · intro p hp
        exact (List.mem_append.1 hp).elim (fun hp => Prim.below_mono L2.le (L1.below p hp)) (L2.below p)
      · intro τ hτ hs
        rw [satAll_append] at hs
        exact h.2 ⟨L1.sound τ hτ hs.1, L2.sound τ hτ hs.2⟩
      · intro hlo hn τ hτ
        obtain ⟨τ1, a1, s1⟩ := L1.complete (fun a b w hm => hlo a b w (List.mem_append.2 (.inl hm))) (h.1 hn).1 τ hτ
        obtain ⟨τ2, a2, s2⟩ := L2.complete (fun a b w hm => hlo a b w (List.mem_append.2 (.inr hm))) (h.1 hn).2 τ1
          (fun k => (a1 (.user k) trivial).trans (hτ k))
        exact ⟨τ2, AgreeB.trans L1.le a1 a2, satAll_append.2
          ⟨fun p hp => (Prim.sat_congr a2 (L1.below p hp)).1 (s1 p hp), s2⟩⟩
      · intro a b w hm
        exact (List.mem_append.1 hm).elim (k1 a b w) (k2 a b w)

/-- Two nodes are loaded and a constraint is posted on their words. -/
theorem setOut_loads {σ : Nat → Int} {val : α → Int} {wv : ω → Int} (h0 : ∀ x, 0 ≤ wv x)
    {lr : α → α → Option (LR ω)} {l r n : Node α} {v : Bool} {st : St α ω}
    (pl : l.pure) (pr : r.pure) (hb : ∀ k, k ∈ l.vars ∨ k ∈ r.vars → isBool (σ k))
    (qs : W → W → List (Prim α ω)) (hq : ∀ x y m, x.below m → y.below m → ∀ p ∈ qs x y, p.below m)
    (hnl : ∀ x y a b w, (Prim.load a b w : Prim α ω) ∉ qs x y)
    (h : ∀ (τ : W → Int) x y, truth (τ x) (l.tr σ val) → truth (τ y) (r.tr σ val) →
      (satAll τ val wv (qs x y) ↔ (n.tr σ val ↔ v = true))) :
    SetOut σ val wv lr n v st
      ((loadW lr l st).bind fun x st => (loadW lr r st).bind fun y st => .ok () (st.post (qs x y))) := by
  rcases loadW_loaded (val := val) h0 lr l pl (fun k hk => hb k (.inl hk)) st with ⟨e, hx⟩ | ⟨x, st1, ps1, e1, L1, k1⟩
  · exact .inl ⟨by rw [e]; rfl, .inl hx⟩
  · rcases loadW_loaded (val := val) h0 lr r pr (fun k hk => hb k (.inr hk)) st1 with ⟨e, hx⟩ | ⟨y, st2, ps2, e2, L2, k2⟩
    · exact .inl ⟨by rw [e1]; simp only [Out.bind]; rw [e], .inl hx⟩
    · have wx : x.below st2.next := W.below_mono L2.le L1.word
      refine .inr ⟨st2.post (qs x y), ps1 ++ ps2 ++ qs x y, by rw [e1]; simp only [Out.bind]; rw [e2],
        ⟨?_, Nat.le_trans L1.le L2.le, ?_, ?_, ?_⟩, ?_⟩
      · show st2.posted ++ qs x y = _
        rw [L2.posted, L1.posted]; simp only [List.append_assoc]
      · intro p hp
        simp only [List.mem_append] at hp
        rcases hp with (hp | hp) | hp
        · exact Prim.below_mono L2.le (L1.below p hp)
        · exact L2.below p hp
        · exact hq x y _ wx L2.word p hp
      · intro τ hτ hs
        rw [satAll_append, satAll_append] at hs
        exact (h τ x y (L1.sound τ hτ hs.1.1) (L2.sound τ hτ hs.1.2)).1 hs.2
      · intro hlo hn τ hτ
        obtain ⟨τ1, a1, s1⟩ := L1.complete (fun a b w hm => hlo a b w (by simp [hm])) τ hτ
        have u1 : ∀ k, τ1 (.user k) = σ k := fun k => (a1 (.user k) trivial).trans (hτ k)
        obtain ⟨τ2, a2, s2⟩ := L2.complete (fun a b w hm => hlo a b w (by simp [hm])) τ1 u1
        have u2 : ∀ k, τ2 (.user k) = σ k := fun k => (a2 (.user k) trivial).trans (u1 k)
        have s1' : satAll τ2 val wv ps1 := fun p hp => (Prim.sat_congr a2 (L1.below p hp)).1 (s1 p hp)
        refine ⟨τ2, AgreeB.trans L1.le a1 a2, ?_⟩
        rw [satAll_append, satAll_append]
        exact ⟨⟨s1', s2⟩, (h τ2 x y (L1.sound τ2 u2 s1') (L2.sound τ2 u2 s2)).2 hn⟩
      · intro a b w hm
        simp only [List.mem_append] at hm
        rcases hm with (hm | hm) | hm
        · exact k1 a b w hm
        · exact k2 a b w hm
        · exact absurd hm (hnl x y a b w)

theorem setTo_out {σ : Nat → Int} {val : α → Int} {wv : ω → Int} (h0 : ∀ x, 0 ≤ wv x)
    (lr : α → α → Option (LR ω)) (n : Node α) : n.clean → (∀ k ∈ n.vars, isBool (σ k)) → ∀ (v : Bool) (st : St α ω),
    SetOut σ val wv lr n v st (setTo lr n v st) := by
  induction n with
  | zero =>
    intro _ _ v st
    cases v
    · exact .inr ⟨st, [], rfl, ⟨by simp, Nat.le_refl _, by simp, by simp [Node.tr],
        fun _ _ τ _ => ⟨τ, fun _ _ => rfl, by simp [satAll]⟩⟩, by simp⟩
    · exact .inl ⟨rfl, .inr (by simp [Node.tr])⟩
  | one =>
    intro _ _ v st
    cases v
    · exact .inl ⟨rfl, .inr (by simp [Node.tr])⟩
    · exact .inr ⟨st, [], rfl, ⟨by simp, Nat.le_refl _, by simp, by simp [Node.tr],
        fun _ _ τ _ => ⟨τ, fun _ _ => rfl, by simp [satAll]⟩⟩, by simp⟩
  | var y =>
    intro _ hb v st
    have hy := hb y (by simp [Node.vars])
    have key : σ y = (if v then 1 else 0) ↔ (σ y = 1 ↔ v = true) := by
      unfold isBool at hy; cases v <;> simp <;> omega
    refine .inr ⟨_, [.int (.user y) (if v then 1 else 0)], rfl, ⟨rfl, Nat.le_refl _, ?_, ?_, ?_⟩, by simp⟩
    · intro p hp; simp only [List.mem_cons, List.not_mem_nil, or_false] at hp; subst hp; trivial
    · intro τ hτ hs
      have := hs _ (List.mem_singleton.2 rfl)
      simp only [Prim.sat] at this
      rw [hτ] at this
      exact key.1 this
    · intro _ hn τ hτ
      refine ⟨τ, fun _ _ => rfl, ?_⟩
      intro p hp; simp only [List.mem_cons, List.not_mem_nil, or_false] at hp; subst hp
      show τ (.user y) = _
      rw [hτ]; exact key.2 hn
  | not y =>
    intro _ hb v st
    have hy := hb y (by simp [Node.vars])
    have key : σ y = (if v then 0 else 1) ↔ (¬σ y = 1 ↔ v = true) := by
      unfold isBool at hy; cases v <;> simp <;> omega
    refine .inr ⟨_, [.int (.user y) (if v then 0 else 1)], rfl, ⟨rfl, Nat.le_refl _, ?_, ?_, ?_⟩, by simp⟩
    · intro p hp; simp only [List.mem_cons, List.not_mem_nil, or_false] at hp; subst hp; trivial
    · intro τ hτ hs
      have := hs _ (List.mem_singleton.2 rfl)
      simp only [Prim.sat] at this
      rw [hτ] at this
      exact key.1 this
    · intro _ hn τ hτ
      refine ⟨τ, fun _ _ => rfl, ?_⟩
      intro p hp; simp only [List.mem_cons, List.not_mem_nil, or_false] at hp; subst hp
      show τ (.user y) = _
      rw [hτ]; exact key.2 hn
  | cmp op full a b =>
    intro _ _ v st
    refine .inr ⟨_, [cmpSet op full a b v], rfl, ⟨rfl, Nat.le_refl _, ?_, ?_, ?_⟩, ?_⟩
    · intro p hp; simp only [List.mem_cons, List.not_mem_nil, or_false] at hp; subst hp
      cases op <;> cases v <;> trivial
    · intro τ hτ hs
      exact (cmpSet_sat op full a b v).1 (hs _ (List.mem_singleton.2 rfl))
    · intro _ hn τ hτ
      refine ⟨τ, fun _ _ => rfl, ?_⟩
      intro p hp; simp only [List.mem_cons, List.not_mem_nil, or_false] at hp; subst hp
      exact (cmpSet_sat op full a b v).2 hn
    · intro a' b' w hm
      simp only [List.mem_cons, List.not_mem_nil, or_false] at hm
      cases op <;> cases v <;> simp only [cmpSet] at hm <;> cases hm
  | bin op l r ihl ihr =>
    intro hc hb v st
    have hp : l.pure ∧ r.pure := by
      rcases hc with h | h
      · cases h
      · exact h
    have hbl : ∀ k ∈ l.vars, isBool (σ k) := fun k hk => hb k (List.mem_append.2 (.inl hk))
    have hbr : ∀ k ∈ r.vars, isBool (σ k) := fun k hk => hb k (List.mem_append.2 (.inr hk))
    have hbb : ∀ k, k ∈ l.vars ∨ k ∈ r.vars → isBool (σ k) := fun k hk => hk.elim (hbl k) (hbr k)
    have sl := fun v st => ihl (.inr hp.1) hbl v st
    have sr := fun v st => ihr (.inr hp.2) hbr v st
    have two : ∀ (vl vr : Bool), (((Node.bin op l r).tr σ val ↔ v = true) ↔
          ((l.tr σ val ↔ vl = true) ∧ (r.tr σ val ↔ vr = true))) →
        SetOut σ val wv lr (.bin op l r) v st ((setTo lr l vl st).bind fun _ st => setTo lr r vr st) :=
      fun vl vr h => setOut_pair (f := setTo lr l vl) (g := setTo lr r vr) (sl vl) (sr vr) h
    have hsame : ∀ (τ : W → Int) x y, truth (τ x) (l.tr σ val) → truth (τ y) (r.tr σ val) →
        (satAll τ val wv ([.same x y] : List (Prim α ω)) ↔ (l.tr σ val ↔ r.tr σ val)) := by
      intro τ x y hx hy
      rw [← truth_one hx, ← truth_one hy]
      have b1 := truth_bool hx
      have b2 := truth_bool hy
      unfold isBool at b1 b2
      simp only [satAll, List.mem_cons, List.not_mem_nil, or_false, forall_eq, Prim.sat]
      omega
    have hnot : ∀ (τ : W → Int) x y, truth (τ x) (l.tr σ val) → truth (τ y) (r.tr σ val) →
        (satAll τ val wv ([.bool x, .bool y, .notEq x y] : List (Prim α ω)) ↔ ¬(l.tr σ val ↔ r.tr σ val)) := by
      intro τ x y hx hy
      rw [← truth_one hx, ← truth_one hy]
      have b1 := truth_bool hx
      have b2 := truth_bool hy
      simp only [satAll, List.mem_cons, List.not_mem_nil, or_false, forall_eq_or_imp, forall_eq, Prim.sat, b1, b2,
        true_and]
      unfold isBool at b1 b2
      omega
    have himp : ∀ (τ : W → Int) x y, truth (τ x) (l.tr σ val) → truth (τ y) (r.tr σ val) →
        (satAll τ val wv ([.bool x, .bool y, .imply1 x y] : List (Prim α ω)) ↔ (l.tr σ val → r.tr σ val)) := by
      intro τ x y hx hy
      rw [← truth_one hx, ← truth_one hy]
      have b1 := truth_bool hx
      have b2 := truth_bool hy
      simp only [satAll, List.mem_cons, List.not_mem_nil, or_false, forall_eq_or_imp, forall_eq, Prim.sat, b1, b2,
        true_and]
    have hand : ∀ (τ : W → Int) x y, truth (τ x) (l.tr σ val) → truth (τ y) (r.tr σ val) →
        (satAll τ val wv ([.bool x, .bool y, .and0 x y] : List (Prim α ω)) ↔ ¬(l.tr σ val ∧ r.tr σ val)) := by
      intro τ x y hx hy
      rw [← truth_one hx, ← truth_one hy]
      have b1 := truth_bool hx
      have b2 := truth_bool hy
      simp only [satAll, List.mem_cons, List.not_mem_nil, or_false, forall_eq_or_imp, forall_eq, Prim.sat, b1, b2,
        true_and]
    have hor : ∀ (τ : W → Int) x y, truth (τ x) (l.tr σ val) → truth (τ y) (r.tr σ val) →
        (satAll τ val wv ([.bool x, .bool y, .or1 x y] : List (Prim α ω)) ↔ (l.tr σ val ∨ r.tr σ val)) := by
      intro τ x y hx hy
      rw [← truth_one hx, ← truth_one hy]
      have b1 := truth_bool hx
      have b2 := truth_bool hy
      simp only [satAll, List.mem_cons, List.not_mem_nil, or_false, forall_eq_or_imp, forall_eq, Prim.sat, b1, b2,
        true_and]
    have lds : ∀ (qs : W → W → List (Prim α ω)), (∀ x y m, x.below m → y.below m → ∀ p ∈ qs x y, p.below m) →
        (∀ x y a b w, (Prim.load a b w : Prim α ω) ∉ qs x y) →
        (∀ (τ : W → Int) x y, truth (τ x) (l.tr σ val) → truth (τ y) (r.tr σ val) →
          (satAll τ val wv (qs x y) ↔ ((Node.bin op l r).tr σ val ↔ v = true))) →
        SetOut σ val wv lr (.bin op l r) v st
          ((loadW lr l st).bind fun x st => (loadW lr r st).bind fun y st => .ok () (st.post (qs x y))) :=
      fun qs h1 h2 h3 => setOut_loads h0 hp.1 hp.2 hbb qs h1 h2 h3
    have bel : ∀ (x y : W) m, x.below m → y.below m → ∀ (q p : Prim α ω), q.below m →
        p ∈ [Prim.bool x, .bool y, q] → p.below m := by
      intro x y m hx hy q p hq hm
      simp only [List.mem_cons, List.not_mem_nil, or_false] at hm
      rcases hm with rfl | rfl | rfl <;> assumption
    have hq : ∀ q : W → W → Prim α ω, (∀ x y m, x.below m → y.below m → (q x y).below m) →
        ∀ x y m, x.below m → y.below m → ∀ p ∈ [Prim.bool x, .bool y, q x y], p.below m :=
      fun q h x y m hx hy p hm => bel x y m hx hy _ p (h x y m hx hy) hm
    unfold setTo
    cases op <;> cases v <;> simp only [setOp, Bool.not_true, Bool.not_false]
    all_goals first
      | exact two _ _ (by simp only [Node.tr, BOp.rel]; grind)
      | exact lds (fun x y => [.same x y]) (by
          intro x y m hx hy p hm; simp only [List.mem_cons, List.not_mem_nil, or_false] at hm; subst hm
          exact ⟨hx, hy⟩) (by simp) (fun τ x y hx hy => (hsame τ x y hx hy).trans (by simp only [Node.tr, BOp.rel]; grind))
      | exact lds (fun x y => [.bool x, .bool y, .notEq x y]) (hq (fun x y => .notEq x y) fun _ _ _ hx hy => ⟨hx, hy⟩)
          (by simp) (fun τ x y hx hy => (hnot τ x y hx hy).trans (by simp only [Node.tr, BOp.rel]; grind))
      | exact lds (fun x y => [.bool x, .bool y, .imply1 x y]) (hq (fun x y => .imply1 x y) fun _ _ _ hx hy => ⟨hx, hy⟩)
          (by simp) (fun τ x y hx hy => (himp τ x y hx hy).trans (by simp only [Node.tr, BOp.rel]; grind))
      | exact lds (fun x y => [.bool x, .bool y, .and0 x y]) (hq (fun x y => .and0 x y) fun _ _ _ hx hy => ⟨hx, hy⟩)
          (by simp) (fun τ x y hx hy => (hand τ x y hx hy).trans (by simp only [Node.tr, BOp.rel]; grind))
      | exact lds (fun x y => [.bool x, .bool y, .or1 x y]) (hq (fun x y => .or1 x y) fun _ _ _ hx hy => ⟨hx, hy⟩)
          (by simp) (fun τ x y hx hy => (hor τ x y hx hy).trans (by simp only [Node.tr, BOp.rel]; grind))

end Gp.FdBool
