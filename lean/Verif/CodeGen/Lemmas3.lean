import Verif.CodeGen.Lemmas2
namespace Gp.CodeGen
open Gp.Heap Gp.Unify Gp.ListBip
open Gp.Term (isNaN fkey)

variable {N nY e c c' : Nat} {V V' V'' : St} {X X' X'' : Var → Cell} {g g' g'' : G}
  {A B C : (Var → T) → (Adr → T) → Prop} {E : Env}

/-! ## The words of the variables -/

/-- The state is the one seen by the registers. -/
def See (V : St) (m : M) : Prop := ∀ a, m.s.lssa ≤ a → V.mem a = m.s.mem a

theorem Cur.see {m : M} {p n : Nat} (h : Cur N V m g p n) : See V m := by
  intro a ha
  rcases h.mode with ⟨_, h1⟩ | ⟨_, h1, h2, _⟩
  · rw [h1]
  · subst h2
    have hb : m.s.h + n ≤ m.s.lssa ∨ n = 0 := by
      by_cases hn : n = 0
      · exact Or.inr hn
      · left
        have := (h.cells (n - 1) (by omega)).1
        have e1 : (fill m.s n).lssa = m.s.lssa := rfl
        rw [e1] at this
        omega
    rcases hb with hb | rfl
    · exact fill_out _ (by omega)
    · rw [fill_zero]

theorem see_self (m : M) : See m.s m := fun _ _ => rfl

theorem Cur.lssa {m : M} {p n : Nat} (h : Cur N V m g p n) : V.lssa = m.s.lssa := by
  rcases h.mode with ⟨_, h1⟩ | ⟨_, h1, h2, _⟩
  · rw [h1]
  · rw [h2]; rfl

theorem get_valid {m : M} (hi : Inv N nY m.e V m.X g) (hs : See V m) (hl : V.lssa = m.s.lssa) {v : Var} (hv : g.info v ≠ none) :
    ValidWord N V.lssa V.mem (m.get v) ∧ ∀ ρ, Model N V.mem ρ → eval V.mem ρ (m.get v) = val m.e V.mem m.X ρ v := by
  cases v with
  | y i =>
    have hd := hi.ydom i hv
    have he := hi.env i hd
    have ht := hi.yword i hv
    have : m.get (.y i) = V.mem (yadr m.e i) := (hs _ (by rw [← hl]; exact he.1)).symm
    rw [this]
    exact ⟨(hi.ok.wf _ he.2 ht).1, fun ρ hρ => (hρ _ he.2 ht).symm⟩
  | _ => exact ⟨hi.word _ rfl hv, fun _ _ => rfl⟩

theorem get_global {m : M} (hi : Inv N nY m.e V m.X g) (hs : See V m) (hl : V.lssa = m.s.lssa) {v : Var}
    (hv : g.info v = some .inHeap) : Global V.lssa (m.get v) := by
  cases v with
  | y i =>
    have he := hi.env i (hi.ydom i (by rw [hv]; simp))
    have : m.get (.y i) = V.mem (yadr m.e i) := (hs _ (by rw [← hl]; exact he.1)).symm
    rw [this]; exact hi.yheap i hv
  | _ => exact hi.heap _ rfl hv

theorem get_noref {m : M} {p n : Nat} (hi : Inv N nY m.e V m.X g) (hc : Cur N V m g p n) (hS : m.S = none) {v : Var}
    (hv : g.info v ≠ none) (b : Nat) (h1 : p ≤ b) (h2 : b < p + n) : m.get v ≠ .ref b := by
  rcases hc.mode with ⟨h, _⟩ | ⟨_, hp, hV, hno⟩
  · rw [hS] at h; cases h
  · have hb : b < V.lssa := by
      have := (hc.cells (b - p) (by omega)).1
      omega
    cases v with
    | y i =>
      intro h
      have he := hi.env i (hi.ydom i hv)
      have h3 : m.get (.y i) = V.mem (yadr m.e i) := (hc.see _ (by rw [← hc.lssa]; exact he.1)).symm
      rw [h3] at h
      have := hno.mem b h1 h2 _ he.2 h
      omega
    | _ => exact hno.reg b h1 h2 _ rfl hv

/-! ## Elements -/

theorem cst_elem {m : M} {p n : Nat} (hi : Inv N nY m.e V m.X g) (hc : Cur N V m g p (n + 1)) {w : Cell} {t : T}
    (hw : ValidWord N V.lssa V.mem w) (hwt : ∀ m ρ, eval m ρ w = t)
    (hd : ∀ v, ValidWord N V.lssa V.mem v → (∀ b, v ≠ .ref b) → ∀ ρ, eval V.mem ρ v = t → v = w) (hne : ∀ b, w ≠ .ref b)
    {r : Option M}
    (h : (match m.S with
      | some a => m.ret (some (a + 1)) (getCst m.s w (m.s.mem a))
      | none => m.ret none (pushRes m.s w)) = some r) :
    ElemOk (c := c) N nY m V g g p n (fun _ ρ => ρ p = t) r := by
  have h0 := hc.cells 0 (by omega)
  simp only [Nat.add_zero] at h0
  have hpN := Nat.lt_of_lt_of_le h0.1 hi.ok.top
  cases hS : m.S with
  | none =>
    rw [hS] at h
    exact write_elem hi hc hS hw (fun b hb => absurd hb (hne b)) (fun b _ _ => hne b)
      (fun ρ β _ _ => by rw [hwt]) h
  | some a =>
    rw [hS] at h
    rcases hc.mode with ⟨h1, h2⟩ | ⟨h1, _⟩
    · rw [hS] at h1; have h1 := Option.some.inj h1; subst h1
      simp only at h
      cases hg : getCst m.s w (m.s.mem a) with
      | none => rw [hg] at h; simp [M.ret] at h
      | some o =>
        rw [hg] at h
        rw [← h2] at hg
        obtain ⟨k1, k2⟩ := getCst_chg hi.ok (hi.ok.wf a hpN h0.2).1 hw hwt hd hne hg
        refine read_elem hi hc (Q := fun ρ => eval V.mem ρ (V.mem a) = t) ?_ k1 k2 h
        intro ρ β hρ _
        rw [← hρ a hpN h0.2]
    · rw [hS] at h1; cases h1

/-- unify_value and unify_local_value in read mode. -/
theorem unify_elem {m : M} {p n : Nat} {a : Adr} (hi : Inv N nY m.e V m.X g) (hc : Cur N V m g p (n + 1)) (hS : m.S = some a)
    {v : Var} (hv : g.info v ≠ none) {r : Option M}
    (h : m.ret (some (a + 1)) (asRes (unify false E.fd E.fuel m.s (m.get v) (m.s.mem a))) = some r) :
    ElemOk (c := c) N nY m V g g p n (fun β ρ => ρ p = β v) r := by
  have h0 := hc.cells 0 (by omega)
  simp only [Nat.add_zero] at h0
  have hpN := Nat.lt_of_lt_of_le h0.1 hi.ok.top
  obtain ⟨g1, g2⟩ := get_valid hi hc.see hc.lssa hv
  rcases hc.mode with ⟨h1, h2⟩ | ⟨h1, _⟩
  · rw [hS] at h1; have h1 := Option.some.inj h1; subst h1
    have hwp := (hi.ok.wf a hpN h0.2).1
    cases hu : unify false E.fd E.fuel m.s (m.get v) (m.s.mem a) with
    | none => rw [hu] at h; simp [M.ret, asRes] at h
    | some q =>
      obtain ⟨ok, s'⟩ := q
      rw [hu] at h
      rw [← h2] at hu
      have hiff : ∀ ρ β, Model N V.mem ρ → Holds m.e V m.X g β ρ →
          (eval V.mem ρ (m.get v) = eval V.mem ρ (V.mem a) ↔ ρ a = β v) := by
        intro ρ β hρ hh
        rw [g2 ρ hρ, ← hρ a hpN h0.2, ← hh v hv]
        exact eq_comm
      cases ok with
      | false =>
        simp only [asRes] at h
        exact read_elem hi hc hiff (fun _ => unify_none hi.ok g1 hwp hu) (fun _ h => by cases h) h
      | true =>
        simp only [asRes] at h
        refine read_elem hi hc hiff (fun h => by cases h) (fun V' hV => ?_) h
        cases hV
        exact unify_chg hi.ok g1 hwp hu
  · rw [hS] at h1; cases h1

theorem value_elem {m : M} {p n : Nat} (hi : Inv N nY m.e V m.X g) (hc : Cur N V m g p (n + 1)) {v : Var}
    (hv : g.info v = some .inHeap) {r : Option M} (h : step E m (.unifyValue v) = some r) :
    ElemOk (c := c) N nY m V g g p n (fun β ρ => ρ p = β v) r := by
  have hv' : g.info v ≠ none := by rw [hv]; simp
  simp only [step] at h
  cases hS : m.S with
  | some a => rw [hS] at h; exact unify_elem hi hc hS hv' h
  | none =>
    rw [hS] at h
    obtain ⟨g1, g2⟩ := get_valid hi hc.see hc.lssa hv'
    refine write_elem hi hc hS g1 (get_global hi hc.see hc.lssa hv) (get_noref hi hc hS hv') ?_ h
    intro ρ β hρ hh
    rw [g2 ρ hρ, ← hh v hv']

/-- Dereferencing does not see the words not yet written. -/
theorem deref_fill {s : St} {n : Nat} (hok : Ok N (fill s n))
    (hno : ∀ b, s.h ≤ b → b < s.h + n → ∀ a, a < N → (fill s n).mem a = .ref b → a = b) {w : Cell}
    (hw : ValidWord N s.lssa (fill s n).mem w) (hne : ∀ b, s.h ≤ b → b < s.h + n → w ≠ .ref b) :
    deref s.mem w = deref (fill s n).mem w := by
  have key : ∀ a, Acc (RefTo (fill s n).mem) a → ValidWord N s.lssa (fill s n).mem (.ref a) →
      ¬ (s.h ≤ a ∧ a < s.h + n) → deref s.mem (.ref a) = deref (fill s n).mem (.ref a) := by
    intro a ha
    induction ha with
    | intro a _ ih =>
      intro hv hna
      rw [deref_ref, deref_ref, fill_out s (by omega)]
      by_cases h : s.mem a = .ref a
      · rw [if_pos h, if_pos h]
      · rw [if_neg h, if_neg h]
        by_cases hr : ∃ b, s.mem a = .ref b
        · obtain ⟨b, hb⟩ := hr
          rw [hb]
          have hb' : (fill s n).mem a = .ref b := by rw [fill_out s (by omega)]; exact hb
          have hvb := (hok.wf a hv.1 hv.2).1
          rw [hb'] at hvb
          refine ih b ⟨hb', fun h2 => h (by rw [hb, h2])⟩ hvb ?_
          rintro ⟨k1, k2⟩
          have := hno b k1 k2 a hv.1 hb'
          omega
        · rw [deref_nonref (fun b hb => hr ⟨b, hb⟩), deref_nonref (fun b hb => hr ⟨b, hb⟩)]
  by_cases hr : ∃ b, w = .ref b
  · obtain ⟨b, rfl⟩ := hr
    exact key b (hok.wf b hw.1 hw.2).2.2 hw (fun h => hne b h.1 h.2 rfl)
  · rw [deref_nonref (fun b hb => hr ⟨b, hb⟩), deref_nonref (fun b hb => hr ⟨b, hb⟩)]

theorem bind_fill (s : St) {x n : Nat} (w : Cell) (hx : x < s.h ∨ s.h + n ≤ x) : fill (s.bindUV x w) n = (fill s n).bindUV x w := by
  simp only [fill, St.bindUV, St.mk.injEq]
  refine ⟨?_, rfl, trivial, trivial, trivial, trivial⟩
  funext a
  simp only [Mem.set]
  by_cases h1 : a = x
  · subst h1
    have : ¬ (s.h ≤ a ∧ a < s.h + n) := by omega
    simp [this]
  · simp only [h1, if_false]

theorem local_elem {m : M} {p n : Nat} (hi : Inv N nY m.e V m.X g) (hc : Cur N V m g p (n + 1)) {v : Var}
    (hv : g.info v ≠ none) {r : Option M} (h : step E m (.unifyLocalValue v) = some r) :
    ElemOk (c := c) N nY m V g g p n (fun β ρ => ρ p = β v) r := by
  simp only [step] at h
  cases hS : m.S with
  | some a => rw [hS] at h; exact unify_elem hi hc hS hv h
  | none =>
    rw [hS] at h
    simp only at h
    obtain ⟨g1, g2⟩ := get_valid hi hc.see hc.lssa hv
    have gn := get_noref hi hc hS hv
    rcases hc.mode with ⟨h1, _⟩ | ⟨_, hp, hV, hno⟩
    · rw [hS] at h1; cases h1
    · have hl := hc.lssa
      have hd : deref m.s.mem (m.get v) = deref V.mem (m.get v) := by
        rw [hV]
        refine deref_fill (by rw [← hV]; exact hi.ok) (by rw [← hV, ← hp]; exact hno.mem) ?_ (by rw [← hp]; exact gn)
        rw [← hV, ← hl]; exact g1
      obtain ⟨w', d1, d2, d3, d4⟩ := deref_ok hi.ok g1
      rw [← hd] at d1
      unfold pushLocal at h
      rw [d1] at h
      have heq : ∀ ρ β, Model N V.mem ρ → Holds m.e V m.X g β ρ → β v = eval V.mem ρ w' := by
        intro ρ β hρ hh
        rw [← d4 ρ hρ, g2 ρ hρ, ← hh v hv]
      have h0 := hc.cells 0 (by omega)
      simp only [Nat.add_zero] at h0
      have hu : V.mem p = .ref p := by rw [hV, hp]; exact fill_in _ (Nat.le_refl _) (by omega)
      by_cases hr : ∃ a, w' = .ref a
      · obtain ⟨a, rfl⟩ := hr
        have hua := d3 a rfl
        simp only at h
        -- the variable is not one of the words not yet written
        have hap : ∀ b, p ≤ b → b < p + (n + 1) → a ≠ b := by
          intro b k1 k2 hab
          subst hab
          have key : ∀ x, Acc (RefTo V.mem) x → ValidWord N V.lssa V.mem (.ref x) → x ≠ a →
              deref V.mem (.ref x) ≠ some (.ref a) := by
            intro x hx
            induction hx with
            | intro x _ ih =>
              intro hvx hxa
              rw [deref_ref]
              by_cases hs : V.mem x = .ref x
              · rw [if_pos hs]; intro h; cases h; exact hxa rfl
              · rw [if_neg hs]
                by_cases hr : ∃ b, V.mem x = .ref b
                · obtain ⟨b, hb⟩ := hr
                  have hvb := (hi.ok.wf x hvx.1 hvx.2).1
                  rw [hb] at hvb ⊢
                  refine ih b ⟨hb, fun h => hs (by rw [hb, h])⟩ hvb ?_
                  intro h; subst h
                  exact hxa (hno.mem b k1 k2 x hvx.1 hb)
                · rw [deref_nonref (fun b hb => hr ⟨b, hb⟩)]
                  intro h; exact hr ⟨a, Option.some.inj h⟩
          rw [hd] at d1
          by_cases hr : ∃ x, m.get v = .ref x
          · obtain ⟨x, hx⟩ := hr
            rw [hx] at d1 g1
            exact key x (hi.ok.wf x g1.1 g1.2).2.2 g1 (fun h => gn a k1 k2 (by rw [hx, h])) d1
          · rw [deref_nonref (fun b hb => hr ⟨b, hb⟩)] at d1
            exact hr ⟨a, Option.some.inj d1⟩
        by_cases hloc : m.s.isLocal a = true
        · rw [if_pos hloc] at h
          have hal : m.s.lssa ≤ a := by simpa [St.isLocal] using hloc
          unfold globalize at h
          cases hpu : push m.s (.ref m.s.h) with
          | none => rw [hpu] at h; simp [M.ret] at h
          | some s' =>
            rw [hpu] at h
            simp only [Option.map_some, M.ret, Option.some.injEq] at h
            subst h
            obtain ⟨f1, f2, f3⟩ := push_fill (n := n) hpu
            have hVf : fill s' n = V := by
              rw [f1, ← hV, ← hp, setMem_self hu]
            have hplt : p < m.s.lssa := by rw [← hl]; exact h0.1
            have hbl : m.s.h + (n + 1) ≤ m.s.lssa := by
              have := (hc.cells n (by omega)).1; rw [hl] at this; omega
            have hV' : fill (s'.bindUV a (.ref m.s.h)) n = V.bindUV a (.ref p) := by
              rw [bind_fill _ _ (by rw [f2]; omega), hVf, ← hp]
            have hwf' := bind_wf hi.ok.wf (x := a) (w := .ref p) hua ⟨Nat.lt_of_lt_of_le h0.1 hi.ok.top, h0.2⟩
              (fun b hb => by cases hb; exact ⟨hu, fun _ => h0.1⟩)
            have hvp : ValidWord N V.lssa V.mem (.ref p) := ⟨Nat.lt_of_lt_of_le h0.1 hi.ok.top, h0.2⟩
            have hs : Same V.mem (V.mem.set a (.ref p)) := Same.set (by rw [hua]; rfl) rfl
            have hch : Chg N V (fun ρ => ρ a = ρ p) (V.bindUV a (.ref p)) := by
              refine ⟨⟨⟨hwf', fun x h1 h2 => hs.fn (hi.ok.free x h1 h2), hi.ok.top⟩, rfl, Same.grow hs, ?_, ?_⟩, ?_, ?_, ?_⟩
              · intro ρ hρ; exact (bind_models hi.ok.wf d2.1 hua hvp ρ).mp hρ
              · intro ρ hρ hP; exact ⟨ρ, (bind_models hi.ok.wf d2.1 hua hvp ρ).mpr ⟨hρ, hP⟩, Agree.refl _ _⟩
              · intro x h1 h2; exact set_other _ _ _ _ (by intro h; subst h; exact h1 hua)
              · intro x h1 h2; exact hs.fn h2
              · intro x b h1 h2
                simp only [St.bindUV] at h1 h2
                by_cases h : x = a
                · subst h; rw [set_same] at h1; cases h1; exact Or.inr h0.1
                · rw [set_other _ _ _ _ h] at h2; exact absurd rfl h2
            refine ⟨_, (hch.tr hi).conseq ?_ (fun _ _ _ _ => Iff.rfl), ⟨Or.inr ⟨rfl, ?_, hV'.symm, ?_⟩, ?_⟩, rfl, rfl⟩
            · intro ρ β hρ hh
              rw [heq ρ β hρ hh]
              exact eq_comm
            · show p + 1 = s'.h
              rw [f2, hp]
            · refine ⟨fun b h1 h2 x hx hb => ?_, fun b h1 h2 => hno.reg b (by omega) (by omega)⟩
              simp only [St.bindUV] at hb
              by_cases hxa : x = a
              · subst hxa; rw [set_same] at hb; cases hb; omega
              · rw [set_other _ _ _ _ hxa] at hb; exact hno.mem b (by omega) (by omega) x hx hb
            · exact hc.cells_next hch.lssa hch.grow
        · rw [if_neg hloc] at h
          have hal : a < m.s.lssa := by simp [St.isLocal] at hloc; exact hloc
          refine write_elem (w := .ref a) hi hc hS d2 (fun b hb => by cases hb; rw [hl]; exact hal) ?_ ?_ (r := r) ?_
          · intro b k1 k2 hb; cases hb; exact hap a k1 k2 rfl
          · intro ρ β hρ hh; rw [heq ρ β hρ hh]
          · exact h
      · have hr' : ∀ a, w' ≠ .ref a := fun a h => hr ⟨a, h⟩
        have h' : m.ret none (pushRes m.s w') = some r := by
          have hcw : copyWord w' = w' := copyWord_valid d2
          cases w' <;> first | exact absurd rfl (hr' _) | (simp only [hcw] at h; exact h)
        refine write_elem (w := w') hi hc hS d2 (fun b hb => absurd hb (hr' b)) (fun b _ _ => hr' b) ?_ h'
        intro ρ β hρ hh; rw [heq ρ β hρ hh]

end Gp.CodeGen
