import Verif.NumVars.Excl
namespace Gp.NumVars
open Gp.Heap Gp.Unify Gp.ListBip Gp.TermInl

variable {N : Adr} {s s' s1 s2 : St} {C : Ctx} {tab : Tab}

/-- One variable is bound. -/
theorem bindVar_res (hok : Ok N s) {a k : Nat} {r : St × Nat} (haN : a < N) (ha : s.mem a = .ref a)
    (h : bindVar C tab s k a = some r) :
    r.2 = skip tab k + 1 ∧ Step N s (fun ρ => ρ a = value C (skip tab k)) r.1 ∧ s.mem s.h = .fn 0 0 ∧
      s.mem (s.h + 1) = .fn 0 0 ∧
      r.1.mem = ((s.mem.set s.h (.fn (binding C (skip tab k)).1 1)).set (s.h + 1) (binding C (skip tab k)).2).set a (.stc s.h) := by
  unfold bindVar at h
  simp only at h
  cases h1 : push s (.fn (binding C (skip tab k)).1 1) with
  | none => rw [h1] at h; simp at h
  | some s1 =>
    rw [h1] at h
    simp only at h
    obtain ⟨st1, e1, e2, e3, -⟩ := pushFn_step hok h1
    have hpl := var_place hok ha
    have ha1 : s1.mem a = .ref a := by rw [e1, set_other _ _ _ _ (by omega), ha]
    have hpl1 := var_place st1.ok ha1
    have hl1 := st1.lssa
    cases h2 : push s1 (binding C (skip tab k)).2 with
    | none =>
      by_cases hx : a = s1.h
      · obtain hlt : ¬ s1.h < s1.lssa := by
          intro hlt; unfold push at h2; rw [if_pos hlt] at h2; simp at h2
        unfold push at h
        rw [if_neg (show ¬ (s1.bindUV a (.stc s.h)).h < (s1.bindUV a (.stc s.h)).lssa from hlt)] at h
        simp at h
      · rw [push_bind hx, h2] at h; simp at h
    | some s2 =>
      have hlt2 : s1.h < s1.lssa := (push_eq h2).1
      rw [push_bind (show a ≠ s1.h by omega), h2] at h
      simp only [Option.map_some, Option.some.injEq] at h
      subst h
      have hv : ValidWord N s1.lssa s1.mem (binding C (skip tab k)).2 := by unfold binding; split <;> exact trivial
      have hg : Global s1.lssa (binding C (skip tab k)).2 := by unfold binding; split <;> (intro b hb; simp at hb)
      obtain ⟨st2, g1, g2, g3⟩ := push_step st1.ok hv hg h2
      have hl2 := st2.lssa
      have ha2 : s2.mem a = .ref a := by rw [g1, set_other _ _ _ _ (by omega), ha1]
      have htop := hok.top
      have f2 : s2.mem s.h = .fn (binding C (skip tab k)).1 1 := by
        rw [g1, set_other _ _ _ _ (by omega), e1, set_same]
      have f3 : s2.mem (s.h + 1) = (binding C (skip tab k)).2 := by
        rw [g1, e2, set_same]
      have tm : isTerm (binding C (skip tab k)).2 = true := by unfold binding; split <;> rfl
      have bs := bind_step (w := .stc s.h) st2.ok haN ha2
        ⟨_, 1, f2, by omega, by omega, by omega, fun i hi => by
          rw [show s.h + 1 + i = s.h + 1 by omega, f3]; exact tm⟩ (by simp)
      have ev : ∀ ρ, Model N s2.mem ρ → eval s2.mem ρ (.stc s.h) = value C (skip tab k) := by
        intro ρ hρ
        have h3 := hρ (s.h + 1) (by omega) (by rw [f3]; exact tm)
        rw [f3] at h3
        rw [eval_stc f2]
        simp only [List.range_succ, List.range_zero, List.nil_append, List.map_cons, List.map_nil, Nat.add_zero]
        rw [h3]
        unfold binding value
        split <;> rfl
      refine ⟨rfl, ?_, hok.free _ (Nat.le_refl _) e3, hok.free _ (by omega) (by omega), ?_⟩
      · have s12 := st1.trans (R := fun _ => True) st2 (fun _ _ _ _ _ => trivial) (fun _ _ _ => trivial) (fun _ _ _ _ _ => trivial)
        refine s12.trans bs (fun ρ _ hρ _ hq => hq.trans (ev ρ hρ)) (fun _ _ _ => trivial) ?_
        intro ρ ρ' hρ' hag hR
        rw [ev ρ' hρ', hag a (by rw [ha]; rfl)]
        exact hR
      · show Heap.Mem.set s2.mem a _ = _
        rw [g1, e1, e2]

/-- What is true of the memory during the traversal: the cells of the memory `m` of the call are not changed, but the unbound
variables which are bound to new structures. -/
structure Inv (m m' : Heap.Mem) : Prop where
  keep : ∀ a, m a ≠ .fn 0 0 → m a ≠ .ref a → m' a = m a
  var : ∀ a, m a = .ref a → m' a = .ref a ∨
    ∃ p f v, m' a = .stc p ∧ m' p = .fn f 1 ∧ m' (p + 1) = v ∧ ((∃ z, v = .int z) ∨ ∃ i, v = .atm i)

theorem Inv.refl (m : Heap.Mem) : Inv m m := ⟨fun _ _ _ => rfl, fun _ h => .inl h⟩

theorem binding_val (C : Ctx) (n : Nat) : (∃ z, (binding C n).2 = .int z) ∨ ∃ i, (binding C n).2 = .atm i := by
  unfold binding
  split
  · exact .inl ⟨_, rfl⟩
  · exact .inr ⟨_, rfl⟩

theorem Inv.bind {m : Heap.Mem} (hi : Inv m s.mem) (hok : Ok N s) {a k : Nat} {r : St × Nat} (haN : a < N) (hma : m a = .ref a)
    (ha : s.mem a = .ref a) (h : bindVar C tab s k a = some r) : Inv m r.1.mem := by
  obtain ⟨-, -, f0, f1, e⟩ := bindVar_res hok haN ha h
  rw [e]
  refine ⟨fun b h1 h2 => ?_, fun b hb => ?_⟩
  · have hk := hi.keep b h1 h2
    have n1 : b ≠ a := by rintro rfl; exact h2 hma
    have n2 : b ≠ s.h := by rintro rfl; rw [hk] at f0; exact h1 f0
    have n3 : b ≠ s.h + 1 := by rintro rfl; rw [hk] at f1; exact h1 f1
    rw [set_other _ _ _ _ n1, set_other _ _ _ _ n3, set_other _ _ _ _ n2, hk]
  · by_cases hba : b = a
    · subst hba
      right
      have n2 : s.h ≠ b := by intro e; rw [e] at f0; rw [ha] at f0; simp at f0
      have n3 : s.h + 1 ≠ b := by intro e; rw [e] at f1; rw [ha] at f1; simp at f1
      refine ⟨s.h, (binding C (skip tab k)).1, (binding C (skip tab k)).2, set_same _ _ _, ?_, ?_, binding_val C (skip tab k)⟩
      · rw [set_other _ _ _ _ n2, set_other _ _ _ _ (by omega), set_same]
      · rw [set_other _ _ _ _ n3, set_same]
    · have oth : ∀ c, c ≠ a → s.mem c ≠ .fn 0 0 →
          (((s.mem.set s.h (.fn (binding C (skip tab k)).1 1)).set (s.h + 1) (binding C (skip tab k)).2).set a (.stc s.h)) c
            = s.mem c := by
        intro c h1 h2
        have n2 : c ≠ s.h := by rintro rfl; exact h2 f0
        have n3 : c ≠ s.h + 1 := by rintro rfl; exact h2 f1
        rw [set_other _ _ _ _ h1, set_other _ _ _ _ n3, set_other _ _ _ _ n2]
      rcases hi.var b hb with h1 | ⟨p, f, v, h1, h2, h3, h4⟩
      · left; rw [oth b hba (by rw [h1]; simp), h1]
      · right
        refine ⟨p, f, v, ?_, ?_, ?_, h4⟩
        · rw [oth b hba (by rw [h1]; simp), h1]
        · rw [oth p (by rintro rfl; rw [ha] at h2; simp at h2) (by rw [h2]; simp), h2]
        · have h5 : v ≠ .fn 0 0 ∧ v ≠ .ref a := by rcases h4 with ⟨z, rfl⟩ | ⟨i, rfl⟩ <;> simp
          rw [oth (p + 1) (by intro e; rw [e, ha] at h3; exact h5.2 h3.symm) (by rw [h3]; exact h5.1), h3]

/-- The variables of a list which are still unbound are bound in turn. -/
def foldB (C : Ctx) (tab : Tab) : List Nat → St × Nat → Option (St × Nat)
  | [], st => some st
  | a :: l, st =>
    if st.1.mem a = .ref a then
      match bindVar C tab st.1 st.2 a with
      | none => none
      | some st' => foldB C tab l st'
    else foldB C tab l st

theorem foldB_append (l l' : List Nat) (st : St × Nat) :
    foldB C tab (l ++ l') st = (match foldB C tab l st with
      | none => none
      | some st' => foldB C tab l' st') := by
  induction l generalizing st with
  | nil => rfl
  | cons a l ih =>
    simp only [List.cons_append, foldB]
    split
    · cases bindVar C tab st.1 st.2 a with
      | none => rfl
      | some st' => exact ih st'
    · exact ih st

theorem foldB_inv {m : Heap.Mem} {L : List Nat} : ∀ {st r : St × Nat}, (∀ a ∈ L, a < N ∧ m a = .ref a) → Ok N st.1 →
    Inv m st.1.mem → foldB C tab L st = some r → Ok N r.1 ∧ Inv m r.1.mem := by
  induction L with
  | nil => intro st r _ h1 h2 h; simp only [foldB, Option.some.injEq] at h; subst h; exact ⟨h1, h2⟩
  | cons a L ih =>
    intro st r hL h1 h2 h
    simp only [foldB] at h
    have ha := hL a (by simp)
    have hL' : ∀ a ∈ L, a < N ∧ m a = .ref a := fun b hb => hL b (by simp [hb])
    by_cases hu : st.1.mem a = .ref a
    · rw [if_pos hu] at h
      cases hb : bindVar C tab st.1 st.2 a with
      | none => rw [hb] at h; simp at h
      | some st' =>
        rw [hb] at h
        exact ih hL' (bindVar_res h1 ha.1 hu hb).2.1.ok (h2.bind h1 ha.1 ha.2 hu hb) h
    · rw [if_neg hu] at h
      exact ih hL' h1 h2 h

theorem reads_path {m m' : Heap.Mem} (hi : Inv m m') {w : Cell} {t : T} (h : Reads m w t) :
    ∃ v, deref m w = some v ∧ Reads m v t ∧ (∀ a, v = .ref a → m a = .ref a) ∧ deref m' w = deref m' v := by
  induction h with
  | @var a h => exact ⟨.ref a, by rw [deref_ref, if_pos h], .var h, fun b hb => by cases hb; exact h, rfl⟩
  | @bound a t h hr ih =>
    obtain ⟨v, h1, h2, h3, h4⟩ := ih
    have hk : m' a = m a := hi.keep a (by intro e; rw [e] at hr; cases hr) h
    exact ⟨v, by rw [deref_ref, if_neg h]; exact h1, h2, h3, by rw [deref_ref, hk, if_neg h]; exact h4⟩
  | @atm i => exact ⟨_, deref_nonref (by simp), .atm, by simp, rfl⟩
  | @int i => exact ⟨_, deref_nonref (by simp), .int, by simp, rfl⟩
  | flt h1 h2 => exact ⟨_, deref_nonref (by simp), .flt h1 h2, by simp, rfl⟩
  | nan h1 h2 => exact ⟨_, deref_nonref (by simp), .nan h1 h2, by simp, rfl⟩
  | lst h1 h2 => exact ⟨_, deref_nonref (by simp), .lst h1 h2, by simp, rfl⟩
  | stc h1 h2 => exact ⟨_, deref_nonref (by simp), .stc h1 h2, by simp, rfl⟩

theorem bindAll_deref {n : Nat} {st : St × Nat} {w w' : Cell} (h : deref st.1.mem w = deref st.1.mem w') :
    bindAll C tab n st w = bindAll C tab n st w' := by
  cases n with
  | zero => rfl
  | succ n => simp only [bindAll, h]

/-- The word read in the memory of the traversal is that of the call, or what its variable has been bound to. -/
theorem word_eq {m : Heap.Mem} {n : Nat} {st : St × Nat} (hi : Inv m st.1.mem) {a : Adr} (ha : isTerm (m a) = true) :
    bindAll C tab n st (st.1.mem a) = bindAll C tab n st (m a) := by
  have hne : m a ≠ .fn 0 0 := by intro e; rw [e] at ha; simp [isTerm] at ha
  by_cases hr : m a = .ref a
  · rw [hr]
    refine bindAll_deref ?_
    rcases hi.var a hr with h1 | ⟨p, f, v, h1, h2, h3, h4⟩
    · rw [h1]
    · rw [h1, deref_ref, h1, if_neg (by simp)]
  · rw [hi.keep a hne hr]

theorem bindArgs_res {s0 : St} {n : Nat}
    (ih : ∀ {st : St × Nat} {w : Cell} {t : T} {r : St × Nat}, Ok N st.1 → Inv s0.mem st.1.mem → ValidWord N s0.lssa s0.mem w →
      Reads s0.mem w t → bindAll C tab n st w = some r → foldB C tab (T.vars t) st = some r)
    (hok0 : Ok N s0) {k : Nat} : ∀ {a : Adr} {g : Nat → T} {st r : St × Nat}, Ok N st.1 → Inv s0.mem st.1.mem →
      (∀ i, i < k → ValidWord N s0.lssa s0.mem (s0.mem (a + i)) ∧ isTerm (s0.mem (a + i)) = true) →
      (∀ i, i < k → Reads s0.mem (s0.mem (a + i)) (g i)) → bindArgs (bindAll C tab n) k st a = some r →
      foldB C tab (((List.range k).map g).flatMap fun t => T.vars t) st = some r := by
  induction k with
  | zero => intro a g st r _ _ _ _ h; simp [bindArgs] at h
  | succ k ihk =>
    intro a g st r hok hi hv hg h
    have hv0 := hv 0 (by omega)
    have hg0 := hg 0 (by omega)
    rw [Nat.add_zero] at hv0 hg0
    cases k with
    | zero =>
      simp only [bindArgs] at h
      rw [word_eq hi hv0.2] at h
      have := ih hok hi hv0.1 hg0 h
      simpa using this
    | succ k =>
      simp only [bindArgs] at h
      rw [word_eq hi hv0.2] at h
      rw [List.range_succ_eq_map, List.map_cons, List.map_map, List.flatMap_cons, foldB_append]
      cases h1 : bindAll C tab n st (s0.mem a) with
      | none => rw [h1] at h; simp at h
      | some st' =>
        rw [h1] at h
        simp only at h
        have e1 := ih hok hi hv0.1 hg0 h1
        rw [e1]
        have hb := foldB_inv (fun b hb => vars_valid hok0 hg0 hv0.1 b hb) hok hi e1
        refine ihk (g := g ∘ Nat.succ) hb.1 hb.2 ?_ ?_ h
        · intro i hi
          rw [show a + 1 + i = a + (i + 1) by omega]; exact hv (i + 1) (by omega)
        · intro i hi
          rw [show a + 1 + i = a + (i + 1) by omega]; exact hg (i + 1) (by omega)

/-- The traversal binds the variables of the term which are still unbound, from left to right. -/
theorem bindAll_res {s0 : St} (hok0 : Ok N s0) {n : Nat} : ∀ {st : St × Nat} {w : Cell} {t : T} {r : St × Nat}, Ok N st.1 →
    Inv s0.mem st.1.mem → ValidWord N s0.lssa s0.mem w → Reads s0.mem w t → bindAll C tab n st w = some r →
    foldB C tab (T.vars t) st = some r := by
  induction n with
  | zero => intro st w t r _ _ _ _ h; simp [bindAll] at h
  | succ n ih =>
    intro st w t r hok hi hw hr h
    obtain ⟨v, d1, d2, d3, d4⟩ := reads_path hi hr
    obtain ⟨v', b1, b2, -, -⟩ := deref_ok hok0 hw
    rw [d1] at b1; injection b1 with b1; subst b1
    have leaf : ∀ {l}, l = [] → some st = some r → foldB C tab l st = some r := by
      rintro l rfl h; exact h
    simp only [bindAll, d4] at h
    cases d2 with
    | @var a h1 =>
      rw [T.vars]
      rcases hi.var a h1 with e | ⟨p, f, v, e1, e2, e3, e4⟩
      · rw [deref_ref, if_pos e] at h
        simp only at h
        simp only [foldB, if_pos e, h]
      · rw [deref_ref, e1, if_neg (by simp), deref_nonref (by simp)] at h
        simp only [e2, bindArgs, e3] at h
        have hne : ¬ st.1.mem a = .ref a := by rw [e1]; simp
        simp only [foldB, if_neg hne]
        cases n with
        | zero => simp [bindAll] at h
        | succ n =>
          rcases e4 with ⟨z, rfl⟩ | ⟨z, rfl⟩
          · simp only [bindAll, deref_nonref (show ∀ a, Cell.int z ≠ .ref a by simp)] at h; exact h
          · simp only [bindAll, deref_nonref (show ∀ a, Cell.atm z ≠ .ref a by simp)] at h; exact h
    | bound h1 _ => exact absurd (d3 _ rfl) h1
    | atm => rw [deref_nonref (by simp)] at h; exact leaf (by simp [T.vars]) h
    | int => rw [deref_nonref (by simp)] at h; exact leaf (by simp [T.vars]) h
    | flt _ _ => rw [deref_nonref (by simp)] at h; exact leaf (by simp [T.vars]) h
    | nan _ _ => rw [deref_nonref (by simp)] at h; exact leaf (by simp [T.vars]) h
    | @lst a t1 t2 r1 r2 =>
      rw [deref_nonref (by simp)] at h
      simp only at h
      obtain ⟨v1, v2, v3, v4⟩ := b2
      have w1 := (hok0.wf a (by omega) v3).1
      have w2 := (hok0.wf (a + 1) (by omega) v4).1
      rw [word_eq hi v3] at h
      rw [T.vars, foldB_append]
      cases h3 : bindAll C tab n st (s0.mem a) with
      | none => rw [h3] at h; simp at h
      | some st' =>
        rw [h3] at h
        simp only at h
        have e1 := ih hok hi w1 r1 h3
        have hb := foldB_inv (fun b hb => vars_valid hok0 r1 w1 b hb) hok hi e1
        rw [word_eq hb.2 v4] at h
        rw [e1]
        exact ih hb.1 hb.2 w2 r2 h
    | @stc a f k g hf hg =>
      rw [deref_nonref (by simp)] at h
      obtain ⟨f', n', c1, c2, c3, c4, c5⟩ := b2
      rw [hf] at c1; injection c1 with c1 c1'; subst c1; subst c1'
      have hk : st.1.mem a = .fn f k := by rw [hi.keep a (by rw [hf]; simp; omega) (by rw [hf]; simp), hf]
      simp only [hk] at h
      rw [T.vars]
      exact bindArgs_res (fun h1 h2 h3 h4 h5 => ih h1 h2 h3 h4 h5) hok0 hok hi
        (fun i hi => ⟨(hok0.wf (a + 1 + i) (by omega) (c5 i hi)).1, c5 i hi⟩) hg h

theorem Numbering.cons {X : Nat → Prop} {k n next : Nat} {ns : List Nat} (h1 : k ≤ n) (h2 : ¬ X n)
    (h3 : ∀ j, k ≤ j → j < n → X j) (h : Numbering X (n + 1) ns next) : Numbering X k (n :: ns) next := by
  have hlt : n < next := by
    rcases h.last with ⟨_, e⟩ | ⟨x, e1, e2⟩
    · omega
    · have := ((h.mem x).mp e1).1; omega
  refine ⟨List.pairwise_cons.mpr ⟨fun x hx => by have := ((h.mem x).mp hx).1; omega, h.sorted⟩, fun x => ?_, ?_⟩
  · rw [List.mem_cons, h.mem]
    constructor
    · rintro (rfl | ⟨a, b, c⟩)
      · exact ⟨h1, hlt, h2⟩
      · exact ⟨by omega, b, c⟩
    · rintro ⟨a, b, c⟩
      by_cases e : x = n
      · exact .inl e
      · by_cases e' : x < n
        · exact absurd (h3 x a e') c
        · exact .inr ⟨by omega, b, c⟩
  · rcases h.last with ⟨e1, e⟩ | ⟨x, e1, e2⟩
    · exact .inr ⟨n, by simp, e⟩
    · exact .inr ⟨x, by simp [e1], e2⟩

theorem left_sub {D L : List Nat} {a : Nat} (h : a ∈ left D L) : a ∈ L := firsts_mem.mp (List.mem_filter.mp h).1

/-- The variables of the list are numbered in turn. -/
theorem foldB_res {m : Heap.Mem} {X : Nat → Prop} (hX : ∀ i, (i < tab.nb ∧ tab.dico i ≠ 0) ↔ X i) {L : List Nat} :
    ∀ {D : List Nat} {st r : St × Nat}, (∀ a ∈ L, a < N ∧ m a = .ref a) → Ok N st.1 → Inv m st.1.mem →
      (∀ a ∈ L, st.1.mem a = .ref a ↔ a ∉ D) → foldB C tab L st = some r →
      ∃ ns, ns.length = (left D L).length ∧ Numbering X st.2 ns r.2 ∧
        Step N st.1 (fun ρ => ∀ p ∈ (left D L).zip ns, ρ p.1 = value C p.2) r.1 := by
  induction L with
  | nil =>
    intro D st r _ h1 _ _ h
    simp only [foldB, Option.some.injEq] at h
    subst h
    refine ⟨[], by simp [left, firsts], ⟨List.Pairwise.nil, fun n => ?_, .inl ⟨rfl, rfl⟩⟩, Step.refl h1 (by simp)⟩
    simp; intro a b; omega
  | cons a L ih =>
    intro D st r hL hok hi hD h
    simp only [foldB] at h
    have ha := hL a (by simp)
    have hL' : ∀ a ∈ L, a < N ∧ m a = .ref a := fun b hb => hL b (by simp [hb])
    have hDa := hD a (by simp)
    by_cases hu : st.1.mem a = .ref a
    · rw [if_pos hu] at h
      have haD := hDa.mp hu
      cases hb : bindVar C tab st.1 st.2 a with
      | none => rw [hb] at h; simp at h
      | some st' =>
        rw [hb] at h
        obtain ⟨b1, b2, b3, b4, b5⟩ := bindVar_res hok ha.1 hu hb
        have hi' := hi.bind hok ha.1 ha.2 hu hb
        obtain ⟨ns, l1, l2, l3⟩ := ih (D := D ++ [a]) hL' b2.ok hi' (fun b hbL => by
          have hDb := hD b (by simp [hbL])
          by_cases e : b = a
          · subst e
            rw [b5, set_same]; simp
          · have hb' := (hL' b hbL).2
            have n2 : b ≠ st.1.h := by
              rintro rfl; rcases hi.var _ hb' with h | ⟨_, _, _, h, _⟩ <;> (rw [b3] at h; simp at h)
            have n3 : b ≠ st.1.h + 1 := by
              rintro rfl; rcases hi.var _ hb' with h | ⟨_, _, _, h, _⟩ <;> (rw [b4] at h; simp at h)
            rw [b5, set_other _ _ _ _ e, set_other _ _ _ _ n3, set_other _ _ _ _ n2, hDb]
            simp [e]) h
        obtain ⟨k1, k2, k3⟩ := skip_res (t := tab) (k := st.2)
        rw [left_out haD]
        refine ⟨skip tab st.2 :: ns, by simp [l1], Numbering.cons k1 (by rw [← hX]; exact k2)
          (fun j h1 h2 => (hX j).mp (k3 j h1 h2)) (by rw [← b1]; exact l2), ?_⟩
        refine b2.trans l3 ?_ ?_ ?_
        · intro ρ _ _ hp hq p hpm
          rw [List.zip_cons_cons, List.mem_cons] at hpm
          rcases hpm with rfl | hpm
          · exact hp
          · exact hq p hpm
        · intro ρ _ hR
          exact hR (a, skip tab st.2) (by simp)
        · intro ρ ρ' _ hag hR p hpm
          have hpL := left_sub (List.of_mem_zip hpm).1
          rw [hag p.1 ?_]
          · exact hR p (by rw [List.zip_cons_cons]; exact List.mem_cons_of_mem _ hpm)
          · rcases hi.var p.1 (hL' _ hpL).2 with h | ⟨_, _, _, h, _⟩ <;> (rw [h]; rfl)
    · rw [if_neg hu] at h
      have haD : a ∈ D := by
        by_cases hx : a ∈ D
        · exact hx
        · exact absurd (hDa.mpr hx) hu
      rw [left_in haD]
      exact ih hL' hok hi (fun b hb => hD b (by simp [hb])) h

end Gp.NumVars
