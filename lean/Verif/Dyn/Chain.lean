import Verif.Dyn.Model
/-
Lemmas about the doubly linked chains of clauses.
-/
namespace Gp.Dyn

/-- What is in a clause except its links. -/
structure Data where
  dyn : Nat
  arg : Arg
  no : Int
  file : Int
  stamp : Option Nat
  nextErased : EPtr

def Cl.data (C : Cl) : Data := ⟨C.dyn, C.arg, C.no, C.file, C.stamp, C.nextErased⟩

/-- The data of the clauses in memory. -/
def dt (m : Mem) (c : Nat) : Option Data := (m c).map Cl.data

/-- The links of the clauses in memory. -/
def ce (m : Mem) (seq : Bool) (c : Nat) : Option Cell := (m c).map (getCell · seq)

theorem dt_some {m : Mem} {c : Nat} {X : Data} (h : dt m c = some X) : ∃ C, m c = some C ∧ C.data = X := by
  unfold dt at h
  cases hm : m c with
  | none => rw [hm] at h; simp at h
  | some C => rw [hm] at h; exact ⟨C, rfl, by simpa using h⟩

theorem dt_of {m : Mem} {c : Nat} {C : Cl} (h : m c = some C) : dt m c = some C.data := by simp [dt, h]

theorem ce_of {m : Mem} {c : Nat} {C : Cl} (s : Bool) (h : m c = some C) : ce m s c = some (getCell C s) := by simp [ce, h]

theorem data_putCell (C : Cl) (s : Bool) (x : Cell) : (putCell C s x).data = C.data := by
  cases s <;> simp [putCell, Cl.data]

theorem getCell_putCell (C : Cl) (s : Bool) (x : Cell) : getCell (putCell C s x) s = x := by
  cases s <;> simp [putCell, getCell]

theorem getCell_putCell_ne (C : Cl) (s : Bool) (x : Cell) : getCell (putCell C s x) (!s) = getCell C (!s) := by
  cases s <;> simp [putCell, getCell]

/-- What `updCell` does. -/
theorem updCell_spec (m : Mem) (s : Bool) (c : Nat) (f : Cell → Cell) (x : Cell) (h : ce m s c = some x) :
    ∃ m', updCell m s c f = some m' ∧ dt m' = dt m ∧ ce m' (!s) = ce m (!s) ∧ ce m' s c = some (f x)
      ∧ ∀ b, b ≠ c → ce m' s b = ce m s b := by
  unfold ce at h
  cases hm : m c with
  | none => rw [hm] at h; simp at h
  | some C =>
    rw [hm] at h
    have hx : getCell C s = x := by simpa using h
    refine ⟨setCl m c (some (putCell C s (f (getCell C s)))), by simp [updCell, hm], ?_, ?_, ?_, ?_⟩
    · funext b
      by_cases hb : b = c
      · subst hb; simp [dt, setCl, hm, data_putCell]
      · simp [dt, setCl, hb]
    · funext b
      by_cases hb : b = c
      · subst hb; simp [ce, setCl, hm, getCell_putCell_ne]
      · simp [ce, setCl, hb]
    · simp [ce, setCl, getCell_putCell, hx]
    · intro b hb
      simp [ce, setCl, hb]

/-- A segment of a chain: `p` is the cell before, `nx` the cell after. -/
def Seg (f : Nat → Option Cell) : Option Nat → List Nat → Option Nat → Prop
  | _, [], _ => True
  | p, c :: l, nx => f c = some ⟨l.head?.or nx, p⟩ ∧ Seg f (some c) l nx

theorem Seg.congr {f g : Nat → Option Cell} : ∀ {l : List Nat} {p nx : Option Nat}, Seg f p l nx → (∀ c ∈ l, g c = f c) →
    Seg g p l nx
  | [], _, _, _, _ => trivial
  | c :: l, p, nx, h, hg => ⟨(hg c (by simp)).trans h.1, Seg.congr h.2 (fun x hx => hg x (by simp [hx]))⟩

theorem Seg.append {f : Nat → Option Cell} : ∀ {a b : List Nat} {p nx : Option Nat},
    Seg f p (a ++ b) nx ↔ Seg f p a (b.head?.or nx) ∧ Seg f (a.getLast?.or p) b nx
  | [], b, p, nx => by simp [Seg]
  | [x], b, p, nx => by simp [Seg]
  | x :: y :: a, b, p, nx => by
    have ih := Seg.append (f := f) (a := y :: a) (b := b) (p := some x) (nx := nx)
    have hl : ∀ q : Option Nat, (y :: a).getLast?.or q = (x :: y :: a).getLast?.or p := by
      intro q
      rw [List.getLast?_cons_cons]
      cases h : (y :: a).getLast? with
      | none => simp at h
      | some z => simp
    rw [List.cons_append, Seg, ih, hl (some x)]
    simp only [Seg, List.cons_append, List.head?_cons, Option.some_or, and_assoc]

/-- The header and the links make a chain of the clauses `l`. -/
def Chain (f : Nat → Option Cell) (h : Hdr) (l : List Nat) : Prop :=
  h.first = l.head? ∧ h.last = l.getLast? ∧ Seg f none l none

theorem Chain.congr {f g : Nat → Option Cell} {h : Hdr} {l : List Nat} (hc : Chain f h l) (hg : ∀ c ∈ l, g c = f c) :
    Chain g h l := ⟨hc.1, hc.2.1, hc.2.2.congr hg⟩

theorem Seg.cell {f : Nat → Option Cell} : ∀ {l : List Nat} {p nx : Option Nat}, Seg f p l nx → ∀ c ∈ l, ∃ x, f c = some x
  | c :: l, p, nx, h, b, hb => by
    rcases List.mem_cons.1 hb with rfl | hb
    · exact ⟨_, h.1⟩
    · exact h.2.cell b hb

/-- The next clause of a chain. -/
theorem Chain.next {f : Nat → Option Cell} {h : Hdr} {a b : List Nat} {c : Nat} (hc : Chain f h (a ++ c :: b)) :
    f c = some ⟨b.head?, a.getLast?⟩ := by
  have := (Seg.append.1 hc.2.2).2.1
  simpa using this

/-- `Add_To_2Chain` adds the clause at one end of the chain. -/
theorem add2_spec (m : Mem) (h : Hdr) (c : Nat) (s front : Bool) (l : List Nat) (hc : Chain (ce m s) h l) (hn : c ∉ l)
    (hx : ∃ x, ce m s c = some x) :
    ∃ m' h', add2 m h c s front = some (m', h') ∧ dt m' = dt m ∧ ce m' (!s) = ce m (!s)
      ∧ (∀ b, b ≠ c → b ∉ l → ce m' s b = ce m s b) ∧ Chain (ce m' s) h' (if front then c :: l else l ++ [c]) := by
  obtain ⟨x, hx⟩ := hx
  obtain ⟨h1, h2, h3⟩ := hc
  unfold add2
  cases l with
  | nil =>
    simp only [List.head?_nil] at h1
    obtain ⟨m', e1, e2, e3, e4, e5⟩ := updCell_spec m s c (fun _ => ⟨none, none⟩) x hx
    refine ⟨m', ⟨some c, some c⟩, by simp only [h1, e1], e2, e3, fun b hb _ => e5 b hb, ?_⟩
    cases front <;> simp [Chain, Seg, e4]
  | cons f l =>
    simp only [List.head?_cons] at h1
    simp only [h1]
    cases front with
    | true =>
      simp only [if_true]
      obtain ⟨m1, e1, e2, e3, e4, e5⟩ := updCell_spec m s c (fun _ => ⟨some f, none⟩) x hx
      have hfc : f ≠ c := by simp at hn; exact fun e => hn.1 e.symm
      have hf : ce m1 s f = some ⟨l.head?.or none, none⟩ := (e5 f hfc).trans h3.1
      obtain ⟨m2, f1, f2, f3, f4, f5⟩ := updCell_spec m1 s f (fun x => { x with prev := some c }) _ hf
      refine ⟨m2, { h with first := some c }, by simp only [e1, f1], f2.trans e2, f3.trans e3, ?_, ?_⟩
      · intro b hb hb2
        rw [f5 b (by simp at hb2; exact hb2.1), e5 b hb]
      · refine ⟨rfl, ?_, ?_⟩
        · simp only [h2, List.getLast?_cons_cons]
        · refine ⟨?_, ?_, ?_⟩
          · rw [f5 c (Ne.symm hfc), e4]; simp
          · rw [f4]
          · refine h3.2.congr ?_
            intro y hy
            have hyc : y ≠ c := by rintro rfl; exact hn (by simp [hy])
            by_cases hyf : y = f
            · subst hyf
              -- the head occurs again: its cell is the same
              have hh := h3.2
              obtain ⟨a, b, rfl⟩ := List.append_of_mem hy
              have h4 := (Seg.append.1 hh).2.1
              have h5 := h3.1
              rw [h4] at h5
              simp at h5
            · rw [f5 y hyf, e5 y hyc]
    | false =>
      simp only [Bool.false_eq_true, if_false]
      obtain ⟨l', e, hl'⟩ : ∃ l' e, f :: l = l' ++ [e] := by
        refine ⟨(f :: l).dropLast, (f :: l).getLast (by simp), ?_⟩
        exact (List.dropLast_concat_getLast (by simp)).symm
      rw [hl'] at h2 h3 hn ⊢
      simp only [List.getLast?_concat] at h2
      have h4 := Seg.append.1 h3
      have hec : e ≠ c := by rintro rfl; exact hn (by simp)
      obtain ⟨m1, e1, e2, e3, e4, e5⟩ := updCell_spec m s e (fun x => { x with next := some c }) _ h4.2.1
      obtain ⟨m2, f1, f2, f3, f4, f5⟩ := updCell_spec m1 s c (fun _ => ⟨none, some e⟩) x (by rw [e5 c (Ne.symm hec)]; exact hx)
      refine ⟨m2, { h with last := some c }, by simp only [h1, h2, e1, f1], f2.trans e2, f3.trans e3, ?_, ?_⟩
      · intro b hb hb2
        rw [f5 b hb, e5 b (by simp at hb2; exact hb2.2)]
      · refine ⟨?_, by simp, ?_⟩
        · rw [← hl']
          exact h1
        · rw [List.append_assoc]
          refine Seg.append.2 ⟨?_, ?_, ?_, trivial⟩
          · have h5 := h4.1
            simp only [List.head?_cons, Option.some_or, List.cons_append] at h5 ⊢
            refine h5.congr ?_
            intro y hy
            have hyc : y ≠ c := by rintro rfl; exact hn (by simp [hy])
            by_cases hye : y = e
            · subst hye
              obtain ⟨a, b, rfl⟩ := List.append_of_mem hy
              have h6 := (Seg.append.1 h5).2.1
              have h7 := h4.2.1
              rw [h6] at h7
              simp at h7
            · rw [f5 y hyc, e5 y hye]
          · rw [f5 e hec, e4]; simp
          · rw [f4]; simp

/-- `Remove_From_2Chain` removes the clause from the chain. -/
theorem rem2_spec (m : Mem) (h : Hdr) (c : Nat) (s : Bool) (a b : List Nat) (hc : Chain (ce m s) h (a ++ c :: b))
    (hnd : (a ++ c :: b).Nodup) :
    ∃ m' h', rem2 m h c s = some (m', h') ∧ dt m' = dt m ∧ ce m' (!s) = ce m (!s)
      ∧ (∀ x, x ∉ a → x ∉ b → ce m' s x = ce m s x) ∧ Chain (ce m' s) h' (a ++ b) := by
  have hcell := hc.next
  obtain ⟨h1, h2, h3⟩ := hc
  have h4 := Seg.append.1 h3
  have h5 := h4.2.2
  have h6 := h4.1
  simp only [List.head?_cons, Option.some_or] at h6
  unfold ce at hcell
  cases hm : m c with
  | none => rw [hm] at hcell; simp at hcell
  | some C =>
    rw [hm] at hcell
    have hcell : getCell C s = ⟨b.head?, a.getLast?⟩ := by simpa using hcell
    have hca : c ∉ a ∧ c ∉ b ∧ (∀ x ∈ a, x ∉ b) := by
      simp only [List.nodup_append, List.nodup_cons, List.mem_cons] at hnd
      refine ⟨fun hh => hnd.2.2 c hh c (Or.inl rfl) rfl, hnd.2.1.1, fun x hx hx2 => hnd.2.2 x hx x (Or.inr hx2) rfl⟩
    have hna : a.Nodup := (List.nodup_append.1 hnd).1
    have hnb : b.Nodup := (List.nodup_cons.1 (List.nodup_append.1 hnd).2.1).2
    -- the previous cell
    have hP : ∃ m1 h1', remPrev m h ⟨b.head?, a.getLast?⟩ s = some (m1, h1') ∧ dt m1 = dt m ∧ ce m1 (!s) = ce m (!s)
        ∧ (∀ x, x ∉ a → ce m1 s x = ce m s x) ∧ Seg (ce m1 s) none a b.head? ∧ h1'.first = (a ++ b).head? ∧ h1'.last = h.last := by
      unfold remPrev
      rcases List.eq_nil_or_concat a with rfl | ⟨a', e, rfl⟩
      · exact ⟨m, { h with first := b.head? }, by simp, rfl, rfl, fun _ _ => rfl, trivial, by simp, rfl⟩
      · rw [List.concat_eq_append] at *
        simp only [List.getLast?_concat]
        have h7 := Seg.append.1 h6
        have hea : e ∉ a' := by
          intro hh
          have := (List.nodup_append.1 hna).2.2 e hh e (by simp)
          exact this rfl
        obtain ⟨m1, e1, e2, e3, e4, e5⟩ := updCell_spec m s e (fun y => { y with next := b.head? }) _ h7.2.1
        refine ⟨m1, h, by simp only [e1], e2, e3, ?_, ?_, ?_, rfl⟩
        · intro x hx
          exact e5 x (by simp at hx; exact hx.2)
        · refine Seg.append.2 ⟨?_, ?_, trivial⟩
          · simp only [List.head?_cons, Option.some_or]
            have h8 := h7.1
            simp only [List.head?_cons, Option.some_or] at h8
            refine h8.congr (fun y hy => e5 y ?_)
            rintro rfl
            exact hea hy
          · rw [e4]; simp
        · rw [h1]; simp [List.head?_append]
    obtain ⟨m1, h1', p1, p2, p3, p4, p5, p6, p7⟩ := hP
    -- the next cell
    have hN : ∃ m2 h2', remNext m1 h1' ⟨b.head?, a.getLast?⟩ s = some (m2, h2') ∧ dt m2 = dt m1 ∧ ce m2 (!s) = ce m1 (!s)
        ∧ (∀ x, x ∉ b → ce m2 s x = ce m1 s x) ∧ Seg (ce m2 s) a.getLast? b none ∧ h2'.first = h1'.first
        ∧ h2'.last = (a ++ b).getLast? := by
      unfold remNext
      cases b with
      | nil =>
        refine ⟨m1, { h1' with last := a.getLast? }, by simp, rfl, rfl, fun _ _ => rfl, trivial, rfl, by simp⟩
      | cons y b =>
        simp only [List.head?_cons]
        have hya : y ∉ a := fun hh => hca.2.2 y hh (by simp)
        obtain ⟨m2, e1, e2, e3, e4, e5⟩ := updCell_spec m1 s y (fun z => { z with prev := a.getLast? }) _
          ((p4 y hya).trans h5.1)
        refine ⟨m2, h1', by simp only [e1], e2, e3, ?_, ⟨?_, ?_⟩, rfl, ?_⟩
        · intro x hx
          exact e5 x (by simp at hx; exact hx.1)
        · rw [e4]
        · refine h5.2.congr (fun z hz => ?_)
          have hzy : z ≠ y := by rintro rfl; exact (List.nodup_cons.1 hnb).1 hz
          rw [e5 z hzy, p4 z (fun hh => hca.2.2 z hh (by simp [hz]))]
        · rw [p7, h2, List.getLast?_append, List.getLast?_append, List.getLast?_cons_cons]
    obtain ⟨m2, h2', q1, q2, q3, q4, q5, q6, q7⟩ := hN
    refine ⟨m2, h2', by simp only [rem2, hm, hcell, p1, q1], q2.trans p2, q3.trans p3, ?_, q6.trans p6, q7, ?_⟩
    · intro x hx hx2
      rw [q4 x hx2, p4 x hx]
    · refine Seg.append.2 ⟨?_, ?_⟩
      · simp only [Option.or_none]
        exact p5.congr (fun x hx => q4 x (hca.2.2 x hx))
      · simp only [Option.or_none]
        exact q5

end Gp.Dyn
