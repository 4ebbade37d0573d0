import Verif.Dyn.Core
/-
Lemmas about the scans of the clauses.
-/
namespace Gp.Dyn

/-- A pointer of a scan: the first clause of the chain beyond the position `P`; or there is no clause to visit beyond it. -/
def PtrOk (f : Nat → Option Data) (A : List Nat) (P stop : Int) : Option Nat → Prop
  | some x => (A.filter (fun c => decide (P < noOf f c))).head? = some x
  | none => ∀ x ∈ A, P < noOf f x → stop ≤ noOf f x

/-- A clause erased at the time `o` is not visible for a scan of time `st`. -/
def del (st : Nat) : Option Nat → Bool
  | none => false
  | some e => e ≤ st

theorem lduvDeleted_eq (sc : Scan) (C : Cl) : lduvDeleted sc C = del sc.stamp C.stamp := by
  unfold lduvDeleted del
  cases C.stamp <;> rfl

/-- The clauses to visit beyond the position `P`. -/
def remain (f : Nat → Option Data) (L : List Nat) (P stop : Int) (st : Nat) : List Nat :=
  L.filter (fun c => decide (P < noOf f c ∧ noOf f c < stop) && !(del st (stampOf f c)))

theorem PtrOk.split {f A P stop x} (hord : A.Pairwise (fun a b => noOf f a < noOf f b)) (h : PtrOk f A P stop (some x)) :
    ∃ a b, A = a ++ x :: b ∧ (∀ y ∈ a, noOf f y ≤ P) ∧ P < noOf f x ∧ ∀ y ∈ b, noOf f x < noOf f y := by
  simp only [PtrOk] at h
  have hx : x ∈ A.filter (fun c => decide (P < noOf f c)) := List.mem_of_head? h
  simp only [List.mem_filter, decide_eq_true_eq] at hx
  obtain ⟨a, b, rfl⟩ := List.append_of_mem hx.1
  have hp := List.pairwise_append.1 hord
  refine ⟨a, b, rfl, ?_, hx.2, (List.pairwise_cons.1 hp.2.1).1⟩
  intro y hy
  apply Classical.byContradiction
  intro hn
  have hlt := hp.2.2 y hy x (by simp)
  rw [List.filter_append] at h
  have hy' : y ∈ a.filter (fun c => decide (P < noOf f c)) := by
    simp only [List.mem_filter, decide_eq_true_eq]; exact ⟨hy, by omega⟩
  cases hf : a.filter (fun c => decide (P < noOf f c)) with
  | nil => rw [hf] at hy'; simp at hy'
  | cons z zs =>
    rw [hf] at h
    simp only [List.cons_append, List.head?_cons, Option.some.injEq] at h
    have hz : z ∈ a.filter (fun c => decide (P < noOf f c)) := by rw [hf]; simp
    simp only [List.mem_filter] at hz
    have := hp.2.2 z hz.1 x (by simp)
    rw [h] at this
    omega

theorem PtrOk.of_split {f} {a b : List Nat} {Q stop : Int} (ha : ∀ y ∈ a, noOf f y ≤ Q) (hb : ∀ y ∈ b, Q < noOf f y) :
    PtrOk f (a ++ b) Q stop b.head? := by
  have h1 : (a ++ b).filter (fun c => decide (Q < noOf f c)) = b := by
    rw [List.filter_append]
    have h2 : a.filter (fun c => decide (Q < noOf f c)) = [] := by
      rw [List.filter_eq_nil_iff]; intro y hy; have := ha y hy; simp; omega
    have h3 : b.filter (fun c => decide (Q < noOf f c)) = b := by
      rw [List.filter_eq_self]; intro y hy; simpa using hb y hy
    rw [h2, h3]; rfl
  cases hh : b.head? with
  | none =>
    intro x hx hxQ
    have : b = [] := by simpa using hh
    subst this
    have := ha x (by simpa using hx)
    omega
  | some y => simp only [PtrOk]; rw [h1, hh]

theorem PtrOk.mono {f} {A : List Nat} {P Q stop : Int} {ptr : Option Nat} (hord : A.Pairwise (fun a b => noOf f a < noOf f b))
    (h : PtrOk f A P stop ptr) (hPQ : P ≤ Q) (hv : ∀ v, ptr = some v → Q < noOf f v) : PtrOk f A Q stop ptr := by
  cases ptr with
  | none => intro x hx hxQ; exact h x hx (by omega)
  | some v =>
    obtain ⟨a, b, rfl, h1, h2, h3⟩ := h.split hord
    have := hv v rfl
    have h4 := PtrOk.of_split (f := f) (a := a) (b := v :: b) (Q := Q) (stop := stop) (fun y hy => by have := h1 y hy; omega)
      (fun y hy => by
        rcases List.mem_cons.1 hy with rfl | hy
        · exact this
        · have := h3 y hy; omega)
    simpa using h4

/-- The two chains of a scan and their merge. -/
structure Ctx (m : Mem) (q : Bool) (A B L : List Nat) : Prop where
  segA : Seg (ce m q) none A none
  segB : Seg (ce m false) none B none
  ord : L.Pairwise (fun a b => noOf (dt m) a < noOf (dt m) b)
  ordA : A.Pairwise (fun a b => noOf (dt m) a < noOf (dt m) b)
  ordB : B.Pairwise (fun a b => noOf (dt m) a < noOf (dt m) b)
  mem : ∀ x, x ∈ L ↔ x ∈ A ∨ x ∈ B
  disj : ∀ x ∈ A, x ∉ B

theorem pairwise_ne {f : Nat → Option Data} {L : List Nat} (h : L.Pairwise (fun a b => noOf f a < noOf f b)) {x y : Nat} (hx : x ∈ L)
    (hy : y ∈ L) (hne : x ≠ y) : noOf f x ≠ noOf f y := by
  obtain ⟨a, b, rfl⟩ := List.append_of_mem hx
  have hp := List.pairwise_append.1 h
  simp only [List.mem_append, List.mem_cons] at hy
  rcases hy with hy | rfl | hy
  · have := hp.2.2 y hy x (by simp); omega
  · exact absurd rfl hne
  · have := (List.pairwise_cons.1 hp.2.1).1 y hy; omega

theorem ce_seg {m : Mem} {q : Bool} {a b : List Nat} {x : Nat} (h : Seg (ce m q) none (a ++ x :: b) none) :
    ∃ C, m x = some C ∧ chainNext C q = b.head? := by
  have := (Seg.append.1 h).2.1
  unfold ce at this
  cases hm : m x with
  | none => rw [hm] at this; simp at this
  | some C =>
    rw [hm] at this
    refine ⟨C, rfl, ?_⟩
    have : getCell C q = ⟨b.head?.or none, a.getLast?.or none⟩ := by simpa using this
    simp [chainNext, this]

/-- The next clause of the two chains. -/
theorem pick_spec {m q A B L} (K : Ctx m q A B L) (sc : Scan) (hq : sc.isSeq = q) (P : Int) (hA : PtrOk (dt m) A P sc.stop sc.xxx)
    (hB : PtrOk (dt m) B P sc.stop sc.var) :
    (pick m sc = some none ∧ ∀ y ∈ L, P < noOf (dt m) y → sc.stop ≤ noOf (dt m) y) ∨
    ∃ C x sc', pick m sc = some (some (C, x, sc')) ∧ m x = some C ∧ x ∈ L ∧ P < noOf (dt m) x
      ∧ (∀ y ∈ L, P < noOf (dt m) y → sc.stop ≤ noOf (dt m) y ∨ noOf (dt m) x ≤ noOf (dt m) y)
      ∧ sc' = { sc with xxx := sc'.xxx, var := sc'.var }
      ∧ PtrOk (dt m) A (noOf (dt m) x) sc.stop sc'.xxx ∧ PtrOk (dt m) B (noOf (dt m) x) sc.stop sc'.var := by
  subst hq
  have min : ∀ (A : List Nat) a b x, A = a ++ x :: b → (∀ y ∈ a, noOf (dt m) y ≤ P) → (∀ y ∈ b, noOf (dt m) x < noOf (dt m) y) →
      ∀ y ∈ A, P < noOf (dt m) y → noOf (dt m) x ≤ noOf (dt m) y := by
    intro A a b x hA h1 h2 y hy hP
    subst hA
    simp only [List.mem_append, List.mem_cons] at hy
    rcases hy with hy | rfl | hy
    · have := h1 y hy; omega
    · omega
    · have := h2 y hy; omega
  have adv : ∀ (A : List Nat) a b x, A = a ++ x :: b → (∀ y ∈ a, noOf (dt m) y ≤ P) → P < noOf (dt m) x →
      (∀ y ∈ b, noOf (dt m) x < noOf (dt m) y) → PtrOk (dt m) A (noOf (dt m) x) sc.stop b.head? := by
    intro A a b x hA h1 h2 h3
    subst hA
    have := PtrOk.of_split (f := dt m) (a := a ++ [x]) (b := b) (Q := noOf (dt m) x) (stop := sc.stop)
      (fun y hy => by
        simp only [List.mem_append, List.mem_singleton] at hy
        rcases hy with hy | rfl
        · have := h1 y hy; omega
        · omega) h3
    simpa using this
  unfold pick
  cases hx : sc.xxx with
  | none =>
    rw [hx] at hA
    cases hv : sc.var with
    | none =>
      rw [hv] at hB
      left
      refine ⟨rfl, fun y hy hP => ?_⟩
      rcases (K.mem y).1 hy with h | h
      · exact hA y h hP
      · exact hB y h hP
    | some v =>
      rw [hv] at hB
      right
      obtain ⟨a, b, hab, h1, h2, h3⟩ := hB.split K.ordB
      obtain ⟨V, hV, hn⟩ := ce_seg (by rw [← hab]; exact K.segB)
      refine ⟨V, v, { sc with xxx := none, var := chainNext V false }, ?_, hV, (K.mem v).2 (Or.inr (by rw [hab]; simp)), h2, ?_, rfl, ?_, ?_⟩
      · simp only [hV]
      · intro y hy hP
        rcases (K.mem y).1 hy with h | h
        · left; exact hA y h hP
        · right; exact min B a b v hab h1 h3 y h hP
      · exact hA.mono K.ordA (by omega) (by simp)
      · simp only [hn]; exact adv B a b v hab h1 h2 h3
  | some x =>
    rw [hx] at hA
    obtain ⟨a, b, hab, h1, h2, h3⟩ := hA.split K.ordA
    obtain ⟨X, hX, hn⟩ := ce_seg (by rw [← hab]; exact K.segA)
    have hxL : x ∈ L := (K.mem x).2 (Or.inl (by rw [hab]; simp))
    right
    cases hv : sc.var with
    | none =>
      rw [hv] at hB
      refine ⟨X, x, { sc with xxx := chainNext X sc.isSeq, var := none }, ?_, hX, hxL, h2, ?_, rfl, ?_, ?_⟩
      · simp only [hX]
      · intro y hy hP
        rcases (K.mem y).1 hy with h | h
        · right; exact min A a b x hab h1 h3 y h hP
        · left; exact hB y h hP
      · simp only [hn]; exact adv A a b x hab h1 h2 h3
      · exact hB.mono K.ordB (by omega) (by simp)
    | some v =>
      rw [hv] at hB
      obtain ⟨a', b', hab', h1', h2', h3'⟩ := hB.split K.ordB
      obtain ⟨V, hV, hn'⟩ := ce_seg (by rw [← hab']; exact K.segB)
      have hvL : v ∈ L := (K.mem v).2 (Or.inr (by rw [hab']; simp))
      have hne : x ≠ v := by
        rintro rfl
        exact K.disj x (by rw [hab]; simp) (by rw [hab']; simp)
      have hno := pairwise_ne K.ord hxL hvL hne
      have e1 : noOf (dt m) x = X.no := noOf_eq (dt_of hX)
      have e2 : noOf (dt m) v = V.no := noOf_eq (dt_of hV)
      simp only [hX, hV]
      by_cases hle : X.no ≤ V.no
      · rw [if_pos hle]
        refine ⟨X, x, _, rfl, hX, hxL, h2, ?_, rfl, ?_, ?_⟩
        · intro y hy hP
          right
          rcases (K.mem y).1 hy with h | h
          · exact min A a b x hab h1 h3 y h hP
          · have := min B a' b' v hab' h1' h3' y h hP; omega
        · simp only [hn]; exact adv A a b x hab h1 h2 h3
        · simp only [hv]
          exact hB.mono K.ordB (by omega) (fun w hw => by cases hw; omega)
      · rw [if_neg hle]
        refine ⟨V, v, _, rfl, hV, hvL, h2', ?_, rfl, ?_, ?_⟩
        · intro y hy hP
          right
          rcases (K.mem y).1 hy with h | h
          · have := min A a b x hab h1 h3 y h hP; omega
          · exact min B a' b' v hab' h1' h3' y h hP
        · simp only [hx]
          exact hA.mono K.ordA (by omega) (fun w hw => by cases hw; omega)
        · simp only [hn']; exact adv B a' b' v hab' h1' h2' h3'

/-- The clauses which remain after the next one. -/
theorem remain_step {f : Nat → Option Data} {L : List Nat} {P stop : Int} {st x : Nat}
    (hord : L.Pairwise (fun a b => noOf f a < noOf f b)) (hx : x ∈ L) (hP : P < noOf f x)
    (hmin : ∀ y ∈ L, P < noOf f y → stop ≤ noOf f y ∨ noOf f x ≤ noOf f y) (hs : noOf f x < stop) :
    remain f L P stop st = (if del st (stampOf f x) then [] else [x]) ++ remain f L (noOf f x) stop st := by
  obtain ⟨a, b, rfl⟩ := List.append_of_mem hx
  have hp := List.pairwise_append.1 hord
  have hb := (List.pairwise_cons.1 hp.2.1).1
  unfold remain
  rw [List.filter_append, List.filter_append, List.filter_cons, List.filter_cons]
  have e1 : a.filter (fun c => decide (P < noOf f c ∧ noOf f c < stop) && !(del st (stampOf f c))) = [] := by
    rw [List.filter_eq_nil_iff]
    intro y hy
    have h1 := hp.2.2 y hy x (by simp)
    have h2 := hmin y (by simp [hy])
    have : ¬ (P < noOf f y ∧ noOf f y < stop) := by omega
    simp [this]
  have e2 : a.filter (fun c => decide (noOf f x < noOf f c ∧ noOf f c < stop) && !(del st (stampOf f c))) = [] := by
    rw [List.filter_eq_nil_iff]
    intro y hy
    have h1 := hp.2.2 y hy x (by simp)
    have : ¬ (noOf f x < noOf f y ∧ noOf f y < stop) := by omega
    simp [this]
  have e3 : b.filter (fun c => decide (P < noOf f c ∧ noOf f c < stop) && !(del st (stampOf f c)))
      = b.filter (fun c => decide (noOf f x < noOf f c ∧ noOf f c < stop) && !(del st (stampOf f c))) := by
    refine List.filter_congr (fun y hy => ?_)
    have h1 := hb y hy
    have : (P < noOf f y ∧ noOf f y < stop) ↔ (noOf f x < noOf f y ∧ noOf f y < stop) := by omega
    simp only [this]
  have e4 : ¬ (noOf f x < noOf f x ∧ noOf f x < stop) := by omega
  have e5 : P < noOf f x ∧ noOf f x < stop := ⟨hP, hs⟩
  rw [e1, e2, e3]
  cases del st (stampOf f x) <;> simp [e4, e5]

theorem remain_nil {f : Nat → Option Data} {L : List Nat} {P stop : Int} {st : Nat}
    (h : ∀ y ∈ L, P < noOf f y → stop ≤ noOf f y) : remain f L P stop st = [] := by
  unfold remain
  rw [List.filter_eq_nil_iff]
  intro y hy
  have h1 := h y hy
  have : ¬ (P < noOf f y ∧ noOf f y < stop) := by omega
  simp [this]

theorem filter_length_lt {f : Nat → Option Data} {L : List Nat} {P : Int} {x : Nat} (hx : x ∈ L) (hP : P < noOf f x) :
    (L.filter (fun c => decide (noOf f x < noOf f c))).length < (L.filter (fun c => decide (P < noOf f c))).length := by
  obtain ⟨a, b, rfl⟩ := List.append_of_mem hx
  have mono : ∀ l : List Nat, (l.filter (fun c => decide (noOf f x < noOf f c))).length
      ≤ (l.filter (fun c => decide (P < noOf f c))).length := by
    intro l
    induction l with
    | nil => simp
    | cons y l ih =>
      simp only [List.filter_cons]
      by_cases h1 : noOf f x < noOf f y
      · have h2 : P < noOf f y := by omega
        simp only [h1, h2, decide_true, if_true, List.length_cons]; omega
      · by_cases h2 : P < noOf f y
        · simp only [h1, h2, decide_false, decide_true, if_true, Bool.false_eq_true, if_false, List.length_cons]; omega
        · simp only [h1, h2, decide_false, Bool.false_eq_true, if_false]; exact ih
  have h1 := mono a
  have h2 := mono b
  simp only [List.filter_append, List.filter_cons, List.length_append]
  simp only [Int.lt_irrefl, hP, decide_false, decide_true, if_true, Bool.false_eq_true, if_false, List.length_cons]
  omega

/-- What `Scan_Dynamic_Pred_Next` does: the next clause of those which remain. -/
theorem scanNext_spec {m q A B L} (K : Ctx m q A B L) : ∀ (fuel skip : Nat) (sc : Scan) (P : Int), sc.isSeq = q →
    PtrOk (dt m) A P sc.stop sc.xxx → PtrOk (dt m) B P sc.stop sc.var →
    (L.filter (fun c => decide (P < noOf (dt m) c))).length < fuel →
    ∃ sc' k, scanNext m fuel skip sc = some (sc', k) ∧
      sc' = { sc with xxx := sc'.xxx, var := sc'.var, clause := (remain (dt m) L P sc.stop sc.stamp).head? } ∧
      ∀ c r, remain (dt m) L P sc.stop sc.stamp = c :: r →
        c ∈ L ∧ PtrOk (dt m) A (noOf (dt m) c) sc.stop sc'.xxx ∧ PtrOk (dt m) B (noOf (dt m) c) sc.stop sc'.var
          ∧ remain (dt m) L (noOf (dt m) c) sc.stop sc.stamp = r := by
  intro fuel
  induction fuel with
  | zero => intro skip sc P _ _ _ h; omega
  | succ fuel ih =>
    intro skip sc P hq hA hB hf
    unfold scanNext
    rcases pick_spec K sc hq P hA hB with ⟨h1, h2⟩ | ⟨C, x, sc', h1, h2, h3, h4, h5, h6, h7, h8⟩
    · rw [h1]
      have hn := remain_nil (f := dt m) (L := L) (st := sc.stamp) h2
      refine ⟨_, _, rfl, by rw [hn]; rfl, ?_⟩
      intro c r hr; rw [hn] at hr; cases hr
    · rw [h1]
      simp only []
      have e1 : noOf (dt m) x = C.no := noOf_eq (dt_of h2)
      by_cases hs : C.no ≥ sc.stop
      · rw [if_pos hs]
        have hn : remain (dt m) L P sc.stop sc.stamp = [] := remain_nil (fun y hy hP => by
          have := h5 y hy hP; omega)
        refine ⟨_, _, rfl, ?_, ?_⟩
        · rw [hn, h6]; rfl
        · intro c r hr; rw [hn] at hr; cases hr
      · rw [if_neg hs]
        have hr := remain_step (st := sc.stamp) K.ord h3 h4 h5 (by omega)
        have est : stampOf (dt m) x = C.stamp := stampOf_eq (dt_of h2)
        rw [est, ← lduvDeleted_eq sc C] at hr
        have hstop : sc'.stop = sc.stop := by rw [h6]
        have hstamp : sc'.stamp = sc.stamp := by rw [h6]
        cases hd : lduvDeleted sc C with
        | true =>
          simp only [if_true]
          rw [hd] at hr
          simp only [if_true, List.nil_append] at hr
          obtain ⟨sc2, k, i1, i2, i3⟩ := ih (skip + 1) sc' (noOf (dt m) x) (by rw [h6]; exact hq) (by rw [hstop]; exact h7)
            (by rw [hstop]; exact h8) (by have := filter_length_lt h3 h4; omega)
          rw [hstop, hstamp, ← hr] at i2 i3
          refine ⟨sc2, k, i1, ?_, i3⟩
          rw [i2, h6]
        | false =>
          simp only [Bool.false_eq_true, if_false]
          rw [hd] at hr
          simp only [Bool.false_eq_true, if_false, List.singleton_append] at hr
          refine ⟨_, _, rfl, ?_, ?_⟩
          · rw [hr, h6]; rfl
          · intro c r hcr
            rw [hr] at hcr
            simp only [List.cons.injEq] at hcr
            obtain ⟨rfl, hcr⟩ := hcr
            exact ⟨h3, h7, h8, hcr⟩

end Gp.Dyn
