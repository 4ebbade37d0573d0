import Verif.THash.Model
import Verif.TypeTest.Props
/-
C69. term_hash/2,4: a value is given exactly when there is no variable down to the depth; it is in the range; it is the same for terms which
are equal down to the depth, whatever their memory.
-/
namespace Gp.THash
open Gp.Heap Gp.Unify Gp.ListBip Gp.TermInl

variable {σ : Type} {H : Hasher σ} {N N' : Adr} {s s' : St}

/-! ## Specification -/

/-- There is a variable in the first `d` levels of the term (in the term if `d` is negative). -/
inductive HasVar : Int → T → Prop
  | var {d v} : HasVar d (.var v)
  | head {d a b} : d ≠ 1 → HasVar (d - 1) a → HasVar d (.lst a b)
  | tail {d a b} : d ≠ 1 → HasVar (d - 1) b → HasVar d (.lst a b)
  | arg {d f l x} : d ≠ 1 → x ∈ l → HasVar (d - 1) x → HasVar d (.app f l)

/-- The terms are equal in their first `d` levels. -/
inductive EqTo : Int → T → T → Prop
  | refl {d t} : EqTo d t t
  | lst1 {a b a' b'} : EqTo 1 (.lst a b) (.lst a' b')
  | app1 {f l l'} : l.length = l'.length → EqTo 1 (.app f l) (.app f l')
  | lst {d a b a' b'} : d ≠ 1 → EqTo (d - 1) a a' → EqTo (d - 1) b b' → EqTo d (.lst a b) (.lst a' b')
  | app {d f l l'} : d ≠ 1 → l.length = l'.length → (∀ (i : Nat) x x', l[i]? = some x → l'[i]? = some x' → EqTo (d - 1) x x') →
      EqTo d (.app f l) (.app f l')

/-- A term without NaN. -/
inductive NoNaN : T → Prop
  | var {v} : NoNaN (.var v)
  | atm {i} : NoNaN (.atm i)
  | int {z} : NoNaN (.int z)
  | flt {k} : NoNaN (.flt k)
  | lst {a b} : NoNaN a → NoNaN b → NoNaN (.lst a b)
  | app {f l} : (∀ x ∈ l, NoNaN x) → NoNaN (.app f l)

/-- The hash of a double depends on its value only (0.0 and -0.0 have the same). -/
def ByValue (H : Hasher σ) (dk : σ → Int → σ) : Prop := ∀ h x, Term.isNaN x = false → H.dbl h x = dk h (Term.fkey x)

/-- What is given to the hash function: the hash of an atom or an arity, an integer, the value of a float. -/
inductive Item
  | w32 (x : Nat)
  | w64 (z : Int)
  | f64 (k : Int)

/-- The traversal of the first `d` levels in prefix order; the constructor of lists leaves no trace except where the term is cut. -/
def items (ah : Nat → Nat) (dot : Nat) : T → Int → List Item
  | .var _, _ => []
  | .atm i, _ => [.w32 (ah i)]
  | .int z, _ => [.w64 z]
  | .flt k, _ => [.f64 k]
  | .nan _, _ => []
  | .lst a b, d => if d = 1 then [.w32 (ah dot), .w32 2] else items ah dot a (d - 1) ++ items ah dot b (d - 1)
  | .app f l, d => [.w32 (ah f), .w32 l.length] ++ if d = 1 then [] else l.flatMap fun t => items ah dot t (d - 1)

/-- The hash of a sequence. -/
def feed (H : Hasher σ) (dk : σ → Int → σ) : σ → List Item → σ
  | h, [] => h
  | h, .w32 x :: l => feed H dk (H.int32 h x) l
  | h, .w64 z :: l => feed H dk (H.int64 h z) l
  | h, .f64 k :: l => feed H dk (dk h k) l

/-! ## The hash on terms -/

mutual
def hashT (H : Hasher σ) (dk : σ → Int → σ) : T → Int → σ → Option σ
  | .var _, _, _ => none
  | .atm i, _, h => some (H.int32 h (H.atomHash i))
  | .int z, _, h => some (H.int64 h z)
  | .flt k, _, h => some (dk h k)
  | .nan _, _, h => some h
  | .lst a b, d, h =>
    if d = 1 then some (hashFn H H.dot 2 h) else
      match hashT H dk a (d - 1) h with
      | none => none
      | some h' => hashT H dk b (d - 1) h'
  | .app f l, d, h => if d = 1 then some (hashFn H f l.length h) else hashL H dk l (d - 1) (hashFn H f l.length h)
def hashL (H : Hasher σ) (dk : σ → Int → σ) : List T → Int → σ → Option σ
  | [], _, h => some h
  | t :: l, d, h =>
    match hashT H dk t d h with
    | none => none
    | some h' => hashL H dk l d h'
end

theorem hashArgs_eq {dk : σ → Int → σ} {rec : Cell → σ → Option (Option σ)} {m : Heap.Mem} {d : Int} {k : Nat} : ∀ {a : Adr} {g : Nat → T} {h : σ},
    (∀ i, i < k + 1 → ∀ h, rec (m (a + i)) h = some (hashT H dk (g i) d h)) →
    hashArgs rec m (k + 1) a h = some (hashL H dk ((List.range (k + 1)).map g) d h) := by
  induction k with
  | zero =>
    intro a g h hi
    show rec (m (a + 0)) h = _
    rw [hi 0 (by omega)]
    simp only [Nat.zero_add, List.range_one, List.map_cons, List.map_nil, hashL]
    cases hashT H dk (g 0) d h <;> rfl
  | succ k ih =>
    intro a g h hi
    simp only [hashArgs]
    rw [show m a = m (a + 0) from rfl, hi 0 (by omega), List.range_succ_eq_map, List.map_cons, List.map_map]
    simp only [hashL]
    cases hashT H dk (g 0) d h with
    | none => rfl
    | some h' =>
      simp only
      exact ih (g := g ∘ Nat.succ) fun i hlt h => by
        have := hi (i + 1) (by omega) h
        rw [show a + 1 + i = a + (i + 1) by omega]; exact this

theorem hashRec_eq {dk : σ → Int → σ} (hd : ByValue H dk) (hok : Ok N s) {w : Cell} {t : T} (hr : Reads s.mem w t) :
    ValidWord N s.lssa s.mem w → NoNaN t → ∃ n0, ∀ n, n0 ≤ n → ∀ d h, hashRec H s.mem n d w h = some (hashT H dk t d h) := by
  induction hr with
  | @var a h =>
    intro _ _
    refine ⟨1, fun n hn d h' => ?_⟩
    obtain ⟨n, rfl⟩ : ∃ k, n = k + 1 := ⟨n - 1, by omega⟩
    simp [hashRec, deref_ref, h, hashT]
  | @bound a t h hr ih =>
    intro hw hnn
    obtain ⟨n0, h0⟩ := ih (hok.wf _ hw.1 hw.2).1 hnn
    refine ⟨n0 + 1, fun n hn d h' => ?_⟩
    obtain ⟨n, rfl⟩ : ∃ k, n = k + 1 := ⟨n - 1, by omega⟩
    rw [← h0 (n + 1) (by omega) d h']
    simp only [hashRec]
    rw [deref_ref, if_neg h]
  | @lst a t1 t2 h1 h2 ih1 ih2 =>
    intro hw hnn
    obtain ⟨c1, c2, c3, c4, c5, c6, c7, c8⟩ := lst_cells hok hw
    cases hnn with
    | lst e1 e2 =>
      obtain ⟨n1, k1⟩ := ih1 c7 e1
      obtain ⟨n2, k2⟩ := ih2 c5 e2
      refine ⟨max n1 n2 + 1, fun n hn d h => ?_⟩
      obtain ⟨n, rfl⟩ : ∃ k, n = k + 1 := ⟨n - 1, by omega⟩
      simp only [hashRec, deref_nonref (show ∀ b, Cell.lst a ≠ .ref b by simp), hashT]
      by_cases q : d = 1
      · rw [if_pos (by omega), if_pos q]
      · rw [if_neg (by omega), if_neg q, k1 n (by omega)]
        cases hashT H dk t1 (d - 1) h with
        | none => rfl
        | some h' => simp only; exact k2 n (by omega) _ _
  | @stc a f k g h1 h2 ih =>
    rintro ⟨f', n', h3, h4, h5, h6, h7⟩ hnn
    rw [h1] at h3
    cases h3
    cases hnn with
    | app e =>
      obtain ⟨n0, h0⟩ := TypeTest.bound_all (P := fun i n => ∀ d h, hashRec H s.mem n d (s.mem (a + 1 + i)) h = some (hashT H dk (g i) d h))
        fun i hi => ih i hi (hok.wf _ (by omega) (h7 i hi)).1 (e _ (List.mem_map.mpr ⟨i, List.mem_range.mpr hi, rfl⟩))
      refine ⟨n0 + 1, fun n hn d h => ?_⟩
      obtain ⟨n, rfl⟩ : ∃ k, n = k + 1 := ⟨n - 1, by omega⟩
      obtain ⟨k, rfl⟩ : ∃ j, k = j + 1 := ⟨k - 1, by omega⟩
      simp only [hashRec, deref_nonref (show ∀ b, Cell.stc a ≠ .ref b by simp), h1, hashT, List.length_map, List.length_range]
      by_cases q : d = 1
      · rw [if_pos (by omega), if_pos q]
      · rw [if_neg (by omega), if_neg q]
        exact hashArgs_eq fun i hi h => h0 n (by omega) i hi _ h
  | @flt a x h1 h2 =>
    intro _ _
    refine ⟨1, fun n hn d h => ?_⟩
    obtain ⟨n, rfl⟩ : ∃ k, n = k + 1 := ⟨n - 1, by omega⟩
    simp [hashRec, deref_nonref, h1, hashT, hd h x h2]
  | nan _ _ => intro _ hnn; cases hnn
  | _ =>
    intro _ _
    refine ⟨1, fun n hn d h => ?_⟩
    obtain ⟨n, rfl⟩ : ∃ k, n = k + 1 := ⟨n - 1, by omega⟩
    simp [hashRec, deref_nonref, hashT]

/-! ## Variables -/

mutual
theorem hashT_none {dk : σ → Int → σ} : ∀ (t : T) (d : Int) (h : σ), hashT H dk t d h = none ↔ HasVar d t
  | .var v, d, h => by simp only [hashT, true_iff]; exact .var
  | .atm i, d, h => by simp only [hashT]; constructor <;> intro q <;> cases q
  | .int z, d, h => by simp only [hashT]; constructor <;> intro q <;> cases q
  | .flt k, d, h => by simp only [hashT]; constructor <;> intro q <;> cases q
  | .nan a, d, h => by simp only [hashT]; constructor <;> intro q <;> cases q
  | .lst a b, d, h => by
    simp only [hashT]
    by_cases q : d = 1
    · rw [if_pos q]
      refine ⟨fun e => by simp at e, fun e => ?_⟩
      cases e with
      | head q' _ => exact absurd q q'
      | tail q' _ => exact absurd q q'
    · rw [if_neg q]
      have ha := hashT_none (dk := dk) a (d - 1) h
      cases hq : hashT H dk a (d - 1) h with
      | none => simp only [true_iff]; exact .head q (ha.mp hq)
      | some h' =>
        simp only
        rw [hashT_none b (d - 1) h']
        refine ⟨fun e => .tail q e, fun e => ?_⟩
        cases e with
        | head _ e => rw [ha.mpr e] at hq; simp at hq
        | tail _ e => exact e
  | .app f l, d, h => by
    simp only [hashT]
    by_cases q : d = 1
    · rw [if_pos q]
      refine ⟨fun e => by simp at e, fun e => ?_⟩
      cases e with
      | arg q' _ _ => exact absurd q q'
    · rw [if_neg q, hashL_none l (d - 1)]
      refine ⟨fun ⟨x, h1, h2⟩ => .arg q h1 h2, fun e => ?_⟩
      cases e with
      | arg _ h1 h2 => exact ⟨_, h1, h2⟩
theorem hashL_none {dk : σ → Int → σ} : ∀ (l : List T) (d : Int) (h : σ), hashL H dk l d h = none ↔ ∃ x ∈ l, HasVar d x
  | [], d, h => by simp [hashL]
  | t :: l, d, h => by
    simp only [hashL]
    have ht := hashT_none (dk := dk) t d h
    cases hq : hashT H dk t d h with
    | none => simp only [true_iff]; exact ⟨t, by simp, ht.mp hq⟩
    | some h' =>
      simp only
      rw [hashL_none l d h']
      constructor
      · rintro ⟨x, h1, h2⟩; exact ⟨x, by simp [h1], h2⟩
      · rintro ⟨x, h1, h2⟩
        rcases List.mem_cons.mp h1 with rfl | h1
        · rw [ht.mpr h2] at hq; simp at hq
        · exact ⟨x, h1, h2⟩
end

/-! ## Equality -/

theorem hashL_congr {dk : σ → Int → σ} {d : Int} : ∀ {l l' : List T}, l.length = l'.length →
    (∀ (i : Nat) x x', l[i]? = some x → l'[i]? = some x' → ∀ h, hashT H dk x d h = hashT H dk x' d h) →
    ∀ h, hashL H dk l d h = hashL H dk l' d h
  | [], [], _, _, _ => rfl
  | [], _ :: _, e, _, _ => by simp at e
  | _ :: _, [], e, _, _ => by simp at e
  | t :: l, t' :: l', e, hp, h => by
    simp only [hashL]
    rw [hp 0 t t' (by simp) (by simp) h]
    cases hashT H dk t' d h with
    | none => rfl
    | some h' =>
      exact hashL_congr (by simpa using e) (fun i x x' h1 h2 => hp (i + 1) x x' (by simpa using h1) (by simpa using h2)) h'

theorem hashT_congr {dk : σ → Int → σ} {d : Int} {t t' : T} (he : EqTo d t t') : ∀ h, hashT H dk t d h = hashT H dk t' d h := by
  induction he with
  | refl => intro h; rfl
  | lst1 => intro h; simp [hashT]
  | app1 e => intro h; simp [hashT, e]
  | lst q _ _ ih1 ih2 =>
    intro h
    simp only [hashT]
    rw [if_neg q, if_neg q, ih1 h]
    split
    · rfl
    · exact ih2 _
  | app q e _ ih =>
    intro h
    simp only [hashT]
    rw [if_neg q, if_neg q, e]
    exact hashL_congr e (fun i x x' h1 h2 h => ih i x x' h1 h2 h) _

/-! ## The sequence -/

theorem feed_append {dk : σ → Int → σ} : ∀ (l l' : List Item) (h : σ), feed H dk h (l ++ l') = feed H dk (feed H dk h l) l'
  | [], _, _ => rfl
  | .w32 x :: l, l', h => by simp only [List.cons_append, feed]; exact feed_append l l' _
  | .w64 x :: l, l', h => by simp only [List.cons_append, feed]; exact feed_append l l' _
  | .f64 x :: l, l', h => by simp only [List.cons_append, feed]; exact feed_append l l' _

mutual
theorem hashT_feed {dk : σ → Int → σ} : ∀ (t : T) (d : Int) (h r : σ), hashT H dk t d h = some r → r = feed H dk h (items H.atomHash H.dot t d)
  | .var v, d, h, r => by simp [hashT]
  | .atm i, d, h, r => by simp only [hashT, items, feed]; intro e; injection e with e; exact e.symm
  | .int z, d, h, r => by simp only [hashT, items, feed]; intro e; injection e with e; exact e.symm
  | .flt k, d, h, r => by simp only [hashT, items, feed]; intro e; injection e with e; exact e.symm
  | .nan a, d, h, r => by simp only [hashT, items, feed]; intro e; injection e with e; exact e.symm
  | .lst a b, d, h, r => by
    simp only [hashT, items]
    by_cases q : d = 1
    · rw [if_pos q, if_pos q]; intro e; injection e with e; exact e.symm
    · rw [if_neg q, if_neg q, feed_append]
      cases hq : hashT H dk a (d - 1) h with
      | none => simp
      | some h' =>
        simp only
        intro e
        rw [← hashT_feed a (d - 1) h h' hq]
        exact hashT_feed b (d - 1) h' r e
  | .app f l, d, h, r => by
    simp only [hashT, items]
    rw [feed_append]
    by_cases q : d = 1
    · rw [if_pos q, if_pos q]; intro e; injection e with e; exact e.symm
    · rw [if_neg q, if_neg q]
      intro e
      exact hashL_feed l (d - 1) _ r e
theorem hashL_feed {dk : σ → Int → σ} : ∀ (l : List T) (d : Int) (h r : σ), hashL H dk l d h = some r →
    r = feed H dk h (l.flatMap fun t => items H.atomHash H.dot t d)
  | [], d, h, r => by simp only [hashL]; intro e; injection e with e; exact e.symm
  | t :: l, d, h, r => by
    simp only [hashL, List.flatMap_cons]
    rw [feed_append]
    cases hq : hashT H dk t d h with
    | none => simp
    | some h' =>
      simp only
      intro e
      rw [← hashT_feed t d h h' hq]
      exact hashL_feed l d h' r e
end

/-! ## The theorems -/

theorem termHash4_eq {dk : σ → Int → σ} (hd : ByValue H dk) (hok : Ok N s) {w : Cell} {t : T} (hr : Reads s.mem w t)
    (hw : ValidWord N s.lssa s.mem w) (hnn : NoNaN t) (d range : Int) : ∃ n0, ∀ n, n0 ≤ n →
    termHash4 H s.mem n w d range = some (((if d = 0 then some (H.term H.init) else (hashT H dk t d H.init).map H.term)).map
      (· % (if range ≤ 0 ∨ range > HASH_MOD then HASH_MOD else range.toNat))) := by
  obtain ⟨n0, h0⟩ := hashRec_eq hd hok hr hw hnn
  refine ⟨n0, fun n hn => ?_⟩
  unfold termHash4 termHash
  by_cases q : d = 0
  · simp only [if_pos q, Option.map_some]
  · simp only [if_neg q, h0 n hn, Option.map_some]

/-- term_hash(T, Depth, Range, H) leaves H unbound exactly when there is a variable in the levels looked at; otherwise H is below Range, or below 2^28 when
Range is 0 or more than 2^28. It ends on every finite term. -/
theorem C69_value {dk : σ → Int → σ} (hd : ByValue H dk) (hok : Ok N s) {w : Cell} {t : T} (hr : Reads s.mem w t)
    (hw : ValidWord N s.lssa s.mem w) (hnn : NoNaN t) (d range : Int) : ∃ n0, ∀ n, n0 ≤ n →
    ∃ r, termHash4 H s.mem n w d range = some r ∧ (r = none ↔ d ≠ 0 ∧ HasVar d t) ∧
      ∀ x, r = some x → (x : Int) < 2 ^ 28 ∧ (0 < range → (x : Int) < range) := by
  obtain ⟨n0, h0⟩ := termHash4_eq hd hok hr hw hnn d range
  refine ⟨n0, fun n hn => ⟨_, h0 n hn, ?_, ?_⟩⟩
  · rw [Option.map_eq_none_iff]
    by_cases q : d = 0
    · simp [q]
    · rw [if_neg q, Option.map_eq_none_iff, hashT_none]
      exact ⟨fun e => ⟨q, e⟩, fun e => e.2⟩
  · intro x hx
    rw [Option.map_eq_some_iff] at hx
    obtain ⟨y, -, rfl⟩ := hx
    simp only [HASH_MOD]
    split
    · rename_i hc
      have := Nat.mod_lt y (show 0 < 2 ^ 28 by decide)
      omega
    · rename_i hc
      have := Nat.mod_lt y (show 0 < range.toNat by omega)
      omega

/-- The value is the hash, modulo the range, of the sequence of the names, arities and numbers of the levels looked at, in prefix order (of no item if the depth
is 0). -/
theorem C69_sequence {dk : σ → Int → σ} (hd : ByValue H dk) (hok : Ok N s) {w : Cell} {t : T} (hr : Reads s.mem w t)
    (hw : ValidWord N s.lssa s.mem w) (hnn : NoNaN t) (d range : Int) (hv : d ≠ 0 → ¬ HasVar d t) : ∃ n0, ∀ n, n0 ≤ n →
    termHash4 H s.mem n w d range = some (some
      (H.term (feed H dk H.init (if d = 0 then [] else items H.atomHash H.dot t d)) %
        (if 0 < range ∧ range ≤ 2 ^ 28 then range.toNat else 2 ^ 28))) := by
  obtain ⟨n0, h0⟩ := termHash4_eq hd hok hr hw hnn d range
  refine ⟨n0, fun n hn => ?_⟩
  rw [h0 n hn]
  have hg : (if range ≤ 0 ∨ range > HASH_MOD then HASH_MOD else range.toNat) = if 0 < range ∧ range ≤ 2 ^ 28 then range.toNat else 2 ^ 28 := by
    simp only [HASH_MOD]
    split <;> split <;> first | rfl | omega
  rw [hg]
  by_cases q : d = 0
  · rw [if_pos q, if_pos q]; rfl
  · rw [if_neg q, if_neg q]
    cases hq : hashT H dk t d H.init with
    | none => exact absurd ((hashT_none t d H.init).mp hq) (hv q)
    | some r => rw [hashT_feed t d _ r hq]; rfl

/-- Terms which are equal in the levels looked at have the same hash, in any two memories: the value does not depend on the addresses, on the
references or on the order of the allocations. -/
theorem C69_equal_terms {dk : σ → Int → σ} (hd : ByValue H dk) (hok : Ok N s) (hok' : Ok N' s') {w w' : Cell} {t t' : T}
    (hr : Reads s.mem w t) (hr' : Reads s'.mem w' t') (hw : ValidWord N s.lssa s.mem w) (hw' : ValidWord N' s'.lssa s'.mem w')
    (hnn : NoNaN t) (hnn' : NoNaN t') (d range : Int) (he : EqTo d t t') : ∃ n0, ∀ n, n0 ≤ n →
    ∃ r, termHash4 H s.mem n w d range = some r ∧ termHash4 H s'.mem n w' d range = some r := by
  obtain ⟨n1, h1⟩ := termHash4_eq hd hok hr hw hnn d range
  obtain ⟨n2, h2⟩ := termHash4_eq hd hok' hr' hw' hnn' d range
  refine ⟨max n1 n2, fun n hn => ⟨_, h1 n (by omega), ?_⟩⟩
  rw [h2 n (by omega), hashT_congr he]

/-- A negative depth looks at the whole term: term_hash/2 gives a value exactly for the ground terms. -/
theorem C69_term_hash_2 {dk : σ → Int → σ} (hd : ByValue H dk) (hok : Ok N s) {w : Cell} {t : T} (hr : Reads s.mem w t)
    (hw : ValidWord N s.lssa s.mem w) (hnn : NoNaN t) : ∃ n0, ∀ n, n0 ≤ n →
    ∃ r, termHash2 H s.mem n w = some r ∧ (r ≠ none ↔ TypeTest.NoVar t) := by
  have hv : ∀ (t : T), NoNaN t → ∀ d : Int, d < 0 → (HasVar d t ↔ ∃ v, v ∈ T.vars t) := by
    intro t ht
    induction ht with
    | var => intro d _; simp only [T.vars]; exact ⟨fun _ => ⟨_, List.mem_singleton.mpr rfl⟩, fun _ => .var⟩
    | atm =>
      intro d _
      refine ⟨fun q => (by cases q), fun ⟨v, hv⟩ => ?_⟩
      simp [T.vars] at hv
    | int =>
      intro d _
      refine ⟨fun q => (by cases q), fun ⟨v, hv⟩ => ?_⟩
      simp [T.vars] at hv
    | flt =>
      intro d _
      refine ⟨fun q => (by cases q), fun ⟨v, hv⟩ => ?_⟩
      simp [T.vars] at hv
    | @lst a b _ _ ih1 ih2 =>
      intro d hdn
      have e1 := ih1 (d - 1) (by omega)
      have e2 := ih2 (d - 1) (by omega)
      simp only [T.vars]
      constructor
      · intro q
        cases q with
        | head _ q => obtain ⟨v, hv⟩ := e1.mp q; exact ⟨v, by simp [hv]⟩
        | tail _ q => obtain ⟨v, hv⟩ := e2.mp q; exact ⟨v, by simp [hv]⟩
      · rintro ⟨v, hv⟩
        rcases List.mem_append.mp hv with hv | hv
        · exact .head (by omega) (e1.mpr ⟨v, hv⟩)
        · exact .tail (by omega) (e2.mpr ⟨v, hv⟩)
    | @app f l _ ih =>
      intro d hdn
      simp only [T.vars]
      constructor
      · intro q
        cases q with
        | @arg _ _ _ x _ hx q =>
          obtain ⟨v, hv⟩ := (ih x hx (d - 1) (by omega)).mp q
          exact ⟨v, List.mem_flatMap.mpr ⟨x, hx, hv⟩⟩
      · rintro ⟨v, hv⟩
        obtain ⟨x, hx, hv⟩ := List.mem_flatMap.mp hv
        exact .arg (by omega) hx ((ih x hx (d - 1) (by omega)).mpr ⟨v, hv⟩)
  obtain ⟨n0, h0⟩ := C69_value hd hok hr hw hnn (-1) 0
  refine ⟨n0, fun n hn => ?_⟩
  obtain ⟨r, h1, h2, -⟩ := h0 n hn
  refine ⟨r, h1, ?_⟩
  rw [Ne, h2, hv t hnn (-1) (by omega)]
  unfold TypeTest.NoVar
  constructor
  · intro h v hv; exact h ⟨by omega, v, hv⟩
  · rintro h ⟨-, v, hv⟩; exact h v hv

/-- The brackets of nested lists are lost: the lists [[A]] and [A,[]] have the same hash for any atom A and any hash function (the comment of the code
gives a pair of nested lists which are told apart). -/
theorem C69_nested_lists_collide {dk : σ → Int → σ} (hd : ByValue H dk) (hok : Ok N s) (hok' : Ok N' s') {w w' : Cell} {i : Nat}
    (hr : Reads s.mem w (.lst (.lst (.atm i) nil) nil)) (hr' : Reads s'.mem w' (.lst (.atm i) (.lst nil nil)))
    (hw : ValidWord N s.lssa s.mem w) (hw' : ValidWord N' s'.lssa s'.mem w') : ∃ n0, ∀ n, n0 ≤ n →
    ∃ x, termHash2 H s.mem n w = some (some x) ∧ termHash2 H s'.mem n w' = some (some x) := by
  obtain ⟨n1, h1⟩ := termHash4_eq hd hok hr hw (.lst (.lst .atm .atm) .atm) (-1) 0
  obtain ⟨n2, h2⟩ := termHash4_eq hd hok' hr' hw' (.lst .atm (.lst .atm .atm)) (-1) 0
  refine ⟨max n1 n2, fun n hn => ?_⟩
  unfold termHash2
  rw [h1 n (by omega), h2 n (by omega)]
  simp [hashT]

/-- A reference to a finite domain variable. -/
def exFd : Heap.Mem := fun _ => .fdv 5

/-- A finite domain variable is a variable: no value is given. -/
theorem C69_fd_variable {m : Heap.Mem} {w : Cell} {a : Adr} (hw : deref m w = some (.fdv a)) {d : Int} (hd : d ≠ 0) (range : Int) (n : Nat) :
    termHash4 H m (n + 1) w d range = some none := by
  simp [termHash4, termHash, hd, hashRec, hw]

example : deref exFd (.ref 0) = some (.fdv 5) := by simp [exFd, deref_ref, deref_nonref]

/-! ## The hypotheses are met -/

/-- A simple hash function. -/
def exH : Hasher Nat := ⟨7, fun h x => h * 31 + x, fun h z => h * 31 + z.natAbs, fun h x => h * 31 + (Term.fkey x).natAbs, id, id, 46⟩

example : ByValue exH (fun h k => h * 31 + k.natAbs) := fun _ _ _ => rfl

/-- f(X, Y): no value at depth 2, and the one of f/2 at depth 1. -/
example : Ok 20 (NumVars.exS 3) ∧ ValidWord 20 (NumVars.exS 3).lssa (NumVars.exS 3).mem (.stc 2) ∧
    Reads (NumVars.exS 3).mem (.stc 2) (.app 7 [.var 0, .var 1]) ∧ NoNaN (.app 7 [.var 0, .var 1]) ∧
    EqTo 1 (.app 7 [.var 0, .var 1]) (.app 7 [.atm 3, .atm 4]) ∧ HasVar 2 (.app 7 [.var 0, .var 1]) ∧ ¬ HasVar 1 (.app 7 [.var 0, .var 1]) := by
  refine ⟨NumVars.exS_ok 3, NumVars.exS_stc 3, NumVars.exS_reads 3, .app (by simp; exact ⟨.var, .var⟩), .app1 rfl,
    .arg (by decide) (List.mem_cons_self ..) .var, ?_⟩
  intro h
  cases h with
  | arg q _ _ => exact q rfl

/-- The lists [[a]] at 0 and [a,[]] at 4. -/
def exM : Heap.Mem := memL [.lst 2, NIL_WORD, .atm 97, NIL_WORD, .atm 97, .lst 6, NIL_WORD, NIL_WORD]

def exS : St := { mem := exM, trail := [], h := 8, hb1 := 0, b := 0, lssa := 20 }

theorem exS_ok : Ok 20 exS := by
  refine ⟨?_, ?_, Nat.le_refl 20⟩
  · intro a ha ht
    have hle : ∀ a b, exM a = .ref b → b ≤ a := by
      intro a b h
      match a with
      | 0 | 1 | 2 | 3 | 4 | 5 | 6 | 7 => simp [exM, memL, NIL_WORD] at h
      | a + 8 => simp [exM, memL] at h
    refine ⟨?_, fun b hb hlt => Nat.lt_of_le_of_lt (hle a b hb) hlt, acc_of_le hle a⟩
    match a with
    | 1 | 2 | 3 | 4 | 6 | 7 => exact trivial
    | 0 | 5 => exact ⟨by decide, by decide, rfl, rfl⟩
    | a + 8 => simp [exS, exM, memL, isTerm] at ht
  · intro a h1 h2
    have h1 : 8 ≤ a := h1
    show exM a = _
    match a, h1 with
    | a + 8, _ => simp [exM, memL]

/-- Both lists are given the same value, and the list [a] is not. -/
example : (∃ n0, ∀ n, n0 ≤ n → ∃ x, termHash2 exH exS.mem n (.lst 0) = some (some x) ∧ termHash2 exH exS.mem n (.lst 4) = some (some x)) ∧
    termHash2 exH exS.mem 5 (.lst 0) = some (some 309946) ∧ termHash2 exH exS.mem 5 (.lst 2) = some (some 9990) :=
  ⟨C69_nested_lists_collide (dk := fun h k => h * 31 + k.natAbs) (fun _ _ _ => rfl) exS_ok exS_ok
    (.lst (.lst .atm .atm) .atm) (.lst .atm (.lst .atm .atm)) ⟨by decide, by decide, rfl, rfl⟩ ⟨by decide, by decide, rfl, rfl⟩,
    by simp [termHash2, termHash4, termHash, hashRec, exS, exM, memL, deref_nonref, NIL_WORD, exH],
    by simp [termHash2, termHash4, termHash, hashRec, exS, exM, memL, deref_nonref, NIL_WORD, exH]⟩

/-- [a|X] and [a|Y] are equal down to the depth 1; [f(a)] and [f(b)] are down to the depth 2. -/
example : EqTo 1 (.lst (.atm 97) (.var 3)) (.lst (.atm 97) (.var 4)) ∧
    EqTo 2 (.lst (.app 7 [.atm 97]) nil) (.lst (.app 7 [.atm 98]) nil) :=
  ⟨.lst1, .lst (by decide) (.app1 rfl) .refl⟩

/-- f(a, 5, [b]) is traversed as f 3 a 5 b []. -/
example : items (· + 1000) 46 (.app 7 [.atm 97, .int 5, .lst (.atm 98) nil]) (-1) =
    [.w32 1007, .w32 3, .w32 1097, .w64 5, .w32 1098, .w32 1256] := by simp [items]

end Gp.THash
