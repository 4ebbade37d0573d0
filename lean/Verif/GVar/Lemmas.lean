import Verif.GVar.Spec
/-
The invariant of the memory of the global variables.
-/
namespace Gp.GVar

theorem upd_same {α β : Type} [DecidableEq α] (f : α → β) (a : α) (b : β) : upd f a b a = b := if_pos rfl
theorem upd_ne {α β : Type} [DecidableEq α] (f : α → β) {a x : α} (b : β) (h : x ≠ a) : upd f a b x = f x := if_neg h

/-- The undo record restores the element `x`. -/
def on (rcd : Nat → Rec) (x : Addr) (u : Nat) : Bool :=
  match (rcd u).elem with
  | some p => decide (p.1 = x)
  | none => false

/-- The valid undo records of `x`. -/
def St.T (st : St) (x : Addr) : List Nat := st.trail.filter (on st.rcd x)

/-- The chain from `o` by `next` is the list. -/
def Linked (rcd : Nat → Rec) : Option Nat → List Nat → Prop
  | o, [] => o = none
  | o, u :: l => o = some u ∧ Linked rcd (rcd u).next l

/-- The element exists. -/
def St.okA (st : St) : Addr → Prop
  | .root _ => True
  | .cell b i => st.live b = true ∧ i < st.len b

/-- The generation of the block. -/
def St.genA (st : St) : Addr → Nat
  | .root _ => 0
  | .cell b _ => st.gen b

/-- Not the last element of a block. -/
def St.inner (st : St) : Addr → Prop
  | .root _ => True
  | .cell b i => i + 1 < st.len b

/-- The blocks of an element have greater names. -/
def ordA : Addr → Nat
  | .root _ => 0
  | .cell b _ => b + 1

/-- The value of `nu` at the creation of the block. -/
def bornA (born : Nat → Nat) : Addr → Nat
  | .root _ => 0
  | .cell b _ => born b

/-- The block of a value. -/
def Val.blk : Val → Option Nat
  | .arr b _ _ => some b
  | _ => none

/-- The values of an element: the current one and those which are saved. -/
def St.vers (st : St) (x : Addr) : List Val := st.val x :: (st.T x).map (fun u => (st.rcd u).save)

/-- A value stored after `u` is newer than `u`. -/
def After (rcd : Nat → Rec) (born : Nat → Nat) : Val → List Nat → Prop
  | _, [] => True
  | v, u :: l => (∀ c, v.blk = some c → u ≤ born c) ∧ After rcd born (rcd u).save l

/-- A value `v` of the element `x`. -/
structure VOk (st : St) (own : Nat → Addr) (born : Nat → Nat) (x : Addr) (v : Val) : Prop where
  imp : v = .imp → ¬ st.inner x
  arr : ∀ c g n, v = .arr c g n → st.inner x ∧ st.live c = true ∧ g = st.gen c ∧ st.len c = n + 1 ∧ ordA x ≤ c ∧ own c = x ∧
    bornA born x ≤ born c

/-- The invariant, except the values of the elements of `E`. -/
structure CoreE (st : St) (own : Nat → Addr) (born : Nat → Nat) (E : Addr → Prop) : Prop where
  sorted : st.trail.Pairwise (· > ·)
  lt : ∀ u ∈ st.trail, u < st.nu
  elem : ∀ u ∈ st.trail, ∀ p, (st.rcd u).elem = some p → st.okA p.1 ∧ st.inner p.1 ∧ p.2 = st.genA p.1 ∧ bornA born p.1 ≤ u
  link : ∀ x, st.okA x → Linked st.rcd (st.undo x) (st.T x)
  next : ∀ u ∈ st.trail, ∀ w, (st.rcd u).next = some w → w ∈ st.trail ∧ w < u
  prev : ∀ u ∈ st.trail, ∀ w, (st.rcd u).prev = some w → w ∈ st.trail ∧ u < w ∧ (st.rcd w).next = some u
  vers : ∀ x, st.okA x → ¬ E x → ∀ v ∈ st.vers x, VOk st own born x v
  nodup : ∀ x, st.okA x → ¬ E x → ((st.vers x).filterMap Val.blk).Nodup
  after : ∀ x, st.okA x → ¬ E x → After st.rcd born (st.val x) (st.T x)
  lt_nb : ∀ c, st.live c = true → c < st.nb
  born : ∀ c, st.live c = true → born c ≤ st.nu

theorem ok_iff (st : St) (a : Addr) (g : Nat) (hg : g = st.genA a) : st.ok (a, g) = true ↔ st.okA a := by
  subst hg
  cases a <;> simp [St.ok, St.okA, St.genA]

theorem mem_T {st : St} {x : Addr} {u : Nat} : u ∈ st.T x ↔ u ∈ st.trail ∧ ∃ p, (st.rcd u).elem = some p ∧ p.1 = x := by
  unfold St.T on
  rw [List.mem_filter]
  cases h : (st.rcd u).elem <;> simp

theorem on_eq {rcd rcd' : Nat → Rec} {x : Addr} {u : Nat} (h : (rcd' u).elem = (rcd u).elem) : on rcd' x u = on rcd x u := by
  unfold on; rw [h]

theorem linked_congr {rcd rcd' : Nat → Rec} : ∀ {l : List Nat} {o : Option Nat}, (∀ u ∈ l, (rcd' u).next = (rcd u).next) →
    Linked rcd o l → Linked rcd' o l
  | [], _, _, h => h
  | u :: l, o, h, ⟨h1, h2⟩ => ⟨h1, by rw [h u (by simp)]; exact linked_congr (fun w hw => h w (by simp [hw])) h2⟩

theorem after_congr {rcd rcd' : Nat → Rec} {born born' : Nat → Nat} : ∀ {l : List Nat} {v : Val},
    (∀ u ∈ l, (rcd' u).save = (rcd u).save) → (∀ c, v.blk = some c → born c ≤ born' c) →
    (∀ u ∈ l, ∀ c, (rcd u).save.blk = some c → born c ≤ born' c) →
    After rcd born v l → After rcd' born' v l
  | [], _, _, _, _, h => h
  | u :: l, v, h, hv, hb, ⟨h1, h2⟩ =>
    ⟨fun c hc => Nat.le_trans (h1 c hc) (hv c hc), by
      rw [h u (by simp)]
      exact after_congr (fun w hw => h w (by simp [hw])) (hb u (by simp)) (fun w hw => hb w (by simp [hw])) h2⟩

theorem chain_eq (rcd : Nat → Rec) : ∀ (l : List Nat) (f : Nat) (o : Option Nat), Linked rcd o l → l.length ≤ f → chain rcd f o = l
  | [], f, o, h, _ => by
    have : o = none := h
    subst this
    cases f <;> rfl
  | u :: l, 0, o, _, hf => by simp at hf
  | u :: l, f + 1, o, ⟨h1, h2⟩, hf => by
    subst h1
    unfold chain
    rw [chain_eq rcd l f _ h2 (by simpa using hf)]

theorem desc_length : ∀ (l : List Nat) (n : Nat), l.Pairwise (· > ·) → (∀ u ∈ l, u < n) → l.length ≤ n
  | [], _, _, _ => Nat.zero_le _
  | u :: l, n, h, hn => by
    rw [List.pairwise_cons] at h
    have := desc_length l u h.2 (fun w hw => h.1 w hw)
    have := hn u (by simp)
    simp; omega

/-- What the freeing of elements needs. -/
structure Sub (st : St) (own : Nat → Addr) (born : Nat → Nat) (D : Addr → Prop) : Prop where
  sorted : st.trail.Pairwise (· > ·)
  lt : ∀ u ∈ st.trail, u < st.nu
  link : ∀ x, st.okA x → Linked st.rcd (st.undo x) (st.T x)
  last : ∀ x, st.okA x → ¬ st.inner x → st.T x = []
  vals : ∀ x, st.okA x → ¬ D x → VOk st own born x (st.val x)
  lt_nb : ∀ c, st.live c = true → c < st.nb

theorem CoreE.sub {st own born E} (h : CoreE st own born E) : Sub st own born E :=
  ⟨h.sorted, h.lt, h.link, fun x _ hi => List.eq_nil_iff_forall_not_mem.2 fun u hu => by
    obtain ⟨h1, p, h2, h3⟩ := mem_T.1 hu
    exact hi (h3 ▸ (h.elem u h1 p h2).2.1), fun x hx he => h.vers x hx he _ (by simp [St.vers]), h.lt_nb⟩

theorem Sub.chain {st own born D} (h : Sub st own born D) (x : Addr) (hx : st.okA x) : chain st.rcd st.nu (st.undo x) = st.T x :=
  chain_eq _ _ _ _ (h.link x hx) (desc_length _ _ (h.sorted.filter _) (fun u hu => h.lt u (mem_T.1 hu).1))

/-- The elements of `A`, and those of the freed blocks. -/
def In (st : St) (A : Addr → Prop) (F : Nat → Prop) (x : Addr) : Prop := A x ∨ ∃ b i, x = .cell b i ∧ F b ∧ i < st.len b

/-- The elements of `A` are freed, with the blocks of `F`. -/
structure Freed (st st' : St) (A : Addr → Prop) (F : Nat → Prop) (r : Bool) : Prop where
  val : st'.val = st.val
  gen : st'.gen = st.gen
  len : st'.len = st.len
  nb : st'.nb = st.nb
  nu : st'.nu = st.nu
  trail : st'.trail = st.trail
  cps : st'.cps = st.cps
  live : ∀ d, st'.live d = true ↔ st.live d = true ∧ ¬ F d
  rc1 : ∀ u ∈ st.trail, ∀ p, (st.rcd u).elem = some p → In st A F p.1 → r = true → st'.rcd u = ⟨none, (st.rcd u).save, (st.rcd u).next, (st.rcd u).prev⟩
  rc2 : ∀ u, (u ∈ st.trail → r = true → ∀ p, (st.rcd u).elem = some p → ¬ In st A F p.1) → st'.rcd u = st.rcd u
  un1 : ∀ x, In st A F x → r = true → st'.undo x = none
  un2 : ∀ x, (r = true → ¬ In st A F x) → st'.undo x = st.undo x

theorem In.congr_len {st st' : St} {A F x} (h : st'.len = st.len) : In st' A F x ↔ In st A F x := by
  unfold In; rw [h]

theorem Freed.refl (st : St) (r : Bool) : Freed st st (fun _ => False) (fun _ => False) r :=
  ⟨rfl, rfl, rfl, rfl, rfl, rfl, rfl, fun _ => by simp, (fun _ _ _ _ h => by rcases h with h | ⟨_, _, _, h, _⟩ <;> cases h),
    fun _ _ => rfl, (fun _ h => by rcases h with h | ⟨_, _, _, h, _⟩ <;> cases h), fun _ _ => rfl⟩

theorem Freed.trans {st st1 st2 : St} {A A' F F' r} (h : Freed st st1 A F r) (h' : Freed st1 st2 A' F' r) :
    Freed st st2 (fun x => A x ∨ A' x) (fun b => F b ∨ F' b) r := by
  have hin : ∀ x, In st (fun x => A x ∨ A' x) (fun b => F b ∨ F' b) x ↔ In st A F x ∨ In st1 A' F' x := by
    intro x; unfold In; rw [h.len]
    constructor
    · rintro ((h | h) | ⟨b, i, e, (h | h), hi⟩)
      · exact .inl (.inl h)
      · exact .inr (.inl h)
      · exact .inl (.inr ⟨b, i, e, h, hi⟩)
      · exact .inr (.inr ⟨b, i, e, h, hi⟩)
    · rintro ((h | ⟨b, i, e, h, hi⟩) | (h | ⟨b, i, e, h, hi⟩))
      · exact .inl (.inl h)
      · exact .inr ⟨b, i, e, .inl h, hi⟩
      · exact .inl (.inr h)
      · exact .inr ⟨b, i, e, .inr h, hi⟩
  refine ⟨h'.val.trans h.val, h'.gen.trans h.gen, h'.len.trans h.len, h'.nb.trans h.nb, h'.nu.trans h.nu, h'.trail.trans h.trail,
    h'.cps.trans h.cps, ?_, ?_, ?_, ?_, ?_⟩
  · intro d; rw [h'.live, h.live]; simp only [not_or, and_assoc]
  · intro u hu p hp hi hr
    by_cases q : In st A F p.1
    · have e := h.rc1 u hu p hp q hr
      rw [h'.rc2 u (fun _ _ p' hp' => by rw [e] at hp'; cases hp'), e]
    · have e := h.rc2 u (fun _ _ p' hp' => by rw [hp] at hp'; cases hp'; exact q)
      have q' : In st1 A' F' p.1 := by
        rcases (hin _).1 hi with k | k
        · exact absurd k q
        · exact k
      rw [h'.rc1 u (by rw [h.trail]; exact hu) p (by rw [e]; exact hp) q' hr, e]
  · intro u hu
    have e := h.rc2 u (fun h1 h2 p hp hi => hu h1 h2 p hp ((hin _).2 (.inl hi)))
    rw [h'.rc2 u (fun h1 h2 p hp hi => hu (h.trail ▸ h1) h2 p (by rw [← e]; exact hp) ((hin _).2 (.inr hi))), e]
  · intro x hx hr
    by_cases q : In st1 A' F' x
    · exact h'.un1 x q hr
    · rw [h'.un2 x (fun _ => q)]
      rcases (hin _).1 hx with k | k
      · exact h.un1 x k hr
      · exact absurd k q
  · intro x hx
    rw [h'.un2 x (fun hr k => hx hr ((hin _).2 (.inr k))), h.un2 x (fun hr k => hx hr ((hin _).2 (.inl k)))]

theorem Freed.congr {st st' : St} {A A' : Addr → Prop} {F F' r} (h : Freed st st' A F r)
    (hA : ∀ x, In st A F x ↔ In st A' F' x) (hF : ∀ d, F d ↔ F' d) : Freed st st' A' F' r :=
  ⟨h.val, h.gen, h.len, h.nb, h.nu, h.trail, h.cps, fun d => by rw [h.live, hF],
    fun u hu p hp hi => h.rc1 u hu p hp ((hA _).2 hi), fun u hu => h.rc2 u fun a b p hp hi => hu a b p hp ((hA _).1 hi),
    fun x hx => h.un1 x ((hA _).2 hx), fun x hx => h.un2 x fun hr k => hx hr ((hA _).1 k)⟩

/-- The freed blocks are those under the elements of `A`. -/
structure Under (st : St) (own : Nat → Addr) (born : Nat → Nat) (A : Addr → Prop) (F : Nat → Prop) (lo bo : Nat) : Prop where
  live : ∀ d, F d → st.live d = true
  own : ∀ d, F d → A (own d) ∨ ∃ d' i, own d = .cell d' i ∧ F d' ∧ i < st.len d'
  lo : ∀ d, F d → lo ≤ d
  bo : ∀ d, F d → bo ≤ born d

theorem Freed.okA {st st' : St} {A F r} (h : Freed st st' A F r) (x : Addr) (hx : st'.okA x) : st.okA x := by
  cases x with
  | root k => trivial
  | cell b i => exact ⟨((h.live b).1 hx.1).1, h.len ▸ hx.2⟩

theorem Freed.T {st st' : St} {A F r} (h : Freed st st' A F r) (x : Addr) (hx : r = true → ¬ In st A F x) : st'.T x = st.T x := by
  unfold St.T
  rw [h.trail]
  apply List.filter_congr
  intro u hu
  by_cases q : r = true ∧ ∃ p, (st.rcd u).elem = some p ∧ In st A F p.1
  · obtain ⟨hr, p, hp, hi⟩ := q
    have e := h.rc1 u hu p hp hi hr
    unfold on
    rw [e, hp]
    have : p.1 ≠ x := fun e => hx hr (e ▸ hi)
    simp [this]
  · rw [on_eq]
    rw [h.rc2 u (fun _ hr p hp hi => q ⟨hr, p, hp, hi⟩)]

theorem Freed.Tin {st st' : St} {A F} (h : Freed st st' A F true) (x : Addr) (hx : In st A F x) : st'.T x = [] := by
  unfold St.T
  rw [List.filter_eq_nil_iff, h.trail]
  intro u hu
  by_cases q : ∃ p, (st.rcd u).elem = some p ∧ In st A F p.1
  · obtain ⟨p, hp, hi⟩ := q
    have e := h.rc1 u hu p hp hi rfl
    unfold on
    rw [e]; simp
  · have e := h.rc2 u (fun _ _ p hp hi => q ⟨p, hp, hi⟩)
    unfold on
    rw [e]
    cases he : (st.rcd u).elem with
    | none => simp
    | some p =>
      have : p.1 ≠ x := fun e => q ⟨p, he, e ▸ hx⟩
      simp [this]

theorem Freed.nexts {st st' : St} {A F r} (h : Freed st st' A F r) (u : Nat) :
    (st'.rcd u).next = (st.rcd u).next ∧ (st'.rcd u).save = (st.rcd u).save ∧ (st'.rcd u).prev = (st.rcd u).prev := by
  by_cases q : u ∈ st.trail ∧ r = true ∧ ∃ p, (st.rcd u).elem = some p ∧ In st A F p.1
  · obtain ⟨hu, hr, p, hp, hi⟩ := q
    rw [h.rc1 u hu p hp hi hr]
    exact ⟨rfl, rfl, rfl⟩
  · rw [h.rc2 u (fun hu hr p hp hi => q ⟨hu, hr, p, hp, hi⟩)]
    exact ⟨rfl, rfl, rfl⟩

theorem Freed.link {st st' : St} {A F r} (h : Freed st st' A F r) (hl : ∀ x, st.okA x → Linked st.rcd (st.undo x) (st.T x)) :
    ∀ x, st'.okA x → Linked st'.rcd (st'.undo x) (st'.T x) := by
  intro x hx
  by_cases q : r = true ∧ In st A F x
  · obtain ⟨hr, hi⟩ := q
    subst hr
    rw [h.Tin x hi]
    exact h.un1 x hi rfl
  · have q' : r = true → ¬ In st A F x := fun hr hi => q ⟨hr, hi⟩
    rw [h.T x q', h.un2 x q']
    exact linked_congr (fun u _ => (h.nexts u).1) (hl x (h.okA x hx))

theorem Freed.sub {st st' : St} {A F r own born D lo bo} (h : Freed st st' A F r) (hu : Under st own born A F lo bo) (hs : Sub st own born D) :
    Sub st' own born (fun x => D x ∨ A x) := by
  have inn : ∀ x, st'.inner x ↔ st.inner x := fun x => by cases x <;> simp [St.inner, h.len]
  refine ⟨h.trail ▸ hs.sorted, fun u hu' => ?_, h.link hs.link, ?_, ?_, ?_⟩
  · rw [h.nu]; exact hs.lt u (h.trail ▸ hu')
  · intro x hx hi
    by_cases q : r = true ∧ In st A F x
    · obtain ⟨hr, hi⟩ := q
      subst hr
      exact h.Tin x hi
    · rw [h.T x (fun hr hi => q ⟨hr, hi⟩)]
      exact hs.last x (h.okA x hx) (fun k => hi ((inn x).2 k))
  · intro x hx hd
    have hx' := h.okA x hx
    have v := hs.vals x hx' (fun k => hd (.inl k))
    rw [h.val]
    refine ⟨fun e => by rw [inn x]; exact v.imp e, fun c g n e => ?_⟩
    obtain ⟨v1, v2, v3, v4, v5, v6, v7⟩ := v.arr c g n e
    refine ⟨(inn x).2 v1, (h.live c).2 ⟨v2, fun hf => ?_⟩, by rw [h.gen]; exact v3, by rw [h.len]; exact v4, v5, v6, v7⟩
    rcases hu.own c hf with k | ⟨d, i, e1, e2, _⟩
    · rw [v6] at k; exact hd (.inr k)
    · rw [v6] at e1
      subst e1
      exact ((h.live d).1 hx.1).2 e2
  · intro c hc
    rw [h.nb]
    exact hs.lt_nb c ((h.live c).1 hc).1

/-- Write `elem` in the records of `x`. -/
theorem setElems_rcd {st own born D} (h : Sub st own born D) (x : Addr) (hx : st.okA x) (e : Option Ptr) (u : Nat) :
    (st.setElems x e).rcd u = if u ∈ st.T x then ⟨e, (st.rcd u).save, (st.rcd u).next, (st.rcd u).prev⟩ else st.rcd u := by
  unfold St.setElems
  dsimp only
  rw [h.chain x hx]
  by_cases q : u ∈ st.T x
  · rw [if_pos (by simpa using q), if_pos q]
  · rw [if_neg (by simpa using q), if_neg q]

theorem reinit_freed {st own born D} (h : Sub st own born D) (a : Addr) (ha : st.okA a) :
    Freed st { st.setElems a none with undo := upd st.undo a none } (fun x => x = a) (fun _ => False) true := by
  have hin : ∀ x, In st (fun x => x = a) (fun _ => False) x ↔ x = a := by
    intro x; unfold In; simp
  refine ⟨rfl, rfl, rfl, rfl, rfl, rfl, rfl, fun d => by simp [St.setElems], ?_, ?_, ?_, ?_⟩
  · intro u hu p hp hi _
    rw [hin] at hi
    show (st.setElems a none).rcd u = _
    rw [setElems_rcd h a ha, if_pos (mem_T.2 ⟨hu, p, hp, hi⟩)]
  · intro u hu
    show (st.setElems a none).rcd u = _
    rw [setElems_rcd h a ha, if_neg]
    intro k
    obtain ⟨k1, p, k2, k3⟩ := mem_T.1 k
    exact hu k1 rfl p k2 ((hin _).2 k3)
  · intro x hx _
    rw [(hin x).1 hx]
    exact upd_same _ _ _
  · intro x hx
    exact upd_ne _ _ (fun e => hx rfl ((hin x).2 e))

theorem free_iter {own : Nat → Addr} {born : Nat → Nat} {r : Bool} {f : Nat} {b g N : Nat}
    (ih : ∀ (st : St) (D : Addr → Prop) (i : Nat), Sub st own born D → st.nb = N → (∀ x, D x → ordA x ≤ b + 1) →
      st.okA (.cell b i) → g = st.gen b → ¬ D (.cell b i) →
      ∃ st' F, freeElt f r st (.cell b i, g) = some st' ∧ Freed st st' (fun x => x = .cell b i) F r ∧
        Under st own born (fun x => x = .cell b i) F (b + 1) (born b)) :
    ∀ (k i : Nat) (st : St) (D : Addr → Prop), Sub st own born D → st.nb = N → (∀ x, D x → ordA x ≤ b + 1) → st.live b = true → g = st.gen b → i + k ≤ st.len b →
      (∀ j, i ≤ j → j < i + k → ¬ D (.cell b j)) →
      ∃ st' F, iter (fun st i => freeElt f r st (.cell b i, g)) i k st = some st' ∧
        Freed st st' (fun x => ∃ j, i ≤ j ∧ j < i + k ∧ x = .cell b j) F r ∧
        Under st own born (fun x => ∃ j, i ≤ j ∧ j < i + k ∧ x = .cell b j) F (b + 1) (born b) := by
  intro k
  induction k with
  | zero =>
    intro i st D hs _ _ _ _ _ _
    refine ⟨st, fun _ => False, rfl, (Freed.refl st r).congr (fun x => ?_) (fun _ => Iff.rfl),
      ⟨fun _ h => h.elim, fun _ h => h.elim, fun _ h => h.elim, fun _ h => h.elim⟩⟩
    unfold In
    constructor
    · rintro (h | ⟨_, _, _, h, _⟩) <;> exact h.elim
    · rintro (⟨j, _, _, _⟩ | ⟨_, _, _, h, _⟩)
      · omega
      · exact h.elim
  | succ k ihk =>
    intro i st D hs hN hD hl hg hle hd
    obtain ⟨st1, F1, e1, f1, u1⟩ := ih st D i hs hN hD ⟨hl, by omega⟩ hg (hd i (by omega) (by omega))
    have nF : ¬ F1 b := fun h => by have := u1.lo b h; omega
    obtain ⟨st2, F2, e2, f2, u2⟩ := ihk (i + 1) st1 _ (f1.sub u1 hs) (f1.nb.trans hN)
      (fun x hx => by
        rcases hx with hx | hx
        · exact hD x hx
        · rw [hx]; exact Nat.le_refl _) ((f1.live b).2 ⟨hl, nF⟩) (by rw [f1.gen]; exact hg)
      (by rw [f1.len]; omega) (fun j h1 h2 h3 => by
        rcases h3 with h3 | h3
        · exact hd j (by omega) (by omega) h3
        · injection h3 with _ h3; omega)
    refine ⟨st2, fun d => F1 d ∨ F2 d, ?_, (f1.trans f2).congr (fun x => ?_) (fun _ => Iff.rfl), ?_, ?_, ?_, ?_⟩
    · unfold iter
      simp only [e1, e2]
    · unfold In
      constructor
      · rintro ((h | ⟨j, h1, h2, h3⟩) | h)
        · exact .inl ⟨i, by omega, by omega, h⟩
        · exact .inl ⟨j, by omega, by omega, h3⟩
        · exact .inr h
      · rintro (⟨j, h1, h2, h3⟩ | h)
        · by_cases e : j = i
          · exact .inl (.inl (e ▸ h3))
          · exact .inl (.inr ⟨j, by omega, by omega, h3⟩)
        · exact .inr h
    · rintro d (h | h)
      · exact u1.live d h
      · exact ((f1.live d).1 (u2.live d h)).1
    · rintro d (h | h)
      · rcases u1.own d h with k1 | ⟨d', i', k1, k2, k3⟩
        · exact .inl ⟨i, by omega, by omega, k1⟩
        · exact .inr ⟨d', i', k1, .inl k2, k3⟩
      · rcases u2.own d h with ⟨j, k1, k2, k3⟩ | ⟨d', i', k1, k2, k3⟩
        · exact .inl ⟨j, by omega, by omega, k3⟩
        · exact .inr ⟨d', i', k1, .inr k2, by rw [← f1.len]; exact k3⟩
    · rintro d (h | h)
      · exact u1.lo d h
      · exact u2.lo d h
    · rintro d (h | h)
      · exact u1.bo d h
      · exact u2.bo d h

/-- `G_Free_Element` frees the blocks under the element, and with `reinit` it makes the undo records of these elements invalid. -/
theorem free_spec (own : Nat → Addr) (born : Nat → Nat) (r : Bool) : ∀ (f : Nat) (st : St) (a : Addr) (g : Nat) (D : Addr → Prop),
    Sub st own born D → st.okA a → g = st.genA a → ¬ D a → (∀ x, D x → ordA x ≤ ordA a) → st.nb - ordA a < f →
    ∃ st' F, freeElt f r st (a, g) = some st' ∧ Freed st st' (fun x => x = a) F r ∧
      Under st own born (fun x => x = a) F (ordA a) (bornA born a) ∧
      (∀ c g' n, st.val a = .arr c g' n → ∀ d, F d → born c ≤ born d ∧ (d = c ∨ ∃ d' i, own d = .cell d' i ∧ F d')) ∧
      ((st.val a).blk = none → ∀ d, ¬ F d) := by
  intro f
  induction f with
  | zero => intro _ _ _ _ _ _ _ _ _ h; omega
  | succ f ih =>
    intro st a g D hs ha hg hd hD hf
    unfold freeElt
    rw [if_neg (by rw [(ok_iff st a g hg).2 ha]; simp)]
    dsimp only
    -- the first step
    have step1 : ∃ st1, (if r then { st.setElems a none with undo := upd st.undo a none } else st) = st1 ∧
        Freed st st1 (fun x => x = a) (fun _ => False) r := by
      cases r with
      | true => exact ⟨_, rfl, reinit_freed hs a ha⟩
      | false =>
        refine ⟨st, rfl, ⟨rfl, rfl, rfl, rfl, rfl, rfl, rfl, fun _ => by simp, ?_, fun _ _ => rfl, ?_, fun _ _ => rfl⟩⟩
        · intro _ _ _ _ _ h; cases h
        · intro _ _ h; cases h
    obtain ⟨st1, e1, f1⟩ := step1
    rw [e1]
    have u1 : Under st own born (fun x => x = a) (fun _ => False) (ordA a) (bornA born a) :=
      ⟨fun _ h => h.elim, fun _ h => h.elim, fun _ h => h.elim, fun _ h => h.elim⟩
    have s1 := f1.sub u1 hs
    have vok := hs.vals a ha hd
    rw [f1.val]
    cases hv : st.val a with
    | term x => exact ⟨st1, _, rfl, f1, u1, (fun _ _ _ e => by cases e), fun _ _ k => k⟩
    | imp => exact ⟨st1, _, rfl, f1, u1, (fun _ _ _ e => by cases e), fun _ _ k => k⟩
    | arr c g' n =>
      obtain ⟨v1, v2, v3, v4, v5, v6, v7⟩ := vok.arr c g' n hv
      have hlive : ∀ d, st1.live d = true ↔ st.live d = true := fun d => by rw [f1.live]; simp
      have hcn := hs.lt_nb c v2
      have ih' : ∀ (st : St) (D : Addr → Prop) (i : Nat), Sub st own born D → st.nb = st1.nb → (∀ x, D x → ordA x ≤ c + 1) →
          st.okA (.cell c i) → g' = st.gen c →
          ¬ D (.cell c i) → ∃ st' F, freeElt f r st (.cell c i, g') = some st' ∧ Freed st st' (fun x => x = .cell c i) F r ∧
            Under st own born (fun x => x = .cell c i) F (c + 1) (born c) := by
        intro s D' i h1 hnb hD' h2 h3 h4
        obtain ⟨s', F, q1, q2, q3, _⟩ := ih s (.cell c i) g' D' h1 h2 h3 h4 hD' (by
          show s.nb - (c + 1) < f
          rw [hnb, f1.nb]
          omega)
        exact ⟨s', F, q1, q2, q3⟩
      have hD1 : ∀ x, (D x ∨ x = a) → ordA x ≤ ordA a := by
        rintro x (h | h)
        · exact hD x h
        · rw [h]; exact Nat.le_refl _
      have ncell : ∀ j, ¬ (D (.cell c j) ∨ .cell c j = a) := fun j h => by
        have := hD1 _ h
        have : c + 1 ≤ ordA a := this
        omega
      obtain ⟨st2, F2, e2, f2, u2⟩ := free_iter ih' n 0 st1 _ s1 rfl (fun x hx => by have := hD1 x hx; omega) ((hlive c).2 v2)
        (by rw [f1.gen]; exact v3) (by rw [f1.len]; omega) (fun j _ _ => ncell j)
      dsimp only
      rw [e2]
      dsimp only
      have nF2 : ¬ F2 c := fun h => by have := u2.lo c h; omega
      have l2 : st2.live c = true := (f2.live c).2 ⟨(hlive c).2 v2, nF2⟩
      have g2 : g' = st2.gen c := by rw [f2.gen, f1.gen]; exact v3
      have n2 : st2.len c = n + 1 := by rw [f2.len, f1.len]; exact v4
      have s2 := f2.sub u2 s1
      rw [if_neg (by rw [(ok_iff st2 (.cell c n) g' g2).2 ⟨l2, by omega⟩]; simp)]
      have step3 : ∃ st3 F3, (if st2.val (.cell c n) = .imp then some st2 else freeElt f r st2 (.cell c n, g')) = some st3 ∧
          Freed st2 st3 (fun x => x = .cell c n) F3 r ∧ Under st2 own born (fun x => x = .cell c n) F3 (c + 1) (born c) := by
        by_cases q : st2.val (.cell c n) = .imp
        · rw [if_pos q]
          have hT : st2.T (.cell c n) = [] := s2.last _ ⟨l2, by omega⟩ (by show ¬ (n + 1 < st2.len c); omega)
          have hU : st2.undo (.cell c n) = none := by
            have := s2.link (.cell c n) ⟨l2, by omega⟩
            rw [hT] at this
            exact this
          have hin : ∀ x, In st2 (fun x => x = .cell c n) (fun _ => False) x ↔ x = .cell c n := by
            intro x; unfold In; simp
          refine ⟨st2, fun _ => False, rfl, ⟨rfl, rfl, rfl, rfl, rfl, rfl, rfl, fun d => by simp, ?_, fun _ _ => rfl, ?_, fun _ _ => rfl⟩,
            ⟨fun _ h => h.elim, fun _ h => h.elim, fun _ h => h.elim, fun _ h => h.elim⟩⟩
          · intro u hu p hp hi _
            have : u ∈ st2.T (.cell c n) := mem_T.2 ⟨hu, p, hp, (hin _).1 hi⟩
            rw [hT] at this
            exact absurd this List.not_mem_nil
          · intro x hx _
            rw [(hin x).1 hx]
            exact hU
        · rw [if_neg q]
          refine ih' st2 _ n s2 f2.nb ?_ ⟨l2, by omega⟩ g2 ?_
          · rintro x (h | ⟨j, _, _, h⟩)
            · have := hD1 x h; omega
            · rw [h]; exact Nat.le_refl _
          · rintro (h | ⟨j, _, h1, h⟩)
            · exact ncell n h
            · injection h with _ h; omega
      obtain ⟨st3, F3, e3, f3, u3⟩ := step3
      rw [e3]
      have nF3 : ¬ F3 c := fun h => by have := u3.lo c h; omega
      have l3 : st3.live c = true := (f3.live c).2 ⟨l2, nF3⟩
      dsimp only
      unfold St.freeBlk
      rw [if_pos l3]
      have f4 : Freed st3 { st3 with live := upd st3.live c false } (fun x => ∃ i, x = .cell c i ∧ i < st3.len c ∧ False) (fun d => d = c) false := by
        refine ⟨rfl, rfl, rfl, rfl, rfl, rfl, rfl, fun d => ?_, (fun _ _ _ _ _ h => by cases h), fun _ _ => rfl, (fun _ _ h => by cases h), fun _ _ => rfl⟩
        show upd st3.live c false d = true ↔ _
        unfold upd
        by_cases e : d = c
        · rw [if_pos e]; simp [e]
        · rw [if_neg e]; simp [e]
      -- all steps
      have f123 := (f1.trans f2).trans f3
      have tot : Freed st { st3 with live := upd st3.live c false } (fun x => x = a) (fun d => (F2 d ∨ F3 d) ∨ d = c) r := by
        have l123 : st3.len = st.len := f123.len
        have hin : ∀ x, In st (fun x => x = a) (fun d => (F2 d ∨ F3 d) ∨ d = c) x ↔
            In st (fun x => (x = a ∨ ∃ j, 0 ≤ j ∧ j < 0 + n ∧ x = .cell c j) ∨ x = .cell c n) (fun d => (False ∨ F2 d) ∨ F3 d) x := by
          intro x
          unfold In
          constructor
          · rintro (h | ⟨b, i, h1, ((h2 | h2) | h2), h3⟩)
            · exact .inl (.inl (.inl h))
            · exact .inr ⟨b, i, h1, .inl (.inr h2), h3⟩
            · exact .inr ⟨b, i, h1, .inr h2, h3⟩
            · subst h2
              rw [v4] at h3
              by_cases e : i = n
              · exact .inl (.inr (e ▸ h1))
              · exact .inl (.inl (.inr ⟨i, by omega, by omega, h1⟩))
          · rintro (((h | ⟨j, _, h2, h3⟩) | h) | ⟨b, i, h1, ((h2 | h2) | h2), h3⟩)
            · exact .inl h
            · exact .inr ⟨c, j, h3, .inr rfl, by rw [v4]; omega⟩
            · exact .inr ⟨c, n, h, .inr rfl, by rw [v4]; omega⟩
            · exact h2.elim
            · exact .inr ⟨b, i, h1, .inl (.inl h2), h3⟩
            · exact .inr ⟨b, i, h1, .inl (.inr h2), h3⟩
        refine ⟨f123.val, f123.gen, f123.len, f123.nb, f123.nu, f123.trail, f123.cps, fun d => ?_,
          fun u hu p hp hi => f123.rc1 u hu p hp ((hin _).1 hi), fun u hu => f123.rc2 u fun h1 h2 p hp hi => hu h1 h2 p hp ((hin _).2 hi),
          fun x hx => f123.un1 x ((hin x).1 hx), fun x hx => f123.un2 x fun hr k => hx hr ((hin x).2 k)⟩
        rw [f4.live, f123.live]
        constructor
        · rintro ⟨⟨h1, h2⟩, h3⟩
          exact ⟨h1, fun k => by
            rcases k with (k | k) | k
            · exact h2 (.inl (.inr k))
            · exact h2 (.inr k)
            · exact h3 k⟩
        · rintro ⟨h1, h2⟩
          exact ⟨⟨h1, fun k => by
            rcases k with (k | k) | k
            · exact k
            · exact h2 (.inl (.inl k))
            · exact h2 (.inl (.inr k))⟩, fun k => h2 (.inr k)⟩
      have live23 : ∀ d, F2 d ∨ F3 d → st.live d = true := by
        rintro d (h | h)
        · exact (hlive d).1 (u2.live d h)
        · exact (hlive d).1 ((f2.live d).1 (u3.live d h)).1
      have lo23 : ∀ d, F2 d ∨ F3 d → c + 1 ≤ d := by
        rintro d (h | h)
        · exact u2.lo d h
        · exact u3.lo d h
      have bo23 : ∀ d, F2 d ∨ F3 d → born c ≤ born d := by
        rintro d (h | h)
        · exact u2.bo d h
        · exact u3.bo d h
      refine ⟨_, _, rfl, tot, ⟨?_, ?_, ?_, ?_⟩, ?_, fun k => by cases k⟩
      · rintro d (h | h)
        · exact live23 d h
        · rw [h]; exact v2
      · rintro d ((h | h) | h)
        · rcases u2.own d h with ⟨j, k1, k2, k3⟩ | ⟨d', i', k1, k2, k3⟩
          · exact .inr ⟨c, j, k3, .inr rfl, by rw [v4]; omega⟩
          · exact .inr ⟨d', i', k1, .inl (.inl k2), by rw [← f1.len]; exact k3⟩
        · rcases u3.own d h with k | ⟨d', i', k1, k2, k3⟩
          · exact .inr ⟨c, n, k, .inr rfl, by rw [v4]; omega⟩
          · exact .inr ⟨d', i', k1, .inl (.inr k2), by rw [← f1.len, ← f2.len]; exact k3⟩
        · rw [h]; exact .inl v6
      · rintro d (h | h)
        · have := lo23 d h; omega
        · rw [h]; exact v5
      · rintro d (h | h)
        · exact Nat.le_trans v7 (bo23 d h)
        · rw [h]; exact v7
      · intro c' g'' n' e d hd'
        injection e with e1 e2 e3
        subst e1
        rcases hd' with h | h
        · refine ⟨bo23 d h, .inr ?_⟩
          rcases h with h | h
          · rcases u2.own d h with ⟨j, k1, k2, k3⟩ | ⟨d', i', k1, k2, k3⟩
            · exact ⟨c, j, k3, .inr rfl⟩
            · exact ⟨d', i', k1, .inl (.inl k2)⟩
          · rcases u3.own d h with k | ⟨d', i', k1, k2, k3⟩
            · exact ⟨c, n, k, .inr rfl⟩
            · exact ⟨d', i', k1, .inl (.inr k2)⟩
        · rw [h]; exact ⟨Nat.le_refl _, .inl rfl⟩

end Gp.GVar
