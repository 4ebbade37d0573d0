import Verif.GVar.NewArr
/-
The extension of an array (`realloc`).
-/
namespace Gp.GVar

/-- The undo records after the array `b` has moved. -/
def reloc (rcd : Nat → Rec) (tr : List Nat) (b g : Nat) (u : Nat) : Rec :=
  match (rcd u).elem with
  | some (.cell b' i, _) => if b' = b ∧ u ∈ tr then ⟨some (.cell b i, g), (rcd u).save, (rcd u).next, (rcd u).prev⟩ else rcd u
  | _ => rcd u

/-- The state after an extension. -/
def growBlk (st : St) (a : Addr) (b g n n' : Nat) (ini : Nat → Int) : St :=
  { st with
    val := fillV b n (n' - n) ini (upd (upd st.val (.cell b n') (st.val (.cell b n))) a (.arr b (g + 1) n'))
    undo := fillU b n (n' - n) (upd st.undo (.cell b n') (st.undo (.cell b n)))
    rcd := reloc st.rcd st.trail b (g + 1)
    gen := upd st.gen b (g + 1)
    len := upd st.len b (n' + 1) }

theorem reloc_on (rcd : Nat → Rec) (tr : List Nat) (b g : Nat) (x : Addr) (u : Nat) : on (reloc rcd tr b g) x u = on rcd x u := by
  unfold on reloc
  split <;> rename_i h
  · split at h
    · split at h
      · rename_i he k
        obtain ⟨k1, k2⟩ := k
        subst k1
        rw [he]
        injection h with h
        subst h
        rfl
      · rw [h]
    · rw [h]
  · split at h
    · split at h
      · cases h
      · rw [h]
    · rw [h]

theorem reloc_rest (rcd : Nat → Rec) (tr : List Nat) (b g u : Nat) : (reloc rcd tr b g u).save = (rcd u).save ∧
    (reloc rcd tr b g u).next = (rcd u).next ∧ (reloc rcd tr b g u).prev = (rcd u).prev := by
  unfold reloc
  split
  · split <;> exact ⟨rfl, rfl, rfl⟩
  · exact ⟨rfl, rfl, rfl⟩

theorem reloc_elem {rcd : Nat → Rec} {tr : List Nat} {b g u : Nat} {p : Ptr} (hu : u ∈ tr) (h : (reloc rcd tr b g u).elem = some p) :
    ∃ q, (rcd u).elem = some q ∧ q.1 = p.1 ∧ p.2 = (match p.1 with | .cell b' _ => if b' = b then g else q.2 | _ => q.2) := by
  unfold reloc at h
  split at h
  · rename_i b' i g' he
    split at h
    · rename_i k
      injection h with h
      subst h
      exact ⟨_, he, by rw [k.1], by dsimp only; rw [if_pos rfl]⟩
    · rename_i k
      refine ⟨p, h, rfl, ?_⟩
      rw [he] at h
      injection h with h
      subst h
      dsimp only
      rw [if_neg (fun e => k ⟨e, hu⟩)]
  · rename_i hne
    refine ⟨p, h, rfl, ?_⟩
    obtain ⟨p1, p2⟩ := p
    cases p1 with
    | root k => rfl
    | cell b' i => exact absurd h (hne b' i p2)

theorem set_iter (b g' : Nat) : ∀ (k i : Nat) (st : St), st.trail.Pairwise (· > ·) → (∀ u ∈ st.trail, u < st.nu) →
    (∀ j, i ≤ j → j < i + k → Linked st.rcd (st.undo (.cell b j)) (st.T (.cell b j))) →
    (∀ j, i ≤ j → j < i + k → st.ok (.cell b j, g') = true) →
    ∃ R, iter (fun st i => if st.ok (.cell b i, g') then some (st.setElems (.cell b i) (some (.cell b i, g'))) else none) i k st =
        some { st with rcd := R } ∧
      ∀ u, R u = (match (st.rcd u).elem with
        | some (.cell b' j, _) => if b' = b ∧ u ∈ st.trail ∧ i ≤ j ∧ j < i + k then
            ⟨some (.cell b j, g'), (st.rcd u).save, (st.rcd u).next, (st.rcd u).prev⟩ else st.rcd u
        | _ => st.rcd u) := by
  intro k
  induction k with
  | zero =>
    intro i st _ _ _ _
    refine ⟨st.rcd, rfl, fun u => ?_⟩
    split
    · rw [if_neg (by omega)]
    · rfl
  | succ k ih =>
    intro i st hs hl hk ho
    have ch : chain st.rcd st.nu (st.undo (.cell b i)) = st.T (.cell b i) :=
      chain_eq _ _ _ _ (hk i (by omega) (by omega)) (desc_length _ _ (hs.filter _) (fun u hu => hl u (mem_T.1 hu).1))
    have e1 : ∀ u, (st.setElems (.cell b i) (some (.cell b i, g'))).rcd u =
        if u ∈ st.T (.cell b i) then ⟨some (.cell b i, g'), (st.rcd u).save, (st.rcd u).next, (st.rcd u).prev⟩ else st.rcd u := by
      intro u
      unfold St.setElems
      dsimp only
      rw [ch]
      by_cases q : u ∈ st.T (.cell b i)
      · rw [if_pos (by simpa using q), if_pos q]
      · rw [if_neg (by simpa using q), if_neg q]
    have on1 : ∀ x, ∀ u, on (st.setElems (.cell b i) (some (.cell b i, g'))).rcd x u = on st.rcd x u := by
      intro x u
      unfold on
      rw [e1]
      by_cases q : u ∈ st.T (.cell b i)
      · rw [if_pos q]
        obtain ⟨_, p, h2, h3⟩ := mem_T.1 q
        rw [h2]
        show decide (Addr.cell b i = x) = decide (p.1 = x)
        rw [h3]
      · rw [if_neg q]
    have T1 : ∀ x, (st.setElems (.cell b i) (some (.cell b i, g'))).T x = st.T x := fun x =>
      List.filter_congr (fun u _ => on1 x u)
    obtain ⟨R, h1, h2⟩ := ih (i + 1) (st.setElems (.cell b i) (some (.cell b i, g'))) hs hl
      (fun j a1 a2 => by
        rw [T1]
        refine linked_congr (fun u _ => ?_) (hk j (by omega) (by omega))
        rw [e1]; split <;> rfl)
      (fun j a1 a2 => ho j (by omega) (by omega))
    refine ⟨R, ?_, fun u => ?_⟩
    · unfold iter
      simp only [ho i (by omega) (by omega), if_true]
      exact h1
    · rw [h2 u, e1 u]
      by_cases q : u ∈ st.T (.cell b i)
      · rw [if_pos q]
        obtain ⟨a1, p, a2, a3⟩ := mem_T.1 q
        obtain ⟨p1, p2⟩ := p
        dsimp only at a3
        subst a3
        rw [a2]
        dsimp only
        rw [if_neg (by omega), if_pos ⟨rfl, a1, by omega, by omega⟩]
      · rw [if_neg q]
        cases he : (st.rcd u).elem with
        | none => rfl
        | some p =>
          obtain ⟨p1, p2⟩ := p
          cases p1 with
          | root _ => rfl
          | cell b' j =>
            dsimp only
            rw [show (st.setElems (.cell b i) (some (.cell b i, g'))).trail = st.trail from rfl]
            have ne : ¬ (b' = b ∧ u ∈ st.trail ∧ j = i) := by
              rintro ⟨z1, z2, z3⟩
              subst z1; subst z3
              exact q (mem_T.2 ⟨z2, _, he, rfl⟩)
            by_cases c : b' = b ∧ u ∈ st.trail ∧ i + 1 ≤ j ∧ j < i + 1 + k
            · rw [if_pos c, if_pos ⟨c.1, c.2.1, by omega, by omega⟩]
            · rw [if_neg c, if_neg]
              rintro ⟨z1, z2, z3, z4⟩
              by_cases z5 : j = i
              · exact ne ⟨z1, z2, z5⟩
              · exact c ⟨z1, z2, by omega, by omega⟩

section
variable {st : St} {own : Nat → Addr} {born : Nat → Nat} {sp : Spec} {a : Addr} {b g n n' : Nat} {ini : Nat → Int}

/-- `G_Alloc_Array` on an array, not backtrackable. -/
theorem alloc_grow (h : CoreE st own born none_) (ha : st.okA a) (hv : st.val a = .arr b g n) (hn : n ≤ n') (G : Nat) :
    allocArray st (a, G) n' false = some ({ st with
      val := upd (upd st.val (.cell b n') (st.val (.cell b n))) a (.arr b (g + 1) n')
      undo := upd st.undo (.cell b n') (st.undo (.cell b n))
      rcd := reloc st.rcd st.trail b (g + 1)
      gen := upd st.gen b (g + 1)
      len := upd st.len b (n' + 1) }, b, g + 1) := by
  obtain ⟨v1, v2, v3, v4, v5, v6, v7⟩ := (h.vers a ha (fun k => k) _ List.mem_cons_self).arr b g n hv
  unfold allocArray
  simp only [hv, v2, ← v3, beq_self_eq_true, Bool.and_self, if_true, Bool.false_eq_true, if_false]
  obtain ⟨R, h1, h2⟩ := set_iter b (g + 1) n 0 { st with gen := upd st.gen b (g + 1), len := upd st.len b (n' + 1) } h.sorted h.lt
    (fun j _ hj => h.link (.cell b j) ⟨v2, by omega⟩)
    (fun j _ hj => by
      rw [ok_iff _ _ _ (by show g + 1 = upd st.gen b (g + 1) b; rw [upd_same])]
      exact ⟨v2, by show j < upd st.len b (n' + 1) b; rw [upd_same]; omega⟩)
  rw [h1]
  dsimp only
  rw [if_pos]
  · have : R = reloc st.rcd st.trail b (g + 1) := by
      funext u
      rw [h2 u]
      unfold reloc
      dsimp only
      split
      · rename_i b' j g' he
        by_cases k : b' = b ∧ u ∈ st.trail
        · obtain ⟨k1, k2⟩ := k
          subst k1
          obtain ⟨_, q2, _, _⟩ := h.elem u k2 _ he
          have : j + 1 < st.len b' := q2
          rw [if_pos ⟨rfl, k2, by omega, by omega⟩, if_pos ⟨rfl, k2⟩]
        · rw [if_neg (fun q => k ⟨q.1, q.2.1⟩), if_neg k]
      · rfl
    rw [this]
  · rw [ok_iff _ _ _ (by show g + 1 = upd st.gen b (g + 1) b; rw [upd_same])]
    exact ⟨v2, by show n < upd st.len b (n' + 1) b; rw [upd_same]; omega⟩

theorem gb_val_ne {x : Addr} (h1 : x ≠ a) (h2 : ∀ i, n ≤ i → i ≤ n' → x ≠ .cell b i) (hn : n ≤ n') :
    (growBlk st a b g n n' ini).val x = st.val x := by
  have : upd (upd st.val (.cell b n') (st.val (.cell b n))) a (.arr b (g + 1) n') x = st.val x := by
    rw [upd_ne _ _ h1, upd_ne _ _ (h2 n' hn (Nat.le_refl _))]
  show fillV b n (n' - n) ini _ x = _
  cases x with
  | root k => exact this
  | cell b' i =>
    unfold fillV; dsimp only
    rw [if_neg, this]
    rintro ⟨e, e1, e2⟩
    subst e
    exact h2 i e1 (by omega) rfl

theorem gb_val_in {i : Nat} (h1 : n ≤ i) (h2 : i < n') : (growBlk st a b g n n' ini).val (.cell b i) = .term (ini i) := by
  show fillV b n (n' - n) ini _ (.cell b i) = _
  unfold fillV; dsimp only
  rw [if_pos ⟨rfl, by omega, by omega⟩]

theorem gb_val_last (h1 : a ≠ .cell b n') (hn : n ≤ n') : (growBlk st a b g n n' ini).val (.cell b n') = st.val (.cell b n) := by
  show fillV b n (n' - n) ini _ (.cell b n') = _
  unfold fillV; dsimp only
  rw [if_neg (by omega), upd_ne _ _ (fun e => h1 e.symm), upd_same]

theorem gb_val_a (h1 : ∀ i, a ≠ .cell b i) : (growBlk st a b g n n' ini).val a = .arr b (g + 1) n' := by
  show fillV b n (n' - n) ini _ a = _
  cases a with
  | root k => unfold fillV; dsimp only; rw [upd_same]
  | cell b' i =>
    unfold fillV; dsimp only
    rw [if_neg (by rintro ⟨e, _⟩; exact h1 i (by rw [e])), upd_same]

theorem gb_undo_ne {x : Addr} (h2 : ∀ i, n ≤ i → i ≤ n' → x ≠ .cell b i) (hn : n ≤ n') :
    (growBlk st a b g n n' ini).undo x = st.undo x := by
  have : upd st.undo (.cell b n') (st.undo (.cell b n)) x = st.undo x := by
    rw [upd_ne _ _ (h2 n' hn (Nat.le_refl _))]
  show fillU b n (n' - n) _ x = _
  cases x with
  | root k => exact this
  | cell b' i =>
    unfold fillU; dsimp only
    rw [if_neg, this]
    rintro ⟨e, e1, e2⟩
    subst e
    exact h2 i e1 (by omega) rfl

theorem gb_undo_in {i : Nat} (h1 : n ≤ i) (h2 : i ≤ n') (h3 : st.undo (.cell b n) = none) :
    (growBlk st a b g n n' ini).undo (.cell b i) = none := by
  show fillU b n (n' - n) _ (.cell b i) = _
  unfold fillU; dsimp only
  by_cases e : i = n'
  · subst e; rw [if_neg (by omega), upd_same, h3]
  · rw [if_pos ⟨rfl, by omega, by omega⟩]

/-- The extension of the array in `a`. -/
theorem grow_core (h : CoreE st own born none_) (hr : Rel st sp none_) (ha : st.okA a) (hv : st.val a = .arr b g n) (hn : n ≤ n') :
    CoreE (growBlk st a b g n n' ini) own born none_ ∧ Rel (growBlk st a b g n n' ini) (sp.grow b n' ini) none_ := by
  obtain ⟨v1, v2, v3, v4, v5, v6, v7⟩ := (h.vers a ha (fun k => k) _ List.mem_cons_self).arr b g n hv
  have an : ∀ i, a ≠ .cell b i := fun i e => by
    subst e
    have : b + 1 ≤ b := v5
    omega
  have lb : sp.len b = n := by have := hr.len b v2; omega
  have lnT : st.T (.cell b n) = [] := h.sub.last _ ⟨v2, by omega⟩ (by show ¬ (n + 1 < st.len b); omega)
  have lnU : st.undo (.cell b n) = none := by
    have := h.link (.cell b n) ⟨v2, by omega⟩
    rw [lnT] at this
    exact this
  have glen : ∀ c, (growBlk st a b g n n' ini).len c = if c = b then n' + 1 else st.len c := fun _ => rfl
  have ggen : ∀ c, (growBlk st a b g n n' ini).gen c = if c = b then g + 1 else st.gen c := fun _ => rfl
  have glive : (growBlk st a b g n n' ini).live = st.live := rfl
  have gT : ∀ x, (growBlk st a b g n n' ini).T x = st.T x := fun x => List.filter_congr (fun u _ => reloc_on _ _ _ _ _ _)
  have gsave : ∀ u, ((growBlk st a b g n n' ini).rcd u).save = (st.rcd u).save := fun u => (reloc_rest _ _ _ _ _).1
  have gnext : ∀ u, ((growBlk st a b g n n' ini).rcd u).next = (st.rcd u).next := fun u => (reloc_rest _ _ _ _ _).2.1
  have gprev : ∀ u, ((growBlk st a b g n n' ini).rcd u).prev = (st.rcd u).prev := fun u => (reloc_rest _ _ _ _ _).2.2
  have ok1 : ∀ x, st.okA x → (growBlk st a b g n n' ini).okA x := by
    intro x hx
    cases x with
    | root k => trivial
    | cell c i =>
      refine ⟨hx.1, ?_⟩
      rw [glen]
      have := hx.2
      split
      · subst c; omega
      · exact this
  have in1 : ∀ x, st.inner x → (growBlk st a b g n n' ini).inner x := by
    intro x hx
    cases x with
    | root k => trivial
    | cell c i =>
      show i + 1 < (growBlk st a b g n n' ini).len c
      rw [glen]
      have : i + 1 < st.len c := hx
      split
      · subst c; omega
      · exact this
  -- the elements which are not new
  have dich : ∀ x, (growBlk st a b g n n' ini).okA x → (∃ i, n ≤ i ∧ i ≤ n' ∧ x = .cell b i) ∨
      (st.okA x ∧ (st.inner x ↔ (growBlk st a b g n n' ini).inner x) ∧ ∀ i, n ≤ i → i ≤ n' → x ≠ .cell b i) := by
    intro x hx
    cases x with
    | root k => exact .inr ⟨trivial, Iff.rfl, fun i _ _ e => by cases e⟩
    | cell c i =>
      obtain ⟨hx1, hx2⟩ := hx
      rw [glen] at hx2
      by_cases e : c = b
      · subst e
        rw [if_pos rfl] at hx2
        by_cases q : n ≤ i
        · exact .inl ⟨i, q, by omega, rfl⟩
        · refine .inr ⟨⟨hx1, by omega⟩, ?_, ?_⟩
          · show i + 1 < st.len c ↔ i + 1 < (growBlk st a c g n n' ini).len c
            rw [glen, if_pos rfl]
            omega
          · intro j h1 h2 e; injection e; omega
      · rw [if_neg e] at hx2
        refine .inr ⟨⟨hx1, hx2⟩, ?_, fun j _ _ k => e (by injection k)⟩
        show i + 1 < st.len c ↔ i + 1 < (growBlk st a b g n n' ini).len c
        rw [glen, if_neg e]
  have Tn : ∀ i, n ≤ i → (growBlk st a b g n n' ini).T (.cell b i) = [] := by
    intro i hi
    rw [gT]
    refine List.eq_nil_iff_forall_not_mem.2 fun u hu => ?_
    obtain ⟨h1, p, h2, h3⟩ := mem_T.1 hu
    have := (h.elem u h1 p h2).2.1
    rw [h3] at this
    have : i + 1 < st.len b := this
    omega
  have inn : ∀ i, (growBlk st a b g n n' ini).inner (.cell b i) ↔ i < n' := fun i => by
    show i + 1 < (growBlk st a b g n n' ini).len b ↔ _
    rw [glen, if_pos rfl]; omega
  have vn : ∀ i, n ≤ i → i ≤ n' → (growBlk st a b g n n' ini).vers (.cell b i) = [if i < n' then .term (ini i) else st.val (.cell b n)] := by
    intro i h1 h2
    unfold St.vers
    rw [Tn i h1]
    by_cases q : i < n'
    · rw [if_pos q, gb_val_in h1 q]; rfl
    · have : i = n' := by omega
      subst this
      rw [if_neg q, gb_val_last (an i) hn]; rfl
  have gmap : ∀ x, (st.T x).map (fun u => ((growBlk st a b g n n' ini).rcd u).save) = (st.T x).map (fun u => (st.rcd u).save) := fun x =>
    List.map_congr_left fun u _ => gsave u
  have va : (growBlk st a b g n n' ini).vers a = .arr b (g + 1) n' :: (st.T a).map (fun u => (st.rcd u).save) := by
    unfold St.vers
    rw [gT, gmap, gb_val_a an]
  have vx : ∀ x, x ≠ a → (∀ i, n ≤ i → i ≤ n' → x ≠ .cell b i) → (growBlk st a b g n n' ini).vers x = st.vers x := by
    intro x h1 h2
    unfold St.vers
    rw [gT, gmap, gb_val_ne h1 h2 hn]
  have lastOk := h.vers (.cell b n) ⟨v2, by omega⟩ (fun k => k) _ List.mem_cons_self
  have lastNo : (st.val (.cell b n)).blk = none := by
    cases hq : st.val (.cell b n) with
    | term x => rfl
    | imp => rfl
    | arr c g' m =>
      have : n + 1 < st.len b := (lastOk.arr c g' m hq).1
      omega
  have blkN : ∀ i, (if i < n' then Val.term (ini i) else st.val (.cell b n)).blk = none := by
    intro i
    split
    · rfl
    · exact lastNo
  have nda := h.nodup a ha (fun k => k)
  unfold St.vers at nda
  rw [hv, List.filterMap_cons_some (by rfl : Val.blk (.arr b g n) = some b), List.nodup_cons] at nda
  -- values which do not mention `b`
  have vok : ∀ x w, w.blk ≠ some b → (st.inner x ↔ (growBlk st a b g n n' ini).inner x) → VOk st own born x w →
      VOk (growBlk st a b g n n' ini) own born x w := by
    intro x w hb hi k
    refine ⟨fun e => by rw [← hi]; exact k.imp e, fun c g' m e => ?_⟩
    obtain ⟨q1, q2, q3, q4, q5⟩ := k.arr c g' m e
    have nc : c ≠ b := fun z => by subst z; rw [e] at hb; exact hb rfl
    exact ⟨hi.1 q1, q2, by rw [ggen, if_neg nc]; exact q3, by rw [glen, if_neg nc]; exact q4, q5⟩
  have nob : ∀ x, st.okA x → x ≠ a → ∀ w ∈ st.vers x, w.blk ≠ some b := by
    intro x hx hne w hw e
    cases w with
    | term y => cases e
    | imp => cases e
    | arr c g' m =>
      injection e with e
      subst e
      exact hne (by rw [← ((h.vers x hx (fun k => k) _ hw).arr _ _ _ rfl).2.2.2.2.2.1]; exact v6)
  have ia : st.inner a ↔ (growBlk st a b g n n' ini).inner a := ⟨in1 a, fun _ => v1⟩
  refine ⟨⟨h.sorted, h.lt, ?_, ?_, ?_, ?_, ?_, ?_, ?_, h.lt_nb, h.born⟩, ⟨hr.next, ?_, ?_, ?_, ?_, hr.cps⟩⟩
  · intro u hu p hp
    obtain ⟨q, q1, q2, q3⟩ := reloc_elem hu hp
    obtain ⟨k1, k2, k3, k4⟩ := h.elem u hu q q1
    rw [q2] at k1 k2 k3 k4
    refine ⟨ok1 _ k1, in1 _ k2, ?_, k4⟩
    rw [q3]
    cases hp1 : p.1 with
    | root k => rw [hp1] at k3; exact k3
    | cell c i =>
      rw [hp1] at k3
      show _ = (growBlk st a b g n n' ini).gen c
      rw [ggen]
      dsimp only
      rw [k3]; rfl
  · intro x hx
    have hl : Linked (growBlk st a b g n n' ini).rcd (st.undo x) (st.T x) ∨ ∃ i, n ≤ i ∧ i ≤ n' ∧ x = .cell b i := by
      rcases dich x hx with k | ⟨k1, _, _⟩
      · exact .inr k
      · exact .inl (linked_congr (fun u _ => gnext u) (h.link x k1))
    rcases dich x hx with ⟨i, k1, k2, rfl⟩ | ⟨k1, _, k3⟩
    · rw [Tn i k1]
      exact gb_undo_in k1 k2 lnU
    · rw [gT, gb_undo_ne k3 hn]
      exact linked_congr (fun u _ => gnext u) (h.link x k1)
  · intro u hu w hw
    rw [gnext] at hw
    exact h.next u hu w hw
  · intro u hu w hw
    rw [gprev] at hw
    rw [gnext]
    exact h.prev u hu w hw
  · intro x hx _ w hw
    by_cases e : x = a
    · subst e
      rw [va] at hw
      rcases List.mem_cons.1 hw with k | k
      · subst k
        refine ⟨(fun e => by cases e), fun c g' m e => ?_⟩
        injection e with e1 e2 e3
        subst e1; subst e2; subst e3
        exact ⟨in1 x v1, v2, by rw [ggen, if_pos rfl], by rw [glen, if_pos rfl], v5, v6, v7⟩
      · refine vok x w (fun e => nda.1 (List.mem_filterMap.2 ⟨w, k, e⟩)) ia (h.vers x ha (fun k => k) w (List.mem_cons_of_mem _ k))
    · rcases dich x hx with ⟨i, k1, k2, rfl⟩ | ⟨k1, k2, k3⟩
      · rw [vn i k1 k2] at hw
        have ew : w = if i < n' then .term (ini i) else st.val (.cell b n) := by simpa using hw
        have hb := blkN i
        rw [← ew] at hb
        refine ⟨fun q => ?_, fun c g' m q => by rw [q] at hb; cases hb⟩
        rw [inn]
        intro k
        rw [if_pos k] at ew
        rw [q] at ew; cases ew
      · rw [vx x e k3] at hw
        exact vok x w (nob x k1 e w hw) k2 (h.vers x k1 (fun k => k) w hw)
  · intro x hx _
    by_cases e : x = a
    · subst e
      rw [va, List.filterMap_cons_some (by rfl : Val.blk (.arr b (g + 1) n') = some b), List.nodup_cons]
      exact nda
    · rcases dich x hx with ⟨i, k1, k2, rfl⟩ | ⟨k1, k2, k3⟩
      · rw [vn i k1 k2, List.filterMap_cons_none (blkN i)]
        exact List.nodup_nil
      · rw [vx x e k3]; exact h.nodup x k1 (fun k => k)
  · intro x hx _
    have go : ∀ v, After st.rcd born v (st.T x) → After (growBlk st a b g n n' ini).rcd born v (st.T x) := fun v k =>
      after_congr (fun u _ => gsave u) (fun _ _ => Nat.le_refl _) (fun _ _ _ _ => Nat.le_refl _) k
    by_cases e : x = a
    · subst e
      rw [gT, gb_val_a an]
      have k := h.after x ha (fun k => k)
      rw [hv] at k
      apply go
      cases hT : st.T x with
      | nil => trivial
      | cons u l => rw [hT] at k; exact ⟨k.1, k.2⟩
    · rcases dich x hx with ⟨i, k1, k2, rfl⟩ | ⟨k1, k2, k3⟩
      · rw [Tn i k1]; trivial
      · rw [gT, gb_val_ne e k3 hn]; exact go _ (h.after x k1 (fun k => k))
  · intro c hc
    rw [glen]
    show _ = upd sp.len b n' c + 1
    unfold upd
    split
    · rfl
    · exact hr.len c hc
  · intro c hc
    show (growBlk st a b g n n' ini).val (.cell c (upd sp.len b n' c)) = match sp.dflt c with | none => Val.imp | some d => Val.term d
    by_cases e : c = b
    · subst e
      rw [upd_same, gb_val_last (an n') hn, ← lb]
      exact hr.dflt c hc
    · rw [upd_ne _ _ e, gb_val_ne _ (fun i _ _ k => e (by injection k)) hn]
      · exact hr.dflt c hc
      · intro k
        subst k
        have := hr.len c hc
        have : sp.len c + 1 < st.len c := v1
        omega
  · intro x hx hi _
    show fill b (sp.len b) n' ini sp.cur x = _
    rw [lb]
    by_cases e : x = a
    · subst e
      rw [fill_ne an, gb_val_a an, hr.cur x ha v1 (fun k => k), hv]; rfl
    · rcases dich x hx with ⟨i, k1, k2, rfl⟩ | ⟨k1, k2, k3⟩
      · have hi := (inn i).1 hi
        rw [gb_val_in k1 hi]
        unfold fill; dsimp only
        rw [if_pos ⟨rfl, k1, hi⟩]; rfl
      · rw [gb_val_ne e k3 hn]
        have : fill b n n' ini sp.cur x = sp.cur x := by
          cases x with
          | root k => rfl
          | cell c i =>
            unfold fill; dsimp only
            rw [if_neg]
            rintro ⟨z1, z2, z3⟩
            exact k3 i z2 (by omega) (by rw [z1])
        rw [this]
        exact hr.cur x k1 (k2.2 hi) (fun k => k)
  · refine forall₂_map (fun s trb k => ⟨k.1, fun x hx hi _ => ?_⟩) hr.sh
    show fill b (sp.len b) n' ini s x = (oldVal (growBlk st a b g n n' ini).rcd x (st.trail.take (st.trail.length - trb)) _).abs
    rw [lb, oldVal_congr (rcd := st.rcd) (rcd' := (growBlk st a b g n n' ini).rcd) (fun w _ => ⟨reloc_on _ _ _ _ _ _, gsave w⟩)]
    by_cases e : x = a
    · subst e
      rw [fill_ne an, gb_val_a an, k.2 x ha v1 (fun k => k), hv]
      have : ∀ (l : List Nat) (v w : Val), v.abs = w.abs → (oldVal st.rcd x l v).abs = (oldVal st.rcd x l w).abs := by
        intro l
        induction l with
        | nil => intro v w e; exact e
        | cons u l ih =>
          intro v w e
          unfold oldVal
          apply ih
          split
          · rfl
          · exact e
      exact this _ _ _ rfl
    · rcases dich x hx with ⟨i, k1, k2, rfl⟩ | ⟨k1, k2, k3⟩
      · have hi := (inn i).1 hi
        have tn := Tn i k1
        rw [gT] at tn
        rw [gb_val_in k1 hi, oldVal_none (fun w hw => T_nil_on tn w (List.mem_of_mem_take hw))]
        unfold fill; dsimp only
        rw [if_pos ⟨rfl, k1, hi⟩]; rfl
      · rw [gb_val_ne e k3 hn]
        have : fill b n n' ini s x = s x := by
          cases x with
          | root k => rfl
          | cell c i =>
            unfold fill; dsimp only
            rw [if_neg]
            rintro ⟨z1, z2, z3⟩
            exact k3 i z2 (by omega) (by rw [z1])
        rw [this]
        exact k.2 x k1 (k2.2 hi) (fun k => k)

end

theorem iter_copy (b g n' : Nat) (d : Int) : ∀ (k i : Nat) (st : St), (∀ j, i ≤ j → j < i + k → st.ok (.cell b j, g) = true) →
    st.ok (.cell b n', g) = true → st.val (.cell b n') = .term d → i + k ≤ n' →
    iter (fun st j => copyElt (st.nb + 1) st (.cell b j, g) (.cell b n', g)) i k st =
      some { st with val := fillV b i k (fun _ => d) st.val, undo := fillU b i k st.undo }
  | 0, i, st, _, _, _, _ => by
    unfold iter
    rw [fillV_zero, fillU_zero]
  | k + 1, i, st, h, ho, hd, hk => by
    have hi := h i (by omega) (by omega)
    have e : copyElt (st.nb + 1) st (.cell b i, g) (.cell b n', g) =
        some { st with val := upd st.val (.cell b i) (.term d), undo := upd st.undo (.cell b i) none } := by
      unfold copyElt
      rw [if_neg (by rw [hi, ho]; simp)]
      dsimp only
      rw [hd]
      dsimp only
      unfold St.wr
      rw [if_pos hi]
    unfold iter
    simp only [e]
    rw [iter_copy b g n' d k (i + 1) { st with val := upd st.val (.cell b i) (.term d), undo := upd st.undo (.cell b i) none }
      (fun j h1 h2 => h j (by omega) (by omega)) ho
      (by show upd st.val (.cell b i) (.term d) (.cell b n') = _; rw [upd_ne _ _ (by intro e; injection e; omega)]; exact hd) (by omega)]
    have := fillV_succ b i k (fun _ => d) st.val
    simp only [this, fillU_succ]

end Gp.GVar
