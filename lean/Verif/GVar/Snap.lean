import Verif.GVar.Main
/-
The copy of a choice point changes only by assignments which are not backtrackable.
-/
namespace Gp.GVar

/-- The operations stay above the choice point, which is the `d`-th from the newest. -/
def Stays : Nat → List Op → Prop
  | _, [] => True
  | d, .create :: l => Stays (d + 1) l
  | d, .retry :: l => 0 < d ∧ Stays d l
  | d, .trust :: l => 0 < d ∧ Stays (d - 1) l
  | d, .cut n :: l => n ≤ d ∧ Stays (d - n) l
  | d, _ :: l => Stays d l

/-- The final number of newer choice points is 0. -/
def depth : Nat → List Op → Nat
  | d, [] => d
  | d, .create :: l => depth (d + 1) l
  | d, .trust :: l => depth (d - 1) l
  | d, .cut n :: l => depth (d - n) l
  | d, _ :: l => depth d l

/-- The operation does not increment the variable `k` and does not assign an array to it. -/
def Plain (k : Nat) : Op → Prop
  | .assign k' [] (.arr _ _ _ _) => k' ≠ k
  | .inc k' [] _ => k' ≠ k
  | _ => True

/-- The last value assigned to `k` by `g_assign`, `x` at the beginning. -/
def lastAssign (k : Nat) : Int → List Op → Int
  | x, [] => x
  | x, .assign k' [] (.term y) :: l => lastAssign k (if k' = k then y else x) l
  | x, _ :: l => lastAssign k x l

/-- The copy number `d` gives `x` to `k`. -/
def Has (k : Nat) (sp : Spec) (d : Nat) (x : Int) : Prop := ∃ s, sp.sh[d]? = some s ∧ s (.root k) = .term x

theorem has_all {k sp d x} (f : (Addr → SV) → Addr → SV) (y : Int) (hf : ∀ s : Addr → SV, s (.root k) = .term x → f s (.root k) = .term y)
    (h : Has k sp d x) {sp' : Spec} (e : sp'.sh = sp.sh.map f) : Has k sp' d y := by
  obtain ⟨s, h1, h2⟩ := h
  exact ⟨f s, by rw [e, List.getElem?_map, h1]; rfl, hf s h2⟩

theorem has_grow {k sp d x} (b n : Nat) (ini : Nat → Int) (h : Has k sp d x) : Has k (sp.grow b n ini) d x :=
  has_all (fill b (sp.len b) n ini) x (fun _ e => e) h rfl

theorem has_new {k sp d x} (n : Nat) (ini : Nat → Int) (e : Option Int) (h : Has k sp d x) : Has k (sp.new n ini e) d x :=
  has_all (fill sp.next 0 n ini) x (fun _ e => e) h rfl

theorem has_put {k sp d x} (a : Addr) (v : SV) (bt : Bool) (ha : bt = true ∨ a ≠ .root k) (h : Has k sp d x) : Has k (sp.put a v bt) d x := by
  unfold Spec.put
  cases bt with
  | true => exact h
  | false =>
    have ha : a ≠ .root k := by
      rcases ha with q | q
      · cases q
      · exact q
    exact has_all (fun s => upd s a v) x (fun s e => by rw [upd_ne _ _ (fun q => ha q.symm)]; exact e) h rfl

theorem has_target {k d x} : ∀ (path : List Nat) (sp : Spec) (a : Addr), Has k sp d x → Has k (sp.target a path).1 d x
  | [], sp, a, h => h
  | i :: path, sp, a, h => by
    unfold Spec.target
    split
    · exact h
    · split
      · exact has_target path sp _ h
      · split
        · exact h
        · split
          · exact h
          · exact has_target path _ _ (has_grow _ _ _ h)

theorem target_cell : ∀ (path : List Nat) (sp : Spec) (a : Addr) (sp' : Spec) (x : Addr), sp.target a path = (sp', some x) → path ≠ [] →
    ∃ b i, x = .cell b i
  | [], _, _, _, _, _, h => absurd rfl h
  | i :: path, sp, a, sp', x, h, _ => by
    have cellCase : ∀ (sp : Spec) (b j : Nat), sp.target (.cell b j) path = (sp', some x) → ∃ b i, x = .cell b i := by
      intro sp b j e
      cases path with
      | nil =>
        unfold Spec.target at e
        injection e with _ e
        injection e with e
        exact ⟨b, j, e.symm⟩
      | cons i' path' => exact target_cell (i' :: path') sp _ sp' x e (by simp)
    unfold Spec.target at h
    split at h
    · cases h
    · split at h
      · exact cellCase _ _ _ h
      · split at h
        · cases h
        · split at h
          · cases h
          · exact cellCase _ _ _ h

theorem has_with {k sp d x} (k' : Nat) (path : List Nat) (F : Spec → Addr → Spec)
    (hF : ∀ s a, (∃ b i, a = .cell b i) ∨ (path = [] ∧ a = .root k') → Has k s d x → Has k (F s a) d x) (h : Has k sp d x) :
    Has k (sp.withTarget k' path F) d x := by
  unfold Spec.withTarget
  have ht := has_target path sp (.root k') h
  split
  · rename_i s e; rw [e] at ht; exact ht
  · rename_i s a e
    rw [e] at ht
    refine hF s a ?_ ht
    by_cases q : path = []
    · subst q
      unfold Spec.target at e
      injection e with _ e
      injection e with e
      exact .inr ⟨rfl, e.symm⟩
    · exact .inl (target_cell path sp _ s a e q)

theorem has_assign {k sp d x} (a : Addr) (bt : Bool) (v : New) (ha : bt = true ∨ a ≠ .root k) (h : Has k sp d x) : Has k (sp.assign a bt v) d x := by
  unfold Spec.assign
  split
  · exact has_put _ _ _ ha h
  · split
    · exact has_grow _ _ _ h
    · exact has_put _ _ _ ha (has_new _ _ _ h)

theorem has_ops {k : Nat} : ∀ (ops : List Op) (sp : Spec) (d : Nat) (x : Int), Stays d ops → (∀ op ∈ ops, Plain k op) → Has k sp d x →
    Has k (ops.foldl Spec.step sp) (depth d ops) (lastAssign k x ops)
  | [], _, _, _, _, _, h => h
  | op :: l, sp, d, x, hs, hp, h => by
    have hp' : ∀ op ∈ l, Plain k op := fun o ho => hp o (by simp [ho])
    have hop := hp op (by simp)
    rw [List.foldl_cons]
    have ne : ∀ (a : Addr), (∃ b i, a = .cell b i) → a ≠ .root k := fun a ⟨b, i, e⟩ q => by rw [e] at q; cases q
    cases op with
    | assign k' path v =>
      by_cases q : path = [] ∧ ∃ y, v = .term y
      · obtain ⟨q1, y, q2⟩ := q
        subst q1; subst q2
        refine has_ops l _ d (if k' = k then y else x) hs hp' ?_
        show Has k (sp.put (.root k') (.term y) false) d _
        by_cases e : k' = k
        · subst e
          rw [if_pos rfl]
          exact has_all (fun s => upd s (.root k') (.term y)) y (fun s _ => upd_same _ _ _) h rfl
        · rw [if_neg e]
          exact has_put _ _ _ (.inr fun z => e (by injection z)) h
      · have el : lastAssign k x (.assign k' path v :: l) = lastAssign k x l := by
          cases path with
          | nil => cases v with
            | term y => exact absurd ⟨rfl, y, rfl⟩ q
            | arr _ _ _ _ => rfl
          | cons _ _ => cases v <;> rfl
        rw [el]
        refine has_ops l _ d x hs hp' (has_with k' path _ (fun s a ha hh => ?_) h)
        split
        · refine has_assign _ _ _ (.inr ?_) hh
          rcases ha with ha | ⟨z1, z2⟩
          · exact ne a ha
          · subst z1; subst z2
            cases v with
            | term y => exact absurd ⟨rfl, y, rfl⟩ q
            | arr _ _ _ _ => intro z; injection z with z; exact hop z
        · exact hh
    | assignb k' path v =>
      refine has_ops l _ d x hs hp' (has_with k' path _ (fun s a ha hh => ?_) h)
      split
      · exact has_assign _ _ _ (.inl rfl) hh
      · exact hh
    | read k' path => exact has_ops l _ d x hs hp' (has_with k' path _ (fun s a ha hh => hh) h)
    | inc k' path y =>
      refine has_ops l _ d x hs hp' (has_with k' path _ (fun s a ha hh => ?_) h)
      unfold Spec.inc
      split
      · have : a ≠ .root k := by
          rcases ha with ha | ⟨z1, z2⟩
          · exact ne a ha
          · subst z1; subst z2
            intro z; injection z with z; exact hop z
        exact has_all (fun s => upd s a _) x (fun s e => by rw [upd_ne _ _ (fun q => this q.symm)]; exact e) hh rfl
      · exact hh
    | create =>
      obtain ⟨s, h1, h2⟩ := h
      exact has_ops l _ (d + 1) x hs hp' ⟨s, h1, h2⟩
    | retry =>
      obtain ⟨s, h1, h2⟩ := h
      refine has_ops l _ d x hs.2 hp' ?_
      unfold Spec.step
      dsimp only
      split <;> exact ⟨s, h1, h2⟩
    | trust =>
      obtain ⟨s, h1, h2⟩ := h
      refine has_ops l _ (d - 1) x hs.2 hp' ?_
      have := hs.1
      unfold Spec.step
      dsimp only
      cases hsh : sp.sh with
      | nil => rw [hsh] at h1; cases h1
      | cons c r =>
        rw [hsh] at h1
        obtain ⟨d', rfl⟩ : ∃ d', d = d' + 1 := ⟨d - 1, by omega⟩
        exact ⟨s, h1, h2⟩
    | cut n =>
      obtain ⟨s, h1, h2⟩ := h
      refine has_ops l _ (d - n) x hs.2 hp' ⟨s, ?_, h2⟩
      show (sp.sh.drop n)[d - n]? = some s
      rw [List.getElem?_drop, show n + (d - n) = d by have := hs.1; omega]
      exact h1

end Gp.GVar
