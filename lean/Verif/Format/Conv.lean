import Verif.Format.Run
/- What completes is a documented format. -/
namespace Gp.Format
open Spec

/-- No `~` followed by a space or a minus sign: the code skips them before `N`. -/
def plainTilde (fmt : List Nat) : Prop := ∀ pre c post, fmt = pre ++ [126, c] ++ post → isSpace c = false ∧ c ≠ 45

theorem plainTilde_suffix {a b : List Nat} (h : plainTilde (a ++ b)) : plainTilde b := by
  intro pre d post e
  exact h (a ++ pre) d post (by rw [e]; simp)

theorem strtol_plain {fmt : List Nat} (h1 : plainTilde (126 :: fmt)) (h2 : noPlusDigit (126 :: fmt)) :
    strtol fmt = (value (fmt.takeWhile isDigit), fmt.dropWhile isDigit) := by
  cases fmt with
  | nil => rfl
  | cons c fmt =>
    have hc := h1 [] c fmt rfl
    have e1 : (c :: fmt).dropWhile isSpace = c :: fmt := by simp [hc.1]
    unfold strtol
    simp only [e1, List.head?_cons, Option.some.injEq, List.tail_cons, hc.2, false_or, if_false]
    by_cases h43 : c = 43
    · subst h43
      have hd : fmt.takeWhile isDigit = [] := by
        cases fmt with
        | nil => rfl
        | cons d fmt =>
          rw [List.takeWhile_cons, if_neg]
          have := h2 [] d fmt rfl
          simp only [isDigit]; simp; omega
      simp only [if_true, hd]
      rfl
    · simp only [if_neg h43]
      split
      · next he =>
        have hn : isDigit c = false := by
          cases hb : isDigit c with
          | false => rfl
          | true => rw [List.takeWhile_cons, if_pos hb] at he; cases he
        simp [hn, value]
      · rfl

theorem dropWhile_length (l : List Nat) : (l.takeWhile isDigit).length + (l.dropWhile isDigit).length = l.length := by
  rw [← List.length_append, List.takeWhile_append_dropWhile]

theorem takeWhile_mem {l : List Nat} : ∀ c ∈ l.takeWhile isDigit, 48 ≤ c ∧ c ≤ 57 := by
  induction l with
  | nil => intro c h; cases h
  | cons d l ih =>
    intro c h
    rw [List.takeWhile_cons] at h
    split at h
    · next hd =>
      rcases List.mem_cons.1 h with rfl | h
      · simpa [isDigit] using hd
      · exact ih c h
    · cases h

theorem header_inv {fmt : List Nat} {as : List Arg} {n : Option Int} {rest : List Nat} {as1 : List Arg}
    (h1 : plainTilde (126 :: fmt)) (h2 : noPlusDigit (126 :: fmt)) (h : header fmt as = .ok (n, rest, as1)) :
    ∃ N, fmt = N ++ rest ∧ Num N as n as1 := by
  unfold header at h
  split at h
  · next fmt =>
    split at h
    · cases h
    · next a as =>
      split at h
      · cases h
      · next x hx =>
        split at h
        · cases h
        · cases h; exact ⟨[42], rfl, .star _ hx (by omega)⟩
  · cases h; exact ⟨[96, _], rfl, .char _ _⟩
  · rw [strtol_plain h1 h2] at h
    simp only at h
    split at h
    · cases h
    · next hr =>
      have hl := dropWhile_length fmt
      cases h
      by_cases he : fmt.takeWhile isDigit = []
      · have : (fmt.dropWhile isDigit) = fmt := by
          have := List.takeWhile_append_dropWhile (p := isDigit) (l := fmt)
          rw [he] at this; exact this
        rw [this, if_pos rfl]
        exact ⟨[], rfl, .none _⟩
      · have := List.length_pos_iff.2 he
        rw [if_neg (by omega)]
        exact ⟨_, (List.takeWhile_append_dropWhile).symm, .digits _ he takeWhile_mem (by omega)⟩

theorem withArg_inv {α : Type} {as : List Arg} {r : Arg → Option α} {k : α → List Arg → TRes} {t : Txt} {as' : List Arg}
    (h : withArg as r k = .txt t as') : ∃ a x as1, as = a :: as1 ∧ r a = some x ∧ k x as1 = .txt t as' := by
  unfold withArg at h
  split at h
  · cases h
  · next a as =>
    split at h
    · cases h
    · next x hx => exact ⟨a, x, as, rfl, hx, h⟩

theorem dirText_inv {d : Nat} {n : Option Int} {as : List Arg} {t : Txt} {as' : List Arg} (h : dirText d n as = .txt t as') :
    ∃ i, Dir d n as i as' := by
  unfold dirText at h
  split at h
  · next hd =>
    subst hd
    obtain ⟨a, x, as1, rfl, hx, h⟩ := withArg_inv h
    cases h
    cases n with
    | none => exact ⟨_, .a _ hx⟩
    | some n => exact ⟨_, .na n _ hx⟩
  split at h
  · next hd =>
    subst hd
    obtain ⟨a, x, as1, rfl, hx, h⟩ := withArg_inv h
    split at h
    · cases h; exact ⟨_, .c n _ hx (by omega) (by omega)⟩
    · cases h
  split at h
  · next hd =>
    obtain ⟨a, x, as1, rfl, hx, h⟩ := withArg_inv h
    cases h
    exact ⟨_, .f n _ (by simpa using hd) hx⟩
  split at h
  · next hd =>
    obtain ⟨a, x, as1, rfl, hx, h⟩ := withArg_inv h
    cases h
    rcases hd with rfl | rfl
    · exact ⟨_, .d n _ hx⟩
    · exact ⟨_, .D n _ hx⟩
  split at h
  · next hd =>
    obtain ⟨a, x, as1, rfl, hx, h⟩ := withArg_inv h
    split at h
    · cases h
    · cases h
      rcases hd with rfl | rfl
      · exact ⟨_, .r n _ hx (by omega) (by omega)⟩
      · exact ⟨_, .R n _ hx (by omega) (by omega)⟩
  split at h
  · next hd =>
    subst hd
    obtain ⟨a, x, as1, rfl, hx, h⟩ := withArg_inv h
    cases h
    cases n with
    | none => exact ⟨_, .s _ hx⟩
    | some n => exact ⟨_, .ns n _ hx⟩
  split at h
  · next hd =>
    subst hd
    obtain ⟨a, x, as1, rfl, hx, h⟩ := withArg_inv h
    cases h
    exact ⟨_, .i a n _⟩
  split at h
  · next hd =>
    obtain ⟨a, x, as1, rfl, hx, h⟩ := withArg_inv h
    cases h
    exact ⟨_, .w a n _ (by simpa using hd)⟩
  split at h
  · next hd =>
    subst hd
    obtain ⟨a, x, as1, rfl, hx, h⟩ := withArg_inv h
    obtain ⟨b, y, as2, rfl, hy, h⟩ := withArg_inv h
    cases h
    exact ⟨_, .W n _ hy⟩
  split at h
  · next hd => subst hd; cases h; exact ⟨_, .tilde n _⟩
  split at h
  · next hd => subst hd; cases h; exact ⟨_, .nl n _⟩
  cases h

theorem pctParse_inv : ∀ {fmt acc spec rest : List Nat}, pctParse acc fmt = some (spec, rest) →
    ∃ s c, fmt = s ++ c :: rest ∧ spec = acc ++ s ++ [c] ∧ (∀ x ∈ s, 32 ≤ x ∧ x ≤ 57) ∧ ¬ (32 ≤ c ∧ c ≤ 57)
  | [], _, _, _, h => by cases h
  | c :: fmt, acc, spec, rest, h => by
    rw [pctParse] at h
    split at h
    · next hc =>
      obtain ⟨s, c', e1, e2, e3, e4⟩ := pctParse_inv h
      refine ⟨c :: s, c', by rw [e1]; rfl, by rw [e2]; simp, ?_, e4⟩
      intro x hx
      rcases List.mem_cons.1 hx with rfl | hx
      · exact hc
      · exact e3 x hx
    · next hc => cases h; exact ⟨[], c, rfl, by simp, by simp, hc⟩

theorem stars_inv : ∀ {k : Nat} {as : List Arg} {l : List Int} {as' : List Arg}, stars k as = some (l, as') → Stars k as l as'
  | 0, as, l, as', h => by cases h; exact .nil _
  | k + 1, as, l, as', h => by
    unfold stars at h
    split at h
    · cases h
    · split at h
      · cases h
      · next x hx =>
        obtain ⟨⟨l', as''⟩, e1, e2⟩ := Option.map_eq_some_iff.1 h
        cases e2
        exact .cons hx (stars_inv e1)

theorem dirPct_inv {fmt rest : List Nat} {as as' : List Arg} {t : Txt} (h : dirPct fmt as = .txt t rest as') :
    (fmt = 37 :: rest ∧ as' = as) ∨ ∃ spec c ns a tx, fmt = spec ++ c :: rest ∧ (∀ x ∈ spec, 32 ≤ x ∧ x ≤ 57) ∧
      spec.head? ≠ some 37 ∧ c ∈ convs ∧ spec.count 42 ≤ 2 ∧ spec.length < 2044 ∧ Stars (spec.count 42) as ns (a :: as') ∧
      a.prf (37 :: spec ++ [c]) ns = some tx := by
  unfold dirPct at h
  split at h
  · cases h; exact .inl ⟨rfl, rfl⟩
  · next hne =>
    split at h
    · split at h
      · cases h
      · split at h
        · cases h
        · split at h <;> cases h
    · next spec0 rest0 hpp =>
      obtain ⟨s, c, e1, e2, e3, e4⟩ := pctParse_inv hpp
      split at h
      · cases h
      · next hlen =>
        split at h
        · cases h
        · next ns as1 hst =>
          split at h
          · cases h
          · next hcv =>
            split at h
            · cases h
            · next a as2 =>
              split at h
              · cases h
              · next hcnt =>
                split at h
                · cases h
                · next tx hprf =>
                  cases h
                  subst e2
                  have hl : ([37] ++ s ++ [c]).getLast?.getD 0 = c := by rw [List.getLast?_append]; simp
                  rw [hl] at hcv
                  have hcv : c ∈ convs := Decidable.not_not.1 hcv
                  have hc42 : c ≠ 42 := by omega
                  have hcount : ([37] ++ s ++ [c]).count 42 = s.count 42 := by
                    simp [List.count_append, hc42]
                  rw [hcount] at hst hcnt
                  rw [Nat.min_eq_right (by omega)] at hst
                  refine .inr ⟨s, c, ns, a, tx, e1, e3, ?_, hcv, by omega, ?_, stars_inv hst, hprf⟩
                  · intro hh
                    cases s with
                    | nil => cases hh
                    | cons x s => cases hh; exact hne _ e1
                  · simp only [List.length_append, List.length_singleton] at hlen
                    omega

theorem loop_inv {alloc : Nat} : ∀ {k : Nat} {fmt : List Nat} {as : List Arg} {f f' : F}, plainTilde fmt → noPlusDigit fmt →
    loop alloc k fmt as f = .ok f' → ∃ is, Compiles fmt as is
  | 0, _, _, _, _, _, _, h => by rw [loop] at h; cases h
  | k + 1, [], as, f, f', _, _, h => by
    rw [loop] at h
    split at h
    · cases h
    · split at h
      · next he => rw [List.isEmpty_iff.1 he]; exact ⟨_, .nil⟩
      · cases h
  | k + 1, c :: fmt, as, f, f', h1, h2, h => by
    rw [loop] at h
    split at h
    · next hc =>
      obtain ⟨is, hi⟩ := loop_inv (plainTilde_suffix (a := [c]) h1) (noPlusDigit_suffix (a := [c]) h2) h
      exact ⟨_, .char hc hi⟩
    · next hc =>
      have hc : c = 126 := Decidable.not_not.1 hc
      subst hc
      split at h
      · unfold errRes at h; cases h
      · next n fmt1 as1 hh =>
        obtain ⟨N, e, hN⟩ := header_inv h1 h2 hh
        split at h
        · cases h
        · next d fmt2 =>
          subst e
          have g1 : plainTilde fmt2 := plainTilde_suffix (a := 126 :: N ++ [d]) (by simpa using h1)
          have g2 : noPlusDigit fmt2 := noPlusDigit_suffix (a := 126 :: N ++ [d]) (by simpa using h2)
          split at h
          · next hd =>
            split at h
            · obtain ⟨is, hi⟩ := loop_inv g1 g2 h
              rcases hd with rfl | rfl
              · exact ⟨_, .dir hN (.plus n _) hi⟩
              · exact ⟨_, .dir hN (.bar n _) hi⟩
            · next hr => exact (hr _ h).elim
          split at h
          · next hd =>
            split at h
            · obtain ⟨is, hi⟩ := loop_inv g1 g2 h
              subst hd
              exact ⟨_, .dir hN (.t n _) hi⟩
            · next hr => exact (hr _ h).elim
          split at h
          · next hd =>
            obtain ⟨is, hi⟩ := loop_inv g1 g2 h
            subst hd
            exact ⟨_, .dir hN (.fresh n _) hi⟩
          split at h
          · next hd =>
            subst hd
            split at h
            · unfold errRes at h; cases h
            · cases h
            · next t fmt3 as3 hp =>
              split at h
              · cases h
              · rcases dirPct_inv hp with ⟨rfl, rfl⟩ | ⟨spec, c, ns, a, tx, rfl, p1, p2, p3, p4, p5, p6, p7⟩
                · obtain ⟨is, hi⟩ := loop_inv (plainTilde_suffix (a := [37]) g1) (noPlusDigit_suffix (a := [37]) g2) h
                  exact ⟨_, .percent hN hi⟩
                · obtain ⟨is, hi⟩ := loop_inv (plainTilde_suffix (a := spec ++ [c]) (by simpa using g1))
                    (noPlusDigit_suffix (a := spec ++ [c]) (by simpa using g2)) h
                  refine ⟨.printf tx :: is, ?_⟩
                  have := Compiles.conv hN p1 p2 p3 p4 p5 p6 p7 hi
                  simpa using this
          split at h
          · unfold errRes at h; cases h
          · next t as3 hp =>
            split at h
            · cases h
            · obtain ⟨i, hD⟩ := dirText_inv hp
              obtain ⟨is, hi⟩ := loop_inv g1 g2 h
              exact ⟨_, .dir hN hD hi⟩

end Gp.Format
