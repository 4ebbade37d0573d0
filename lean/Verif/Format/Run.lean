import Verif.Format.Sim
import Verif.Format.Numbers
namespace Gp.Format
open Spec

theorem takeWhile_digits {ds : List Nat} {d : Nat} {fmt : List Nat} (h : ∀ c ∈ ds, 48 ≤ c ∧ c ≤ 57) (hd : isDigit d = false) :
    (ds ++ d :: fmt).takeWhile isDigit = ds ∧ (ds ++ d :: fmt).dropWhile isDigit = d :: fmt := by
  induction ds with
  | nil => simp [hd]
  | cons c ds ih =>
    have hc : isDigit c = true := by have := h c (by simp); simp [isDigit]; omega
    obtain ⟨a, b⟩ := ih fun x hx => h x (by simp [hx])
    rw [List.cons_append, List.takeWhile_cons, List.dropWhile_cons, if_pos hc, if_pos hc, a, b]
    exact ⟨rfl, rfl⟩

theorem value_nonneg {ds : List Nat} (h : ∀ c ∈ ds, 48 ≤ c ∧ c ≤ 57) : 0 ≤ value ds := by
  have : ∀ (ds : List Nat) (v : Int), 0 ≤ v → (∀ c ∈ ds, 48 ≤ c ∧ c ≤ 57) →
      0 ≤ ds.foldl (fun (v : Int) (c : Nat) => v * 10 + ((c : Int) - 48)) v := by
    intro ds
    induction ds with
    | nil => intro v hv _; exact hv
    | cons c ds ih =>
      intro v hv h
      refine ih _ ?_ fun x hx => h x (by simp [hx])
      have := h c (by simp)
      show 0 ≤ v * 10 + ((c : Int) - 48)
      omega
  exact this ds 0 (Int.le_refl 0) h

/-- The letters after `N`: no digit, space, minus, star or back quote. -/
def Letter (d : Nat) : Prop := isDigit d = false ∧ isSpace d = false ∧ d ≠ 45 ∧ d ≠ 42 ∧ d ≠ 96

theorem strtol_none {d : Nat} {fmt : List Nat} (hd : Letter d) (hp : d = 43 → ∀ c, fmt.head? = some c → isDigit c = false) :
    strtol (d :: fmt) = (0, d :: fmt) := by
  obtain ⟨h1, h2, h3, h4, h5⟩ := hd
  have e1 : (d :: fmt).dropWhile isSpace = d :: fmt := by simp [h2]
  unfold strtol
  simp only [e1, List.head?_cons, Option.some.injEq, List.tail_cons, h3, false_or, if_false]
  by_cases hd : d = 43
  · simp only [hd, if_true]
    have : fmt.takeWhile isDigit = [] := by
      cases fmt with
      | nil => rfl
      | cons c fmt => rw [List.takeWhile_cons, hp hd c rfl]; rfl
    rw [this]
    rfl
  · simp only [if_neg hd]
    have : (d :: fmt).takeWhile isDigit = [] := by simp [h1]
    rw [this]
    rfl

theorem strtol_digits {ds : List Nat} {d : Nat} {fmt : List Nat} (hne : ds ≠ []) (h : ∀ c ∈ ds, 48 ≤ c ∧ c ≤ 57)
    (hd : isDigit d = false) : strtol (ds ++ d :: fmt) = (value ds, d :: fmt) := by
  obtain ⟨a, b⟩ := takeWhile_digits (fmt := fmt) h hd
  cases ds with
  | nil => exact (hne rfl).elim
  | cons c ds =>
    have hc := h c (by simp)
    have e1 : (c :: ds ++ d :: fmt).dropWhile isSpace = c :: ds ++ d :: fmt := by
      rw [List.cons_append, List.dropWhile_cons, if_neg (by simp [isSpace]; omega)]
    unfold strtol
    simp only [e1]
    have e2 : (c :: ds ++ d :: fmt).head? = some c := rfl
    have e3 : ¬ (some c = some 45) := by simp; omega
    have e4 : ¬ (some c = some 45 ∨ some c = some 43) := by simp; omega
    simp only [e2, if_neg e4, a, b, if_neg e3]
    rw [if_neg (by simp)]
    rfl

theorem header_eq {N : List Nat} {as as1 : List Arg} {n : Option Int} {d : Nat} {fmt : List Nat} (h : Num N as n as1) (hd : Letter d)
    (hp : N = [] → d = 43 → ∀ c, fmt.head? = some c → isDigit c = false) :
    header (N ++ d :: fmt) as = .ok (n, d :: fmt, as1) := by
  cases h with
  | none =>
    have e := strtol_none hd (hp rfl)
    unfold header
    simp only [List.nil_append]
    split
    · next heq => cases heq; exact (hd.2.2.2.1 rfl).elim
    · next heq => cases heq; exact (hd.2.2.2.2 rfl).elim
    · rw [e]; simp
  | digits _ h1 h2 h3 =>
    have e := strtol_digits (fmt := fmt) h1 h2 hd.1
    have h0 := value_nonneg h2
    unfold header
    split
    · next heq =>
      cases N with
      | nil => exact (h1 rfl).elim
      | cons c N => cases heq; have := h2 42 (by simp); omega
    · next heq =>
      cases N with
      | nil => exact (h1 rfl).elim
      | cons c N => have := h2 c (by simp); rw [List.cons_append, List.cons.injEq] at heq; omega
    · rw [e]
      simp only
      rw [if_neg (by omega), if_neg (by
        have := List.length_pos_iff.2 h1
        simp only [List.length_append, List.length_cons]
        omega)]
  | @star a n _ h1 h2 =>
    show (match a.int with
        | none => Except.error false
        | some n => if n < 0 then Except.error true else Except.ok (some n, d :: fmt, as1)) = _
    rw [h1]
    simp only
    rw [if_neg (by omega)]
  | char c => rfl

theorem num_nonneg {N : List Nat} {as as1 : List Arg} {n : Option Int} (h : Num N as n as1) (x : Int) (hx : n = some x) : 0 ≤ x := by
  cases h with
  | none => cases hx
  | digits _ h1 h2 h3 => cases hx; exact value_nonneg h2
  | star _ _ h1 => cases hx; exact h1
  | char c => cases hx; omega

theorem withArg_cons {α : Type} {a : Arg} {as : List Arg} {r : Arg → Option α} {x : α} {k : α → List Arg → TRes} (h : r a = some x) :
    withArg (a :: as) r k = k x as := by simp [withArg, h]

/-- The directives that put a text. -/
theorem dirText_eq {d : Nat} {n : Option Int} {as as' : List Arg} {i : Item} (h : Dir d n as i as') (hn : ∀ x, n = some x → 0 ≤ x) :
    (∀ t, i = .text t → t.length < 2 ^ 31 → dirText d n as = .txt (.puts t) as') ∧
    (∀ t, i = .printf t → dirText d n as = .txt (.printf t) as') := by
  have hg : ∀ x : Int, 0 ≤ x → 0 ≤ n.getD x := by
    intro x hx
    cases hn' : n with
    | none => exact hx
    | some y => exact hn y hn'
  cases h with
  | a as h1 => exact ⟨fun t ht _ => by cases ht; rw [dirText, if_pos rfl, withArg_cons h1], fun t ht => by cases ht⟩
  | na n as h1 =>
    refine ⟨fun t ht => (by cases ht), fun t ht => ?_⟩
    cases ht
    rw [dirText, if_pos rfl, withArg_cons h1]
    have := hn n rfl
    rename_i x p
    have e : pfS (-n) p = left n p := by
      unfold pfS left
      by_cases h0 : n = 0
      · subst h0; simp
      · rw [if_pos (by omega), Int.neg_neg]
    simp only [e]
  | c n as h1 h2 h3 =>
    refine ⟨fun t ht _ => ?_, fun t ht => by cases ht⟩
    cases ht
    rw [dirText, if_neg (by decide), if_pos rfl, withArg_cons h1]
    exact if_pos (by omega)
  | f n as h1 h2 =>
    refine ⟨fun t ht => (by cases ht), fun t ht => ?_⟩
    cases ht
    simp only [List.mem_cons, List.not_mem_nil, or_false] at h1
    rw [dirText, if_neg (by omega), if_neg (by omega), if_pos h1, withArg_cons h2]
  | d n as h1 =>
    refine ⟨fun t ht hl => ?_, fun t ht => by cases ht⟩
    cases ht
    rw [dirText, if_neg (by decide), if_neg (by decide), if_neg (by decide), if_pos (by decide), withArg_cons h1]
    have := dirD_eq false (n.getD 0) _ (hg 0 (by decide)) hl
    exact congrArg (fun t => TRes.txt (.puts t) as') this
  | D n as h1 =>
    refine ⟨fun t ht hl => ?_, fun t ht => by cases ht⟩
    cases ht
    rw [dirText, if_neg (by decide), if_neg (by decide), if_neg (by decide), if_pos (by decide), withArg_cons h1]
    have := dirD_eq true (n.getD 0) _ (hg 0 (by decide)) hl
    exact congrArg (fun t => TRes.txt (.puts t) as') this
  | r n as h1 h2 h3 =>
    refine ⟨fun t ht hl => ?_, fun t ht => by cases ht⟩
    cases ht
    rw [dirText, if_neg (by decide), if_neg (by decide), if_neg (by decide), if_neg (by decide), if_pos (by decide), withArg_cons h1]
    refine (if_neg (by omega)).trans ?_
    have := dirR_eq false (n.getD 8) (by assumption) h2
    exact congrArg (fun t => TRes.txt (.puts t) as') this
  | R n as h1 h2 h3 =>
    refine ⟨fun t ht hl => ?_, fun t ht => by cases ht⟩
    cases ht
    rw [dirText, if_neg (by decide), if_neg (by decide), if_neg (by decide), if_neg (by decide), if_pos (by decide), withArg_cons h1]
    refine (if_neg (by omega)).trans ?_
    have := dirR_eq true (n.getD 8) (by assumption) h2
    exact congrArg (fun t => TRes.txt (.puts t) as') this
  | s as h1 =>
    refine ⟨fun t ht => (by cases ht), fun t ht => ?_⟩
    cases ht
    refine (withArg_cons (r := (·.str)) h1).trans ?_
    rfl
  | ns n as h1 =>
    refine ⟨fun t ht => (by cases ht), fun t ht => ?_⟩
    cases ht
    refine (withArg_cons (r := (·.str)) h1).trans ?_
    have := hn n rfl
    rename_i x p
    have e : pfPS n p = left n (p.take n.toNat) := by
      unfold pfPS left
      rw [if_neg (by omega)]
      have : n.natAbs = n.toNat := by omega
      rw [this]
    simp only [e]
  | i x n as => exact ⟨fun t ht _ => by cases ht; rfl, fun t ht => by cases ht⟩
  | w x n as h1 =>
    refine ⟨fun t ht _ => ?_, fun t ht => by cases ht⟩
    cases ht
    simp only [List.mem_cons, List.not_mem_nil, or_false] at h1
    rcases h1 with rfl | rfl | rfl | rfl <;> rfl
  | W n as h1 =>
    refine ⟨fun t ht _ => ?_, fun t ht => by cases ht⟩
    cases ht
    exact withArg_cons (r := (·.opts)) h1
  | tilde n as => exact ⟨fun t ht _ => by cases ht; rfl, fun t ht => by cases ht⟩
  | nl n as => exact ⟨fun t ht _ => by cases ht; rfl, fun t ht => by cases ht⟩
  | fresh => exact ⟨fun t ht => (by cases ht), fun t ht => (by cases ht)⟩
  | bar => exact ⟨fun t ht => (by cases ht), fun t ht => (by cases ht)⟩
  | plus => exact ⟨fun t ht => (by cases ht), fun t ht => (by cases ht)⟩
  | t => exact ⟨fun t ht => (by cases ht), fun t ht => (by cases ht)⟩

/-- The letter of a directive, and the one it is not when it puts a text. -/
theorem dir_letter {d : Nat} {n : Option Int} {as as' : List Arg} {i : Item} (h : Dir d n as i as') :
    Letter d ∧ d ≠ 37 ∧ (((∃ t, i = .text t) ∨ ∃ t, i = .printf t) → d ≠ 43 ∧ d ≠ 124 ∧ d ≠ 116 ∧ d ≠ 78) := by
  cases h with
  | f n as h1 h2 =>
    simp only [List.mem_cons, List.not_mem_nil, or_false] at h1
    rcases h1 with rfl | rfl | rfl | rfl | rfl | rfl <;> exact ⟨by unfold Letter; decide, by decide, fun _ => by decide⟩
  | w x n as h1 =>
    simp only [List.mem_cons, List.not_mem_nil, or_false] at h1
    rcases h1 with rfl | rfl | rfl | rfl <;> exact ⟨by unfold Letter; decide, by decide, fun _ => by decide⟩
  | fresh => exact ⟨by unfold Letter; decide, by decide, by rintro (⟨t, h⟩ | ⟨t, h⟩) <;> cases h⟩
  | bar => exact ⟨by unfold Letter; decide, by decide, by rintro (⟨t, h⟩ | ⟨t, h⟩) <;> cases h⟩
  | plus => exact ⟨by unfold Letter; decide, by decide, by rintro (⟨t, h⟩ | ⟨t, h⟩) <;> cases h⟩
  | t => exact ⟨by unfold Letter; decide, by decide, by rintro (⟨t, h⟩ | ⟨t, h⟩) <;> cases h⟩
  | _ => exact ⟨by unfold Letter; decide, by decide, fun _ => by decide⟩

theorem noPlusDigit_suffix {a b : List Nat} (h : noPlusDigit (a ++ b)) : noPlusDigit b := by
  intro pre d post e
  exact h (a ++ pre) d post (by rw [e]; simp)

theorem stars_eq {k : Nat} {as as' : List Arg} {l : List Int} (h : Stars k as l as') : stars k as = some (l, as') := by
  induction h with
  | nil => rfl
  | cons h1 _ ih => simp only [stars, h1, ih, Option.map_some]

theorem pctParse_eq {c : Nat} {fmt : List Nat} (hc : ¬ (32 ≤ c ∧ c ≤ 57)) : ∀ (spec acc : List Nat), (∀ x ∈ spec, 32 ≤ x ∧ x ≤ 57) →
    pctParse acc (spec ++ c :: fmt) = some (acc ++ spec ++ [c], fmt)
  | [], acc, _ => by simp [pctParse, hc]
  | x :: spec, acc, h => by
    rw [List.cons_append, pctParse, if_pos (h x (by simp)), pctParse_eq hc spec _ fun y hy => h y (by simp [hy])]
    simp

/-- The loop does what the format asks for. -/
theorem loop_eq {o : Stm} {alloc : Nat} (ha : 1024 ≤ alloc) {fmt : List Nat} {as : List Arg} {is : List Item} (hc : Compiles fmt as is) :
    ∀ {f : F} {S : Page} {m : Mode} {k : Nat}, R o f S m → tame m is → noPlusDigit fmt → fmt.length < k →
      ∃ f', loop alloc k fmt as f = .ok f' ∧ f'.pad = none ∧
        f'.orig = o.puts ((is.foldl Page.item S).out ++ (is.foldl Page.item S).rest) := by
  have hBIG : BIG = 65535 := rfl
  induction hc with
  | nil =>
    intro f S m k hR _ _ hk
    obtain ⟨f', e, hf⟩ := hR.finish
    obtain ⟨k, rfl⟩ : ∃ j, k = j + 1 := ⟨k - 1, by simp at hk; omega⟩
    refine ⟨clean f', ?_, rfl, hf⟩
    simp [loop, e]
  | @char c fmt as is h1 _ ih =>
    intro f S m k hR ht hp hk
    rw [List.length_cons] at hk
    obtain ⟨k, rfl⟩ : ∃ j, k = j + 1 := ⟨k - 1, by omega⟩
    obtain ⟨t1, t2, t3⟩ := ht
    rw [loop, if_pos h1]
    exact ih (hR.char c t2) t3 (noPlusDigit_suffix (a := [c]) hp) (by omega)
  | @dir N d fmt as as1 as2 n i is h1 h2 _ ih =>
    intro f S m k hR ht hp hk
    rw [List.cons_append, List.length_cons, List.length_append, List.length_cons] at hk
    obtain ⟨k, rfl⟩ : ∃ j, k = j + 1 := ⟨k - 1, by omega⟩
    obtain ⟨hl, h37, htx⟩ := dir_letter h2
    have hn := num_nonneg h1
    have hp' : noPlusDigit fmt := noPlusDigit_suffix (a := 126 :: N ++ [d]) (by simpa using hp)
    have hh := header_eq (fmt := fmt) h1 hl (by
      rintro rfl rfl c hc
      cases fmt with
      | nil => cases hc
      | cons x fmt =>
        have hc : x = c := by simpa using hc
        have := hp [] x fmt (by simp)
        subst hc
        simp only [isDigit]
        simp
        omega)
    rw [List.cons_append, loop, if_neg (by simp), hh]
    simp only
    -- the directives that put a text
    have put : ∀ t tx, (tx = Txt.puts t ∨ (tx = Txt.printf t ∧ t.length < 65535)) → dirText d n as1 = .txt tx as2 →
        (d ≠ 43 ∧ d ≠ 124 ∧ d ≠ 116 ∧ d ≠ 78) → (m.text t).fits → tame (m.text t) is → S.item i = t.foldl Page.char S →
        ∃ f', (if d = 43 ∨ d = 124 then
            match dirStop (d == 43) n f with
            | .ok f => loop alloc k fmt as1 f
            | r => r
          else if d = 116 then
            match dirT alloc n f with
            | .ok f => loop alloc k fmt as1 f
            | r => r
          else if d = 78 then loop alloc k fmt as1 (if f.linePos > 0 then f.put 10 else f)
          else if d = 37 then
            match dirPct fmt as1 with
            | .err c => errRes c f
            | .ub => .ub
            | .txt t fmt args =>
              match f.txt t with
              | none => .ub
              | some f => loop alloc k fmt args f
          else
            match dirText d n as1 with
            | .err c => errRes c f
            | .txt t args =>
              match f.txt t with
              | none => .ub
              | some f => loop alloc k fmt args f) = .ok f' ∧ f'.pad = none ∧
          f'.orig = o.puts (((i :: is).foldl Page.item S).out ++ ((i :: is).foldl Page.item S).rest) := by
      intro t tx htxt hd h4 hfit htame hS
      rw [if_neg (by omega), if_neg (by omega), if_neg (by omega), if_neg h37, hd]
      have e : f.txt tx = some (f.puts t) := by
        rcases htxt with rfl | ⟨rfl, hlen⟩
        · rfl
        · simp only [F.txt]
          rw [if_pos (by omega)]
      simp only [e]
      have := ih (hR.text t hfit) htame hp' (k := k) (by omega)
      rw [← hS] at this
      exact this
    cases i with
    | text t =>
      obtain ⟨t1, t2, t3⟩ := ht
      exact put t _ (.inl rfl) ((dirText_eq h2 hn).1 t rfl t1) (htx (.inl ⟨t, rfl⟩)) t2 t3 rfl
    | printf t =>
      obtain ⟨t1, t2, t3⟩ := ht
      exact put t _ (.inr ⟨rfl, t1⟩) ((dirText_eq h2 hn).2 t rfl) (htx (.inr ⟨t, rfl⟩)) t2 t3 rfl
    | fresh =>
      obtain ⟨m', hR', ht'⟩ := hR.fresh ht
      have hd : d = 78 ∧ as2 = as1 := by cases h2; exact ⟨rfl, rfl⟩
      obtain ⟨rfl, rfl⟩ := hd
      rw [if_neg (by decide), if_neg (by decide), if_pos rfl]
      exact ih hR' ht' hp' (by omega)
    | fill c =>
      have hd : d = 116 ∧ as2 = as1 ∧ c = ((n.getD 32) % 256).toNat := by cases h2; exact ⟨rfl, rfl, rfl⟩
      obtain ⟨rfl, rfl, rfl⟩ := hd
      obtain ⟨f', m', e, hR', ht'⟩ := hR.fill ha ht
      rw [if_neg (by decide), if_pos rfl, e]
      exact ih hR' ht' hp' (by omega)
    | stop rel n' =>
      have hd : (d = 43 ∨ d = 124) ∧ as2 = as1 ∧ rel = (d == 43) ∧ n' = n := by
        cases h2
        · exact ⟨.inr rfl, rfl, rfl, rfl⟩
        · exact ⟨.inl rfl, rfl, rfl, rfl⟩
      obtain ⟨hd, rfl, rfl, rfl⟩ := hd
      obtain ⟨f', e, hR', ht'⟩ := hR.stop ht
      rw [if_pos hd, e]
      exact ih hR' ht' hp' (by omega)
  | @percent N fmt as as1 n is h1 _ ih =>
    intro f S m k hR ht hp hk
    simp only [List.cons_append, List.length_cons, List.length_append] at hk
    obtain ⟨k, rfl⟩ : ∃ j, k = j + 1 := ⟨k - 1, by omega⟩
    have hp' : noPlusDigit fmt := noPlusDigit_suffix (a := 126 :: N ++ [37, 37]) (by simpa using hp)
    have hh := header_eq (d := 37) (fmt := 37 :: fmt) h1 (by unfold Letter; decide) (fun _ h => by cases h)
    obtain ⟨t1, t2, t3⟩ := ht
    rw [List.cons_append, loop, if_neg (by simp), hh]
    simp only
    rw [if_neg (by decide), if_neg (by decide), if_neg (by decide)]
    exact ih (hR.char 37 t2) t3 hp' (by omega)
  | @conv N spec c fmt as as1 as2 a n ns t is h1 h2 h3 h4 h5 h6 h7 h8 _ ih =>
    intro f S m k hR ht hp hk
    simp only [List.cons_append, List.length_cons, List.length_append] at hk
    obtain ⟨k, rfl⟩ : ∃ j, k = j + 1 := ⟨k - 1, by omega⟩
    have hp' : noPlusDigit fmt := noPlusDigit_suffix (a := 126 :: N ++ 37 :: spec ++ [c]) (by simpa using hp)
    have hh := header_eq (d := 37) (fmt := spec ++ c :: fmt) h1 (by unfold Letter; decide) (fun _ h => by cases h)
    obtain ⟨t1, t2, t3⟩ := ht
    have hcc : ¬ (32 ≤ c ∧ c ≤ 57) ∧ c ≠ 42 := by
      simp only [List.mem_cons, List.not_mem_nil, or_false] at h4
      omega
    have hpct : dirPct (spec ++ c :: fmt) as1 = .txt (.printf t) fmt as2 := by
      unfold dirPct
      split
      · next heq =>
        cases spec with
        | nil => rw [List.nil_append] at heq; cases heq; exact (hcc.1 (by decide)).elim
        | cons x spec => rw [List.cons_append, List.cons.injEq] at heq; exact (h3 (by simp [heq.1])).elim
      · rw [pctParse_eq hcc.1 spec [37] h2]
        simp only
        have hcount : ([37] ++ spec ++ [c]).count 42 = spec.count 42 := by
          simp [List.count_append, hcc.2]
        rw [if_neg (by simp only [List.length_append, List.length_singleton]; omega), hcount, Nat.min_eq_right h5, stars_eq h7]
        simp only
        have hlast : ([37] ++ spec ++ [c]).getLast?.getD 0 = c := by rw [List.getLast?_append]; simp
        rw [hlast, if_neg (fun h => h h4)]
        rw [if_neg (by omega)]
        rw [show [37] ++ spec ++ [c] = 37 :: spec ++ [c] from rfl, h8]
    rw [List.append_assoc, List.cons_append, List.cons_append, loop, if_neg (by simp), hh]
    simp only
    rw [if_neg (by decide), if_neg (by decide), if_neg (by decide), if_pos trivial, hpct]
    have e : f.txt (.printf t) = some (f.puts t) := by
      simp only [F.txt]
      rw [if_pos (by omega)]
    simp only [e]
    exact ih (hR.text t t2) t3 hp' (by omega)

theorem format_eq {o : Stm} {alloc : Nat} (ha : 1024 ≤ alloc) {fmt : List Nat} {as : List Arg} {is : List Item} (hc : Compiles fmt as is)
    (ht : tame .idle is) (hp : noPlusDigit fmt) :
    ∃ f, format alloc o fmt as = .ok f ∧ f.pad = none ∧ f.orig = o.puts (render o.linePos is) := by
  refine loop_eq ha hc (R.idle rfl rfl (fun s h => by cases h) rfl rfl rfl (Nat.le_refl _) ?_) ht hp (by omega)
  simp

end Gp.Format
