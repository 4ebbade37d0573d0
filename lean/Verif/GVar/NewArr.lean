import Verif.GVar.Ops
/-
A new array.
-/
namespace Gp.GVar

/-- The elements `i .. i+k-1` of the block `b` are written. -/
def fillV (b i k : Nat) (ini : Nat → Int) (v : Addr → Val) : Addr → Val
  | .cell b' j => if b' = b ∧ i ≤ j ∧ j < i + k then .term (ini j) else v (.cell b' j)
  | a => v a

/-- Their undo records. -/
def fillU (b i k : Nat) (v : Addr → Option Nat) : Addr → Option Nat
  | .cell b' j => if b' = b ∧ i ≤ j ∧ j < i + k then none else v (.cell b' j)
  | a => v a

theorem fillV_zero (b i : Nat) (ini : Nat → Int) (v : Addr → Val) : fillV b i 0 ini v = v := by
  funext x
  cases x with
  | root k => rfl
  | cell b' j => unfold fillV; dsimp only; rw [if_neg (by omega)]

theorem fillU_zero (b i : Nat) (v : Addr → Option Nat) : fillU b i 0 v = v := by
  funext x
  cases x with
  | root k => rfl
  | cell b' j => unfold fillU; dsimp only; rw [if_neg (by omega)]

theorem fillV_succ (b i k : Nat) (ini : Nat → Int) (v : Addr → Val) :
    fillV b (i + 1) k ini (upd v (.cell b i) (.term (ini i))) = fillV b i (k + 1) ini v := by
  funext x
  cases x with
  | root k => unfold fillV; dsimp only; rw [upd_ne _ _ (by intro h; cases h)]
  | cell b' j =>
    unfold fillV
    dsimp only
    by_cases h : b' = b ∧ i + 1 ≤ j ∧ j < i + 1 + k
    · rw [if_pos h, if_pos (by omega)]
    · rw [if_neg h]
      by_cases e : b' = b ∧ j = i
      · obtain ⟨e1, e2⟩ := e
        subst e1; subst e2
        rw [upd_same, if_pos (by omega)]
      · rw [upd_ne _ _ (by intro h; injection h with h1 h2; exact e ⟨h1, h2⟩), if_neg]
        rintro ⟨h1, h2, h3⟩
        exact h ⟨h1, by omega, by omega⟩

theorem fillU_succ (b i k : Nat) (v : Addr → Option Nat) : fillU b (i + 1) k (upd v (.cell b i) none) = fillU b i (k + 1) v := by
  funext x
  cases x with
  | root k => unfold fillU; dsimp only; rw [upd_ne _ _ (by intro h; cases h)]
  | cell b' j =>
    unfold fillU
    dsimp only
    by_cases h : b' = b ∧ i + 1 ≤ j ∧ j < i + 1 + k
    · rw [if_pos h, if_pos (by omega)]
    · rw [if_neg h]
      by_cases e : b' = b ∧ j = i
      · obtain ⟨e1, e2⟩ := e
        subst e1; subst e2
        rw [upd_same, if_pos (by omega)]
      · rw [upd_ne _ _ (by intro h; injection h with h1 h2; exact e ⟨h1, h2⟩), if_neg]
        rintro ⟨h1, h2, h3⟩
        exact h ⟨h1, by omega, by omega⟩

theorem iter_wr (b g : Nat) (ini : Nat → Int) : ∀ (k i : Nat) (st : St), (∀ j, i ≤ j → j < i + k → st.ok (.cell b j, g) = true) →
    iter (fun st i => st.wr (.cell b i, g) (.term (ini i))) i k st =
      some { st with val := fillV b i k ini st.val, undo := fillU b i k st.undo }
  | 0, i, st, _ => by
    unfold iter
    rw [fillV_zero, fillU_zero]
  | k + 1, i, st, h => by
    have e : st.wr (.cell b i, g) (.term (ini i)) =
        some { st with val := upd st.val (.cell b i) (.term (ini i)), undo := upd st.undo (.cell b i) none } := by
      unfold St.wr
      rw [if_pos (h i (by omega) (by omega))]
    unfold iter
    simp only [e]
    rw [iter_wr b g ini k (i + 1) { st with val := upd st.val (.cell b i) (.term (ini i)), undo := upd st.undo (.cell b i) none }
      (fun j h1 h2 => h j (by omega) (by omega))]
    simp only [fillV_succ, fillU_succ]

/-- The last element of an array. -/
def lastV : Option Int → Val
  | none => .imp
  | some d => .term d

/-- The state with a new block of `n + 1` elements. -/
def newBlk (st : St) (n : Nat) (ini : Nat → Int) (d : Option Int) : St :=
  { st with
    val := upd (fillV st.nb 0 n ini st.val) (.cell st.nb n) (lastV d)
    undo := upd (fillU st.nb 0 n st.undo) (.cell st.nb n) none
    live := upd st.live st.nb true
    gen := upd st.gen st.nb 0
    len := upd st.len st.nb (n + 1)
    nb := st.nb + 1 }

theorem newBlk_val {st : St} {n ini d} {x : Addr} (h : ∀ i, x ≠ .cell st.nb i) : (newBlk st n ini d).val x = st.val x := by
  show upd (fillV st.nb 0 n ini st.val) (.cell st.nb n) (lastV d) x = _
  rw [upd_ne _ _ (h n)]
  cases x with
  | root k => rfl
  | cell b i =>
    unfold fillV; dsimp only
    rw [if_neg]
    rintro ⟨e, _⟩
    exact h i (by rw [e])

theorem newBlk_undo {st : St} {n ini d} {x : Addr} (h : ∀ i, x ≠ .cell st.nb i) : (newBlk st n ini d).undo x = st.undo x := by
  show upd (fillU st.nb 0 n st.undo) (.cell st.nb n) none x = _
  rw [upd_ne _ _ (h n)]
  cases x with
  | root k => rfl
  | cell b i =>
    unfold fillU; dsimp only
    rw [if_neg]
    rintro ⟨e, _⟩
    exact h i (by rw [e])

theorem newBlk_in {st : St} {n ini d i} (h : i < n) : (newBlk st n ini d).val (.cell st.nb i) = .term (ini i) := by
  show upd (fillV st.nb 0 n ini st.val) (.cell st.nb n) (lastV d) _ = _
  rw [upd_ne _ _ (by intro e; injection e; omega)]
  unfold fillV; dsimp only
  rw [if_pos ⟨rfl, by omega, by omega⟩]

theorem newBlk_last {st : St} {n ini d} : (newBlk st n ini d).val (.cell st.nb n) = lastV d := upd_same _ _ _

theorem newBlk_undo_in {st : St} {n ini d i} (h : i ≤ n) : (newBlk st n ini d).undo (.cell st.nb i) = none := by
  show upd (fillU st.nb 0 n st.undo) (.cell st.nb n) none _ = _
  by_cases e : i = n
  · subst e; exact upd_same _ _ _
  · rw [upd_ne _ _ (by intro q; injection q; omega)]
    unfold fillU; dsimp only
    rw [if_pos ⟨rfl, by omega, by omega⟩]

theorem fill_ne {b i n ini s} {x : Addr} (h : ∀ i, x ≠ .cell b i) : fill b i n ini s x = s x := by
  cases x with
  | root k => rfl
  | cell b' j =>
    unfold fill; dsimp only
    rw [if_neg]
    rintro ⟨e, _⟩
    exact h j (by rw [e])

/-- The invariant with a new block. -/
theorem newBlk_core {st own born sp E} (h : CoreE st own born E) (hr : Rel st sp E) (a : Addr) (n : Nat) (ini : Nat → Int) (d : Option Int) :
    CoreE (newBlk st n ini d) (upd own st.nb a) (upd born st.nb st.nu) E ∧ Rel (newBlk st n ini d) (sp.new n ini d) E := by
  have nl : st.live st.nb = false := by
    cases q : st.live st.nb with
    | false => rfl
    | true => exact absurd (h.lt_nb _ q) (by omega)
  have dich : ∀ x : Addr, (∀ i, x ≠ .cell st.nb i) ∨ ∃ i, x = .cell st.nb i := by
    intro x
    cases x with
    | root k => exact .inl (fun i h => by cases h)
    | cell b i =>
      by_cases e : b = st.nb
      · exact .inr ⟨i, by rw [e]⟩
      · exact .inl (fun j h => by injection h; exact e ‹_›)
  have okN : ∀ i, (newBlk st n ini d).okA (.cell st.nb i) → i ≤ n := by
    rintro i ⟨_, k⟩
    have : i < upd st.len st.nb (n + 1) st.nb := k
    rw [upd_same] at this; omega
  have okO : ∀ x : Addr, (∀ i, x ≠ .cell st.nb i) → ((newBlk st n ini d).okA x ↔ st.okA x) := by
    intro x hx
    cases x with
    | root k => exact Iff.rfl
    | cell b i =>
      have e : b ≠ st.nb := fun e => hx i (by rw [e])
      show upd st.live st.nb true b = true ∧ i < upd st.len st.nb (n + 1) b ↔ _
      rw [upd_ne _ _ e, upd_ne _ _ e]; exact Iff.rfl
  have inO : ∀ x : Addr, (∀ i, x ≠ .cell st.nb i) → ((newBlk st n ini d).inner x ↔ st.inner x) := by
    intro x hx
    cases x with
    | root k => exact Iff.rfl
    | cell b i =>
      have e : b ≠ st.nb := fun e => hx i (by rw [e])
      show i + 1 < upd st.len st.nb (n + 1) b ↔ _
      rw [upd_ne _ _ e]; exact Iff.rfl
  have inN : ∀ i, (newBlk st n ini d).inner (.cell st.nb i) ↔ i < n := by
    intro i
    show i + 1 < upd st.len st.nb (n + 1) st.nb ↔ _
    rw [upd_same]; omega
  have geO : ∀ x : Addr, (∀ i, x ≠ .cell st.nb i) → (newBlk st n ini d).genA x = st.genA x := by
    intro x hx
    cases x with
    | root k => rfl
    | cell b i =>
      have e : b ≠ st.nb := fun e => hx i (by rw [e])
      exact upd_ne _ _ e
  have boO : ∀ x : Addr, (∀ i, x ≠ .cell st.nb i) → bornA (upd born st.nb st.nu) x = bornA born x := by
    intro x hx
    cases x with
    | root k => rfl
    | cell b i =>
      have e : b ≠ st.nb := fun e => hx i (by rw [e])
      exact upd_ne _ _ e
  have okX : ∀ x : Addr, st.okA x → ∀ i, x ≠ .cell st.nb i := by
    rintro x hx i e
    subst e
    have := hx.1
    rw [nl] at this
    cases this
  have TN : ∀ i, (newBlk st n ini d).T (.cell st.nb i) = [] := by
    intro i
    refine List.eq_nil_iff_forall_not_mem.2 fun u hu => ?_
    obtain ⟨h1, p, h2, h3⟩ := mem_T.1 hu
    exact okX p.1 (h.elem u h1 p h2).1 i h3
  have TO : ∀ x, (newBlk st n ini d).T x = st.T x := fun x => rfl
  have vN : ∀ i, i ≤ n → (newBlk st n ini d).vers (.cell st.nb i) = [if i < n then .term (ini i) else lastV d] := by
    intro i hi
    unfold St.vers
    rw [TN i]
    by_cases q : i < n
    · rw [if_pos q, newBlk_in q]; rfl
    · rw [if_neg q]
      have : i = n := by omega
      subst this
      rw [newBlk_last]; rfl
  have vO : ∀ x : Addr, (∀ i, x ≠ .cell st.nb i) → (newBlk st n ini d).vers x = st.vers x := by
    intro x hx
    unfold St.vers
    rw [newBlk_val hx]
    rfl
  have nNb : ∀ c, st.live c = true → c ≠ st.nb := fun c hc e => by rw [e, nl] at hc; cases hc
  have blkN : ∀ i, (if i < n then Val.term (ini i) else lastV d).blk = none := by
    intro i
    split
    · rfl
    · cases d <;> rfl
  refine ⟨⟨h.sorted, h.lt, ?_, ?_, h.next, h.prev, ?_, ?_, ?_, ?_, ?_⟩, ⟨?_, ?_, ?_, ?_, ?_, hr.cps⟩⟩
  · intro u hu p hp
    obtain ⟨k1, k2, k3, k4⟩ := h.elem u hu p hp
    have k := okX _ k1
    rw [okO _ k, inO _ k, geO _ k, boO _ k]
    exact ⟨k1, k2, k3, k4⟩
  · intro x hx
    rcases dich x with k | ⟨i, rfl⟩
    · rw [newBlk_undo k]
      exact h.link x ((okO x k).1 hx)
    · rw [TN i]
      exact newBlk_undo_in (okN i hx)
  · intro x hx he v hv
    rcases dich x with k | ⟨i, rfl⟩
    · rw [vO x k] at hv
      have q := h.vers x ((okO x k).1 hx) he v hv
      refine ⟨fun e => by rw [inO x k]; exact q.imp e, fun c g m e => ?_⟩
      obtain ⟨v1, v2, v3, v4, v5, v6, v7⟩ := q.arr c g m e
      have nc := nNb c v2
      refine ⟨(inO x k).2 v1, ?_, ?_, ?_, v5, ?_, ?_⟩
      · show upd st.live st.nb true c = true; rw [upd_ne _ _ nc]; exact v2
      · show g = upd st.gen st.nb 0 c; rw [upd_ne _ _ nc]; exact v3
      · show upd st.len st.nb (n + 1) c = m + 1; rw [upd_ne _ _ nc]; exact v4
      · rw [upd_ne _ _ nc]; exact v6
      · rw [boO x k, upd_ne _ _ nc]; exact v7
    · have hi := okN i hx
      rw [vN i hi] at hv
      have e : v = if i < n then .term (ini i) else lastV d := by simpa using hv
      refine ⟨fun q => ?_, fun c g m q => ?_⟩
      · rw [inN]
        intro k
        rw [if_pos k] at e
        rw [e] at q
        cases q
      · have := blkN i
        rw [← e, q] at this
        cases this
  · intro x hx he
    rcases dich x with k | ⟨i, rfl⟩
    · rw [vO x k]; exact h.nodup x ((okO x k).1 hx) he
    · rw [vN i (okN i hx), List.filterMap_cons_none (blkN i)]
      exact List.nodup_nil
  · intro x hx he
    rcases dich x with k | ⟨i, rfl⟩
    · rw [newBlk_val k]
      refine after_congr (fun _ _ => rfl) ?_ ?_ (h.after x ((okO x k).1 hx) he)
      · intro c hc
        cases hv : st.val x with
        | term y => rw [hv] at hc; cases hc
        | imp => rw [hv] at hc; cases hc
        | arr b g m =>
          rw [hv] at hc
          injection hc with hc
          subst hc
          have := (h.vers x ((okO x k).1 hx) he _ (List.mem_cons_self)).arr _ _ _ hv
          rw [upd_ne _ _ (nNb _ this.2.1)]
          exact Nat.le_refl _
      · intro u hu c hc
        have hc : (st.rcd u).save.blk = some c := hc
        cases hv : (st.rcd u).save with
        | term y => rw [hv] at hc; cases hc
        | imp => rw [hv] at hc; cases hc
        | arr b g m =>
          rw [hv] at hc
          injection hc with hc
          subst hc
          have := (h.vers x ((okO x k).1 hx) he _ (List.mem_cons_of_mem _ (List.mem_map_of_mem (f := fun u => (st.rcd u).save) hu))).arr _ _ _ hv
          rw [upd_ne _ _ (nNb _ this.2.1)]
          exact Nat.le_refl _
    · rw [TN i]; trivial
  · intro c hc
    show c < st.nb + 1
    by_cases e : c = st.nb
    · omega
    · have : upd st.live st.nb true c = true := hc
      rw [upd_ne _ _ e] at this
      have := h.lt_nb c this; omega
  · intro c hc
    show upd born st.nb st.nu c ≤ st.nu
    by_cases e : c = st.nb
    · subst e; rw [upd_same]; exact Nat.le_refl _
    · have : upd st.live st.nb true c = true := hc
      rw [upd_ne _ _ e] at this ⊢
      exact h.born c this
  · show sp.next + 1 = st.nb + 1
    rw [hr.next]
  · intro b hb
    show upd st.len st.nb (n + 1) b = upd sp.len sp.next n b + 1
    rw [hr.next]
    by_cases e : b = st.nb
    · subst e; rw [upd_same, upd_same]
    · have : upd st.live st.nb true b = true := hb
      rw [upd_ne _ _ e] at this
      rw [upd_ne _ _ e, upd_ne _ _ e]; exact hr.len b this
  · intro b hb
    show (newBlk st n ini d).val (.cell b (upd sp.len sp.next n b)) = match upd sp.dflt sp.next d b with | none => Val.imp | some d => Val.term d
    rw [hr.next]
    by_cases e : b = st.nb
    · subst e; rw [upd_same, upd_same, newBlk_last]; cases d <;> rfl
    · have : upd st.live st.nb true b = true := hb
      rw [upd_ne _ _ e] at this
      rw [upd_ne _ _ e, upd_ne _ _ e, newBlk_val (by intro i h; injection h; exact e ‹_›)]; exact hr.dflt b this
  · intro x hx hi he
    show fill sp.next 0 n ini sp.cur x = _
    rw [hr.next]
    rcases dich x with k | ⟨i, rfl⟩
    · rw [fill_ne k, newBlk_val k]; exact hr.cur x ((okO x k).1 hx) ((inO x k).1 hi) he
    · have hi := (inN i).1 hi
      rw [newBlk_in hi]
      unfold fill; dsimp only
      rw [if_pos ⟨rfl, by omega, hi⟩]; rfl
  · refine forall₂_map (fun s trb k => ⟨k.1, fun x hx hi he => ?_⟩) hr.sh
    show fill sp.next 0 n ini s x = (oldVal st.rcd x (st.trail.take (st.trail.length - trb)) ((newBlk st n ini d).val x)).abs
    rw [hr.next]
    rcases dich x with q | ⟨i, rfl⟩
    · rw [fill_ne q, newBlk_val q]; exact k.2 x ((okO x q).1 hx) ((inO x q).1 hi) he
    · have hi := (inN i).1 hi
      rw [newBlk_in hi, oldVal_none (fun w hw => T_nil_on (st := st) (TN i) w (List.mem_of_mem_take hw))]
      unfold fill; dsimp only
      rw [if_pos ⟨rfl, by omega, hi⟩]; rfl

/-- The new array is made. -/
theorem newArr {st : St} (h : ∀ c, st.live c = true → c < st.nb) (a : Addr) (ha : st.okA a) (hv : (st.val a).isArr = false) (kind : Kind)
    (n : Nat) (ini : Nat → Int) (d : Int) (bt : Bool) :
    fillArray st (a, st.genA a) kind n ini d bt 0 =
      some { newBlk st n ini (if kind = .auto then some d else none) with
        val := upd (newBlk st n ini (if kind = .auto then some d else none)).val a (.arr st.nb 0 n) } := by
  have nl : st.live st.nb = false := by
    cases q : st.live st.nb with
    | false => rfl
    | true => exact absurd (h _ q) (by omega)
  have na : ∀ i, a ≠ .cell st.nb i := by
    rintro i e
    subst e
    have := ha.1
    rw [nl] at this
    cases this
  have e1 : allocArray st (a, st.genA a) n bt = some ({ st.malloc (n + 1) with
      val := upd (upd st.val (.cell st.nb n) .imp) a (.arr st.nb 0 n), undo := upd st.undo (.cell st.nb n) none }, st.nb, 0) := by
    unfold allocArray
    have q : (st.malloc (n + 1)).wr (.cell st.nb n, 0) .imp = some { st.malloc (n + 1) with
        val := upd st.val (.cell st.nb n) .imp, undo := upd st.undo (.cell st.nb n) none } := by
      unfold St.wr
      rw [if_pos]
      · rfl
      · simp [St.ok, St.malloc, upd]
    cases hq : st.val a with
    | arr b g m => rw [hq] at hv; cases hv
    | term x => simp only [hq, q]
    | imp => simp only [hq, q]
  unfold fillArray
  rw [e1]
  dsimp only
  rw [iter_wr]
  · dsimp only
    have fin : ∀ v, upd (upd (fillV st.nb 0 n ini st.val) (.cell st.nb n) v) a (.arr st.nb 0 n) =
        upd (fillV st.nb 0 n ini (upd (upd st.val (.cell st.nb n) .imp) a (.arr st.nb 0 n))) (.cell st.nb n) v := by
      intro v
      funext x
      by_cases q1 : x = a
      · subst q1
        rw [upd_same, upd_ne _ _ (na n)]
        cases x with
        | root k => unfold fillV; dsimp only; rw [upd_same]
        | cell b i =>
          unfold fillV; dsimp only
          rw [if_neg (by rintro ⟨e, _⟩; exact na i (by rw [e])), upd_same]
      · rw [upd_ne _ _ q1]
        by_cases q2 : x = .cell st.nb n
        · subst q2; rw [upd_same, upd_same]
        · rw [upd_ne _ _ q2, upd_ne _ _ q2]
          cases x with
          | root k => unfold fillV; dsimp only; rw [upd_ne _ _ q1, upd_ne _ _ q2]
          | cell b i =>
            unfold fillV; dsimp only
            rw [upd_ne _ _ q1, upd_ne _ _ q2]
    have fin' : upd (fillV st.nb 0 n ini (upd (upd st.val (.cell st.nb n) .imp) a (.arr st.nb 0 n))) (.cell st.nb n) .imp =
        fillV st.nb 0 n ini (upd (upd st.val (.cell st.nb n) .imp) a (.arr st.nb 0 n)) := by
      funext x
      by_cases q2 : x = .cell st.nb n
      · subst q2
        rw [upd_same]
        unfold fillV
        dsimp only
        rw [if_neg (by omega), upd_ne _ _ (fun q => na n q.symm), upd_same]
      · rw [upd_ne _ _ q2]
    have finu : ∀ o : Addr → Option Nat, upd (fillU st.nb 0 n o) (.cell st.nb n) none = fillU st.nb 0 n (upd o (.cell st.nb n) none) := by
      intro o
      funext x
      by_cases q2 : x = .cell st.nb n
      · subst q2
        rw [upd_same]
        unfold fillU
        dsimp only
        rw [if_neg (by omega), upd_same]
      · rw [upd_ne _ _ q2]
        cases x with
        | root k => unfold fillU; dsimp only; rw [upd_ne _ _ q2]
        | cell b i => unfold fillU; dsimp only; rw [upd_ne _ _ q2]
    have finuu : ∀ o : Addr → Option Nat, upd (upd o (.cell st.nb n) none) (.cell st.nb n) none = upd o (.cell st.nb n) none := by
      intro o; funext x; unfold upd; split <;> rfl
    by_cases hk : kind = .auto
    · rw [if_pos hk, if_pos hk]
      unfold St.wr
      rw [if_pos (by simp [St.ok, St.malloc, upd])]
      unfold newBlk
      rw [Nat.sub_zero]
      simp only [lastV, fin, finu, finuu]
      rfl
    · rw [if_neg hk, if_neg hk]
      unfold newBlk
      rw [Nat.sub_zero]
      simp only [lastV, fin, finu, fin']
      rfl
  · intro j h1 h2
    simp [St.ok, St.malloc, upd]
    omega

end Gp.GVar
