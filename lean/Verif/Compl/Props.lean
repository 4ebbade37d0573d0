import Verif.Compl.Lemmas

/-
C62: the completion of words.
Specification: the words of the dictionary in increasing order, those which have a given prefix, their longest
common prefix; the solutions of find_linedit_completion/2 are these words; the list displayed by two tabulations
is a table of these words.
-/
namespace Gp.Compl
open Gp.RbMap

/-! Specification -/

/-- The words of the dictionary, in increasing order. -/
def words (d : Dico) : List Word := (entries d).map (·.1)

/-- The words which have the prefix `pre`. -/
def completions (d : Dico) (pre : Word) : List Word := (words d).filter (pre.isPrefixOf ·)

/-- `q` is the longest common prefix of the words. -/
def IsLcp (ws : List Word) (q : Word) : Prop :=
  (∀ w ∈ ws, q <+: w) ∧ ∀ r, (∀ w ∈ ws, r <+: w) → r.length ≤ q.length

/-- Dictionary of words: C strings with their lengths. -/
structure Ok (d : Dico) : Prop where
  wf : WF strcmp d
  lens : ∀ e ∈ entries d, e.2 = e.1.length
  nozero : ∀ e ∈ entries d, 0 ∉ e.1

/-- The words added or removed. -/
inductive Op where
  | add (w : Word)
  | remove (w : Word)

/-- A history of the dictionary: the length given with a word is its length (atom.c:281, le_interf_c.c:125). -/
def run (d : Dico) : List Op → Option Dico
  | [] => some d
  | .add w :: ops => (addWord d w w.length).bind fun r => run r.1 ops
  | .remove w :: ops => (removeWord d w).bind fun r => run r.1 ops

/-- Whether the word `w` is present after the operations. -/
def After (w : Word) : Prop → List Op → Prop
  | p, [] => p
  | p, .add v :: ops => After w (w = v ∨ p) ops
  | p, .remove v :: ops => After w (w ≠ v ∧ p) ops

theorem After_congr (w : Word) (p q : Prop) (h : p ↔ q) (ops : List Op) : After w p ops ↔ After w q ops := by
  rw [propext h]

theorem mem_words (d : Dico) (w : Word) : w ∈ words d ↔ ∃ v, (w, v) ∈ entries d := by simp [words]

theorem run_ok (ops : List Op) (hz : ∀ w, Op.add w ∈ ops → 0 ∉ w) (d : Dico) (hd : Ok d) :
    ∃ d', run d ops = some d' ∧ Ok d' ∧ ∀ w, w ∈ words d' ↔ After w (w ∈ words d) ops := by
  induction ops generalizing d with
  | nil => exact ⟨d, rfl, hd, fun w => Iff.rfl⟩
  | cons op ops ih =>
    have hz' : ∀ w, Op.add w ∈ ops → 0 ∉ w := fun w h => hz w (List.mem_cons_of_mem _ h)
    cases op with
    | add v =>
      obtain ⟨m, e, b, h1, h2, h3, h4, h5, h6⟩ := C42_put strcmp_order (fun _ => (v.length : Int)) d hd.wf v
      have key : Ok m ∧ ∀ w, w ∈ words m ↔ (w = v ∨ w ∈ words d) := by
        cases b with
        | false =>
          obtain ⟨h7, rfl⟩ := h5 rfl
          refine ⟨hd, fun w => ⟨Or.inr, ?_⟩⟩
          rintro (rfl | h)
          · exact (mem_words _ _).mpr ⟨e.2, by rw [← h3]; exact h4⟩
          · exact h
        | true =>
          obtain ⟨_, _, _, _, h7, lo, hi, h8, h9⟩ := h6 rfl
          have hm : ∀ x, x ∈ entries m ↔ x = e ∨ x ∈ entries d := by
            intro x; rw [h8, h9]; simp only [List.mem_append, List.mem_cons]
            constructor
            · rintro (h | h | h)
              · exact Or.inr (Or.inl h)
              · exact Or.inl h
              · exact Or.inr (Or.inr h)
            · rintro (h | h | h)
              · exact Or.inr (Or.inl h)
              · exact Or.inl h
              · exact Or.inr (Or.inr h)
          refine ⟨⟨h2, ?_, ?_⟩, fun w => ?_⟩
          · intro x hx
            rcases (hm x).mp hx with rfl | hx
            · rw [h7, h3]
            · exact hd.lens x hx
          · intro x hx
            rcases (hm x).mp hx with rfl | hx
            · rw [h3]; exact hz v (List.mem_cons_self ..)
            · exact hd.nozero x hx
          · simp only [words, List.mem_map, hm]
            constructor
            · rintro ⟨x, rfl | hx, rfl⟩
              · exact Or.inl h3
              · exact Or.inr ⟨x, hx, rfl⟩
            · rintro (rfl | ⟨x, hx, rfl⟩)
              · exact ⟨e, Or.inl rfl, h3⟩
              · exact ⟨x, Or.inr hx, rfl⟩
      obtain ⟨d', k1, k2, k3⟩ := ih hz' m key.1
      refine ⟨d', ?_, k2, fun w => ?_⟩
      · simp only [run, addWord, h1, Option.map_some, Option.bind_some]; exact k1
      · rw [k3 w]; exact After_congr _ _ _ (key.2 w) ops
    | remove v =>
      obtain ⟨m, b, h1, h2, h3, h4, h5⟩ := C42_remove strcmp_order d hd.wf v
      have key : Ok m ∧ ∀ w, w ∈ words m ↔ (w ≠ v ∧ w ∈ words d) := by
        cases b with
        | false =>
          have := h4 rfl; subst this
          refine ⟨hd, fun w => ⟨fun h => ⟨?_, h⟩, fun h => h.2⟩⟩
          rintro rfl
          have := h3.mpr ((mem_words _ _).mp h)
          simp at this
        | true =>
          obtain ⟨_, _, _, lo, x, hi, h8, h9⟩ := h5 rfl
          have hsub : ∀ y, y ∈ entries m → y ∈ entries d := by
            intro y; rw [h8, h9]; simp only [List.mem_append, List.mem_cons]
            rintro (h | h)
            · exact Or.inl h
            · exact Or.inr (Or.inr h)
          have hs := hd.wf.sorted
          rw [h8] at hs
          simp only [Sorted, List.pairwise_append, List.pairwise_cons] at hs
          refine ⟨⟨h2, fun y hy => hd.lens y (hsub y hy), fun y hy => hd.nozero y (hsub y hy)⟩, fun w => ?_⟩
          simp only [mem_words]
          constructor
          · rintro ⟨y, hy⟩
            refine ⟨?_, y, hsub _ hy⟩
            rintro rfl
            rw [h9] at hy
            rcases List.mem_append.mp hy with hy | hy
            · have := hs.2.2 _ hy _ (List.mem_cons_self ..); rw [strcmp_self] at this; omega
            · have := hs.2.1.1 _ hy; rw [strcmp_self] at this; omega
          · rintro ⟨hne, y, hy⟩
            refine ⟨y, ?_⟩
            rw [h8] at hy; rw [h9]
            simp only [List.mem_append, List.mem_cons, Prod.mk.injEq] at hy ⊢
            rcases hy with hy | ⟨hy, _⟩ | hy
            · exact Or.inl hy
            · exact absurd hy hne
            · exact Or.inr hy
      obtain ⟨d', k1, k2, k3⟩ := ih hz' m key.1
      refine ⟨d', ?_, k2, fun w => ?_⟩
      · simp only [run, removeWord, h1, Option.bind_some]; exact k1
      · rw [k3 w]; exact After_congr _ _ _ (key.2 w) ops

/-- After any history the dictionary contains exactly the words added and not removed since, once each, in
increasing order. -/
theorem C62_words (ops : List Op) (hz : ∀ w, Op.add w ∈ ops → 0 ∉ w) :
    ∃ d, run init ops = some d ∧ Ok d ∧ (words d).Pairwise (fun a b => strcmp a b < 0) ∧
      ∀ w, w ∈ words d ↔ After w False ops := by
  have h0 : Ok init := ⟨WF_init _, by simp [entries, init, inorder], by simp [entries, init, inorder]⟩
  obtain ⟨d, h1, h2, h3⟩ := run_ok ops hz init h0
  refine ⟨d, h1, h2, ?_, fun w => ?_⟩
  · have := h2.wf.sorted
    rw [words, List.pairwise_map]
    exact this
  · rw [h3 w]
    exact After_congr _ _ _ (by simp [words, entries, init, inorder]) ops

/-- The entries of the completions. -/
abbrev ents (d : Dico) (pre : Word) : List (Word × Int) := (entries d).filter (has pre)

theorem completions_eq (d : Dico) (pre : Word) : completions d pre = (ents d pre).map (·.1) := by
  simp only [completions, words, ents, List.filter_map]
  rfl

/-- The structure is at one of the completions of `pre`. -/
def Pointing (d : Dico) (pre : Word) (cm : Cm) : Prop :=
  cm.nb = (completions d pre).length ∧ 0 ≤ cm.curNo ∧ cm.curNo < cm.nb ∧
  ∃ x lo hi, cm.entry = some x ∧ x.root = d.root ∧ entries d = lo ++ ents d pre ++ hi ∧
    x.before.length = lo.length + cm.curNo.toNat

theorem loc_entry (d : Dico) (x : Loc (Word × Int)) (h : x.root = d.root) :
    entries d = x.before ++ x.e :: x.after := by rw [← x.inorder_root, h]; rfl

/-- The current word. -/
theorem Pointing.word {d : Dico} {pre : Word} {cm : Cm} (h : Pointing d pre cm) :
    curWord cm = (completions d pre)[cm.curNo.toNat]? ∧
      ∃ x, cm.entry = some x ∧ x.e ∈ entries d ∧ x.e ∈ ents d pre ∧ (completions d pre)[cm.curNo.toNat]? = some x.e.1 := by
  obtain ⟨h1, h2, h3, x, lo, hi, h4, h5, h6, h7⟩ := h
  have hin := loc_entry d x h5
  have hlt : cm.curNo.toNat < (ents d pre).length := by
    rw [completions_eq, List.length_map] at h1; omega
  have e1 : (entries d)[x.before.length]? = some x.e := by rw [hin]; simp
  have e2 : (entries d)[x.before.length]? = (ents d pre)[cm.curNo.toNat]? := by
    conv => lhs; rw [h6, h7]
    rw [List.append_assoc, List.getElem?_append_right (by omega), List.getElem?_append_left (by omega)]
    congr 1
    omega
  have e3 : (ents d pre)[cm.curNo.toNat]? = some x.e := by rw [← e2, e1]
  have e4 : (completions d pre)[cm.curNo.toNat]? = some x.e.1 := by
    rw [completions_eq, List.getElem?_map, e3]; rfl
  refine ⟨by rw [e4, curWord, h4]; rfl, x, h4, ?_, List.mem_of_getElem? e3, e4⟩
  rw [hin]; simp

/-- Completion of a prefix: never a fault; it succeeds exactly when a word of the dictionary has this prefix; it
then gives the number of these words, the length of the longest one, the first one, and their longest common prefix. -/
theorem C62_match_first (d : Dico) (hd : Ok d) (cm : Cm) (pre : Word) :
    ∃ cm' b, matchFirst d cm pre pre.length = some (cm', b) ∧ cm'.nb = (completions d pre).length ∧
      (b = true ↔ completions d pre ≠ []) ∧ (b = false → cm'.entry = none ∧ cm'.curNo = 0) ∧
      (b = true → Pointing d pre cm' ∧ cm'.curNo = 0 ∧ curWord cm' = (completions d pre).head? ∧
        (∀ w ∈ completions d pre, (w.length : Int) ≤ cm'.maxWord) ∧
        (∃ w ∈ completions d pre, (w.length : Int) = cm'.maxWord) ∧
        ∃ w, curWord cm' = some w ∧ 0 ≤ cm'.maxPrefix ∧ cm'.maxPrefix ≤ w.length ∧
          IsLcp (completions d pre) (w.take cm'.maxPrefix.toNat)) := by
  have hm := matches_from d hd.wf pre
  unfold matchFirst
  generalize mapNext strcmp d pre false = o at hm
  cases o with
  | none =>
    simp only at hm
    have hc : completions d pre = [] := by rw [completions_eq, ents, hm]; rfl
    exact ⟨_, false, rfl, by rw [hc]; rfl, by simp [hc], fun _ => ⟨rfl, rfl⟩, by simp⟩
  | some x =>
    obtain ⟨hr, hT⟩ := hm
    have hents : ents d pre = (x.e :: x.after).takeWhile (has pre) := hT
    have hin := loc_entry d x hr
    obtain ⟨s1, s2, s3, s4⟩ := scan_spec pre x 0 0 none
    rw [← hents] at s1 s2 s3 s4
    have hlen : (completions d pre).length = (ents d pre).length := by rw [completions_eq, List.length_map]
    simp only
    generalize hscan : scan pre pre.length x 0 0 none = r at s1 s2 s3 s4 ⊢
    rw [Nat.zero_add] at s1
    by_cases k0 : r.1 = 0
    · rw [if_pos k0]
      have e0 : ents d pre = [] := List.length_eq_zero_iff.mp (by omega)
      have hc : completions d pre = [] := by rw [completions_eq, e0]; rfl
      exact ⟨_, false, rfl, by simp only; omega, by simp [hc], fun _ => ⟨rfl, rfl⟩, by simp⟩
    · rw [if_neg k0]
      have hne : ents d pre ≠ [] := by intro h; rw [h] at s1; exact k0 s1
      have hcne : completions d pre ≠ [] := by rw [completions_eq]; simpa using hne
      -- the first one
      have hx : has pre x.e = true := by
        by_cases q : has pre x.e = true
        · exact q
        · rw [List.takeWhile_cons_of_neg q] at hents; exact absurd hents hne
      obtain ⟨ts, hts⟩ : ∃ ts, ents d pre = x.e :: ts := ⟨_, by rw [hents, List.takeWhile_cons_of_pos hx]⟩
      obtain ⟨hi, hhi⟩ : ∃ hi, x.e :: x.after = ents d pre ++ hi :=
        ⟨(x.e :: x.after).dropWhile (has pre), by rw [hents, List.takeWhile_append_dropWhile]⟩
      have hsplit : entries d = x.before ++ ents d pre ++ hi := by rw [hin, hhi, List.append_assoc]
      have hhead : (completions d pre).head? = some x.e.1 := by rw [completions_eq, hts]; rfl
      have hmemE : ∀ e ∈ ents d pre, e ∈ entries d := fun e he => (List.mem_filter.mp he).1
      have hlens : ∀ e ∈ ents d pre, e.2 = e.1.length := fun e he => hd.lens e (hmemE e he)
      have hpre : ∀ e ∈ ents d pre, pre <+: e.1 := fun e he => (has_iff pre e).mp (List.mem_filter.mp he).2
      obtain ⟨m1, m2, m3⟩ := maxLen_ge 0 (ents d pre)
      have hmax1 : ∀ w ∈ completions d pre, (w.length : Int) ≤ r.2.1 := by
        intro w hw
        rw [completions_eq] at hw
        obtain ⟨e, he, rfl⟩ := List.mem_map.mp hw
        rw [s2, ← hlens e he]; exact m2 e he
      have hmax2 : ∃ w ∈ completions d pre, (w.length : Int) = r.2.1 := by
        rcases m3 with m3 | ⟨e, he, m3⟩
        · have hxm : x.e ∈ ents d pre := by rw [hts]; simp
          have := m2 x.e hxm
          have h' := hlens x.e hxm
          refine ⟨x.e.1, ?_, ?_⟩
          · rw [completions_eq]; exact List.mem_map.mpr ⟨x.e, hxm, rfl⟩
          · rw [s2]; omega
        · refine ⟨e.1, ?_, ?_⟩
          · rw [completions_eq]; exact List.mem_map.mpr ⟨e, he, rfl⟩
          · rw [s2, m3, hlens e he]
      have hpoint : ∀ mp, Pointing d pre ⟨pre.length, r.1, r.2.1, mp, 0, some x⟩ := by
        intro mp
        refine ⟨by simp only; omega, by simp, by simp only; omega, x, x.before, hi, rfl, hr, hsplit, by simp⟩
      have hxm : x.e ∈ ents d pre := by rw [hts]; simp
      by_cases k1 : r.1 = 1
      · rw [if_pos k1]
        have hts0 : ts = [] := by
          have : (ents d pre).length = 1 := by omega
          rw [hts] at this; simpa using this
        refine ⟨_, true, rfl, by simp only; omega, by simp [hcne], by simp, fun _ => ⟨hpoint _, rfl, ?_, hmax1, hmax2, x.e.1, rfl, ?_, ?_, ?_⟩⟩
        · rw [hhead]; rfl
        · simp only; rw [hlens _ hxm]; omega
        · simp only; rw [hlens _ hxm]
        · simp only; rw [hlens _ hxm, completions_eq, hts, hts0]
          refine ⟨by simp, fun q hq => ?_⟩
          have := (hq x.e.1 (by simp)).length_le
          simpa using this
      · rw [if_neg k1]
        obtain ⟨y, hy1, hy2⟩ := s4 hne
        rw [hy1]
        have hym : y.e ∈ ents d pre := List.mem_of_getLast? hy2
        obtain ⟨ini, hini⟩ : ∃ ini, ents d pre = ini ++ [y.e] := by
          obtain ⟨ini, h'⟩ := List.getLast?_eq_some_iff.mp hy2; exact ⟨ini, h'⟩
        have hsortE : Sorted strcmp (ents d pre) := List.Pairwise.filter _ hd.wf.sorted
        have hts_ne : ts ≠ [] := by
          intro h'; rw [hts, h'] at s1; exact k1 s1
        have hy_ts : y.e ∈ ts := by
          rw [hts, List.getLast?_cons] at hy2
          cases h' : ts.getLast? with
          | none => exact absurd (List.getLast?_eq_none_iff.mp h') hts_ne
          | some z => rw [h'] at hy2; simp at hy2; rw [← hy2]; exact List.mem_of_getLast? h'
        have hxy : strcmp x.e.1 y.e.1 < 0 := by
          have := hsortE; rw [hts] at this
          simp only [Sorted, List.pairwise_cons] at this
          exact this.1 _ hy_ts
        have hne' : x.e.1 ≠ y.e.1 := by intro h'; rw [h', strcmp_self] at hxy; omega
        have px := hpre _ hxm
        have py := hpre _ hym
        obtain ⟨l, c1, c2, c3, c4, c5, c6⟩ := common_spec x.e.1 y.e.1 (hd.nozero _ (hmemE _ hxm))
          (hd.nozero _ (hmemE _ hym)) hne' pre.length px.length_le py.length_le
          (by rw [← List.prefix_iff_eq_take.mp px, ← List.prefix_iff_eq_take.mp py])
        simp only [c1]
        refine ⟨_, true, rfl, by simp only; omega, by simp [hcne], by simp, fun _ => ⟨hpoint _, rfl, ?_, hmax1, hmax2, x.e.1, rfl, ?_, ?_, ?_, ?_⟩⟩
        · rw [hhead]; rfl
        · simp only; omega
        · simp only; omega
        · intro w hw
          rw [completions_eq] at hw
          obtain ⟨e, he, rfl⟩ := List.mem_map.mp hw
          simp only [Int.toNat_natCast]
          have pa : x.e.1.take l <+: x.e.1 := List.take_prefix ..
          have pb : x.e.1.take l <+: y.e.1 := by rw [c5]; exact List.take_prefix ..
          have he1 : e = x.e ∨ strcmp x.e.1 e.1 < 0 := by
            have hs := hsortE; rw [hts] at hs he
            simp only [Sorted, List.pairwise_cons] at hs
            rcases List.mem_cons.mp he with he | he
            · exact Or.inl he
            · exact Or.inr (hs.1 _ he)
          have he2 : e = y.e ∨ strcmp e.1 y.e.1 < 0 := by
            have hs := hsortE; rw [hini] at hs he
            simp only [Sorted, List.pairwise_append] at hs
            rcases List.mem_append.mp he with he | he
            · exact Or.inr (hs.2.2 _ he _ (by simp))
            · exact Or.inl (by simpa using he)
          rcases he1 with rfl | he1
          · exact pa
          · rcases he2 with rfl | he2
            · exact pb
            · refine between _ _ _ ?_ he2 pb
              have h1 := prefix_le _ _ pa
              by_cases q : strcmp (x.e.1.take l) x.e.1 = 0
              · rw [(strcmp_order.eq0 _ _).mp q]; omega
              · have := strcmp_order.trans _ _ _ (show strcmp (x.e.1.take l) x.e.1 < 0 by omega) he1; omega
        · intro q hq
          simp only [Int.toNat_natCast, List.length_take]
          have := c6 q (hq _ (by rw [completions_eq]; exact List.mem_map.mpr ⟨_, hxm, rfl⟩))
            (hq _ (by rw [completions_eq]; exact List.mem_map.mpr ⟨_, hym, rfl⟩))
          omega

end Gp.Compl
