import Verif.BtString.Model
import Verif.Term.Order
/-! Property C38: the string dictionary. -/
namespace Gp.BtString
open Gp.Term

/-! ### Specification -/

/-- The distinct strings of a sequence of insertions, in order of first insertion. -/
def firsts (l : List Name) : List Name := l.foldl (fun acc s => if s ∈ acc then acc else acc ++ [s]) []

/-- The dictionary after a sequence of insertions. -/
def run (l : List Name) : Dico := l.foldl (fun d s => (add d s).1) init

/-! ### Lemmas -/

/-- Strings without NUL. -/
def CStr (s : Name) : Prop := 0 ∉ s

theorem strcmp_pos {s t : Name} (hs : 0 ∉ s) (ht : 0 ∉ t) (h1 : strcmp s t ≠ 0) (h2 : ¬ strcmp s t < 0) : t < s := by
  rw [← strcmp_lt t s ht hs, strcmp_anti]; omega

/-- Search tree. -/
def Sorted (t : BT) : Prop := (listTree t).Pairwise (fun x y => x.2 < y.2)

def AllC (t : BT) : Prop := ∀ x ∈ listTree t, CStr x.2

theorem name_lt_irrefl (s : Name) : ¬ s < s := List.lt_irrefl s

theorem lookup_spec {t : BT} (h : Sorted t) (hc : AllC t) {s : Name} (hs : CStr s) (no : Nat) :
    lookupTree s t = some no ↔ (no, s) ∈ listTree t := by
  induction t with
  | null => simp [lookupTree, listTree]
  | node l str n r ihl ihr =>
    unfold Sorted listTree at h
    rw [List.pairwise_append, List.pairwise_cons] at h
    obtain ⟨h1, ⟨h2, h3⟩, h4⟩ := h
    have hl : AllC l := fun x hx => hc x (by simp [listTree, hx])
    have hr : AllC r := fun x hx => hc x (by simp [listTree, hx])
    have hstr : CStr str := hc (n, str) (by simp [listTree])
    simp only [lookupTree, listTree, List.mem_append, List.mem_cons]
    by_cases e : strcmp s str = 0
    · rw [if_pos e]
      obtain rfl := (strcmp_eq s str hs hstr).1 e
      constructor
      · intro hn; injection hn with hn; subst hn; exact .inr (.inl rfl)
      · rintro (hm | hm | hm)
        · exact absurd (h4 _ hm (n, s) (by simp)) (name_lt_irrefl s)
        · injection hm with hm _; rw [hm]
        · exact absurd (h2 _ hm) (name_lt_irrefl s)
    · rw [if_neg e]
      have hne : (no, s) ≠ (n, str) := by
        intro he; injection he with _ he; subst he; exact e (strcmp_self _)
      by_cases hlt : strcmp s str < 0
      · have hlt' := (strcmp_lt s str hs hstr).1 hlt
        rw [if_pos hlt, ihl h1 hl]
        constructor
        · exact .inl
        · rintro (hm | hm | hm)
          · exact hm
          · exact absurd hm hne
          · exact absurd (List.lt_trans hlt' (h2 _ hm)) (name_lt_irrefl s)
      · have hgt := strcmp_pos hs hstr e hlt
        rw [if_neg hlt, ihr h3 hr]
        constructor
        · exact fun h => .inr (.inr h)
        · rintro (hm | hm | hm)
          · exact absurd (List.lt_trans (h4 _ hm (n, str) (by simp)) hgt) (name_lt_irrefl s)
          · exact absurd hm hne
          · exact hm

/-- Adding a string: found, or a new node at its place in the order. -/
theorem add_spec {t : BT} (h : Sorted t) (hc : AllC t) {s : Name} (hs : CStr s) (nb : Nat) :
    (∃ no, (no, s) ∈ listTree t ∧ addTree nb s t = (t, no, nb)) ∨
    ((∀ x ∈ listTree t, x.2 ≠ s) ∧ ∃ t', addTree nb s t = (t', nb, nb + 1) ∧
      ∃ A B, listTree t = A ++ B ∧ listTree t' = A ++ (nb, s) :: B ∧ (∀ x ∈ A, x.2 < s) ∧ ∀ x ∈ B, s < x.2) := by
  induction t with
  | null =>
    exact .inr ⟨by simp [listTree], _, rfl, [], [], rfl, rfl, by simp, by simp⟩
  | node l str n r ihl ihr =>
    unfold Sorted listTree at h
    rw [List.pairwise_append, List.pairwise_cons] at h
    obtain ⟨h1, ⟨h2, h3⟩, h4⟩ := h
    have hl : AllC l := fun x hx => hc x (by simp [listTree, hx])
    have hr : AllC r := fun x hx => hc x (by simp [listTree, hx])
    have hstr : CStr str := hc (n, str) (by simp [listTree])
    by_cases e : strcmp s str = 0
    · obtain rfl := (strcmp_eq s str hs hstr).1 e
      exact .inl ⟨n, by simp [listTree], by simp [addTree, e]⟩
    · have hne : str ≠ s := by intro he; subst he; exact e (strcmp_self _)
      by_cases hlt : strcmp s str < 0
      · have hlt' := (strcmp_lt s str hs hstr).1 hlt
        rcases ihl h1 hl with ⟨no, hm, ha⟩ | ⟨hno, t', ha, A, B, e1, e2, hA, hB⟩
        · exact .inl ⟨no, by simp [listTree, hm], by simp only [addTree]; rw [if_neg e, if_pos hlt, ha]⟩
        · refine .inr ⟨?_, .node t' str n r, by simp only [addTree]; rw [if_neg e, if_pos hlt, ha], A, B ++ (n, str) :: listTree r, by simp [listTree, e1],
            by simp [listTree, e2], hA, ?_⟩
          · intro x hx
            simp only [listTree, List.mem_append, List.mem_cons] at hx
            rcases hx with hx | rfl | hx
            · exact hno x hx
            · exact hne
            · intro he; have := List.lt_trans hlt' (h2 x hx); rw [he] at this; exact name_lt_irrefl s this
          · intro x hx
            simp only [List.mem_append, List.mem_cons] at hx
            rcases hx with hx | rfl | hx
            · exact hB x hx
            · exact hlt'
            · exact List.lt_trans hlt' (h2 x hx)
      · have hgt := strcmp_pos hs hstr e hlt
        rcases ihr h3 hr with ⟨no, hm, ha⟩ | ⟨hno, t', ha, A, B, e1, e2, hA, hB⟩
        · exact .inl ⟨no, by simp [listTree, hm], by simp only [addTree]; rw [if_neg e, if_neg hlt, ha]⟩
        · refine .inr ⟨?_, .node l str n t', by simp only [addTree]; rw [if_neg e, if_neg hlt, ha],
            listTree l ++ (n, str) :: A, B, by simp [listTree, e1], by simp [listTree, e2], ?_, hB⟩
          · intro x hx
            simp only [listTree, List.mem_append, List.mem_cons] at hx
            rcases hx with hx | rfl | hx
            · intro he; have := List.lt_trans (h4 x hx (n, str) (by simp)) hgt; rw [he] at this; exact name_lt_irrefl s this
            · exact hne
            · exact hno x hx
          · intro x hx
            simp only [List.mem_append, List.mem_cons] at hx
            rcases hx with hx | rfl | hx
            · exact List.lt_trans (h4 x hx (n, str) (by simp)) hgt
            · exact hgt
            · exact hA x hx

/-- Invariant: the dictionary `d` holds the strings `f`, numbered in order. -/
structure Inv (d : Dico) (f : List Name) : Prop where
  sorted : Sorted d.tree
  cstr : AllC d.tree
  nb : d.nbElem = f.length
  mem : ∀ no s, (no, s) ∈ listTree d.tree ↔ f[no]? = some s
  nodup : f.Nodup

theorem inv_step {d : Dico} {f : List Name} (h : Inv d f) {s : Name} (hs : CStr s) :
    Inv (add d s).1 (if s ∈ f then f else f ++ [s]) ∧ (if s ∈ f then f else f ++ [s])[(add d s).2]? = some s := by
  have hin : (∃ no, (no, s) ∈ listTree d.tree) ↔ s ∈ f := by
    rw [List.mem_iff_getElem?]
    exact exists_congr fun no => h.mem no s
  rcases add_spec h.sorted h.cstr hs d.nbElem with ⟨no, hm, ha⟩ | ⟨hno, t', ha, A, B, e1, e2, hA, hB⟩
  · rw [if_pos (hin.1 ⟨no, hm⟩)]
    have : add d s = (d, no) := by simp only [add, ha]
    rw [this]
    exact ⟨h, (h.mem no s).1 hm⟩
  · have hns : s ∉ f := fun hm => by
      obtain ⟨no, hm⟩ := hin.2 hm
      exact hno _ hm rfl
    rw [if_neg hns]
    have : add d s = (⟨t', d.nbElem + 1⟩, d.nbElem) := by simp only [add, ha]
    rw [this]
    refine ⟨⟨?_, ?_, by simp [h.nb], ?_, ?_⟩, by simp [h.nb]⟩
    · have hsort := h.sorted
      unfold Sorted at hsort ⊢
      rw [e1, List.pairwise_append] at hsort
      simp only [e2, List.pairwise_append, List.pairwise_cons]
      refine ⟨hsort.1, ⟨hB, hsort.2.1⟩, ?_⟩
      intro x hx y hy
      rcases List.mem_cons.1 hy with rfl | hy
      · exact hA x hx
      · exact hsort.2.2 x hx y hy
    · intro x hx
      simp only [e2, List.mem_append, List.mem_cons] at hx
      rcases hx with hx | rfl | hx
      · exact h.cstr x (by rw [e1]; simp [hx])
      · exact hs
      · exact h.cstr x (by rw [e1]; simp [hx])
    · intro no w
      have hm := h.mem no w
      rw [e1, List.mem_append] at hm
      simp only [e2, List.mem_append, List.mem_cons]
      rw [List.getElem?_append]
      by_cases hlt : no < f.length
      · rw [if_pos hlt, ← hm]
        have : (no, w) ≠ (d.nbElem, s) := by intro he; injection he with he _; have := h.nb; omega
        simp [this]
      · rw [if_neg hlt]
        rw [List.getElem?_eq_none (by omega)] at hm
        simp only [reduceCtorEq, iff_false, not_or] at hm
        by_cases he : no = f.length
        · subst he
          simp [hm.1, hm.2, h.nb, eq_comm]
        · have : (no, w) ≠ (d.nbElem, s) := by intro hh; injection hh with hh _; have := h.nb; omega
          simp only [hm.1, hm.2, this, or_self, false_iff]
          rw [List.getElem?_eq_none (by simp; omega)]; simp
    · rw [List.nodup_append]
      refine ⟨h.nodup, by simp, ?_⟩
      intro x hx y hy he
      simp at hy; subst hy; subst he; exact hns hx

theorem inv_run_aux (l : List Name) (hl : ∀ s ∈ l, CStr s) (d : Dico) (f : List Name) (h : Inv d f) :
    Inv (l.foldl (fun d s => (add d s).1) d) (l.foldl (fun acc s => if s ∈ acc then acc else acc ++ [s]) f) := by
  induction l generalizing d f with
  | nil => exact h
  | cons s l ih => exact ih (fun x hx => hl x (by simp [hx])) _ _ (inv_step h (hl s (by simp))).1

theorem inv_run (l : List Name) (hl : ∀ s ∈ l, CStr s) : Inv (run l) (firsts l) :=
  inv_run_aux l hl _ _ ⟨List.Pairwise.nil, by intro x hx; simp [init, listTree] at hx, rfl,
    by simp [init, listTree], List.nodup_nil⟩

/-! ### Property theorems -/

/-- **C38** (lookup). After any sequence of insertions, looking up a string gives the rank of its first
insertion among the distinct strings, and nothing for a string never inserted. -/
theorem C38_lookup (l : List Name) (hl : ∀ s ∈ l, CStr s) (s : Name) (hs : CStr s) (no : Nat) :
    lookup (run l) s = some no ↔ (firsts l)[no]? = some s := by
  have h := inv_run l hl
  rw [lookup, lookup_spec h.sorted h.cstr hs, h.mem]

/-- **C38** (insertion). An insertion returns the node of that string (new or existing), the count of
elements is the number of distinct strings, and the dictionary is unchanged when the string was there. -/
theorem C38_add (l : List Name) (hl : ∀ s ∈ l, CStr s) (s : Name) (hs : CStr s) :
    (firsts (l ++ [s]))[(add (run l) s).2]? = some s ∧ (run (l ++ [s])).nbElem = (firsts (l ++ [s])).length ∧
    (firsts (l ++ [s])).Nodup ∧ (∀ x, x ∈ firsts (l ++ [s]) ↔ x ∈ l ++ [s]) ∧ (s ∈ l → add (run l) s = (run l, (firsts l).idxOf s)) := by
  have h := inv_run l hl
  have hmem : ∀ l : List Name, ∀ x, x ∈ firsts l ↔ x ∈ l := by
    have aux : ∀ (l acc : List Name) x, x ∈ l.foldl (fun acc s => if s ∈ acc then acc else acc ++ [s]) acc ↔ x ∈ acc ∨ x ∈ l := by
      intro l
      induction l with
      | nil => simp
      | cons y l ih =>
        intro acc x
        rw [List.foldl_cons, ih]
        by_cases hy : y ∈ acc
        · rw [if_pos hy, List.mem_cons]
          constructor
          · rintro (h | h); exact .inl h; exact .inr (.inr h)
          · rintro (h | rfl | h); exact .inl h; exact .inl hy; exact .inr h
        · rw [if_neg hy]
          simp only [List.mem_append, List.mem_cons, List.not_mem_nil, or_false]
          exact or_assoc
    intro l x
    rw [firsts, aux]; simp
  have hl' : ∀ x ∈ l ++ [s], CStr x := by
    intro x hx
    rcases List.mem_append.1 hx with h | h
    · exact hl x h
    · rw [List.mem_singleton.1 h]; exact hs
  have h' := inv_run (l ++ [s]) hl'
  have hf : firsts (l ++ [s]) = if s ∈ firsts l then firsts l else firsts l ++ [s] := by
    unfold firsts; rw [List.foldl_append]; rfl
  refine ⟨by rw [hf]; exact (inv_step h hs).2, h'.nb, h'.nodup, hmem _, fun hm => ?_⟩
  have hin : s ∈ firsts l := (hmem l s).2 hm
  rcases add_spec h.sorted h.cstr hs (run l).nbElem with ⟨no, hm2, ha⟩ | ⟨hno, _⟩
  · have e : add (run l) s = (run l, no) := by simp only [add, ha]
    rw [e]
    have h1 := (h.mem no s).1 hm2
    have h2 : (firsts l)[(firsts l).idxOf s]? = some s := by
      rw [List.getElem?_eq_getElem (List.idxOf_lt_length_iff.2 hin)]
      simp
    obtain ⟨b1, g1⟩ := List.getElem?_eq_some_iff.1 h1
    obtain ⟨b2, g2⟩ := List.getElem?_eq_some_iff.1 h2
    rw [(List.getElem_inj h.nodup).1 (g1.trans g2.symm)]
  · obtain ⟨no, hn⟩ := List.mem_iff_getElem?.1 hin
    exact absurd rfl (hno _ ((h.mem no s).2 hn))

/-- **C38** (listing). The listing calls the function once per distinct string, in strictly increasing
byte order, with the number of the string. -/
theorem C38_list (l : List Name) (hl : ∀ s ∈ l, CStr s) :
    (list (run l)).Pairwise (fun x y => x.2 < y.2) ∧
    ∀ no s, (no, s) ∈ list (run l) ↔ (firsts l)[no]? = some s :=
  ⟨(inv_run l hl).sorted, (inv_run l hl).mem⟩

/-- A concrete sequence of insertions with a repetition. -/
example : firsts [[98], [97], [98], [99]] = [[98], [97], [99]] ∧ (∀ s ∈ [[98], [97], [98], [99]], CStr s) := by
  refine ⟨by decide, ?_⟩
  intro s hs
  simp at hs
  rcases hs with rfl | rfl | rfl | rfl <;> simp [CStr]

end Gp.BtString
