import Verif.AllSol.Bag
/-
Lemmas for bagof/3 and setof/3.
-/
namespace Gp.AllSol
open Gp.Term Gp.Sort

/-! ## Renaming -/

theorem tvars_rename (φ : Nat → Nat) (t : Tree) : tvars (trename φ t) = (tvars t).map φ := by
  induction t using trename.induct with
  | case1 | case3 | case4 | case5 | case6 => simp [trename, tvars]
  | case2 f l ih =>
    simp only [trename, tvars, List.map_flatMap, List.flatMap_map]
    induction l with
    | nil => rfl
    | cons a l ihl =>
      simp only [List.flatMap_cons]
      rw [ih a (by simp), ihl fun t ht => ih t (by simp [ht])]

theorem trename_congr {φ ψ : Nat → Nat} (t : Tree) (h : ∀ a ∈ tvars t, φ a = ψ a) : trename φ t = trename ψ t := by
  induction t using trename.induct with
  | case1 a => simp only [trename]; rw [h a (by simp [tvars])]
  | case3 | case4 | case5 | case6 => simp [trename]
  | case2 f l ih =>
    simp only [trename]
    congr 1
    apply List.map_congr_left
    intro t ht
    exact ih t ht fun a ha => h a (by simp only [tvars, List.mem_flatMap]; exact ⟨t, ht, ha⟩)

theorem trename_trename (φ ψ : Nat → Nat) (t : Tree) : trename ψ (trename φ t) = trename (fun a => ψ (φ a)) t := by
  induction t using trename.induct with
  | case1 | case3 | case4 | case5 | case6 => simp [trename]
  | case2 f l ih =>
    simp only [trename, List.map_map]
    congr 1
    apply List.map_congr_left
    intro t ht
    exact ih t ht

theorem trename_id (t : Tree) : trename (fun a => a) t = t := by
  induction t using tvars.induct with
  | case1 => simp [trename]
  | case2 f l ih =>
    simp only [trename]
    congr 1
    conv => rhs; rw [← List.map_id l]
    exact List.map_congr_left fun t ht => ih t ht
  | case3 t h1 h2 => cases t <;> simp_all [trename]

/-- One to one on a list of variables. -/
def InjOn (φ : Nat → Nat) (l : List Nat) : Prop := ∀ a ∈ l, ∀ b ∈ l, φ a = φ b → a = b

/-- `u` and `v` are variants. -/
def TVariant (u v : Tree) : Prop := ∃ ψ : Nat → Nat, InjOn ψ (tvars u) ∧ v = trename ψ u

theorem variant_of_eq {φ1 φ2 : Nat → Nat} {k1 k2 : Tree} (h : trename φ1 k1 = trename φ2 k2) (i1 : InjOn φ1 (tvars k1))
    (i2 : InjOn φ2 (tvars k2)) : TVariant k1 k2 := by
  classical
  -- an inverse of φ2
  let g : Nat → Nat := fun x => if h : ∃ w, w ∈ tvars k2 ∧ φ2 w = x then h.choose else x
  have hg : ∀ w ∈ tvars k2, g (φ2 w) = w := by
    intro w hw
    have he : ∃ w', w' ∈ tvars k2 ∧ φ2 w' = φ2 w := ⟨w, hw, rfl⟩
    simp only [g, dif_pos he]
    exact i2 _ he.choose_spec.1 _ hw he.choose_spec.2
  have hv : (tvars k1).map φ1 = (tvars k2).map φ2 := by rw [← tvars_rename, ← tvars_rename, h]
  refine ⟨fun a => g (φ1 a), ?_, ?_⟩
  · intro a ha b hb hab
    obtain ⟨w, hw, ew⟩ := List.mem_map.1 (hv ▸ List.mem_map.2 ⟨a, ha, rfl⟩)
    obtain ⟨w', hw', ew'⟩ := List.mem_map.1 (hv ▸ List.mem_map.2 ⟨b, hb, rfl⟩)
    dsimp only at hab
    rw [← ew, ← ew', hg w hw, hg w' hw'] at hab
    subst hab
    exact i1 a ha b hb (by rw [← ew, ← ew'])
  · rw [← trename_trename, h, trename_trename]
    conv => lhs; rw [← trename_id k2]
    exact trename_congr k2 fun a ha => (hg a ha).symm

/-! ## First occurrences -/

/-- The variables, each one once, in the order of their first occurrences. -/
def firsts : List Nat → List Nat → List Nat
  | acc, [] => acc
  | acc, v :: vs => if v ∈ acc then firsts acc vs else firsts (acc ++ [v]) vs

theorem firsts_snoc (acc vs : List Nat) (v : Nat) :
    firsts acc (vs ++ [v]) = if v ∈ firsts acc vs then firsts acc vs else firsts acc vs ++ [v] := by
  induction vs generalizing acc with
  | nil => by_cases hv : v ∈ acc <;> simp [firsts, hv]
  | cons w vs ih =>
    simp only [List.cons_append, firsts]
    split <;> exact ih _

theorem mem_firsts (acc vs : List Nat) (v : Nat) : v ∈ firsts acc vs ↔ v ∈ acc ∨ v ∈ vs := by
  induction vs generalizing acc with
  | nil => simp [firsts]
  | cons w vs ih =>
    simp only [firsts]
    split
    · rename_i h
      rw [ih, List.mem_cons]
      constructor
      · rintro (h1 | h1) <;> simp [h1]
      · rintro (h1 | rfl | h1) <;> simp [*]
    · rw [ih, List.mem_append, List.mem_singleton, List.mem_cons, or_assoc]

theorem nodup_firsts (acc vs : List Nat) (h : acc.Nodup) : (firsts acc vs).Nodup := by
  induction vs generalizing acc with
  | nil => exact h
  | cons w vs ih =>
    simp only [firsts]
    split
    · exact ih _ h
    · rename_i hw
      refine ih _ ?_
      rw [List.nodup_append]
      refine ⟨h, by simp, ?_⟩
      intro a ha b hb
      rw [List.mem_singleton] at hb
      subst hb
      rintro rfl
      exact hw ha

theorem firsts_map {ψ : Nat → Nat} (acc vs : List Nat) (h : InjOn ψ (acc ++ vs)) :
    firsts (acc.map ψ) (vs.map ψ) = (firsts acc vs).map ψ := by
  induction vs generalizing acc with
  | nil => rfl
  | cons w vs ih =>
    simp only [List.map_cons, firsts]
    have hiff : ψ w ∈ acc.map ψ ↔ w ∈ acc := by
      rw [List.mem_map]
      constructor
      · rintro ⟨a, ha, e⟩
        rw [← h a (by simp [ha]) w (by simp) e]
        exact ha
      · intro hw; exact ⟨w, hw, rfl⟩
    by_cases hw : w ∈ acc
    · rw [if_pos hw, if_pos (hiff.2 hw)]
      have hsub : ∀ a, a ∈ acc ++ vs → a ∈ acc ++ w :: vs := by
        intro a ha
        rw [List.mem_append] at ha ⊢
        exact ha.imp id fun h => List.mem_cons_of_mem _ h
      exact ih acc fun a ha b hb => h a (hsub a ha) b (hsub b hb)
    · rw [if_neg hw, if_neg (fun h => hw (hiff.1 h))]
      have := ih (acc ++ [w]) fun a ha b hb => h a (by simpa using ha) b (by simpa using hb)
      rw [List.map_append] at this
      exact this

/-! ## Linking -/

/-- The state after the occurrences `vs` with the stack `S` at the beginning. -/
structure LInv (S vs : List Nat) (s : KS) : Prop where
  stack : s.stack = S ++ (firsts [] vs).drop S.length
  next : s.next = min (firsts [] vs).length S.length
  other : ∀ v, v ∉ vs → lookup s.bind v = v
  val : ∀ (i : Nat) v, (firsts [] vs)[i]? = some v → s.stack[i]? = some (lookup s.bind v)

theorem linkVar_inv {S vs : List Nat} {s : KS} {v : Nat} (h : LInv S vs s) (hv : v ∉ S) :
    LInv S (vs ++ [v]) (linkVar S.length s v) := by
  have hmf := mem_firsts [] vs
  by_cases hm : v ∈ vs
  · have hf : firsts [] (vs ++ [v]) = firsts [] vs := by
      rw [firsts_snoc, if_pos ((hmf v).2 (.inr hm))]
    obtain ⟨i, hi, e⟩ := List.mem_iff_getElem.1 ((hmf v).2 (.inr hm))
    have hl := h.val i v (by rw [List.getElem?_eq_getElem hi, e])
    have hin : lookup s.bind v ∈ s.stack := List.mem_of_getElem? hl
    have : linkVar S.length s v = s := by
      simp only [linkVar, if_pos hin]
    rw [this]
    exact ⟨by rw [hf]; exact h.stack, by rw [hf]; exact h.next,
      fun w hw => h.other w (fun h => hw (by simp [h])), by rw [hf]; exact h.val⟩
  · have hmf' : v ∉ firsts [] vs := fun h => hm (by simpa using (hmf v).1 h)
    have hf : firsts [] (vs ++ [v]) = firsts [] vs ++ [v] := by
      rw [firsts_snoc, if_neg hmf']
    have hl : lookup s.bind v = v := h.other v hm
    have hns : v ∉ s.stack := by
      rw [h.stack, List.mem_append]
      rintro (h1 | h1)
      · exact hv h1
      · exact hmf' (List.mem_of_mem_drop h1)
    have hlen : s.stack.length = S.length + ((firsts [] vs).length - S.length) := by
      rw [h.stack, List.length_append, List.length_drop]
    by_cases hn : s.next < S.length
    · have hlt : (firsts [] vs).length < S.length := by have := h.next; omega
      have hnx : s.next = (firsts [] vs).length := by have := h.next; omega
      have hst : s.stack = S := by rw [h.stack, List.drop_eq_nil_of_le (by omega), List.append_nil]
      have hg : s.stack[s.next]? = some S[s.next] := by rw [hst, List.getElem?_eq_getElem hn]
      have he : linkVar S.length s v = { s with bind := (v, S[s.next]) :: s.bind, next := s.next + 1 } := by
        simp only [linkVar, hl, if_neg hns, if_pos hn, hg]
      rw [he]
      refine ⟨?_, ?_, ?_, ?_⟩
      · show s.stack = _
        rw [hf, hst, List.drop_eq_nil_of_le (by simp; omega), List.append_nil]
      · show s.next + 1 = _
        rw [hf, List.length_append, List.length_singleton]; omega
      · intro w hw
        have h1 : w ∉ vs := fun h => hw (by simp [h])
        have h2 : v ≠ w := by rintro rfl; exact hw (by simp)
        simp only [lookup, if_neg h2]
        exact h.other w h1
      · intro i w hi
        rw [hf] at hi
        show s.stack[i]? = _
        by_cases hlt2 : i < (firsts [] vs).length
        · rw [List.getElem?_append_left hlt2] at hi
          have h2 : v ≠ w := by rintro rfl; exact hmf' (List.mem_of_getElem? hi)
          simp only [lookup, if_neg h2]
          exact h.val i w hi
        · rw [List.getElem?_append_right (by omega)] at hi
          have hi0 : i = (firsts [] vs).length := by
            have := (List.getElem?_eq_some_iff.1 hi).1
            simp at this; omega
          subst hi0
          simp at hi
          subst hi
          simp only [lookup, if_true]
          rw [← hnx, hg]
    · have hle : S.length ≤ (firsts [] vs).length := by have := h.next; omega
      have he : linkVar S.length s v = { s with stack := s.stack ++ [v] } := by
        simp only [linkVar, hl, if_neg hns, if_neg hn]
      rw [he]
      refine ⟨?_, ?_, ?_, ?_⟩
      · show s.stack ++ [v] = _
        rw [hf, h.stack, List.drop_append_of_le_length hle, List.append_assoc]
      · show s.next = _
        rw [hf, List.length_append, List.length_singleton]
        have := h.next
        omega
      · intro w hw
        exact h.other w fun h => hw (by simp [h])
      · intro i w hi
        rw [hf] at hi
        show (s.stack ++ [v])[i]? = some (lookup s.bind w)
        by_cases hlt2 : i < (firsts [] vs).length
        · rw [List.getElem?_append_left hlt2] at hi
          rw [List.getElem?_append_left (by omega)]
          exact h.val i w hi
        · rw [List.getElem?_append_right (by omega)] at hi
          have hi0 : i = (firsts [] vs).length := by
            have := (List.getElem?_eq_some_iff.1 hi).1
            simp at this; omega
          subst hi0
          simp at hi
          subst hi
          rw [hl, List.getElem?_append_right (by omega), show (firsts [] vs).length - s.stack.length = 0 by omega]
          rfl

theorem linkKey_inv {S : List Nat} : ∀ (vs2 vs : List Nat) (s : KS), LInv S vs s → (∀ v ∈ vs2, v ∉ S) →
    LInv S (vs ++ vs2) (vs2.foldl (linkVar S.length) s)
  | [], vs, s, h, _ => by simpa using h
  | v :: vs2, vs, s, h, hv => by
    have := linkKey_inv vs2 (vs ++ [v]) _ (linkVar_inv h (hv v (by simp))) (fun w hw => hv w (by simp [hw]))
    simpa using this

/-- `r` is the solution `t` with the variables of its key replaced by the first variables of `F`. -/
def LinkedTo (F : List Nat) (t r : Tree) : Prop :=
  ∃ φ : Nat → Nat, r = trename φ t ∧ InjOn φ (tvars t) ∧
    (∀ (i : Nat) v, (firsts [] (tvars (arg0 t)))[i]? = some v → F[i]? = some (φ v)) ∧
    ∀ v, v ∉ tvars (arg0 t) → φ v = v

theorem tvars_arg0 {t : Tree} (hp : IsPair t) {v : Nat} (h : v ∈ tvars (arg0 t)) : v ∈ tvars t := by
  obtain ⟨k, w, rfl⟩ := hp
  simp only [arg0] at h
  simp [tvars, h]

theorem linkKey_spec {S : List Nat} {t : Tree} (hS : S.Nodup) (hd : ∀ v ∈ tvars t, v ∉ S) (hp : IsPair t) :
    S <+: (linkKey S t).1 ∧ (linkKey S t).1.Nodup ∧ (∀ v ∈ (linkKey S t).1, v ∈ S ∨ v ∈ tvars t) ∧
    ∀ F, (linkKey S t).1 <+: F → LinkedTo F t (trename (lookup (linkKey S t).2) t) := by
  have h0 : LInv S [] ⟨S, 0, []⟩ := ⟨by simp [firsts], by simp [firsts], fun _ _ => rfl, by simp [firsts]⟩
  have h := linkKey_inv (tvars (arg0 t)) [] _ h0 (fun v hv => hd v (tvars_arg0 hp hv))
  rw [List.nil_append] at h
  have hn := nodup_firsts [] (tvars (arg0 t)) (by simp)
  have hmf : ∀ v, v ∈ firsts [] (tvars (arg0 t)) → v ∈ tvars (arg0 t) := fun v hv => by
    simpa using (mem_firsts [] (tvars (arg0 t)) v).1 hv
  have hst : (linkKey S t).1 = S ++ (firsts [] (tvars (arg0 t))).drop S.length := h.stack
  have hnd : (linkKey S t).1.Nodup := by
    rw [hst, List.nodup_append]
    refine ⟨hS, hn.sublist (List.drop_sublist _ _), ?_⟩
    rintro a ha b hb rfl
    exact hd a (tvars_arg0 hp (hmf a (List.mem_of_mem_drop hb))) ha
  refine ⟨⟨_, hst.symm⟩, hnd, ?_, ?_⟩
  · intro v hv
    rw [hst, List.mem_append] at hv
    exact hv.imp id fun h => tvars_arg0 hp (hmf v (List.mem_of_mem_drop h))
  · intro F hF
    have hval : ∀ (i : Nat) v, (firsts [] (tvars (arg0 t)))[i]? = some v →
        (linkKey S t).1[i]? = some (lookup (linkKey S t).2 v) := h.val
    have hoth : ∀ v, v ∉ tvars (arg0 t) → lookup (linkKey S t).2 v = v := h.other
    refine ⟨_, rfl, ?_, ?_, hoth⟩
    · have hidx : ∀ a ∈ tvars (arg0 t), ∃ i : Nat, (firsts [] (tvars (arg0 t)))[i]? = some a := by
        intro a ha
        obtain ⟨i, hi, e⟩ := List.mem_iff_getElem.1 ((mem_firsts [] (tvars (arg0 t)) a).2 (.inr ha))
        exact ⟨i, by rw [List.getElem?_eq_getElem hi, e]⟩
      have hout : ∀ a, a ∈ tvars t → a ∉ tvars (arg0 t) → a ∉ (linkKey S t).1 := by
        intro a ha hk hin
        rw [hst, List.mem_append] at hin
        rcases hin with h1 | h1
        · exact hd a ha h1
        · exact hk (hmf a (List.mem_of_mem_drop h1))
      intro a ha b hb hab
      by_cases ka : a ∈ tvars (arg0 t) <;> by_cases kb : b ∈ tvars (arg0 t)
      · obtain ⟨i, hi⟩ := hidx a ka
        obtain ⟨j, hj⟩ := hidx b kb
        have e1 := hval i a hi
        have e2 := hval j b hj
        rw [hab] at e1
        obtain ⟨i1, i2⟩ := List.getElem?_eq_some_iff.1 e1
        obtain ⟨j1, j2⟩ := List.getElem?_eq_some_iff.1 e2
        have : i = j := by
          have hq := List.pairwise_iff_getElem.1 hnd
          rcases Nat.lt_trichotomy i j with h | h | h
          · exact absurd (by rw [i2, j2]) (hq i j i1 j1 h)
          · exact h
          · exact absurd (by rw [i2, j2]) (hq j i j1 i1 h)
        subst this
        rw [hi] at hj
        exact Option.some.inj hj
      · obtain ⟨i, hi⟩ := hidx a ka
        have e1 := hval i a hi
        rw [hab, hoth b kb] at e1
        exact absurd (List.mem_of_getElem? e1) (hout b hb kb)
      · obtain ⟨i, hi⟩ := hidx b kb
        have e1 := hval i b hi
        rw [← hab, hoth a ka] at e1
        exact absurd (List.mem_of_getElem? e1) (hout a ha ka)
      · rw [hoth a ka, hoth b kb] at hab; exact hab
    · intro i v hi
      obtain ⟨F', rfl⟩ := hF
      have e := hval i v hi
      rw [List.getElem?_append_left (List.getElem?_eq_some_iff.1 e).1]
      exact e

/-- Elements of two lists, one by one. -/
inductive Each (R : Tree → Tree → Prop) : List Tree → List Tree → Prop
  | nil : Each R [] []
  | cons {a b : Tree} {l l' : List Tree} : R a b → Each R l l' → Each R (a :: l) (b :: l')

theorem Each.snoc {R : Tree → Tree → Prop} {a b : Tree} : ∀ {l l' : List Tree}, Each R l l' → R a b →
    Each R (l ++ [a]) (l' ++ [b])
  | _, _, .nil, h => .cons h .nil
  | _, _, .cons h1 h2, h => .cons h1 (h2.snoc h)

theorem linkLoop_spec : ∀ (ts : List Tree) (S : List Nat) (acc : List Tree), S.Nodup → (∀ t ∈ ts, IsPair t) →
    (∀ t ∈ ts, ∀ v ∈ tvars t, v ∉ S) → ts.Pairwise (fun t u => ∀ v ∈ tvars t, v ∉ tvars u) →
    ∃ F rs, S <+: F ∧ linkLoop ts S acc = rs ++ acc ∧ Each (LinkedTo F) ts.reverse rs
  | [], S, acc, _, _, _, _ => ⟨S, [], List.prefix_refl _, rfl, .nil⟩
  | t :: ts, S, acc, hS, hp, hd, hw => by
    obtain ⟨k1, k2, k3, k4⟩ := linkKey_spec hS (hd t (by simp)) (hp t (by simp))
    obtain ⟨hw1, hw2⟩ := List.pairwise_cons.1 hw
    obtain ⟨F, rs, i1, i2, i3⟩ := linkLoop_spec ts (linkKey S t).1 (trename (lookup (linkKey S t).2) t :: acc) k2
      (fun u hu => hp u (by simp [hu]))
      (by
        intro u hu v hv hin
        rcases k3 v hin with h | h
        · exact hd u (by simp [hu]) v hv h
        · exact hw1 u hu v h hv)
      hw2
    refine ⟨F, rs ++ [trename (lookup (linkKey S t).2) t], k1.trans i1, ?_, ?_⟩
    · rw [linkLoop, i2]
      simp
    · rw [List.reverse_cons]
      exact i3.snoc (k4 F i1)

theorem arg0_rename {t : Tree} (hp : IsPair t) (φ : Nat → Nat) : arg0 (trename φ t) = trename φ (arg0 t) := by
  obtain ⟨k, w, rfl⟩ := hp
  simp [trename, arg0]

theorem linked_keys {F : List Nat} {t1 r1 t2 r2 : Tree} (hp1 : IsPair t1) (hp2 : IsPair t2) (h1 : LinkedTo F t1 r1)
    (h2 : LinkedTo F t2 r2) : arg0 r1 = arg0 r2 ↔ TVariant (arg0 t1) (arg0 t2) := by
  obtain ⟨φ1, rfl, a1, a2, _⟩ := h1
  obtain ⟨φ2, rfl, b1, b2, _⟩ := h2
  rw [arg0_rename hp1, arg0_rename hp2]
  constructor
  · intro h
    exact variant_of_eq h (fun a ha b hb => a1 a (tvars_arg0 hp1 ha) b (tvars_arg0 hp1 hb))
      (fun a ha b hb => b1 a (tvars_arg0 hp2 ha) b (tvars_arg0 hp2 hb))
  · rintro ⟨ψ, hi, e⟩
    rw [e, trename_trename]
    apply trename_congr
    intro v hv
    obtain ⟨i, hi1, e1⟩ := List.mem_iff_getElem.1 ((mem_firsts [] (tvars (arg0 t1)) v).2 (.inr hv))
    have e2 : (firsts [] (tvars (arg0 t1)))[i]? = some v := by rw [List.getElem?_eq_getElem hi1, e1]
    have e3 : (firsts [] (tvars (arg0 t2)))[i]? = some (ψ v) := by
      rw [e, tvars_rename]
      have := firsts_map (ψ := ψ) [] (tvars (arg0 t1)) (by simpa using hi)
      rw [List.map_nil] at this
      rw [this, List.getElem?_map, e2]
      rfl
    have := a2 i v e2
    rw [b2 i _ e3] at this
    exact (Option.some.inj this).symm

end Gp.AllSol
