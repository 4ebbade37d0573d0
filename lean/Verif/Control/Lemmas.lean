import Verif.Control.Spec
/-
The chain of the choice points as a list; the runs of the machine on a chain.
-/
namespace Gp.Control

variable {α σ : Type} {I : α → σ → List σ × AEnd}

structure Cp (α σ : Type) where
  adr : Nat
  alt : Alt α σ

def curB : List (Cp α σ) → Nat
  | [] => 0
  | c :: _ => c.adr

/-- The addresses decrease. -/
def Sorted : List (Cp α σ) → Prop
  | [] => True
  | c :: cs => curB cs < c.adr ∧ Sorted cs

/-- The choice points from `b` are the list. -/
def Chain (cp : Nat → Option (MCp α σ)) : List (Cp α σ) → Nat → Prop
  | [], b => b = 0
  | c :: cs, b => b = c.adr ∧ cp b = some ⟨c.alt, curB cs⟩ ∧ curB cs < c.adr ∧ Chain cp cs (curB cs)

theorem Chain.b {cp : Nat → Option (MCp α σ)} : ∀ {cs : List (Cp α σ)} {b : Nat}, Chain cp cs b → b = curB cs
  | [], _, h => h
  | _ :: _, _, h => h.1

theorem Chain.sorted {cp : Nat → Option (MCp α σ)} : ∀ {cs : List (Cp α σ)} {b : Nat}, Chain cp cs b → Sorted cs
  | [], _, _ => trivial
  | _ :: _, _, h => ⟨h.2.2.1, h.2.2.2.sorted⟩

theorem Chain.keep {cp cp' : Nat → Option (MCp α σ)} : ∀ {cs : List (Cp α σ)} {b : Nat}, Chain cp cs b → (∀ y, y ≤ b → cp' y = cp y) → Chain cp' cs b
  | [], _, h, _ => h
  | _ :: _, b, h, hk =>
    ⟨h.1, by rw [hk b (Nat.le_refl _)]; exact h.2.1, h.2.2.1, h.2.2.2.keep fun y hy => hk y (by have := h.1; have := h.2.2.1; omega)⟩

theorem Sorted.le : ∀ {cs : List (Cp α σ)}, Sorted cs → ∀ c ∈ cs, c.adr ≤ curB cs ∧ 0 < c.adr
  | [], _, c, hc => by cases hc
  | d :: cs, h, c, hc => by
    rcases List.mem_cons.mp hc with rfl | hc
    · exact ⟨Nat.le_refl _, Nat.lt_of_le_of_lt (Nat.zero_le _) h.1⟩
    · have := h.2.le c hc
      have h1 := h.1
      exact ⟨by show c.adr ≤ d.adr; omega, this.2⟩

theorem Sorted.suffix : ∀ {ds : List (Cp α σ)} {cs : List (Cp α σ)}, Sorted (ds ++ cs) → Sorted cs
  | [], _, h => h
  | _ :: ds, _, h => Sorted.suffix (ds := ds) h.2

theorem Sorted.above : ∀ {ds : List (Cp α σ)} {cs : List (Cp α σ)}, Sorted (ds ++ cs) → ∀ d ∈ ds, curB cs < d.adr
  | [], _, _, _, hd => by cases hd
  | x :: ds, cs, h, d, hd => by
    rcases List.mem_cons.mp hd with rfl | hd
    · match ds, h with
      | [], h => exact h.1
      | y :: ds, h => exact Nat.lt_trans (Sorted.above (ds := y :: ds) h.2 y List.mem_cons_self) h.1
    · exact Sorted.above h.2 d hd

/-- The address is a choice point of the chain, or the bottom. -/
def HasLvl (L : Nat) (cs : List (Cp α σ)) : Prop := L = 0 ∨ ∃ c ∈ cs, c.adr = L

/-- The chain after a cut. -/
def cutL (L : Nat) (cs : List (Cp α σ)) : List (Cp α σ) := cs.dropWhile (fun c => decide (L < c.adr))

theorem hasLvl_curB (cs : List (Cp α σ)) : HasLvl (curB cs) cs := by
  cases cs with
  | nil => exact .inl rfl
  | cons c cs => exact .inr ⟨c, List.mem_cons_self, rfl⟩

theorem hasLvl_append {L : Nat} {cs : List (Cp α σ)} (ds : List (Cp α σ)) (h : HasLvl L cs) : HasLvl L (ds ++ cs) :=
  h.imp id fun ⟨c, hc, he⟩ => ⟨c, List.mem_append_right _ hc, he⟩

theorem hasLvl_le {L : Nat} {cs : List (Cp α σ)} (hs : Sorted cs) (h : HasLvl L cs) : L ≤ curB cs := by
  rcases h with rfl | ⟨c, hc, rfl⟩
  · exact Nat.zero_le _
  · exact (hs.le c hc).1

theorem cutL_append {L : Nat} {ds cs : List (Cp α σ)} (hs : Sorted (ds ++ cs)) (h : HasLvl L cs) : cutL L (ds ++ cs) = cutL L cs := by
  have hl := hasLvl_le hs.suffix h
  unfold cutL
  rw [List.dropWhile_append_of_pos]
  intro d hd
  have := hs.above d hd
  exact decide_eq_true (by omega)

theorem cutL_curB {cs : List (Cp α σ)} : cutL (curB cs) cs = cs := by
  cases cs with
  | nil => rfl
  | cons c cs => simp [cutL, curB]

theorem chain_cut {cp : Nat → Option (MCp α σ)} {L : Nat} : ∀ {cs : List (Cp α σ)} {b : Nat}, Chain cp cs b → HasLvl L cs → Chain cp (cutL L cs) L
  | [], _, _, hl => by
    rcases hl with rfl | ⟨c, hc, _⟩
    · exact rfl
    · cases hc
  | c :: cs, b, h, hl => by
    by_cases hlt : L < c.adr
    · have : cutL L (c :: cs) = cutL L cs := by simp [cutL, hlt]
      rw [this]
      refine chain_cut h.2.2.2 (hl.imp id ?_)
      rintro ⟨d, hd, he⟩
      rcases List.mem_cons.mp hd with rfl | hd
      · omega
      · exact ⟨d, hd, he⟩
    · have : cutL L (c :: cs) = c :: cs := by simp [cutL, hlt]
      rw [this]
      have hle := hasLvl_le h.sorted hl
      have : L = b := by have := h.1; simp only [curB] at hle; omega
      rw [this]; exact h

/-! ## Soft cut -/

theorem filter_lower {A : Nat} {cs : List (Cp α σ)} (hs : Sorted cs) (h : curB cs < A) : cs.filter (fun c => c.adr != A) = cs := by
  rw [List.filter_eq_self]
  intro c hc
  have := (hs.le c hc).1
  simp only [bne_iff_ne]; omega

theorem softLoop_chain {A : Nat} (hA : 0 < A) {cp : Nat → Option (MCp α σ)} : ∀ (cs : List (Cp α σ)) (c : Cp α σ) (fuel : Nat),
    Chain cp (c :: cs) c.adr → c.adr ≠ A → c.adr < fuel →
    ∃ cp', softLoop A cp fuel c.adr = some cp' ∧ Chain cp' ((c :: cs).filter (fun c => c.adr != A)) c.adr ∧ ∀ y, c.adr < y → cp' y = cp y := by
  intro cs
  induction cs with
  | nil =>
    intro c fuel h hne hf
    obtain ⟨fuel, rfl⟩ : ∃ f, fuel = f + 1 := ⟨fuel - 1, by omega⟩
    have h0 : c.adr ≠ 0 := by have := h.2.2.1; omega
    have hk : (0 : Nat) ≠ A := by omega
    refine ⟨cp, ?_, ?_, fun _ _ => rfl⟩
    · rw [softLoop, if_neg h0, h.2.1]
      simp only [curB, if_neg hk]
      split
      · rfl
      · obtain ⟨fuel, rfl⟩ : ∃ f, fuel = f + 1 := ⟨fuel - 1, by omega⟩
        rw [softLoop, if_pos rfl]
    · simpa [hne] using h
  | cons d cs ih =>
    intro c fuel h hne hf
    obtain ⟨fuel, rfl⟩ : ∃ f, fuel = f + 1 := ⟨fuel - 1, by omega⟩
    have h0 : c.adr ≠ 0 := by have := h.2.2.1; omega
    have hc : ((c :: d :: cs).filter (fun c => c.adr != A)) = c :: ((d :: cs).filter (fun c => c.adr != A)) := by
      rw [List.filter_cons_of_pos]; simp [hne]
    rw [softLoop, if_neg h0, h.2.1]
    have hd := h.2.2.2
    have hlt : d.adr < c.adr := h.2.2.1
    simp only [curB]
    by_cases hk : d.adr = A
    · rw [if_pos hk]
      subst hk
      have hd2 : cp d.adr = some ⟨d.alt, curB cs⟩ := hd.2.1
      simp only [hd2]
      refine ⟨_, rfl, ?_, fun y hy => by simp; omega⟩
      rw [hc, List.filter_cons_of_neg (by simp), filter_lower hd.sorted.2 hd.2.2.1]
      have h3 : curB cs < d.adr := hd.2.2.1
      refine ⟨rfl, by simp, by omega, hd.2.2.2.keep fun y hy => ?_⟩
      simp; omega
    · rw [if_neg hk]
      by_cases hlo : c.adr < A
      · rw [if_pos hlo]
        refine ⟨cp, rfl, ?_, fun _ _ => rfl⟩
        rw [filter_lower h.sorted hlo]; exact h
      · rw [if_neg hlo]
        obtain ⟨cp', h1, h2, h3⟩ := ih d fuel hd hk (by omega)
        refine ⟨cp', h1, ?_, fun y hy => h3 y (by omega)⟩
        rw [hc]
        have hcur : curB ((d :: cs).filter (fun c => c.adr != A)) = d.adr := h2.b.symm
        refine ⟨rfl, ?_, ?_, ?_⟩
        · rw [h3 _ hlt, hcur]; exact h.2.1
        · rw [hcur]; exact hlt
        · rw [hcur]; exact h2

theorem chain_softCut {A : Nat} (hA : 0 < A) {m : Mem α σ} {cs : List (Cp α σ)} (h : Chain m.cp cs m.b) :
    ∃ m1, m.softCut A = some m1 ∧ Chain m1.cp (cs.filter (fun c => c.adr != A)) m1.b := by
  unfold Mem.softCut
  match cs, h with
  | [], h =>
    have hb : m.b = 0 := h
    rw [if_neg (by omega)]
    refine ⟨m, ?_, h⟩
    rw [hb, softLoop, if_pos rfl]
    simp only; rw [← hb]
  | c :: cs, h =>
    have hb : m.b = c.adr := h.1
    by_cases hk : m.b = A
    · rw [if_pos hk, h.2.1]
      refine ⟨_, rfl, ?_⟩
      rw [List.filter_cons_of_neg (by simp; omega), filter_lower h.sorted.2 (by have := h.2.2.1; omega)]
      exact h.2.2.2
    · rw [if_neg hk]
      have h' : Chain m.cp (c :: cs) c.adr := by rw [← hb]; exact h
      obtain ⟨cp', h1, h2, _⟩ := softLoop_chain hA cs c (m.b + 1) h' (by omega) (by omega)
      rw [← hb] at h1 h2
      exact ⟨⟨cp', m.b⟩, by rw [h1], h2⟩

theorem chain_create {m : Mem α σ} {cs : List (Cp α σ)} (h : Chain m.cp cs m.b) (k : List (Frame α)) (a : Alt α σ) :
    Chain (m.create k a).cp (⟨max (curB cs) (envTop k) + 1, a⟩ :: cs) (m.create k a).b := by
  have hb := h.b
  refine ⟨?_, ?_, ?_, ?_⟩
  · show m.fresh k = _; rw [Mem.fresh, hb]
  · simp only [Mem.create, if_pos]; rw [hb]
  · show curB cs < max (curB cs) (envTop k) + 1; omega
  · rw [← hb]
    refine h.keep fun y hy => ?_
    have : y ≠ m.fresh k := by simp only [Mem.fresh]; omega
    simp [Mem.create, this]

theorem chain_update {m : Mem α σ} {c : Cp α σ} {cs : List (Cp α σ)} (h : Chain m.cp (c :: cs) m.b) (a : Alt α σ) :
    Chain (m.update a (curB cs)).cp (⟨c.adr, a⟩ :: cs) (m.update a (curB cs)).b := by
  refine ⟨h.1, ?_, h.2.2.1, ?_⟩
  · simp [Mem.update]
  · refine h.2.2.2.keep fun y hy => ?_
    have : y ≠ m.b := by have := h.1; have := h.2.2.1; omega
    simp [Mem.update, this]

/-! ## Runs on a chain -/

/-- The machine running `k` on any memory with this chain gives the answers. -/
def RunC (I : α → σ → List σ × AEnd) (s : σ) (k : List (Frame α)) (cs : List (Cp α σ)) (o : List σ × Bool) : Prop :=
  ∀ m : Mem α σ, Chain m.cp cs m.b → Run I (.run s k m) o.1 o.2

/-- The same for a failure. -/
def RunF (I : α → σ → List σ × AEnd) (cs : List (Cp α σ)) (o : List σ × Bool) : Prop :=
  ∀ m : Mem α σ, Chain m.cp cs m.b → Run I (.fail m) o.1 o.2

theorem run_go {c c' : Cfg α σ} {o : List σ × Bool} (h : step I c = .go c') (h1 : Run I c' o.1 o.2) : Run I c o.1 o.2 := .go h h1

theorem envTop_push (f : Frame α) (k : List (Frame α)) : envTop (push f k) = envTop (f :: k) := by
  simp only [push, envTop]
  cases hf : f.code with
  | nil => rfl
  | cons a l => simp only [envTop, hf]

theorem run_inv {c c' : Cfg α σ} {l : List σ} {e : Bool} (h : step I c = .go c') (h1 : Run I c l e) : Run I c' l e := by
  cases h1 with
  | go h2 h3 => rw [h] at h2; cases h2; exact h3
  | answer h2 _ => rw [h] at h2; cases h2
  | stop h2 => rw [h] at h2; cases h2
  | err h2 => rw [h] at h2; cases h2

theorem runC_push {s : σ} {f : Frame α} {k : List (Frame α)} {cs : List (Cp α σ)} {o : List σ × Bool} (h : RunC I s (f :: k) cs o) :
    RunC I s (push f k) cs o := by
  intro m hm
  have := h m hm
  obtain ⟨code, env, lvl, adr⟩ := f
  cases code with
  | nil => exact run_inv (by rw [step]; rfl) this
  | cons a l => exact this

theorem runC_pop {s : σ} {env : Nat → Option Nat} {lvl adr : Nat} {k : List (Frame α)} {cs : List (Cp α σ)} {o : List σ × Bool} (h : RunC I s k cs o) :
    RunC I s (⟨[], env, lvl, adr⟩ :: k) cs o := fun m hm => run_go (by rw [step]) (h m hm)

theorem runC_conj {s : σ} {p q : Code α} {code : List (Code α)} {env : Nat → Option Nat} {lvl adr : Nat} {k : List (Frame α)}
    {cs : List (Cp α σ)} {o : List σ × Bool} (h : RunC I s (⟨p :: q :: code, env, lvl, adr⟩ :: k) cs o) :
    RunC I s (⟨.conj p q :: code, env, lvl, adr⟩ :: k) cs o := fun m hm => run_go (by rw [step]) (h m hm)

theorem runC_fail {s : σ} {code : List (Code α)} {env : Nat → Option Nat} {lvl adr : Nat} {k : List (Frame α)}
    {cs : List (Cp α σ)} {o : List σ × Bool} (h : RunF I cs o) :
    RunC I s (⟨.fail :: code, env, lvl, adr⟩ :: k) cs o := fun m hm => run_go (by rw [step]) (h m hm)

theorem runC_getLevel {s : σ} {v : Nat} {code : List (Code α)} {env : Nat → Option Nat} {lvl adr : Nat} {k : List (Frame α)}
    {cs : List (Cp α σ)} {o : List σ × Bool} (hv : env v = none) (h : RunC I s (⟨code, setVar env v lvl, lvl, adr⟩ :: k) cs o) :
    RunC I s (⟨.getLevel v :: code, env, lvl, adr⟩ :: k) cs o := fun m hm => run_go (by rw [step, hv]) (h m hm)

theorem runC_getChoice {s : σ} {v : Nat} {code : List (Code α)} {env : Nat → Option Nat} {lvl adr : Nat} {k : List (Frame α)}
    {cs : List (Cp α σ)} {o : List σ × Bool} (hv : env v = none) (h : RunC I s (⟨code, setVar env v (curB cs), lvl, adr⟩ :: k) cs o) :
    RunC I s (⟨.getChoice v :: code, env, lvl, adr⟩ :: k) cs o := fun m hm => run_go (by rw [step, hv]) (by rw [hm.b]; exact h m hm)

theorem runC_cutTo {s : σ} {v L : Nat} {code : List (Code α)} {env : Nat → Option Nat} {lvl adr : Nat} {k : List (Frame α)}
    {cs : List (Cp α σ)} {o : List σ × Bool} (hv : env v = some L) (hl : HasLvl L cs) (h : RunC I s (⟨code, env, lvl, adr⟩ :: k) (cutL L cs) o) :
    RunC I s (⟨.cutTo v :: code, env, lvl, adr⟩ :: k) cs o := fun m hm => run_go (by rw [step, hv]) (h ⟨m.cp, L⟩ (chain_cut hm hl))

theorem runC_softCut {s : σ} {v A : Nat} {code : List (Code α)} {env : Nat → Option Nat} {lvl adr : Nat} {k : List (Frame α)}
    {cs : List (Cp α σ)} {o : List σ × Bool} (hv : env v = some A) (hA : 0 < A)
    (h : RunC I s (⟨code, env, lvl, adr⟩ :: k) (cs.filter (fun c => c.adr != A)) o) :
    RunC I s (⟨.softCut v :: code, env, lvl, adr⟩ :: k) cs o := by
  intro m hm
  obtain ⟨m1, h1, h2⟩ := chain_softCut hA hm
  exact run_go (by simp only [step, hv, h1]) (h m1 h2)

/-- The next clauses of a predicate are run; `A` is the address of its choice point. -/
def RunSel (I : α → σ → List σ × AEnd) (A : Nat) (cls : List (Code α)) (env : Nat → Option Nat) (lvl : Nat) (s : σ) (k : List (Frame α))
    (cs : List (Cp α σ)) (o : List σ × Bool) : Prop :=
  match cls with
  | [] => RunF I cs o
  | [c] => RunC I s (⟨[c], env, lvl, max (curB cs) (envTop k)⟩ :: k) cs o
  | c :: cls => RunC I s (⟨[c], env, lvl, max A (envTop k)⟩ :: k) (⟨A, .clauses cls env lvl s k⟩ :: cs) o

theorem runF_sel {A : Nat} {cls : List (Code α)} {env : Nat → Option Nat} {lvl : Nat} {s : σ} {k : List (Frame α)}
    {cs : List (Cp α σ)} {o : List σ × Bool} (h : RunSel I A cls env lvl s k cs o) : RunF I (⟨A, .clauses cls env lvl s k⟩ :: cs) o := by
  intro m hm
  have h0 : m.b ≠ 0 := by have := hm.1; have := hm.2.2.1; simp only at *; omega
  have hb := hm.1
  match cls, h with
  | [], h =>
    refine run_go ?_ (h ⟨m.cp, curB cs⟩ hm.2.2.2)
    rw [step, backtrack, if_neg h0, hm.2.1]
  | [c], h =>
    refine run_go ?_ (h ⟨m.cp, curB cs⟩ hm.2.2.2)
    rw [step, backtrack, if_neg h0, hm.2.1]
  | c :: d :: cls, h =>
    refine run_go ?_ (h (m.update (.clauses (d :: cls) env lvl s k) (curB cs)) (chain_update hm _))
    rw [step, backtrack, if_neg h0, hm.2.1]
    simp only at hb
    simp only [← hb]

theorem runC_aux {vs : List Nat} {cls : List (Code α)} {s : σ} {code : List (Code α)} {env : Nat → Option Nat} {lvl adr : Nat} {k : List (Frame α)}
    {cs : List (Cp α σ)} {o : List σ × Bool}
    (h : RunSel I (max (curB cs) (envTop (⟨code, env, lvl, adr⟩ :: k)) + 1) cls (restrict env vs) (curB cs) s (push ⟨code, env, lvl, adr⟩ k) cs o) :
    RunC I s (⟨.aux vs cls :: code, env, lvl, adr⟩ :: k) cs o := by
  intro m hm
  have hb := hm.b
  rw [← envTop_push] at h
  match cls, h with
  | [], h => exact run_go (by rw [step, callClauses]) (h m hm)
  | [c], h => exact run_go (by rw [step, callClauses, hb]) (h m hm)
  | c :: d :: cls, h =>
    refine run_go ?_ (h (m.create _ _) (chain_create hm _ _))
    rw [step, callClauses]
    have : (m.create (push ⟨code, env, lvl, adr⟩ k) (Alt.clauses (d :: cls) (restrict env vs) m.b s (push ⟨code, env, lvl, adr⟩ k))).b =
      max (curB cs) (envTop (push ⟨code, env, lvl, adr⟩ k)) + 1 := by
      show Mem.fresh _ _ = _
      rw [Mem.fresh, hb]
    simp only [this]
    rw [hb]
    intro h; cases h

end Gp.Control
