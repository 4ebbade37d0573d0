import Verif.Dyn.Sim2
/-
C18, C19, C20: the logical update view of dynamic predicates, their first-argument indexing, the reclamation of erased clauses.

The specification (`astep`, Spec.lean) has for each predicate the list of its clauses; a call takes the list of the candidates at
the time of the call, and a redo gives the next one of this list.
-/
namespace Gp.Dyn

/-! Executions -/

/-- Executes operations: the last state and the clauses given; `none` if an access to freed memory occurs. -/
def runs (P : Par) : List Op → St → Option (St × List (Option Nat))
  | [], s => some (s, [])
  | op :: ops, s =>
    match step P s op with
    | none => none
    | some (s', r) => (runs P ops s').map (fun x => (x.1, r :: x.2))

/-- The same for the specification. -/
def aruns : List Op → ASt → ASt × List (Option Nat)
  | [], a => (a, [])
  | op :: ops, a => ((aruns ops (astep a op).1).1, (astep a op).2 :: (aruns ops (astep a op).1).2)

/-- What is required of an operation. The clauses of a predicate which has been removed (`eraseAll`: abolish/1, or a file consulted
again) after the creation of the choice point are not retracted by backtracking to this choice point; the clauses of a file are
removed (`eraseFile`: a multifile predicate) only when the thresholds of the reclamation are not reached meanwhile. Both are
required: `C20_retract_after_abolish_crashes`, `C20_file_removal_uses_freed_clause`. -/
def Legal (P : Par) (a : ASt) (s : St) : Op → Prop
  | .redo .retract => ∀ as ss, a.scans = as :: ss → as.gen = (a.pred as.p).gen
  | .eraseFile p f => s.nb + ((a.pred p).cls.filter (fun x => x.file = f)).length < P.maxErased ∧ s.longest < P.maxSkip
  | _ => True

/-- What is required of a history. -/
def LegalRun (P : Par) : List Op → ASt → St → Prop
  | [], _, _ => True
  | op :: ops, a, s => Legal P a s op ∧ ∀ s' r, step P s op = some (s', r) → LegalRun P ops (astep a op).1 s'

/-- No clause is executed (with an environment). -/
def NoEnter : Op → Prop
  | .start _ _ .enter => False
  | .redo .enter => False
  | _ => True

/-- asserta, assertz, and the calls, clause/2, retract/1 with backtracking and cuts. -/
def Plain : Op → Prop
  | .eraseAll _ => False
  | .eraseFile _ _ => False
  | _ => True

theorem sim_step {nl : Prop} (P : Par) {a : ASt} {s : St} {full : Nat → List Nat} (H : Sim nl a s full) (op : Op) (hl : Legal P a s op)
    (he : nl → NoEnter op) : ∃ s' full', step P s op = some (s', (astep a op).2) ∧ Sim nl (astep a op).1 s' full' := by
  cases op with
  | add p arg file front =>
    obtain ⟨s', full', h1, h2⟩ := add_sim H p arg file front
    refine ⟨s', full', ?_, h2⟩
    simp only [step, h1]
    rfl
  | start p arg act =>
    refine start_sim P H p arg act (fun h => ?_)
    have := he h
    rintro rfl; exact this
  | redo act =>
    refine redo_sim P H act (fun h => ?_) (fun h => ?_)
    · have := he h
      rintro rfl; exact this
    · subst h; exact hl
  | cut k => exact ⟨_, full, rfl, cut_sim H k⟩
  | leave k => exact ⟨_, full, rfl, leave_sim H k⟩
  | eraseAll p => exact eraseAll_sim P H p
  | eraseFile p f => exact eraseFile_sim P H p f hl.1 hl.2

theorem sim_runs {nl : Prop} (P : Par) : ∀ (ops : List Op) (a : ASt) (s : St) (full : Nat → List Nat), Sim nl a s full → LegalRun P ops a s →
    (nl → ∀ op ∈ ops, NoEnter op) → ∃ s' full', runs P ops s = some (s', (aruns ops a).2) ∧ Sim nl (aruns ops a).1 s' full'
  | [], a, s, full, H, _, _ => ⟨s, full, rfl, H⟩
  | op :: ops, a, s, full, H, hl, he => by
    obtain ⟨s1, full1, h1, h2⟩ := sim_step P H op hl.1 (fun h => he h op (by simp))
    obtain ⟨s', full', h3, h4⟩ := sim_runs P ops _ s1 full1 h2 (hl.2 s1 _ h1) (fun h o ho => he h o (by simp [ho]))
    exact ⟨s', full', by simp only [runs, h1, h3, Option.map_some, aruns], h4⟩

/-- No predicate was removed. -/
def Gen0 (a : ASt) : Prop := (∀ p, (a.pred p).gen = 0) ∧ ∀ as ∈ a.scans, as.gen = 0

theorem gen0_act {a : ASt} (h : Gen0 a) (p gen c : Nat) (act : Act) : Gen0 (a.act p gen c act) := by
  cases act <;> simp only [ASt.act]
  · exact h
  · split
    · refine ⟨fun q => ?_, h.2⟩
      simp only [ASt.setPred]
      split
      · exact h.1 p
      · exact h.1 q
    · exact h
  · exact h

theorem gen0_step {a : ASt} (h : Gen0 a) (op : Op) (hp : Plain op) : Gen0 (astep a op).1 := by
  cases op with
  | add p arg file front =>
    refine ⟨fun q => ?_, h.2⟩
    simp only [astep, ASt.setPred]
    split
    · exact h.1 p
    · exact h.1 q
  | start p arg act =>
    simp only [astep]
    split
    · exact h
    · apply gen0_act
      split
      · exact h
      · refine ⟨h.1, fun as has => ?_⟩
        rcases List.mem_cons.1 has with rfl | has
        · exact h.1 p
        · exact h.2 as has
  | redo act =>
    simp only [astep]
    split
    · rename_i p gen c r ss heq
      apply gen0_act
      refine ⟨h.1, fun as has => ?_⟩
      simp only at has
      split at has
      · exact h.2 as (by rw [heq]; simp [has])
      · rcases List.mem_cons.1 has with rfl | has
        · exact h.2 ⟨p, gen, c :: r⟩ (by rw [heq]; simp)
        · exact h.2 as (by rw [heq]; simp [has])
    · exact h
  | cut k => exact ⟨h.1, fun as has => h.2 as (List.mem_of_mem_drop has)⟩
  | leave k => exact h
  | eraseAll p => exact hp.elim
  | eraseFile p f => exact hp.elim

theorem plain_legal (P : Par) {a : ASt} (s : St) (h : Gen0 a) (op : Op) (hp : Plain op) : Legal P a s op := by
  cases op with
  | redo act =>
    cases act with
    | retract => intro as ss hs; rw [h.1, h.2 as (by rw [hs]; simp)]
    | _ => trivial
  | eraseFile p f => exact hp.elim
  | _ => trivial

theorem plain_legalRun (P : Par) : ∀ (ops : List Op) (a : ASt) (s : St), Gen0 a → (∀ op ∈ ops, Plain op) → LegalRun P ops a s
  | [], _, _, _, _ => trivial
  | op :: ops, a, s, h, hp => ⟨plain_legal P s h op (hp op (by simp)), fun s' _ _ =>
      plain_legalRun P ops _ s' (gen0_step h op (hp op (by simp))) (fun o ho => hp o (by simp [ho]))⟩

theorem gen0_runs : ∀ (ops : List Op) (a : ASt), Gen0 a → (∀ op ∈ ops, Plain op) → Gen0 (aruns ops a).1
  | [], _, h, _ => h
  | op :: ops, a, h, hp => gen0_runs ops _ (gen0_step h op (hp op (by simp))) (fun o ho => hp o (by simp [ho]))

theorem gen0_init : Gen0 ainit := ⟨fun _ => rfl, fun _ h => by simp [ainit] at h⟩

/-! C18: the logical update view -/

/-- The operations leave the `n` oldest choice points. -/
def Above (n : Nat) : List Op → ASt → Prop
  | [], _ => True
  | op :: ops, a =>
    (match op with
     | .redo _ => n < a.scans.length
     | .cut k => n + k ≤ a.scans.length
     | _ => True) ∧ Above n ops (astep a op).1

/-- Enumerates: before each redo of the `n`-th choice point the operations of a block are executed, then the later choice points
are removed. The clauses given. -/
def drive (P : Par) (act : Act) (n : Nat) : List (List Op) → St → Option (List (Option Nat))
  | [], _ => some []
  | b :: bs, s =>
    match runs P b s with
    | none => none
    | some (s1, _) =>
      match step P { s1 with scans := s1.scans.drop (s1.scans.length - n) } (.redo act) with
      | none => none
      | some (s2, r) => (drive P act n bs s2).map (r :: ·)

/-- The operations of the blocks leave the choice point (of the enumeration). -/
def AboveAll (act : Act) (n : Nat) : List (List Op) → ASt → Prop
  | [], _ => True
  | b :: bs, a => Above n b a ∧
      AboveAll act n bs (astep { (aruns b a).1 with scans := (aruns b a).1.scans.drop ((aruns b a).1.scans.length - n) } (.redo act)).1

/-- All the solutions of a call to `p` with first argument `arg`: what is done with the clauses is `act`, and the operations
of a block are executed between two solutions. -/
def collect (P : Par) (p : Nat) (arg : Arg) (act : Act) (blocks : List (List Op)) (s : St) : Option (List (Option Nat)) :=
  match step P s (.start p arg act) with
  | none => none
  | some (_, none) => some []
  | some (s', some c) => (drive P act s'.scans.length blocks s').map (some c :: ·)

theorem act_scans (a : ASt) (p gen c : Nat) (act : Act) : (a.act p gen c act).scans = a.scans := by
  cases act <;> simp only [ASt.act]
  split <;> rfl

theorem above_step {n : Nat} {op : Op} {a : ASt} {front base : List AScan} (ha : a.scans = front ++ base) (hn : base.length = n)
    (h : match op with | .redo _ => n < a.scans.length | .cut k => n + k ≤ a.scans.length | _ => True) :
    ∃ front', (astep a op).1.scans = front' ++ base := by
  cases op with
  | start p arg act =>
    simp only [astep]
    split
    · exact ⟨front, ha⟩
    · rw [act_scans]
      split
      · exact ⟨front, ha⟩
      · exact ⟨_ :: front, by rw [ha]; rfl⟩
  | redo act =>
    simp only at h
    cases front with
    | nil => rw [ha] at h; simp at h; omega
    | cons x front =>
      simp only [astep]
      split
      · rename_i p gen c r ss heq
        rw [act_scans]
        rw [ha] at heq
        simp only [List.cons_append, List.cons.injEq] at heq
        rw [← heq.2]
        simp only
        split
        · exact ⟨front, rfl⟩
        · exact ⟨_ :: front, rfl⟩
      · exact ⟨_, ha⟩
  | cut k =>
    simp only at h
    refine ⟨front.drop k, ?_⟩
    simp only [astep]
    rw [ha] at h ⊢
    rw [List.length_append] at h
    rw [List.drop_append_of_le_length (by omega)]
  | add p arg file fr => exact ⟨front, ha⟩
  | leave k => exact ⟨front, ha⟩
  | eraseAll p => exact ⟨front, ha⟩
  | eraseFile p f => exact ⟨front, ha⟩

theorem above_runs {n : Nat} : ∀ (ops : List Op) (a : ASt) (front base : List AScan), a.scans = front ++ base → base.length = n → Above n ops a →
    ∃ front', (aruns ops a).1.scans = front' ++ base
  | [], a, front, base, ha, _, _ => ⟨front, ha⟩
  | op :: ops, a, front, base, ha, hn, h => by
    obtain ⟨f1, h1⟩ := above_step ha hn h.1
    exact above_runs ops _ f1 base h1 hn h.2

theorem all2_length {α β : Type} {R : α → β → Prop} {l : List α} {l' : List β} (h : All2 R l l') : l.length = l'.length := by
  induction h with
  | nil => rfl
  | cons _ _ ih => simp [ih]

theorem drive_spec (P : Par) (act : Act) (p gen : Nat) (base : List AScan) : ∀ (r : List Nat) (bs : List (List Op)) (a : ASt) (s : St) (full : Nat → List Nat),
    Sim False a s full → Gen0 a → (r ≠ [] → a.scans = ⟨p, gen, r⟩ :: base) → bs.length = r.length → (∀ b ∈ bs, ∀ op ∈ b, Plain op) →
    AboveAll act (base.length + 1) bs a → drive P act (base.length + 1) bs s = some (r.map some)
  | [], bs, a, s, full, H, hg, hs, hl, hp, hab => by
    have : bs = [] := by simpa using hl
    subst this; rfl
  | c :: r, [], a, s, full, H, hg, hs, hl, hp, hab => by simp at hl
  | c :: r, b :: bs, a, s, full, H, hg, hs, hl, hp, hab => by
    have hs := hs (by simp)
    have hpb : ∀ op ∈ b, Plain op := hp b (by simp)
    obtain ⟨s1, full1, h1, h2⟩ := sim_runs P b a s full H (plain_legalRun P b a s hg hpb) (fun h => h.elim)
    have hg1 := gen0_runs b a hg hpb
    obtain ⟨front, hf⟩ := above_runs b a [] (⟨p, gen, c :: r⟩ :: base) hs (by simp) hab.1
    have hlen := all2_length h2.scans
    have h3 := cut_sim h2 (s1.scans.length - (base.length + 1))
    obtain ⟨a1, ha1⟩ : ∃ a1 : ASt, a1 = { (aruns b a).1 with scans := (aruns b a).1.scans.drop ((aruns b a).1.scans.length - (base.length + 1)) } := ⟨_, rfl⟩
    have hdrop : a1.scans = ⟨p, gen, c :: r⟩ :: base := by
      rw [ha1]
      simp only [hf]
      have : (front ++ (⟨p, gen, c :: r⟩ :: base : List AScan)).length - (base.length + 1) = front.length := by simp
      rw [this]; simp
    rw [← hlen] at h3
    rw [← ha1] at h3
    have hg2 : Gen0 a1 := by
      rw [ha1]; exact ⟨hg1.1, fun as has => hg1.2 as (List.mem_of_mem_drop has)⟩
    obtain ⟨s2, full2, h4, h5⟩ := sim_step P h3 (.redo act) (plain_legal P _ hg2 _ trivial) (fun h => h.elim)
    have hout : (astep a1 (.redo act)).2 = some c := by simp only [astep, hdrop]
    have hnext : r ≠ [] → (astep a1 (.redo act)).1.scans = ⟨p, gen, r⟩ :: base := by
      intro hr
      simp only [astep, hdrop, act_scans, if_neg hr]
    have hab2 := hab.2
    rw [← ha1] at hab2
    have ih := drive_spec P act p gen base r bs _ s2 full2 h5 (gen0_step hg2 _ trivial) hnext (by simpa using hl) (fun b hb => hp b (by simp [hb])) hab2
    unfold drive
    simp only [h1]
    rw [← hlen]
    simp only [h4, hout, ih, Option.map_some, List.map_cons]

/-- The clauses of a predicate which may match a call, now. -/
def snapshot (a : ASt) (p : Nat) (arg : Arg) : List Nat := ((a.pred p).cls.filter (fun x => cand arg x.arg)).map (·.id)

/-- **C18** (the logical update view). After any history of asserta, assertz, calls, clause/2, retract/1, backtracking and cuts,
a call (or clause/2, or retract/1) on a dynamic predicate gives, one after the other, exactly the clauses which were present
at the time of the call (and which may match), in their order, whatever is executed between two solutions: clauses may be added
at both ends of the predicate, retracted (also those not yet given), other calls may be left open or explored, memory may be
reclaimed. -/
theorem C18_logical_update_view (P : Par) (h : List Op) (hh : ∀ op ∈ h, Plain op) (p : Nat) (arg : Arg) (act : Act)
    (blocks : List (List Op)) (hb : ∀ b ∈ blocks, ∀ op ∈ b, Plain op)
    (hlen : blocks.length = (snapshot (aruns h ainit).1 p arg).length - 1)
    (hab : AboveAll act ((aruns h ainit).1.scans.length + 1) blocks (astep (aruns h ainit).1 (.start p arg act)).1) :
    ∃ s outs, runs P h init = some (s, outs) ∧ collect P p arg act blocks s = some ((snapshot (aruns h ainit).1 p arg).map some) := by
  obtain ⟨s, full, h1, h2⟩ := sim_runs (nl := False) P h ainit init _ (init_sim False) (plain_legalRun P h ainit init gen0_init hh) (fun h => h.elim)
  have hg := gen0_runs h ainit gen0_init hh
  refine ⟨s, _, h1, ?_⟩
  obtain ⟨a, ha⟩ : ∃ a, a = (aruns h ainit).1 := ⟨_, rfl⟩
  rw [← ha] at h2 hg hlen hab ⊢
  obtain ⟨s', full', h3, h4⟩ := sim_step P h2 (.start p arg act) (plain_legal P s hg _ trivial) (fun h => h.elim)
  have hg' := gen0_step hg (.start p arg act) trivial
  unfold collect
  cases hsn : snapshot a p arg with
  | nil =>
    have h9 : (astep a (.start p arg act)).2 = none := by
      unfold snapshot at hsn; simp only [astep, hsn]
    rw [h3, h9]; rfl
  | cons c r =>
    have h9 : (astep a (.start p arg act)).2 = some c := by
      unfold snapshot at hsn; simp only [astep, hsn]
    rw [h3, h9]
    simp only
    rw [hsn] at hlen
    have hscan : r ≠ [] → (astep a (.start p arg act)).1.scans = ⟨p, (a.pred p).gen, r⟩ :: a.scans := by
      intro hr
      unfold snapshot at hsn
      simp only [astep, hsn, act_scans, if_neg hr]
    cases r with
    | nil =>
      have : blocks = [] := by simpa using hlen
      subst this; rfl
    | cons c' r' =>
      have hsc := hscan (by simp)
      have hl := all2_length h4.scans
      rw [hsc] at hl
      have hl' : s'.scans.length = a.scans.length + 1 := by rw [← hl]; rfl
      rw [hl', drive_spec P act p (a.pred p).gen a.scans (c' :: r') blocks _ s' full' h4 hg' (fun _ => hsc) (by simpa using hlen) hb hab]
      rfl

/-- Three clauses, the enumeration of which is interleaved with an assertz, an asserta, and the retract of the second one, which
is retracted before it is given. -/
def exH : List Op := [.add 0 (.int 1) 0 false, .add 0 .var 0 false, .add 0 (.int 2) 0 false, .add 0 (.int 1) 0 false]
def exB : List (List Op) := [[.add 0 (.int 1) 0 false, .add 0 (.int 1) 0 true, .start 0 .var .read, .redo .retract, .cut 1], [.start 0 .var .retract]]

example : (∀ op ∈ exH, Plain op) ∧ (∀ b ∈ exB, ∀ op ∈ b, Plain op) ∧ snapshot (aruns exH ainit).1 0 (.int 1) = [0, 1, 3]
    ∧ exB.length = (snapshot (aruns exH ainit).1 0 (.int 1)).length - 1
    ∧ AboveAll .read ((aruns exH ainit).1.scans.length + 1) exB (astep (aruns exH ainit).1 (.start 0 (.int 1) .read)).1 := by
  refine ⟨?_, ?_, by decide, by decide, ?_⟩
  · intro op h; simp [exH] at h; rcases h with rfl | rfl | rfl | rfl <;> trivial
  · intro b hb op h; simp [exB] at hb; rcases hb with rfl | rfl <;> simp at h
    · rcases h with rfl | rfl | rfl | rfl | rfl <;> trivial
    · rcases h with rfl; trivial
  · refine ⟨⟨trivial, trivial, trivial, ?_, ?_, trivial⟩, ⟨trivial, trivial⟩, trivial⟩ <;> decide

/-- **C18** for all the operations: the clauses given by any history are those of the specification. Partial: for the histories
with removals of whole predicates or files which are legal (see `Legal`). -/
theorem C18_all_operations_partial (P : Par) (h : List Op) (hl : LegalRun P h ainit init) :
    ∃ s, runs P h init = some (s, (aruns h ainit).2) := by
  obtain ⟨s, _, h1, _⟩ := sim_runs (nl := False) P h ainit init _ (init_sim False) hl (fun h => h.elim)
  exact ⟨s, h1⟩

example : LegalRun ⟨10, 10⟩ [.add 0 .var 7 false, .add 0 .var 8 false, .start 0 .var .enter, .eraseFile 0 8, .redo .retract, .eraseAll 0] ainit init := by
  refine ⟨trivial, fun s r h => ⟨trivial, fun s1 r1 h1 => ⟨trivial, fun s2 r2 h2 => ⟨?_, fun s3 r3 h3 => ⟨?_, fun _ _ _ => ⟨trivial, fun _ _ _ => trivial⟩⟩⟩⟩⟩⟩
  · have e : ((step ⟨10, 10⟩ init (.add 0 .var 7 false)).bind fun x => (step ⟨10, 10⟩ x.1 (.add 0 .var 8 false)).bind fun x =>
        (step ⟨10, 10⟩ x.1 (.start 0 .var .enter)).map fun x => (x.1.nb, x.1.longest)) = some (0, 0) := by decide +kernel
    rw [h] at e
    simp only [Option.bind_some] at e
    rw [h1] at e
    simp only [Option.bind_some] at e
    rw [h2] at e
    simp only [Option.map_some, Option.some.injEq, Prod.mk.injEq] at e
    show s2.nb + _ < (10 : Int) ∧ s2.longest < 10
    rw [e.1, e.2]
    decide
  · intro as ss hs
    have e : (aruns [.add 0 .var 7 false, .add 0 .var 8 false, .start 0 .var .enter, .eraseFile 0 8] ainit).1.scans = [⟨0, 0, [1]⟩] := by decide
    have e' : (astep (astep (astep (astep ainit (.add 0 .var 7 false)).1 (.add 0 .var 8 false)).1 (.start 0 .var .enter)).1 (.eraseFile 0 8)).1.scans = [⟨0, 0, [1]⟩] := e
    rw [e'] at hs
    cases hs
    decide

/-! C19: first-argument indexing -/

/-- **C19.** After any history of asserta, assertz, calls, clause/2, retract/1, backtracking and cuts, a call on a predicate visits
clauses of the predicate, each once and in the order of the database, and all those whose first argument can be unified with the
one of the call. -/
theorem C19_indexing (P : Par) (h : List Op) (hh : ∀ op ∈ h, Plain op) (p : Nat) (arg : Arg) :
    ∃ s outs n vs, runs P h init = some (s, outs) ∧ collect P p arg .read (List.replicate n []) s = some (vs.map some)
      ∧ List.Sublist vs (((aruns h ainit).1.pred p).cls.map (·.id))
      ∧ ∀ x ∈ ((aruns h ainit).1.pred p).cls, mayUnify arg x.arg → x.id ∈ vs := by
  have hab : ∀ (n m : Nat) (a : ASt), AboveAll .read m (List.replicate n []) a := by
    intro n
    induction n with
    | zero => intros; trivial
    | succ n ih => intro m a; exact ⟨trivial, ih m _⟩
  obtain ⟨s, outs, h1, h2⟩ := C18_logical_update_view P h hh p arg .read (List.replicate ((snapshot (aruns h ainit).1 p arg).length - 1) [])
    (by intro b hb op ho; rw [List.eq_of_mem_replicate hb] at ho; simp at ho) (by simp) (hab _ _ _)
  refine ⟨s, outs, _, _, h1, h2, ?_, ?_⟩
  · exact List.Sublist.map _ List.filter_sublist
  · intro x hx hm
    refine List.mem_map.2 ⟨x, List.mem_filter.2 ⟨hx, ?_⟩, rfl⟩
    rcases hm with hm | hm | hm
    · rw [hm]; exact cand_seq _ _ (by decide)
    · rw [hm]; cases arg <;> rfl
    · rw [hm]; cases x.arg <;> simp [cand]

example : ((aruns exH ainit).1.pred 0).cls = [⟨0, .int 1, 0⟩, ⟨1, .var, 0⟩, ⟨2, .int 2, 0⟩, ⟨3, .int 1, 0⟩]
    ∧ mayUnify (.int 1) (.var) ∧ mayUnify (.int 1) (.int 1) ∧ ¬ mayUnify (.int 1) (.int 2) := by
  refine ⟨by decide, Or.inr (Or.inl rfl), Or.inr (Or.inr rfl), by simp [mayUnify]⟩

/-- The clauses visited are a selection: no clause with an other key is visited. -/
theorem C19_selective (P : Par) (h : List Op) (hh : ∀ op ∈ h, Plain op) (p : Nat) (k : Int) :
    ∃ s outs n, ∃ vs : List Nat, runs P h init = some (s, outs) ∧ collect P p (.int k) .read (List.replicate n []) s = some (vs.map some)
      ∧ ∀ c ∈ vs, ∃ x ∈ ((aruns h ainit).1.pred p).cls, x.id = c ∧ (x.arg = .int k ∨ x.arg = .var) := by
  have hab : ∀ (n m : Nat) (a : ASt), AboveAll .read m (List.replicate n []) a := by
    intro n
    induction n with
    | zero => intros; trivial
    | succ n ih => intro m a; exact ⟨trivial, ih m _⟩
  obtain ⟨s, outs, h1, h2⟩ := C18_logical_update_view P h hh p (.int k) .read (List.replicate ((snapshot (aruns h ainit).1 p (.int k)).length - 1) [])
    (by intro b hb op ho; rw [List.eq_of_mem_replicate hb] at ho; simp at ho) (by simp) (hab _ _ _)
  refine ⟨s, outs, _, _, h1, h2, ?_⟩
  intro c hc
  obtain ⟨x, hx, rfl⟩ := List.mem_map.1 hc
  obtain ⟨h3, h4⟩ := List.mem_filter.1 hx
  refine ⟨x, h3, rfl, ?_⟩
  cases hxa : x.arg <;> rw [hxa] at h4 <;> simp [cand] at h4 <;> grind

/-! C20: reclamation -/

/-- **C20** (reclamation is invisible). The clauses given by a history of asserta, assertz, calls, clause/2, retract/1,
backtracking and cuts are the same whatever the thresholds of the reclamation; no access to freed memory occurs. -/
theorem C20_invisible (P P' : Par) (h : List Op) (hh : ∀ op ∈ h, Plain op) :
    ∃ s s' outs, runs P h init = some (s, outs) ∧ runs P' h init = some (s', outs) := by
  obtain ⟨s, _, h1, _⟩ := sim_runs (nl := False) P h ainit init _ (init_sim False) (plain_legalRun P h ainit init gen0_init hh) (fun h => h.elim)
  obtain ⟨s', _, h1', _⟩ := sim_runs (nl := False) P' h ainit init _ (init_sim False) (plain_legalRun P' h ainit init gen0_init hh) (fun h => h.elim)
  exact ⟨s, s', _, h1, h1'⟩

/-- With the threshold 1 the clauses are freed: 2 clauses out of 3 remain allocated, and 3 with the threshold 10. -/
example : (∀ op ∈ ([.add 0 (.int 1) 0 false, .add 0 .var 0 false, .add 0 (.int 2) 0 false, .start 0 (.int 1) .retract, .cut 1, .start 0 .var .read] : List Op), Plain op)
    ∧ ((runs ⟨1, 10⟩ [.add 0 (.int 1) 0 false, .add 0 .var 0 false, .add 0 (.int 2) 0 false, .start 0 (.int 1) .retract, .cut 1, .start 0 .var .read] init).map
        fun x => ((x.1.cl 0).isSome, (x.1.cl 1).isSome, x.2)) = some (false, true, [some 0, some 1, some 2, some 0, none, some 1])
    ∧ ((runs ⟨10, 10⟩ [.add 0 (.int 1) 0 false, .add 0 .var 0 false, .add 0 (.int 2) 0 false, .start 0 (.int 1) .retract, .cut 1, .start 0 .var .read] init).map
        fun x => ((x.1.cl 0).isSome, (x.1.cl 1).isSome, x.2)) = some (true, true, [some 0, some 1, some 2, some 0, none, some 1]) := by
  refine ⟨?_, by decide +kernel, by decide +kernel⟩
  intro op h; simp at h; rcases h with rfl | rfl | rfl | rfl | rfl | rfl <;> trivial

/-- **C20** for all the operations. Partial: see `Legal`. -/
theorem C20_safe_partial (P : Par) (h : List Op) (hl : LegalRun P h ainit init) : runs P h init ≠ none := by
  obtain ⟨s, h1⟩ := C18_all_operations_partial P h hl
  rw [h1]; simp

/-- **C20** (erased clauses are reclaimed). When the reclamation runs, the clauses which remain allocated are those of the database
and those of the predicates on which a choice point is open. Partial: for the histories without execution of interpreted clauses
(`NoEnter`), see `C20_leak`. -/
theorem C20_reclaimed_partial (P : Par) (h : List Op) (hl : LegalRun P h ainit init) (he : ∀ op ∈ h, NoEnter op) :
    ∃ s outs s', runs P h init = some (s, outs) ∧ gcRun s = some s' ∧
      ∀ c C, s'.cl c = some C → (∃ p, ∃ x ∈ ((aruns h ainit).1.pred p).cls, x.id = c) ∨ ∃ sc ∈ s.scans, sc.dyn = C.dyn := by
  obtain ⟨s, full, h1, H⟩ := sim_runs (nl := True) P h ainit init _ (init_sim True) hl (fun _ => he)
  obtain ⟨s', full', g1, g2, g3, _, g5⟩ := gcRun_spec H.inv
  refine ⟨s, _, s', h1, g1, fun c C hC => ?_⟩
  have hX := dt_of hC
  have hm := (g2.core.mem c _ hX).1
  have hdd : C.data.dyn = C.dyn := rfl
  rw [hdd] at hm
  obtain ⟨D, hD⟩ := g2.core.dynOf hX
  rw [hdd] at hD
  by_cases hw : C.dyn ∈ s'.withErase
  · right
    rcases g5 _ hw with h | ⟨e, h, _⟩
    · exact h
    · rw [(H.inv.leak trivial).1] at h; simp at h
  · left
    have hEN : D.erased = ENULL := by
      apply Classical.byContradiction
      intro hne; exact hw ((g2.leak trivial).2 _ D hD hne)
    have hst := g2.clean _ D hD hw hEN c hm
    obtain ⟨p, hp⟩ := g2.det _ D hD (by rw [hEN]; simp)
    have hp0 : s.pred p = some C.dyn := by rw [g3.eq] at hp; exact hp
    refine ⟨p, ⟨c, argOf (dt s.cl) c, fileOf (dt s.cl) c⟩, ?_, rfl⟩
    rw [H.psome p _ hp0]
    unfold absL
    refine List.mem_map.2 ⟨c, ?_, rfl⟩
    obtain ⟨D0, hD0, _⟩ := H.inv.pred p _ hp0
    obtain ⟨_, _, _, hatt⟩ := g3.att p _ hp0 D0 hD0
    rw [← hatt]
    refine List.mem_filter.2 ⟨hm, ?_⟩
    have := g3.data _ c hm
    simp only [stampOf, this] at hst
    simp only [stampOf, hst, decide_true]

/-- Two clauses, the first is retracted: after the reclamation only the second remains, once the choice point is removed. -/
example : LegalRun ⟨10, 10⟩ [.add 0 .var 0 false, .add 0 .var 0 false, .start 0 .var .retract, .cut 1] ainit init
    ∧ (∀ op ∈ ([.add 0 .var 0 false, .add 0 .var 0 false, .start 0 .var .retract, .cut 1] : List Op), NoEnter op)
    ∧ ((runs ⟨10, 10⟩ [.add 0 .var 0 false, .add 0 .var 0 false, .start 0 .var .retract, .cut 1] init).bind fun x => (gcRun x.1).map fun s =>
        ((x.1.cl 0).isSome, (s.cl 0).isSome, (s.cl 1).isSome)) = some (true, false, true) := by
  refine ⟨plain_legalRun _ _ _ _ gen0_init ?_, ?_, by decide +kernel⟩
  · intro op h; simp at h; rcases h with rfl | rfl | rfl | rfl <;> trivial
  · intro op h; simp at h; rcases h with rfl | rfl | rfl | rfl <;> trivial

/-- **C20 fails**: retract/1 on a predicate with two clauses, then abolish/1 on it, then backtracking into retract/1: the erased
clause replaces the mark of a removed predicate, and the reclamation follows the mark as a clause. -/
theorem C20_retract_after_abolish_crashes :
    runs ⟨4, 10⟩ [.add 0 .var 0 false, .add 0 .var 0 false, .add 0 .var 0 false, .start 0 .var .read, .eraseAll 0, .redo .retract, .cut 1,
      .add 1 .var 0 false, .start 1 .var .retract] init = none := by
  decide +kernel

/-- **C20 fails**: removing the clauses of a file of a multifile predicate (it is consulted again), with the thresholds
reached: the reclamation frees the clause which is used to find the next one. -/
theorem C20_file_removal_uses_freed_clause :
    runs ⟨1, 10⟩ [.add 0 .var 7 false, .add 0 .var 8 false, .eraseFile 0 7] init = none := by
  decide +kernel

/-- **C20 fails**: a clause of predicate 1 is executed while the reclamation runs (for predicate 0); later this clause is
retracted, nothing is executed and there is no choice point, but the memory of the clause is not reclaimed. -/
theorem C20_leak :
    ((runs ⟨1, 10⟩ [.add 0 .var 0 false, .add 1 .var 0 false, .start 1 .var .enter, .start 0 .var .retract, .leave 0, .start 1 .var .retract] init).bind
      fun x => (gcRun x.1).map fun s => (s.scans.length, s.envs, (s.cl 0).isSome, (s.cl 1).isSome)) = some (0, [], false, true) := by
  decide +kernel

/-- Without the execution of the clause its memory is reclaimed. -/
example : ((runs ⟨1, 10⟩ [.add 0 .var 0 false, .add 1 .var 0 false, .start 0 .var .retract, .start 1 .var .retract] init).bind
      fun x => (gcRun x.1).map fun s => ((s.cl 0).isSome, (s.cl 1).isSome)) = some (false, false) := by
  decide +kernel

end Gp.Dyn
