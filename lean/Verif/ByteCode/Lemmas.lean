import Verif.ByteCode.Spec

namespace Gp.ByteCode

/-! ### Fields -/

theorem op1 {op : Nat} (a b : Nat) (h : op < 256) : bcOp (pack1 op a b) = op := by
  unfold bcOp pack1; omega
theorem op2 {op : Nat} (a : Nat) (h : op < 256) : bcOp (pack2 op a) = op := by
  unfold bcOp pack2; omega
theorem i8_pack (op : Nat) {a : Nat} (b : Nat) (h : a < 256) : bcI8 (pack1 op a b) = a := by
  unfold bcI8 pack1; omega
theorem i16_pack (op a : Nat) {b : Nat} (h : b < 65536) : bcI16 (pack1 op a b) = b := by
  unfold bcI16 pack1; omega
theorem i24_pack (op : Nat) {a : Nat} (h : a < 16777216) : bcI24 (pack2 op a) = a := by
  unfold bcI24 pack2; omega

theorem join_halves {n : Nat} (h : n < 18446744073709551616) : join32 (lo32 n) (hi32 n) = n := by
  unfold join32 lo32 hi32; omega

theorem u32_of {n : Nat} (h : n < 4294967296) : u32 n = n := Nat.mod_eq_of_lt h

theorem toU_lt (w64 : Bool) (l : Int) : toU w64 l < wordVals w64 := by
  unfold toU wordVals; cases w64 <;> simp <;> omega

theorem toS_toU {w64 : Bool} {l : Int} (h : okInt w64 l) : toS w64 (toU w64 l) = l := by
  unfold toS toU wordVals; unfold okInt at h
  cases w64 <;> simp at h ⊢ <;> split <;> omega

theorem toU_small {w64 : Bool} {l : Int} {b : Nat} (h : okInt w64 l) (hb : b ≤ 16777216)
    (hl : toU w64 l < b) : ((toU w64 l : Nat) : Int) = l := by
  unfold toU wordVals at *; unfold okInt at h
  cases w64 <;> simp at h hl ⊢ <;> omega

/-! ### Reading -/

theorem get_at (pre l : List Nat) (k : Nat) : (pre ++ l)[pre.length + k]? = l[k]? := by
  rw [List.getElem?_append_right (by omega)]; congr 1; omega

theorem get_at0 (pre l : List Nat) : (pre ++ l)[pre.length]? = l[0]? := get_at pre l 0

theorem decode_cons (w64 : Bool) (pre : List Nat) (w : Nat) (ws : List Nat) :
    decode w64 (pre ++ w :: ws) pre.length =
      decodeW w64 (pre ++ w :: ws) w (pre.length + 1) := by
  unfold decode; rw [get_at0]; rfl

/-- The context read back by the emulator. -/
def ctxOf (w64 : Bool) (e : Env) : Nat × Nat :=
  let cw := toU w64 (toS false (u32 (functorArity w64 e.callerF e.callerN)))
  (functorOf w64 cw, arityOf w64 cw)

/-- What has to be read for an instruction which ends at `pc'`. -/
def actOf (w64 : Bool) (e : Env) (pc' : Nat) : Inst → Act
  | .call f n =>
    match e.db f n with
    | some (.native p) => .native (some pc') f n p
    | _ => .pred (some pc') f n (ctxOf w64 e).1 (ctxOf w64 e).2
  | .execute f n =>
    match e.db f n with
    | some (.native p) => .native none f n p
    | _ => .pred none f n (ctxOf w64 e).1 (ctxOf w64 e).2
  | i => .inst i

theorem dec_xy1 {w64 : Bool} {pre rest : List Nat} {op : Nat} {r : Reg} {a : Nat}
    {K : Reg → Nat → Inst}
    (hop : op + 1 < 256) (hr : r.ok1) (ha : a < 256)
    (hx : ∀ w code pc, bcOp w = op → decodeW w64 code w pc = some (.inst (K (.x (bcI16 w)) (bcI8 w)), pc))
    (hy : ∀ w code pc, bcOp w = op + 1 → decodeW w64 code w pc = some (.inst (K (.y (bcI16 w)) (bcI8 w)), pc)) :
    decode w64 (pre ++ (emitXY1 op r a ++ rest)) pre.length =
      some (.inst (K r a), pre.length + (emitXY1 op r a).length) := by
  unfold emitXY1
  rw [List.cons_append, decode_cons]
  cases r with
  | x n =>
    simp only [argXY]
    rw [hx _ _ _ (op1 _ _ (by omega)), i8_pack _ _ ha, i16_pack _ _ hr]; rfl
  | y n =>
    simp only [argXY]
    rw [hy _ _ _ (op1 _ _ (by omega)), i8_pack _ _ ha, i16_pack _ _ hr]; rfl

theorem dec_xy2 {w64 : Bool} {pre rest : List Nat} {op : Nat} {r : Reg} {K : Reg → Inst}
    (hop : op + 1 < 256) (hr : r.ok2)
    (hx : ∀ w code pc, bcOp w = op → decodeW w64 code w pc = some (.inst (K (.x (bcI24 w))), pc))
    (hy : ∀ w code pc, bcOp w = op + 1 → decodeW w64 code w pc = some (.inst (K (.y (bcI24 w))), pc)) :
    decode w64 (pre ++ (emitXY2 op r ++ rest)) pre.length =
      some (.inst (K r), pre.length + (emitXY2 op r).length) := by
  unfold emitXY2
  rw [List.cons_append, decode_cons]
  cases r with
  | x n =>
    simp only [argXY]
    rw [hx _ _ _ (op2 _ (by omega)), i24_pack _ hr]; rfl
  | y n =>
    simp only [argXY]
    rw [hy _ _ _ (op2 _ (by omega)), i24_pack _ hr]; rfl

theorem dec_one {w64 : Bool} {pre rest : List Nat} {w : Nat} {i : Inst}
    (h : ∀ code pc, decodeW w64 code w pc = some (.inst i, pc)) :
    decode w64 (pre ++ ([w] ++ rest)) pre.length = some (.inst i, pre.length + [w].length) := by
  rw [List.cons_append, decode_cons, h]; rfl

theorem rdWord_at (pre : List Nat) (w f : Nat) (rest : List Nat) (k : Nat → Inst) :
    rdWord (pre ++ w :: f :: rest) (pre.length + 1) k = some (.inst (k f), pre.length + 2) := by
  unfold rdWord; rw [get_at]; rfl

theorem rdInt_at64 (pre : List Nat) (w a b : Nat) (rest : List Nat) :
    rdInt true (pre ++ w :: a :: b :: rest) (pre.length + 1) =
      some (toS true (join32 a b), pre.length + 3) := by
  unfold rdInt; rw [get_at, Nat.add_assoc, get_at]; rfl

theorem rdInt_at32 (pre : List Nat) (w a : Nat) (rest : List Nat) :
    rdInt false (pre ++ w :: a :: rest) (pre.length + 1) = some (toS false a, pre.length + 2) := by
  unfold rdInt; rw [get_at]; rfl

theorem rdFloat_at (pre : List Nat) (w a b : Nat) (rest : List Nat) :
    rdFloat (pre ++ w :: a :: b :: rest) (pre.length + 1) =
      some (join32 a b, pre.length + 3) := by
  unfold rdFloat; rw [get_at, Nat.add_assoc, get_at]; rfl

theorem dec_word {w64 : Bool} {pre rest : List Nat} {w f : Nat} {k : Nat → Inst} {i : Inst}
    (h : ∀ code pc, decodeW w64 code w pc = rdWord code pc k) (hi : k f = i) :
    decode w64 (pre ++ ([w, f] ++ rest)) pre.length = some (.inst i, pre.length + [w, f].length) := by
  rw [List.cons_append, List.cons_append, decode_cons, h, rdWord_at, hi]; rfl

theorem dec_atom1 {w64 : Bool} {pre rest : List Nat} {op f a : Nat} {K : Nat → Nat → Inst}
    (hop : op + 1 < 256) (hf : okAtom f) (ha : a < 256)
    (h0 : ∀ w code pc, bcOp w = op → decodeW w64 code w pc = some (.inst (K (bcI16 w) (bcI8 w)), pc))
    (h1 : ∀ w code pc, bcOp w = op + 1 → decodeW w64 code w pc = rdWord code pc (fun f => K f (bcI8 w))) :
    decode w64 (pre ++ (emitAtom1 op f a ++ rest)) pre.length =
      some (.inst (K f a), pre.length + (emitAtom1 op f a).length) := by
  have hu : u32 f = f := u32_of (by unfold okAtom at hf; omega)
  unfold emitAtom1
  rw [hu]
  by_cases hs : f < 65536
  · rw [if_pos hs]
    exact dec_one (fun code pc => by
      rw [h0 _ _ _ (op1 _ _ (by omega)), i8_pack _ _ ha, i16_pack _ _ hs])
  · rw [if_neg hs]
    exact dec_word (fun code pc => h1 _ _ _ (op1 _ _ hop)) (by rw [i8_pack _ _ ha])

theorem dec_atom2 {w64 : Bool} {pre rest : List Nat} {op f : Nat} {K : Nat → Inst}
    (hop : op + 1 < 256) (hf : okAtom f)
    (h0 : ∀ w code pc, bcOp w = op → decodeW w64 code w pc = some (.inst (K (bcI24 w)), pc))
    (h1 : ∀ w code pc, bcOp w = op + 1 → decodeW w64 code w pc = rdWord code pc (fun f => K f)) :
    decode w64 (pre ++ (emitAtom2 op f ++ rest)) pre.length =
      some (.inst (K f), pre.length + (emitAtom2 op f).length) := by
  have hu : u32 f = f := u32_of (by unfold okAtom at hf; omega)
  unfold emitAtom2
  rw [hu]
  by_cases hs : f < 16777216
  · rw [if_pos hs]
    exact dec_one (fun code pc => by
      rw [h0 _ _ _ (op2 _ (by omega)), i24_pack _ hs])
  · rw [if_neg hs]
    exact dec_word (fun code pc => h1 _ _ _ (op2 _ hop)) rfl

theorem toU_lt64 (l : Int) : toU true l < 18446744073709551616 := toU_lt true l
theorem toU_lt32 (l : Int) : toU false l < 4294967296 := toU_lt false l

theorem dec_int1 {w64 : Bool} {pre rest : List Nat} {op a : Nat} {l : Int} {K : Int → Nat → Inst}
    (hop : op + 1 < 256) (hl : okInt w64 l) (ha : a < 256)
    (h0 : ∀ w code pc, bcOp w = op → decodeW w64 code w pc = some (.inst (K (bcI16 w) (bcI8 w)), pc))
    (h1 : ∀ w code pc, bcOp w = op + 1 → decodeW w64 code w pc =
      (rdInt w64 code pc).map (fun (l, p) => (.inst (K l (bcI8 w)), p))) :
    decode w64 (pre ++ (emitInt1 w64 op l a ++ rest)) pre.length =
      some (.inst (K l a), pre.length + (emitInt1 w64 op l a).length) := by
  unfold emitInt1
  by_cases hs : toU w64 l < 65536
  · rw [if_pos hs]
    exact dec_one (fun code pc => by
      rw [h0 _ _ _ (op1 _ _ (by omega)), i8_pack _ _ ha, i16_pack _ _ hs,
        toU_small hl (by omega) hs])
  · rw [if_neg hs]
    cases w64 with
    | true =>
      rw [if_pos rfl, List.cons_append, List.cons_append, List.cons_append, decode_cons,
        h1 _ _ _ (op1 _ _ hop), rdInt_at64, join_halves (toU_lt64 l), toS_toU hl]
      simp only [Option.map_some, i8_pack _ _ ha]; rfl
    | false =>
      rw [if_neg (by simp), List.cons_append, List.cons_append, decode_cons,
        h1 _ _ _ (op1 _ _ hop), rdInt_at32, u32_of (toU_lt32 l), toS_toU hl]
      simp only [Option.map_some, i8_pack _ _ ha]; rfl

theorem dec_int2 {w64 : Bool} {pre rest : List Nat} {op : Nat} {l : Int} {K : Int → Inst}
    (hop : op + 1 < 256) (hl : okInt w64 l)
    (h0 : ∀ w code pc, bcOp w = op → decodeW w64 code w pc = some (.inst (K (bcI24 w)), pc))
    (h1 : ∀ w code pc, bcOp w = op + 1 → decodeW w64 code w pc =
      (rdInt w64 code pc).map (fun (l, p) => (.inst (K l), p))) :
    decode w64 (pre ++ (emitInt2 w64 op l ++ rest)) pre.length =
      some (.inst (K l), pre.length + (emitInt2 w64 op l).length) := by
  unfold emitInt2
  by_cases hs : toU w64 l < 16777216
  · rw [if_pos hs]
    exact dec_one (fun code pc => by
      rw [h0 _ _ _ (op2 _ (by omega)), i24_pack _ hs, toU_small hl (by omega) hs])
  · rw [if_neg hs]
    cases w64 with
    | true =>
      rw [if_pos rfl, List.cons_append, List.cons_append, List.cons_append, decode_cons,
        h1 _ _ _ (op2 _ hop), rdInt_at64, join_halves (toU_lt64 l), toS_toU hl]
      rfl
    | false =>
      rw [if_neg (by simp), List.cons_append, List.cons_append, decode_cons,
        h1 _ _ _ (op2 _ hop), rdInt_at32, u32_of (toU_lt32 l), toS_toU hl]
      rfl

theorem dec_float {w64 : Bool} {pre rest : List Nat} {op d a : Nat} {K : Nat → Nat → Inst}
    (hop : op < 256) (hd : d < 18446744073709551616) (ha : a < 256)
    (h1 : ∀ w code pc, bcOp w = op → decodeW w64 code w pc =
      (rdFloat code pc).map (fun (d, p) => (.inst (K d (bcI8 w)), p))) :
    decode w64 (pre ++ (emitFloat1 op d a ++ rest)) pre.length =
      some (.inst (K d a), pre.length + (emitFloat1 op d a).length) := by
  unfold emitFloat1
  rw [List.cons_append, List.cons_append, List.cons_append, decode_cons,
    h1 _ _ _ (op1 _ _ hop), rdFloat_at, join_halves hd]
  simp only [Option.map_some, i8_pack _ _ ha]; rfl

theorem dec_struct1 {w64 : Bool} {pre rest : List Nat} {op f n a : Nat} {K : Nat → Nat → Nat → Inst}
    (hop : op < 256) (hf : okAtom f) (hn : n < 65536) (ha : a < 256)
    (h1 : ∀ w code pc, bcOp w = op → decodeW w64 code w pc =
      rdWord code pc (fun f => K f (bcI16 w) (bcI8 w))) :
    decode w64 (pre ++ (emitStruct1 op f n a ++ rest)) pre.length =
      some (.inst (K f n a), pre.length + (emitStruct1 op f n a).length) := by
  unfold emitStruct1
  exact dec_word (fun code pc => h1 _ _ _ (op1 _ _ hop))
    (by rw [i8_pack _ _ ha, i16_pack _ _ hn, u32_of (by unfold okAtom at hf; omega)])

theorem rdNative_at64 (pre : List Nat) (w f a b : Nat) (rest : List Nat) (c : Bool) (n : Nat) :
    rdNative true (pre ++ w :: f :: a :: b :: rest) (pre.length + 1) c n =
      some (.native (if c then some (pre.length + 4) else none) f n (join32 a b),
        pre.length + 4) := by
  have h1 : (pre ++ w :: f :: a :: b :: rest)[pre.length + 1]? = some f := get_at _ _ 1
  have h2 : (pre ++ w :: f :: a :: b :: rest)[pre.length + 1 + 1]? = some a := get_at _ _ 2
  have h3 : (pre ++ w :: f :: a :: b :: rest)[pre.length + 1 + 2]? = some b := get_at _ _ 3
  unfold rdNative
  simp only [h1, h2, h3, if_pos]

theorem rdNative_at32 (pre : List Nat) (w f a : Nat) (rest : List Nat) (c : Bool) (n : Nat) :
    rdNative false (pre ++ w :: f :: a :: rest) (pre.length + 1) c n =
      some (.native (if c then some (pre.length + 3) else none) f n a, pre.length + 3) := by
  have h1 : (pre ++ w :: f :: a :: rest)[pre.length + 1]? = some f := get_at _ _ 1
  have h2 : (pre ++ w :: f :: a :: rest)[pre.length + 1 + 1]? = some a := get_at _ _ 2
  unfold rdNative
  simp only [h1, h2, Bool.false_eq_true, if_false]

theorem dec_call {w64 : Bool} {e : Env} {pre rest : List Nat} {op f n : Nat} {c : Bool}
    (hop : op + 1 < 256) (he : e.ok w64) (hf : okAtom f) (hn : n < 16777216)
    (h0 : ∀ w code pc, bcOp w = op → decodeW w64 code w pc = rdCall w64 code pc c (bcI24 w))
    (h1 : ∀ w code pc, bcOp w = op + 1 → decodeW w64 code w pc = rdNative w64 code pc c (bcI24 w)) :
    decode w64 (pre ++ (emitCall w64 e op f n ++ rest)) pre.length =
      some (match e.db f n with
        | some (.native p) => Act.native (if c then some (pre.length + (emitCall w64 e op f n).length) else none) f n p
        | _ => Act.pred (if c then some (pre.length + (emitCall w64 e op f n).length) else none) f n
          (ctxOf w64 e).1 (ctxOf w64 e).2,
        pre.length + (emitCall w64 e op f n).length) := by
  have hu : u32 f = f := u32_of (by unfold okAtom at hf; omega)
  have hpred : decode w64 (pre ++ ([pack2 op n, u32 f, u32 (functorArity w64 e.callerF e.callerN)] ++ rest))
      pre.length = some (Act.pred (if c then some (pre.length + 3) else none) f n
          (ctxOf w64 e).1 (ctxOf w64 e).2, pre.length + 3) := by
    rw [List.cons_append, List.cons_append, List.cons_append, decode_cons,
      h0 _ _ _ (op2 _ (by omega)), i24_pack _ hn, hu]
    unfold rdCall
    rw [get_at, Nat.add_assoc, get_at]
    rfl
  unfold emitCall
  match hd : e.db f n with
  | none => exact hpred
  | some .dyn => exact hpred
  | some (.native p) =>
    have hp := he f n p hd
    cases w64 with
    | true =>
      have hp' : p < 18446744073709551616 := hp
      simp only [if_pos]
      rw [List.cons_append, List.cons_append, List.cons_append, List.cons_append, decode_cons,
        h1 _ _ _ (op2 _ hop), i24_pack _ hn, hu, rdNative_at64, join_halves hp']
      cases c <;> rfl
    | false =>
      have hp' : p < 4294967296 := hp
      simp only [Bool.false_eq_true, if_false]
      rw [List.cons_append, List.cons_append, List.cons_append, decode_cons,
        h1 _ _ _ (op2 _ hop), i24_pack _ hn, hu, u32_of hp', rdNative_at32]
      cases c <;> rfl

/-- `decodeW` on a known operation code. -/
local macro "dw" : tactic => `(tactic| (intro w code pc h; unfold decodeW; rw [h]; rfl))

theorem decode_emit {w64 : Bool} {e : Env} (he : e.ok w64) (pre rest : List Nat) {i : Inst}
    (hv : Valid w64 i) :
    decode w64 (pre ++ (emit w64 e i ++ rest)) pre.length =
      some (actOf w64 e (pre.length + (emit w64 e i).length) i,
        pre.length + (emit w64 e i).length) := by
  cases i with
  | getVariable r a => exact dec_xy1 (K := .getVariable) (by decide) hv.1 hv.2 (by dw) (by dw)
  | getValue r a => exact dec_xy1 (K := .getValue) (by decide) hv.1 hv.2 (by dw) (by dw)
  | getAtom f a => exact dec_atom1 (K := .getAtom) (by decide) hv.1 hv.2 (by dw) (by dw)
  | getInteger l a => exact dec_int1 (K := .getInteger) (by decide) hv.1 hv.2 (by dw) (by dw)
  | getFloat d a => exact dec_float (K := .getFloat) (by decide) hv.1 hv.2 (by dw)
  | getNil a =>
    exact dec_one (fun code pc => by
      unfold decodeW; rw [op1 _ _ (by decide)]; simp only [i8_pack _ _ (show a < 256 from hv)])
  | getList a =>
    exact dec_one (fun code pc => by
      unfold decodeW; rw [op1 _ _ (by decide)]; simp only [i8_pack _ _ (show a < 256 from hv)])
  | getStructure f n a =>
    exact dec_struct1 (K := .getStructure) (by decide) hv.1 hv.2.1 hv.2.2 (by dw)
  | putVariable r a => exact dec_xy1 (K := .putVariable) (by decide) hv.1 hv.2 (by dw) (by dw)
  | putVoid a =>
    exact dec_one (fun code pc => by
      unfold decodeW; rw [op1 _ _ (by decide)]; simp only [i8_pack _ _ (show a < 256 from hv)])
  | putValue r a => exact dec_xy1 (K := .putValue) (by decide) hv.1 hv.2 (by dw) (by dw)
  | putUnsafeValue r a =>
    cases r with
    | x n => exact absurd hv (by simp [Valid])
    | y n =>
      exact dec_one (fun code pc => by
        unfold decodeW; rw [op1 _ _ (show (argXY (Reg.y n) (PUT_Y_UNSAFE_VALUE - 1)).fst < 256 from (by decide : 17 < 256))]
        simp only [argXY, i8_pack _ _ hv.2, i16_pack _ _ hv.1]; rfl)
  | putAtom f a => exact dec_atom1 (K := .putAtom) (by decide) hv.1 hv.2 (by dw) (by dw)
  | putInteger l a => exact dec_int1 (K := .putInteger) (by decide) hv.1 hv.2 (by dw) (by dw)
  | putFloat d a => exact dec_float (K := .putFloat) (by decide) hv.1 hv.2 (by dw)
  | putNil a =>
    exact dec_one (fun code pc => by
      unfold decodeW; rw [op1 _ _ (by decide)]; simp only [i8_pack _ _ (show a < 256 from hv)])
  | putList a =>
    exact dec_one (fun code pc => by
      unfold decodeW; rw [op1 _ _ (by decide)]; simp only [i8_pack _ _ (show a < 256 from hv)])
  | putStructure f n a =>
    exact dec_struct1 (K := .putStructure) (by decide) hv.1 hv.2.1 hv.2.2 (by dw)
  | mathLoadValue r a =>
    exact dec_xy1 (K := .mathLoadValue) (by decide) hv.1 hv.2 (by dw) (by dw)
  | unifyVariable r => exact dec_xy2 (K := .unifyVariable) (by decide) hv (by dw) (by dw)
  | unifyVoid n =>
    exact dec_one (fun code pc => by
      unfold decodeW; rw [op2 _ (by decide)]
      simp only [i24_pack _ (show n < 16777216 from hv)])
  | unifyValue r => exact dec_xy2 (K := .unifyValue) (by decide) hv (by dw) (by dw)
  | unifyLocalValue r => exact dec_xy2 (K := .unifyLocalValue) (by decide) hv (by dw) (by dw)
  | unifyAtom f => exact dec_atom2 (K := .unifyAtom) (by decide) hv (by dw) (by dw)
  | unifyInteger l => exact dec_int2 (K := .unifyInteger) (by decide) hv (by dw) (by dw)
  | unifyNil => exact dec_one (fun code pc => by unfold decodeW; rw [op2 _ (by decide)]; rfl)
  | unifyList => exact dec_one (fun code pc => by unfold decodeW; rw [op2 _ (by decide)]; rfl)
  | unifyStructure f n =>
    exact dec_word (k := fun f => .unifyStructure f n) (fun code pc => by
      unfold decodeW; rw [op2 _ (by decide)]; simp only [i24_pack _ hv.2])
      (by rw [u32_of (by have := hv.1; unfold okAtom at this; omega)])
  | allocate n =>
    exact dec_one (fun code pc => by
      unfold decodeW; rw [op2 _ (by decide)]
      simp only [i24_pack _ (show n < 16777216 from hv)])
  | deallocate => exact dec_one (fun code pc => by unfold decodeW; rw [op2 _ (by decide)]; rfl)
  | call f n =>
    refine (dec_call (c := true) (by decide) he hv.1 hv.2 (by dw) (by dw)).trans ?_
    rfl
  | execute f n =>
    refine (dec_call (c := false) (by decide) he hv.1 hv.2 (by dw) (by dw)).trans ?_
    rfl
  | proceed => exact dec_one (fun code pc => by unfold decodeW; rw [op2 _ (by decide)]; rfl)
  | fail => exact dec_one (fun code pc => by unfold decodeW; rw [op2 _ (by decide)]; rfl)
  | getCurrentChoice r => exact dec_xy2 (K := .getCurrentChoice) (by decide) hv (by dw) (by dw)
  | cut r => exact dec_xy2 (K := .cut) (by decide) hv (by dw) (by dw)
  | softCut r => exact dec_xy2 (K := .softCut) (by decide) hv (by dw) (by dw)

/-! ### The code of a clause -/

/-- The words of a list of instructions. -/
def encAll (w64 : Bool) (e : Env) (is : List Inst) : List Nat := (is.map (emit w64 e)).flatten

theorem encAll_append (w64 : Bool) (e : Env) (a b : List Inst) :
    encAll w64 e (a ++ b) = encAll w64 e a ++ encAll w64 e b := by
  unfold encAll; rw [List.map_append, List.flatten_append]

theorem encAll_cons (w64 : Bool) (e : Env) (i : Inst) (b : List Inst) :
    encAll w64 e (i :: b) = emit w64 e i ++ encAll w64 e b := by
  unfold encAll; rw [List.map_cons, List.flatten_cons]

/-- The index of the first word of the instruction `k`. -/
def posOf (w64 : Bool) (e : Env) (is : List Inst) (k : Nat) : Nat :=
  (encAll w64 e (is.take k)).length

theorem decode_at {w64 : Bool} {e : Env} (he : e.ok w64) {is : List Inst}
    (hv : ∀ i ∈ is, Valid w64 i) {k : Nat} {i : Inst} {rest : List Inst}
    (hk : is.drop k = i :: rest) :
    decode w64 (encAll w64 e is) (posOf w64 e is k) =
      some (actOf w64 e (posOf w64 e is (k + 1)) i, posOf w64 e is (k + 1)) := by
  have hmem : i ∈ is := List.mem_of_mem_drop (by rw [hk]; exact List.mem_cons_self)
  have hcode : encAll w64 e is =
      encAll w64 e (is.take k) ++ (emit w64 e i ++ encAll w64 e rest) := by
    rw [← encAll_cons, ← hk, ← encAll_append, List.take_append_drop]
  have hpos : posOf w64 e is (k + 1) =
      (encAll w64 e (is.take k)).length + (emit w64 e i).length := by
    unfold posOf
    have h1 : is.take (k + 1) = is.take k ++ [i] := by
      have : is[k]? = some i := by
        have h2 := congrArg (fun l => l[0]?) hk
        simp only [List.getElem?_drop, List.getElem?_cons_zero, Nat.add_zero] at h2
        exact h2
      rw [List.take_add_one, this]; rfl
    rw [h1, encAll_append, encAll_cons]
    simp [encAll]
  rw [hpos, hcode]
  exact decode_emit he _ _ (hv i hmem)

/-- The predicates which are native at run time are those of the emission. -/
def Stable (e : Env) (db : Nat → Nat → Option Pred) : Prop :=
  ∀ f n p, db f n = some (.native p) ↔ e.db f n = some (.native p)

theorem Stable.dyn {e : Env} {db : Nat → Nat → Option Pred} (h : Stable e db) {f n : Nat}
    (hn : ∀ p, e.db f n ≠ some (.native p)) : db f n = none ∨ db f n = some .dyn := by
  match hd : db f n with
  | none => exact .inl rfl
  | some .dyn => exact .inr rfl
  | some (.native p) => exact absurd ((h f n p).1 hd) (hn p)

theorem act_inst {w64 : Bool} {e : Env} {pc : Nat} {i : Inst}
    (h1 : ∀ f n, i ≠ .call f n) (h2 : ∀ f n, i ≠ .execute f n) :
    actOf w64 e pc i = .inst i := by
  cases i <;> first | rfl | exact absurd rfl (h1 _ _) | exact absurd rfl (h2 _ _)

theorem run_inst {σ : Type} {M : Mach σ} {db : Nat → Nat → Option Pred} {ctx : Nat × Nat}
    {place : Nat → Nat} {i : Inst} {rest : List Inst} {k : Nat} {s : σ}
    (h1 : ∀ f n, i ≠ .call f n) (h2 : ∀ f n, i ≠ .execute f n)
    (h3 : i ≠ .proceed) (h4 : i ≠ .fail) :
    run M db ctx place (i :: rest) k s =
      match M.exec i s with
      | none => .failed
      | some s' => run M db ctx place rest (k + 1) s' := by
  cases i <;> first | rfl | exact absurd rfl (h1 _ _) | exact absurd rfl (h2 _ _) |
    exact absurd rfl h3 | exact absurd rfl h4

theorem emulate_run {σ : Type} {w64 : Bool} {e : Env} (he : e.ok w64) {is : List Inst}
    (hv : ∀ i ∈ is, Valid w64 i) (M : Mach σ) {db : Nat → Nat → Option Pred} (hs : Stable e db)
    (base : Nat) (debug : Bool) :
    ∀ (rest : List Inst) (k fuel : Nat) (s : σ), is.drop k = rest → rest.length < fuel →
      emulate w64 M db (encAll w64 e is) base debug fuel (posOf w64 e is k) s =
        run M db (ctxOf w64 e) (fun k => saved base (posOf w64 e is k) debug) rest k s := by
  intro rest
  induction rest with
  | nil =>
    intro k fuel s hk hf
    cases fuel with
    | zero => exact absurd hf (by simp)
    | succ fuel =>
      have hnone : decode w64 (encAll w64 e is) (posOf w64 e is k) = none := by
        have hl : is.length ≤ k := List.drop_eq_nil_iff.1 hk
        unfold decode posOf
        rw [List.take_of_length_le hl, List.getElem?_eq_none (Nat.le_refl _)]
      unfold emulate; rw [hnone]; rfl
  | cons i rest ih =>
    intro k fuel s hk hf
    cases fuel with
    | zero => exact absurd hf (by simp)
    | succ fuel =>
      have hd := decode_at he hv hk
      have hk' : is.drop (k + 1) = rest := by
        rw [← List.drop_drop, hk]; rfl
      unfold emulate
      rw [hd]
      by_cases h3 : i = .proceed
      · subst h3; rfl
      by_cases h4 : i = .fail
      · subst h4; rfl
      by_cases h1 : ∃ f n, i = .call f n
      · obtain ⟨f, n, rfl⟩ := h1
        unfold actOf run callTo
        match hp : e.db f n with
        | some (.native p) => simp only [(hs f n p).2 hp, hp]
        | none =>
          rcases hs.dyn (f := f) (n := n) (by intro p; rw [hp]; simp) with h | h <;> simp only [h, hp]
        | some .dyn =>
          rcases hs.dyn (f := f) (n := n) (by intro p; rw [hp]; simp) with h | h <;> simp only [h, hp]
      by_cases h2 : ∃ f n, i = .execute f n
      · obtain ⟨f, n, rfl⟩ := h2
        unfold actOf run callTo
        match hp : e.db f n with
        | some (.native p) => simp only [(hs f n p).2 hp, hp]
        | none =>
          rcases hs.dyn (f := f) (n := n) (by intro p; rw [hp]; simp) with h | h <;> simp only [h, hp]
        | some .dyn =>
          rcases hs.dyn (f := f) (n := n) (by intro p; rw [hp]; simp) with h | h <;> simp only [h, hp]
      have h1' : ∀ f n, i ≠ .call f n := fun f n h => h1 ⟨f, n, h⟩
      have h2' : ∀ f n, i ≠ .execute f n := fun f n h => h2 ⟨f, n, h⟩
      rw [act_inst h1' h2', run_inst h1' h2' h3 h4]
      simp only
      match M.exec i s with
      | none => rfl
      | some s' => exact ih (k + 1) fuel s' hk' (by simp at hf; omega)

/-! ### The context -/

theorem ctx32 {e : Env} (hf : e.callerF < 4194304) (hn : e.callerN < 1024) :
    ctxOf false e = (e.callerF, e.callerN) := by
  unfold ctxOf functorOf arityOf toU toS u32 functorArity atomVals wordVals
  simp
  split <;> constructor <;> omega

theorem ctx64 {e : Env} (hf : e.callerF < 2147483648) :
    ctxOf true e = (e.callerF, 0) := by
  unfold ctxOf functorOf arityOf toU toS u32 functorArity atomVals wordVals
  simp
  split <;> constructor <;> omega

/-! ### The saved word -/

theorem restored_saved {base : Nat} (hb : base % 4 = 0) (pc : Nat) (debug : Bool) :
    restored (saved base pc debug) = (base + 4 * pc, debug) := by
  have h : saved base pc debug = base + 4 * pc + debug.toNat := by
    unfold saved
    have he : base + 4 * pc = 2 ^ 1 * ((base + 4 * pc) / 2) := by omega
    rw [he, ← Nat.two_pow_add_eq_or_of_lt (by cases debug <;> decide)]
  rw [h]; unfold restored
  cases debug <;> simp <;> omega

/-! ### The buffer -/

theorem emit_length (w64 : Bool) (e : Env) (i : Inst) :
    1 ≤ (emit w64 e i).length ∧ (emit w64 e i).length ≤ 4 := by
  cases i <;> simp only [emit, emitXY1, emitXY2, emitAtom1, emitInt1, emitFloat1, emitStruct1,
    emitAtom2, emitInt2, emitCall] <;> (repeat' split) <;> simp

/-- The buffer holds its words. -/
def Buf.ok (b : Buf) : Prop :=
  b.overflow = false ∧ 1 ≤ b.blocks ∧ b.words.length ≤ b.blocks * BC_BLOCK_SIZE

theorem emitInst_ok {w64 : Bool} {e : Env} {b : Buf} (h : b.ok) (i : Inst) :
    (emitInst w64 e b i).ok ∧ (emitInst w64 e b i).words = b.words ++ emit w64 e i := by
  obtain ⟨h1, h2, h3⟩ := h
  have hl := emit_length w64 e i
  unfold emitInst Buf.grow
  split
  · refine ⟨⟨?_, ?_, ?_⟩, rfl⟩
    · simp only [Buf.push, h1, Bool.false_or, decide_eq_false_iff_not]
      unfold BC_BLOCK_SIZE at *; omega
    · simp only [Buf.push]; omega
    · simp only [Buf.push, List.length_append]; unfold BC_BLOCK_SIZE at *; omega
  · refine ⟨⟨?_, ?_, ?_⟩, rfl⟩
    · simp only [Buf.push, h1, Bool.false_or, decide_eq_false_iff_not]
      unfold BC_BLOCK_SIZE at *; omega
    · simp only [Buf.push]; omega
    · simp only [Buf.push, List.length_append]; unfold BC_BLOCK_SIZE at *; omega

theorem emitAll_ok {w64 : Bool} {e : Env} (is : List Inst) : ∀ {b : Buf}, b.ok →
    (is.foldl (emitInst w64 e) b).ok ∧
      (is.foldl (emitInst w64 e) b).words = b.words ++ encAll w64 e is := by
  induction is with
  | nil => intro b h; exact ⟨h, by simp [encAll]⟩
  | cons i is ih =>
    intro b h
    obtain ⟨h1, h2⟩ := emitInst_ok (w64 := w64) (e := e) h i
    obtain ⟨h3, h4⟩ := ih h1
    exact ⟨h3, by rw [List.foldl_cons, h4, h2, encAll_cons, List.append_assoc]⟩

theorem start_ok {b : Buf} (h : b.ok) : b.start.ok :=
  ⟨h.1, h.2.1, by simp [Buf.start]⟩

theorem emitClause_ok {w64 : Bool} {e : Env} (is : List Inst) {b : Buf} (h : b.ok) :
    (emitClause w64 e b is).ok ∧ (emitClause w64 e b is).words = encAll w64 e is := by
  have := emitAll_ok (w64 := w64) (e := e) is (start_ok h)
  exact ⟨this.1, by unfold emitClause; rw [this.2]; rfl⟩

end Gp.ByteCode
