/-
Model of the chained hash table of the engine: /repo/src/EnginePl/hash_tbl.c
(and Pl_Extend_HTBL_If_Needed of /repo/src/EnginePl/misc.c).

Memory simplifications, valid for the whole file:
* a chain of malloc'ed nodes is a list of nodes; a node has a unique identity `id`
  (its address; never reused, so that a stale pointer is always detected);
* the header+array block has an identity `gen` (its address), changed by a realloc;
* malloc/calloc never fail (the engine exits on failure);
* an element is its key (a PlLong, 64 bits) and an opaque payload `V`;
* the C `int` counters do not overflow.
Undefined behaviour (use of a freed block, modulo 0) is the outcome `none`.
-/
namespace Gp.HashTbl

/-- A key: `PlLong` seen as 64 bits (hash_tbl.c:101, 260). -/
abbrev Key := BitVec 64

/-- `struct hash_node` (hash_tbl.h): key, user data; `next` is the rest of the list. -/
structure Node (V : Type) where
  id  : Nat
  key : Key
  val : V
deriving Repr, DecidableEq

/-- A chain starting at one cell of the array. -/
abbrev Chain (V : Type) := List (Node V)

/-- The table: header (`Tbl_Size` is `arr.length`, `Nb_Elem` is `nb`; hash_tbl.c:89-97) and array. -/
structure Tbl (V : Type) where
  gen   : Nat
  arr   : List (Chain V)
  nb    : Int
  fresh : Nat
deriving Repr, DecidableEq

/-- `Tbl_Size` (hash_tbl.c:91, 443-447). -/
def Tbl.size (t : Tbl V) : Nat := t.arr.length

/-- `Hash_Function(k, size)` (hash_tbl.c:101): unsigned remainder. -/
def hashFn (k : Key) (size : Nat) : Nat := k.toNat % size

/-- `Pl_HTBL_Alloc_Table` (hash_tbl.c:118-137). The calloc is done with the size *before* it is
raised to at least 1; allocating with `tbl_size < 1` then writing cell 0 is outside the block, hence
undefined: `none`. All callers use a positive size. -/
def alloc (gen fresh : Nat) (tblSize : Int) : Option (Tbl V) :=
  if tblSize < 1 then none
  else some { gen := gen, arr := List.replicate tblSize.toNat [], nb := 0, fresh := fresh }

/-- Loop of `Hash_Locate` (hash_tbl.c:357-363) on one chain: position of the link pointing to the
node of `key`, or of the final NULL link. -/
def locate : Chain V → Key → Nat
  | [], _ => 0
  | p :: c, key => if p.key = key then 0 else locate c key + 1

/-- Chain selected by `Hash_Locate` (hash_tbl.c:352-355). -/
def Tbl.chain (t : Tbl V) (key : Key) : Chain V := (t.arr[hashFn key t.size]?).getD []

/-- Store back a chain in its cell. -/
def Tbl.setChain (t : Tbl V) (key : Key) (c : Chain V) : Tbl V :=
  { t with arr := t.arr.set (hashFn key t.size) c }

/-- `Pl_HTBL_Insert` (hash_tbl.c:254-286). Returns the table and the element pointed by the result. -/
def insert (t : Tbl V) (key : Key) (v : V) (replace : Bool) : Tbl V × Node V :=
  let c := t.chain key
  let pos := locate c key                                   -- 264
  match c[pos]? with
  | none =>                                                 -- 267: the key does not exist
    let p : Node V := ⟨t.fresh, key, v⟩                     -- 269, 275, 282
    ({ (t.setChain key (c.take pos ++ [p])) with            -- 277: *prev = p
         nb := t.nb + 1, fresh := t.fresh + 1 }, p)         -- 276
  | some p =>
    if replace then
      let p' : Node V := { p with key := key, val := v }    -- 282: memcpy
      (t.setChain key (c.set pos p'), p')
    else (t, p)                                             -- 279-280

/-- `Pl_HTBL_Find` (hash_tbl.c:295-310). -/
def find (t : Tbl V) (key : Key) : Option (Node V) :=
  let c := t.chain key
  c[locate c key]?

/-- `Pl_HTBL_Delete` (hash_tbl.c:319-338). The result tells if the key was present. -/
def delete (t : Tbl V) (key : Key) : Tbl V × Bool :=
  let c := t.chain key
  let pos := locate c key
  match c[pos]? with
  | none => (t, false)
  | some _ => ({ (t.setChain key (c.eraseIdx pos)) with nb := t.nb - 1 }, true)  -- 333-335

/-- `Pl_HTBL_Delete_All` (hash_tbl.c:222-245). -/
def deleteAll (t : Tbl V) : Tbl V :=
  { t with arr := t.arr.map (fun _ => []), nb := 0 }

/-- One step of the inner loop of `Pl_HTBL_Realloc_Table` (hash_tbl.c:169-176): the node is stored
in the link found by `Hash_Locate` and becomes the last of its chain. -/
def relink (newSize : Nat) (arr : List (Chain V)) (p : Node V) : List (Chain V) :=
  let i := hashFn p.key newSize
  let c := (arr[i]?).getD []
  arr.set i (c.take (locate c p.key) ++ [p])

/-- `Pl_HTBL_Realloc_Table` (hash_tbl.c:147-183). `gen'` is the address of the new block.
`new_tbl_size < 1` is undefined behaviour (modulo by zero in `Hash_Locate`, 171). -/
def realloc (t : Tbl V) (gen' : Nat) (newSize : Int) : Option (Tbl V) := do
  let t' ← alloc gen' t.fresh newSize                        -- 159
  let n := newSize.toNat
  let arr := t.arr.foldl (fun a c => c.foldl (relink n) a) t'.arr   -- 166-178
  some { t' with arr := arr, nb := t.nb }                    -- 162

/-- `Pl_Extend_HTBL_If_Needed` (misc.c:222-229). -/
def extendIfNeeded (t : Tbl V) (gen' : Nat) : Option (Tbl V) :=
  if t.nb ≥ (t.size : Int) then realloc t gen' ((t.size : Int) * 2) else some t

/-! ### Scanning -/

/-- `HashScan` (hash_tbl.h): `cur_t` is an index in the array of the block `gen` (`end_t` is the end
of that block), `cur_p` is the identity of a node or NULL. -/
structure Scan where
  gen  : Nat
  curT : Nat
  curP : Option Nat
deriving Repr, DecidableEq

/-- Dereference a node pointer lying in chain `c`: the node and its successor's address.
`none`: the node does not exist any more (dangling pointer). -/
def deref : Chain V → Nat → Option (Node V × Option Nat)
  | [], _ => none
  | p :: c, i => if p.id = i then some (p, c.head?.map (·.id)) else deref c i

/-- Loop `while (++t < end_t)` of `Pl_HTBL_Next` (hash_tbl.c:422-431) over the cells after `cur_t`. -/
def nextCells : List (Chain V) → Nat → Option (Node V × Nat × Option Nat)
  | [], _ => none
  | [] :: cs, i => nextCells cs (i + 1)
  | (p :: c) :: _, i => some (p, i, c.head?.map (·.id))

/-- `Pl_HTBL_Next` (hash_tbl.c:405-434). Outer `none`: undefined behaviour (table block or node
freed since). -/
def next (t : Tbl V) (s : Scan) : Option (Option (Node V × Scan)) :=
  match s.curP with
  | some i =>                                                -- 413-417
    -- a node is malloc'ed on its own: it survives a realloc of the array
    match t.arr.findSome? (fun c => deref c i) with
    | some (p, nx) => some (some (p, { s with curP := nx }))
    | none => none
  | none =>
    if s.gen ≠ t.gen then none                               -- 422-424 reads the freed array
    else match nextCells (t.arr.drop (s.curT + 1)) (s.curT + 1) with
      | some (p, i, nx) => some (some (p, { s with curT := i, curP := nx }))
      | none => some none

/-- `Pl_HTBL_First` (hash_tbl.c:384-396). -/
def first (t : Tbl V) : Option (Option (Node V × Scan)) :=
  match t.arr with
  | [] => none                                               -- reads *t outside the block
  | c :: _ => next t { gen := t.gen, curT := 0, curP := c.head?.map (·.id) }

/-- The documented loop `for (p = First; p; p = Next) use(p)` (hash_tbl.c:376-382), run on a table
which is not modified; `fuel` bounds the number of steps, `none` is undefined behaviour or fuel
exhausted. -/
def scanFrom (t : Tbl V) : Nat → Option (Option (Node V × Scan)) → Option (List (Node V))
  | _, none => none
  | _, some none => some []
  | 0, some (some _) => none
  | fuel + 1, some (some (p, s)) => (scanFrom t fuel (next t s)).map (p :: ·)

def scanAll (t : Tbl V) (fuel : Nat) : Option (List (Node V)) := scanFrom t fuel (first t)

/-- The scan loop of `Del_Aliases_Of_Stream` (/repo/src/BipsPl/stream_supp.c:589-640): the element
just returned may be deleted (`sel`) before `Pl_HTBL_Next` is called. Returns the visited elements
and the final table. -/
def scanDelFrom (sel : Node V → Bool) :
    Nat → Tbl V → Option (Option (Node V × Scan)) → Option (List (Node V) × Tbl V)
  | _, _, none => none
  | _, t, some none => some ([], t)
  | 0, _, some (some _) => none
  | fuel + 1, t, some (some (p, s)) =>
    let t' := if sel p then (delete t p.key).1 else t
    (scanDelFrom sel fuel t' (next t' s)).map (fun (l, t'') => (p :: l, t''))

def scanDel (sel : Node V → Bool) (t : Tbl V) (fuel : Nat) : Option (List (Node V) × Tbl V) :=
  scanDelFrom sel fuel t (first t)

end Gp.HashTbl
