/-
Model of the sorted maps of the tools (Wam2Ma atom/functor dictionaries, line editor completion):
/repo/src/Tools/map_rbtree.h, /repo/src/Tools/rbtree.c and rbtree_augmented.h (Linux red-black trees).

A tree of nodes linked by rb_left / rb_right / parent pointers is modelled by a zipper: the sub-tree under
the current node, and the path to the root (the parent pointers). An entry is its key and value.
Simplifications: pointers are structural (no aliasing, no `WRITE_ONCE` ordering); `calloc` does not fail;
the left and right cases of the rebalancing loops, which are mirror images in the C text, are one definition
with the direction as a parameter. `none` stands for the dereference of a NULL pointer.
-/
namespace Gp.RbMap

/-- `RB_RED`, `RB_BLACK` (rbtree_augmented.h:152-153). -/
inductive Color where
  | red
  | black
deriving DecidableEq, Repr

/-- Side of a son (`rb_left` / `rb_right`). -/
inductive Dir where
  | left
  | right
deriving DecidableEq, Repr

/-- A tree of `struct rb_node` (rbtree.h) with the entries (map_rbtree.h, `struct map_entry`). -/
inductive Tree (E : Type) where
  | nil
  | node (c : Color) (l : Tree E) (e : E) (r : Tree E)

/-- A parent: its colour, on which side the current node is, its entry, its other son. -/
structure Frame (E : Type) where
  c : Color
  dir : Dir
  e : E
  other : Tree E

abbrev Path (E : Type) := List (Frame E)

/-- (`rb_left` / `rb_right` fields.) A node given the son on side `d` and the other son. -/
def mk {E : Type} (d : Dir) (c : Color) (t : Tree E) (e : E) (o : Tree E) : Tree E :=
  match d with
  | .left => .node c t e o
  | .right => .node c o e t

/-- `tmp && rb_is_red(tmp)` (rbtree_augmented.h:161). -/
def isRed {E : Type} : Tree E → Bool
  | .node .red _ _ _ => true
  | _ => false

/-- `rb_set_parent_color(t, _, RB_BLACK)` if `t` is not NULL. -/
def paintBlack {E : Type} : Tree E → Tree E
  | .nil => .nil
  | .node _ l e r => .node .black l e r

/-- The whole tree: the root reached through the parent pointers. -/
def plug {E : Type} (t : Tree E) : Path E → Tree E
  | [] => t
  | f :: p => plug (mk f.dir f.c t f.e f.other) p

/-- `__rb_insert` (rbtree.c:88-224). The current node is red: entry `e`, sons `l`, `r`. -/
def insertFix {E : Type} (l : Tree E) (e : E) (r : Tree E) : Path E → Option (Tree E)
  | [] => some (.node .black l e r)                                       -- 98-106
  | p :: path =>
    if p.c = .black then some (plug (.node .red l e r) (p :: path))        -- 114-115
    else
      match path with
      | [] => none                                                        -- gparent is NULL
      | g :: path =>
        if isRed g.other then                                             -- 121-141, 189-197 case 1
          -- the grandparent becomes the current (red) node
          let p' := mk p.dir .black (.node .red l e r) p.e p.other
          let u := paintBlack g.other
          match g.dir with
          | .left => insertFix p' g.e u path
          | .right => insertFix u g.e p' path
        else if p.dir = g.dir then                                        -- 180-186, 215-221 case 3
          some (plug (mk g.dir g.c (.node .red l e r) p.e (mk g.dir .red (paintBlack p.other) g.e g.other)) path)
        else                                                              -- 143-168, 199-212 case 2 then case 3
          match g.dir with
          | .left =>   -- node becomes the parent: left son p (with node's left son), right son g
            some (plug (.node g.c (.node .red p.other p.e (paintBlack l)) e (.node .red (paintBlack r) g.e g.other)) path)
          | .right =>
            some (plug (.node g.c (.node .red g.other g.e (paintBlack l)) e (.node .red (paintBlack r) p.e p.other)) path)

/-- Result of one turn of the erase loop: finished sub-tree, or go on with this node one level up. -/
inductive Turn (E : Type) where
  | done (t : Tree E)
  | up (t : Tree E)

/-- The sons of the sibling seen from the current node: the near one and the far one. -/
def sons {E : Type} (d : Dir) (l r : Tree E) : Tree E × Tree E :=
  match d with
  | .left => (l, r)
  | .right => (r, l)

/-- One turn of `____rb_erase_color` with a black sibling (rbtree.c:265-355, mirror 369-408): cases 2, 3, 4.
`t` is the current node, on side `d` of the parent (colour `c`, entry `e`); the sibling is
`sl`, `se`, `sr`. -/
def eraseTurn {E : Type} (t : Tree E) (d : Dir) (c : Color) (e : E) (sl : Tree E) (se : E) (sr : Tree E) :
    Option (Turn E) :=
  let (near, far) := sons d sl sr
  if isRed far then                                                        -- case 4
    some (.done (mk d c (mk d .black t e near) se (paintBlack far)))
  else
    match near with
    | .node .red nl ne nr =>                                               -- case 3 then 4
      let (nnear, nfar) := sons d nl nr
      some (.done (mk d c (mk d .black t e nnear) ne (mk d .black (paintBlack nfar) se far)))
    | _ =>                                                                 -- case 2
      let s := Tree.node .red sl se sr
      if c = .red then some (.done (mk d .black t e s)) else some (.up (mk d .black t e s))

/-- `____rb_erase_color` (rbtree.c:230-411). The path is not empty at the first call. -/
def eraseColor {E : Type} (t : Tree E) : Path E → Option (Tree E)
  | [] => some t
  | p :: path =>
    match p.other with
    | .nil => none
    | .node .red sl se sr =>                                               -- case 1 (246-264, 358-368)
      let (near, far) := sons p.dir sl sr
      match paintBlack near with
      | .nil => none
      | .node _ nl ne nr =>
        match eraseTurn t p.dir .red p.e nl ne nr with
        | some (.done t') => some (plug (mk p.dir p.c t' se far) path)
        | _ => none           -- the parent is red: case 2 ends
    | .node .black sl se sr =>
      match eraseTurn t p.dir p.c p.e sl se sr with
      | some (.done t') => some (plug t' path)
      | some (.up t') => eraseColor t' path
      | none => none

/-- Go down to the leftmost node (rbtree_augmented.h:257-262): its right son, its colour, its entry, and the
path; `l` is the left son of the node `c`, `e`, `r`. -/
def leftmost {E : Type} (c : Color) (e : E) (r : Tree E) (path : Path E) : Tree E → Tree E × Color × E × Path E
  | .nil => (r, c, e, path)
  | .node c' l' e' r' => leftmost c' e' r' (⟨c, .left, e, r⟩ :: path) l'

/-- `rb_erase` (rbtree.c:442-448) with `__rb_erase_augmented` (rbtree_augmented.h:191-293). The node has
colour `c` and sons `l`, `r`. -/
def erase {E : Type} (c : Color) (l r : Tree E) (path : Path E) : Option (Tree E) :=
  match l, r with
  | .nil, .nil => if c = .black ∧ path ≠ [] then eraseColor .nil path else some (plug .nil path)  -- 200-216
  | .nil, .node _ rl re rr => some (plug (.node c rl re rr) path)
  | .node _ ll le lr, .nil => some (plug (.node c ll le lr) path)                                 -- 217-223
  | .node lc ll le lr, .node rc rl re rr =>
    -- the node is replaced by its successor, which takes its colour (224-289)
    let (child2, sc, se, inner) := leftmost rc re rr [] rl
    let path2 := inner ++ ⟨c, .right, se, .node lc ll le lr⟩ :: path
    match child2 with
    | .node _ cl ce cr => some (plug (.node .black cl ce cr) path2)
    | .nil => if sc = .black then eraseColor .nil path2 else some (plug .nil path2)

/-- A position in the tree: a node and the path to it. -/
structure Loc (E : Type) where
  c : Color
  l : Tree E
  e : E
  r : Tree E
  path : Path E

/-- `while (n->rb_left) n = n->rb_left` from the node `c`, `l`, `e`, `r`. -/
def downLeft {E : Type} (c : Color) (e : E) (r : Tree E) (path : Path E) : Tree E → Loc E
  | .nil => ⟨c, .nil, e, r, path⟩
  | .node c' l' e' r' => downLeft c' e' r' (⟨c, .left, e, r⟩ :: path) l'

/-- `while (n->rb_right) n = n->rb_right`. -/
def downRight {E : Type} (c : Color) (l : Tree E) (e : E) (path : Path E) : Tree E → Loc E
  | .nil => ⟨c, l, e, .nil, path⟩
  | .node c' l' e' r' => downRight c' l' e' (⟨c, .right, e, l⟩ :: path) r'

/-- `rb_first` (rbtree.c:466-476), `map_first` (map_rbtree.h:748-754). -/
def first {E : Type} : Tree E → Option (Loc E)
  | .nil => none
  | .node c l e r => some (downLeft c e r [] l)

/-- `rb_last` (rbtree.c:478-488), `map_last` (map_rbtree.h:760-766). -/
def last {E : Type} : Tree E → Option (Loc E)
  | .nil => none
  | .node c l e r => some (downRight c l e [] r)

/-- Go up while the node is a right son (rbtree.c:515-518). -/
def upNext {E : Type} (t : Tree E) : Path E → Option (Loc E)
  | [] => none
  | f :: path =>
    match f.dir with
    | .right => upNext (.node f.c f.other f.e t) path
    | .left => some ⟨f.c, t, f.e, f.other, path⟩

/-- Go up while the node is a left son (rbtree.c:543-546). -/
def upPrev {E : Type} (t : Tree E) : Path E → Option (Loc E)
  | [] => none
  | f :: path =>
    match f.dir with
    | .left => upPrev (.node f.c t f.e f.other) path
    | .right => some ⟨f.c, f.other, f.e, t, path⟩

/-- `rb_next` (rbtree.c:490-519), `map_next_entry` (map_rbtree.h:772-781). -/
def next {E : Type} (x : Loc E) : Option (Loc E) :=
  match x.r with
  | .node c l e r => some (downLeft c e r (⟨x.c, .right, x.e, x.l⟩ :: x.path) l)
  | .nil => upNext (.node x.c x.l x.e x.r) x.path

/-- `rb_prev` (rbtree.c:521-547), `map_prev_entry` (map_rbtree.h:807-816). -/
def prev {E : Type} (x : Loc E) : Option (Loc E) :=
  match x.l with
  | .node c l e r => some (downRight c l e (⟨x.c, .left, x.e, x.r⟩ :: x.path) r)
  | .nil => upPrev (.node x.c x.l x.e x.r) x.path

section Map
variable {K V : Type} (cmp : K → K → Int)

/-- `map_locate` (map_rbtree.h:663-684): the closest entry. -/
def locate (k : K) (path : Path (K × V)) : Tree (K × V) → Option (Loc (K × V))
  | .nil => none
  | .node c l e r =>
    if cmp k e.1 < 0 then
      match l with
      | .nil => some ⟨c, l, e, r, path⟩
      | .node .. => locate k (⟨c, .left, e, r⟩ :: path) l
    else if cmp k e.1 > 0 then
      match r with
      | .nil => some ⟨c, l, e, r, path⟩
      | .node .. => locate k (⟨c, .right, e, l⟩ :: path) r
    else some ⟨c, l, e, r, path⟩

/-- `struct map_rbt` (map_rbtree.h). -/
structure Map (K V : Type) where
  size : Int
  counterAdd : Nat
  counterDel : Nat
  root : Tree (K × V)

/-- `map_init` (map_rbtree.h:530-536), also the final state of `map_clear` (842-890). -/
def init : Map K V := ⟨0, 0, 0, .nil⟩

/-- `map_get` (map_rbtree.h:690-696). -/
def get (m : Map K V) (k : K) : Option (Loc (K × V)) :=
  match locate cmp k [] m.root with
  | some x => if cmp k x.e.1 = 0 then some x else none
  | none => none

/-- The search of `map_put` (map_rbtree.h:619-636): the entry found, or the place of the new node. -/
def search (k : K) (path : Path (K × V)) : Tree (K × V) → (K × V) ⊕ Path (K × V)
  | .nil => .inr path
  | .node c l e r =>
    if cmp k e.1 < 0 then search k (⟨c, .left, e, r⟩ :: path) l
    else if cmp k e.1 > 0 then search k (⟨c, .right, e, l⟩ :: path) r
    else .inl e

/-- `map_put` (map_rbtree.h:612-657): new map, entry, `created`. `value m` is the value given to a new entry
(`MAP_PUT_ENTRY`, called after the counters have been updated, or written by the caller). -/
def put (value : Map K V → V) (m : Map K V) (k : K) : Option (Map K V × (K × V) × Bool) :=
  match search cmp k [] m.root with
  | .inl e => some (m, e, false)
  | .inr path =>
    let m1 := { m with size := m.size + 1, counterAdd := m.counterAdd + 1 }
    let e := (k, value m1)
    match insertFix .nil e .nil path with
    | none => none
    | some t => some ({ m1 with root := t }, e, true)

/-- `map_remove` (map_rbtree.h:730-742) with `map_remove_entry` (713-724): new map, result. -/
def remove (m : Map K V) (k : K) : Option (Map K V × Bool) :=
  match get cmp m k with
  | none => some (m, false)
  | some x =>
    match erase x.c x.l x.r x.path with
    | none => none
    | some t => some (⟨m.size - 1, m.counterAdd, m.counterDel + 1, t⟩, true)

/-- `map_next` (map_rbtree.h:787-801). -/
def mapNext (m : Map K V) (k : K) (strict : Bool) : Option (Loc (K × V)) :=
  match locate cmp k [] m.root with
  | none => none
  | some x => if cmp k x.e.1 > 0 ∨ (cmp k x.e.1 = 0 ∧ strict = true) then next x else some x

/-- `map_prev` (map_rbtree.h:822-836). -/
def mapPrev (m : Map K V) (k : K) (strict : Bool) : Option (Loc (K × V)) :=
  match locate cmp k [] m.root with
  | none => none
  | some x => if cmp k x.e.1 < 0 ∨ (cmp k x.e.1 = 0 ∧ strict = true) then prev x else some x

end Map

end Gp.RbMap
