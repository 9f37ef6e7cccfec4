/-
Model of vw::geometry::SpatialTree (src/vw/Geometry/SpatialTree.h, SpatialTree.cc): a tree of boxes in any number of
dimensions that holds pointers to geometric primitives, each in the smallest box of the tree that contains the bounding
box of the primitive.

Simplifications. Coordinates are elements of an ordered field (no rounding). A primitive is an element of a type `P`;
its virtual functions are arguments of the queries. The tree is a value, not a heap of nodes: a node is named by its path
from the root. Everything that does not return normally, that is exceptions, undefined behaviour (null pointers, shifts
by 32 and more, conversion of NaN and infinities) and loops for ever, is `none`. `print`, `write_vrml`, the destructor and
the counters `m_num_primitives`, all for debugging or memory, are left out.
-/
import Mathlib.Algebra.Order.Floor.Ring
import Mathlib.Algebra.Order.Field.Basic
import Mathlib.Algebra.BigOperators.Fin
import Mathlib.Data.List.FinRange
import Mathlib.Logic.Function.Basic

namespace VW.SpatialTree

variable {K : Type} [Field K] [LinearOrder K] {n : Nat} {P : Type}

/-- `BBoxN`, Math/BBox.h:113-248, with a fixed number `n` of dimensions. -/
structure Box (K : Type) (n : Nat) where
  min : Fin n → K
  max : Fin n → K

/-- `BBox::empty`, Math/BBox.tcc:155-160. -/
def Box.empty (b : Box K n) : Bool :=
  decide (∃ i, b.min i ≥ b.max i) || decide (n = 0)

/-- `BBox::contains` of a point, Math/BBox.tcc:122-129. -/
def Box.containsPt (b : Box K n) (p : Fin n → K) : Bool :=
  decide (n ≠ 0) && decide (∀ i, p i ≥ b.min i) && decide (∀ i, p i < b.max i)

/-- `BBox::contains` of a box, Math/BBox.tcc:131-138. -/
def Box.containsBox (b c : Box K n) : Bool :=
  decide (n ≠ 0) && decide (∀ i, c.min i ≥ b.min i) && decide (∀ i, c.max i ≤ b.max i)

/-- `BBox::intersects`, Math/BBox.tcc:140-151. -/
def Box.intersects (b c : Box K n) : Bool :=
  if ∃ i, b.min i ≥ c.max i ∨ b.max i ≤ c.min i then false else decide (n ≠ 0)

/-- `BBox::grow` of a box, Math/BBox.tcc:80-106: the corners are added, unless the added box is empty. -/
def Box.grow (b c : Box K n) : Box K n :=
  let pt (b : Box K n) (p : Fin n → K) : Box K n :=
    ⟨fun i => if p i < b.min i then p i else b.min i, fun i => if p i > b.max i then p i else b.max i⟩
  if c.empty then b else pt (pt b c.min) c.max

/-- `BBox::size`, Math/BBox.tcc:208-214. -/
def Box.size (b : Box K n) (i : Fin n) : K := b.max i - b.min i

/-- `BBox::center`, Math/BBox.tcc:216-220. The center of an empty box is a vector without components (`none`). -/
def Box.center (b : Box K n) : Option (Fin n → K) :=
  if b.empty then none else some fun i => (b.min i + b.max i) / 2

/-- `split_bbox`, SpatialTree.cc:78-113. Of quadrant `i` the bit for dimension `d`, the most significant one for dimension
0, tells whether it is on the upper side of the center; the two loops that add up the corners are written as a formula.
The quadrants of an empty box have no dimensions and contain nothing (`none`). -/
def quadrants (b : Box K n) : Option (Fin (2 ^ n) → Box K n) :=
  b.center.map fun c i =>
    let corner (d : Fin n) : K := if i.val / 2 ^ (n - 1 - d.val) % 2 = 0 then c d - b.size d / 2 else c d + b.size d / 2
    ⟨fun d => Min.min (c d) (corner d), fun d => Max.max (c d) (corner d)⟩

/-- `PrimitiveListElem`, SpatialTree.h:52-61; the list is a `List`. -/
structure Elem (P : Type) where
  prim : P
  forced : Bool

/-- `SpatialTreeNode`, SpatialTree.h:63-84: not split, or split with all its quadrants. -/
inductive Node (K : Type) (n : Nat) (P : Type) where
  | leaf (box : Box K n) (list : List (Elem P))
  | split (box : Box K n) (list : List (Elem P)) (quadrant : Fin (2 ^ n) → Node K n P)

/-- `bounding_box`, SpatialTree.h:78. -/
def Node.box : Node K n P → Box K n
  | .leaf b _ => b
  | .split b _ _ => b

/-- `m_primitive_list`, SpatialTree.h:80. -/
def Node.list : Node K n P → List (Elem P)
  | .leaf _ l => l
  | .split _ l _ => l

/-- The position of a node: the quadrants to follow from the root. -/
abbrev Path (n : Nat) := List (Fin (2 ^ n))

/-- The node a pointer points to. -/
def Node.get? : Node K n P → Path n → Option (Node K n P)
  | nd, [] => some nd
  | .leaf _ _, _ :: _ => none
  | .split _ _ ch, i :: r => (ch i).get? r

/-- An assignment through a pointer to a node. -/
def Node.modify (f : Node K n P → Node K n P) : Node K n P → Path n → Node K n P
  | nd, [] => f nd
  | .leaf b l, _ :: _ => .leaf b l
  | .split b l ch, i :: r => .split b l (Function.update ch i ((ch i).modify f r))

/-- An assignment to `m_primitive_list`. -/
def Node.mapList (f : List (Elem P) → List (Elem P)) : Node K n P → Node K n P
  | .leaf b l => .leaf b (f l)
  | .split b l ch => .split b (f l) ch

/-- An assignment to `m_bbox`. -/
def Node.withBox (b : Box K n) : Node K n P → Node K n P
  | .leaf _ l => .leaf b l
  | .split _ l ch => .split b l ch

/-- `is_split` negated, SpatialTree.h:77. -/
def Node.isLeaf : Node K n P → Bool
  | .leaf _ _ => true
  | .split _ _ _ => false

/-- `split_node`, SpatialTree.cc:70-76. -/
def Node.splitNode (q : Fin (2 ^ n) → Box K n) (nd : Node K n P) : Node K n P :=
  .split nd.box nd.list fun i => .leaf (q i) []

/-! ### The traversal -/

/-- `ApplyState`, SpatialTree.cc:161-177. `list` is the null pointer (`none`) or what is left of the list. -/
structure State (K : Type) (n : Nat) (P : Type) where
  node : Node K n P
  list : Option (List (Elem P))
  queued : Bool
  level : Nat
  prio : K

/-- `ApplyProcessOrder`, SpatialTree.cc:185-190, the ones used by the queries. -/
inductive Order where
  | childrenFirst
  | currentFirst

/-- `ApplyFunctor`, SpatialTree.cc:192-201, with the state `σ` of the functor made explicit. `finished_processing` is
used by the destructor only and left out. -/
structure Functor (K : Type) (n : Nat) (P : Type) (σ : Type) where
  dfs : Bool
  order : Order
  shouldProcess : σ → State K n P → Option (σ × Bool)
  visit : σ → State K n P → Elem P → List (Elem P) → Option (σ × Bool)
  child : σ → Node K n P → Option (Option K)

/-- `apply_children`, SpatialTree.cc:262-282. The end of the queue is the head of the list. -/
def applyChildren {σ : Type} (f : Functor K n P σ) (x : σ) (s : State K n P) (q : List (State K n P)) :
    Option (List (State K n P)) :=
  match s.node with
  | .leaf _ _ => some q
  | .split _ _ ch => (List.finRange (2 ^ n)).foldlM (fun q i =>
      (f.child x (ch i)).bind fun
        | some pr => some (⟨ch i, none, false, s.level + 1, pr⟩ :: q)
        | none => some q) q

/-- `apply_current_node`, SpatialTree.cc:284-298, the loop. -/
def applyList {σ : Type} (f : Functor K n P σ) (s : State K n P) : σ → List (Elem P) → Option (σ × Bool)
  | x, [] => some (x, true)
  | x, e :: rest => (f.visit x s e rest).bind fun (x, go) => if go then applyList f s x rest else some (x, false)

/-- `apply_current_node`, SpatialTree.cc:284-298. -/
def applyCurrent {σ : Type} (f : Functor K n P σ) (x : σ) (s : State K n P) : Option (σ × Bool) :=
  applyList f s x (match s.list with | some l => l | none => s.node.list)

/-- `apply`, SpatialTree.cc:300-346, the loop. `pop` is `top` and `pop` of the queue. -/
def loop {σ : Type} (f : Functor K n P σ) (pop : List (State K n P) → Option (State K n P × List (State K n P)))
    (q : List (State K n P)) (x : σ) : Option σ :=
  match pop q with
  | none => some x
  | some (s, q) => (f.shouldProcess x s) >>= fun (x, go) =>
    if !go then loop f pop q x else
    match f.order with
    | .childrenFirst =>
      if !s.queued then
        let s' := { s with queued := true }
        if f.dfs then (applyChildren f x s' (s' :: q)) >>= fun q => loop f pop q x
        else (applyChildren f x s' q) >>= fun q => loop f pop (s' :: q) x
      else (applyCurrent f x s) >>= fun (x, go) => if go then loop f pop q x else some x
    | .currentFirst => (applyCurrent f x s) >>= fun (x, go) =>
      if go then (applyChildren f x s q) >>= fun q => loop f pop q x else some x
partial_fixpoint

/-- `ApplyQueue` for a depth first search, SpatialTree.cc:203-260: a stack. -/
def dfsPop : List (State K n P) → Option (State K n P × List (State K n P))
  | [] => none
  | s :: q => some (s, q)

/-- `apply` from a state, depth first, SpatialTree.cc:300-306. -/
def apply {σ : Type} (f : Functor K n P σ) (s : State K n P) (x : σ) : Option σ := loop f dfsPop [s] x

/-- `apply` from the root, SpatialTree.cc:348-352. -/
def rootState (root : Node K n P) : State K n P := ⟨root, none, false, 0, 0⟩

/-! ### The queries -/

/-- `ContainsAllFunctor`, SpatialTree.cc:520-547. -/
def containsAllF (bx : P → Box K n) (has : P → Bool) (pt : Fin n → K) : Functor K n P (List P) where
  dfs := true
  order := .childrenFirst
  shouldProcess x s := some (x, s.node.box.containsPt pt)
  visit x _ e _ := some (if (bx e.prim).containsPt pt && has e.prim then x ++ [e.prim] else x, true)
  child _ _ := some (some 0)

/-- `SpatialTree::contains(point, prims)`, SpatialTree.cc:806-811. `has` is `prim->contains(point)`. -/
def containsAll (bx : P → Box K n) (has : P → Bool) (root : Node K n P) (pt : Fin n → K) (prims : List P) :
    Option (List P) := apply (containsAllF bx has pt) (rootState root) prims

/-- `ContainsOneFunctor`, SpatialTree.cc:499-518. -/
def containsOneF (bx : P → Box K n) (has : P → Bool) (pt : Fin n → K) : Functor K n P (Option P) where
  dfs := true
  order := .childrenFirst
  shouldProcess x s := some (x, s.node.box.containsPt pt)
  visit x _ e _ := some (if (bx e.prim).containsPt pt && has e.prim then (some e.prim, false) else (x, true))
  child _ _ := some (some 0)

/-- `SpatialTree::contains(point)`, SpatialTree.cc:799-804. -/
def containsOne (bx : P → Box K n) (has : P → Bool) (root : Node K n P) (pt : Fin n → K) : Option (Option P) :=
  apply (containsOneF bx has pt) (rootState root) none

/-- `IntersectsAllFunctor`, SpatialTree.cc:549-576. -/
def intersectsAllF (bx : P → Box K n) (box : Box K n) : Functor K n P (List P) where
  dfs := true
  order := .childrenFirst
  shouldProcess x s := some (x, s.node.box.intersects box)
  visit x _ e _ := some (if (bx e.prim).intersects box then x ++ [e.prim] else x, true)
  child _ _ := some (some 0)

/-- `SpatialTree::intersects(box, prims)`, SpatialTree.cc:813-818. -/
def intersectsAll (bx : P → Box K n) (root : Node K n P) (box : Box K n) (prims : List P) : Option (List P) :=
  apply (intersectsAllF bx box) (rootState root) prims

/-- `AllOverlapsFunctor`, SpatialTree.cc:578-610. `meets q p` is `q->intersects(p)`. -/
def allOverlapsF [DecidableEq P] (bx : P → Box K n) (meets : P → P → Bool) (p : P) : Functor K n P (List (P × P)) where
  dfs := true
  order := .currentFirst
  shouldProcess x s := some (x, s.node.box.intersects (bx p))
  visit x _ e _ := some (if e.prim ≠ p ∧ ((bx e.prim).intersects (bx p) && meets e.prim p) = true
    then x ++ [(p, e.prim)] else x, true)
  child _ _ := some (some 0)

/-- `OverlapPairsFunctor`, SpatialTree.cc:612-639: for a primitive the search goes on in a copy of the state, that is with
this primitive and the ones after it in its node, and below. -/
def overlapPairsF [DecidableEq P] (bx : P → Box K n) (meets : P → P → Bool) : Functor K n P (List (P × P)) where
  dfs := true
  order := .currentFirst
  shouldProcess x _ := some (x, true)
  visit x s e rest := (apply (allOverlapsF bx meets e.prim) { s with list := some (e :: rest) } x).map fun x => (x, true)
  child _ _ := some (some 0)

/-- `SpatialTree::overlap_pairs`, SpatialTree.cc:820-824. -/
def overlapPairs [DecidableEq P] (bx : P → Box K n) (meets : P → P → Bool) (root : Node K n P) (x : List (P × P)) :
    Option (List (P × P)) := apply (overlapPairsF bx meets) (rootState root) x

/-- The state of `ClosestFunctor`, SpatialTree.cc:491-497. -/
structure Closest (K P : Type) where
  cont : Bool
  prim : Option P
  dist : K

/-- `test_distance`, SpatialTree.cc:487-489. -/
def Closest.test (thr : K) (c : Closest K P) (d : K) : Bool :=
  (decide (thr < 0) || decide (d ≤ thr)) && (c.prim.isNone || decide (d < c.dist))

/-- `ClosestFunctor`, SpatialTree.cc:440-497. `heur` is `point_to_bbox_distance_heuristic` for the point asked for, `none`
if it throws; `distance` is `prim->distance(point)`. -/
def closestF (bx : P → Box K n) (heur : Box K n → Option K) (distance : P → K) (thr : K) :
    Functor K n P (Closest K P) where
  dfs := false
  order := .currentFirst
  shouldProcess c s :=
    if c.cont then
      let t := c.test thr (-s.prio)
      some (if !t then { c with cont := false } else c, t)
    else some (c, false)
  child c nd := (heur nd.box).map fun d => if c.test thr d then some (-d) else none
  visit c _ e _ :=
    if c.cont then (heur (bx e.prim)).map fun d =>
      let c :=
        if c.test thr d then
          let d := distance e.prim
          if c.test thr d then { c with prim := some e.prim, dist := d } else c
        else c
      (c, c.cont)
    else some (c, c.cont)

/-- `SpatialTree::closest`, SpatialTree.cc:790-797: the primitive and the distance. `pop` takes a state of the greatest
priority from the queue; which one is up to `std::priority_queue`. -/
def closest (bx : P → Box K n) (heur : Box K n → Option K) (distance : P → K)
    (pop : List (State K n P) → Option (State K n P × List (State K n P))) (root : Node K n P) (thr : K) :
    Option (Option P × K) :=
  (loop (closestF bx heur distance thr) pop [rootState root] ⟨true, none, -1⟩).map fun c => (c.prim, c.dist)

/-! ### Adding primitives -/

/-- The results of `NodeContainsBBoxFunctor`, SpatialTree.cc:687-694. -/
structure Found (n : Nat) where
  node : Option (Path n) := none
  first : Option (Path n) := none
  forced : Bool := false

/-- `should_process` of `NodeContainsBBoxFunctor`, SpatialTree.cc:647-677, for a node that contains the box: a leaf one
of whose quadrants contains the box is split, above the level given. -/
def visitNode (create : Bool) (maxLevel : Int) (b : Box K n) (nd : Node K n P) (level : Nat) (path : Path n) (a : Found n) :
    Node K n P × Found n :=
  let (nd, a) :=
    if create && nd.isLeaf then
      if maxLevel < 0 ∨ (level : Int) < maxLevel then
        (match quadrants nd.box with
          | some q => if ∃ i, (q i).containsBox b then nd.splitNode q else nd
          | none => nd,
         { a with first := match a.first with | some p => some p | none => some path })
      else (nd, { a with forced := true })
    else (nd, a)
  (nd, { a with node := some path })

/-- `apply` with `NodeContainsBBoxFunctor`, SpatialTree.cc:300-352 and 641-694: depth first, children in the order of a
stack. The functor changes the tree, so this is written as a recursion instead of with the queue: what is on the stack
when a node is visited are nodes of other subtrees. -/
def descend (create : Bool) (maxLevel : Int) (b : Box K n) (nd : Node K n P) (level : Nat) (path : Path n) (a : Found n) :
    Option (Node K n P × Found n) :=
  if !nd.box.containsBox b then some (nd, a) else
  match visitNode create maxLevel b nd level path a with
  | (.leaf bx l, a) => some (.leaf bx l, a)
  | (.split bx l ch, a) =>
    ((List.finRange (2 ^ n)).reverse.foldlM (fun (c : (Fin (2 ^ n) → Node K n P) × Found n) i =>
      if (c.1 i).box.containsBox b then
        descend create maxLevel b (c.1 i) (level + 1) (path ++ [i]) c.2 >>= fun r => some (Function.update c.1 i r.1, r.2)
      else some c) (ch, a)) >>= fun r => some (.split bx l r.1, r.2)
partial_fixpoint

/-- `grow_bbox_on_grid`, SpatialTree.cc:147-155: what is missing below. -/
def extraNeeded [FloorRing K] (b sup : Box K n) (i : Fin n) : K :=
  let d := b.min i - sup.min i
  (⌈d / b.size i⌉ : K) * b.size i - d

/-- `grow_bbox_on_grid`, SpatialTree.cc:139-158, the loop. A shift by 32 is undefined. -/
def gridLoop [FloorRing K] (b sup : Box K n) (p : Nat) : Option (Box K n) :=
  if p ≥ 32 then none else
  let extra (i : Fin n) : K := 2 ^ p * b.size i - sup.size i
  if ∀ i, extraNeeded b sup i ≤ extra i then
    some ⟨fun i => sup.min i - extraNeeded b sup i, fun i => sup.max i + (extra i - extraNeeded b sup i)⟩
  else gridLoop b sup (p + 1)
termination_by 32 - p

/-- `grow_bbox_on_grid`, SpatialTree.cc:120-163. `start f` is `(unsigned)ceil(log(f) / LOG_2)`. A box without extent in
some dimension leads to a division by zero. -/
def growOnGrid [FloorRing K] (start : K → Nat) (b new : Box K n) : Option (Box K n) :=
  if ∃ i, b.size i ≤ 0 then none else
  let sup := b.grow new
  let p := (List.finRange n).foldl (fun p i =>
    if sup.size i / b.size i > 1 then Max.max p (start (sup.size i / b.size i)) else p) 1
  gridLoop b sup p

/-- `SpatialTree::add`, SpatialTree.cc:873-918: a new root that contains the old one and the box of the primitive. -/
def regrow [FloorRing K] (start : K → Nat) (root : Node K n P) (new : Box K n) : Option (Node K n P) :=
  (growOnGrid start root.box new).bind fun sup =>
  (descend true (-1) root.box (.leaf sup []) 0 [] {}).bind fun (r, a) =>
  a.node.bind fun path =>
  (r.get? path).bind fun t =>
  let f := (∏ i, t.box.size i) / (∏ i, root.box.size i)
  (if f > ((2 ^ n + 1 : Nat) : K) / 2 then
    (quadrants t.box).bind fun q =>
    root.box.center.bind fun c =>
    some (r.modify (Node.splitNode q) path,
      match (List.finRange (2 ^ n)).find? fun i => (q i).containsPt c with
      | some i => (path ++ [i], q i)
      | none => (path, t.box))
  else some (r, path, t.box)).bind fun (r, path, bx) =>
  some (r.modify (fun _ => root.withBox bx) path)

/-- `SpatialTree::add`, SpatialTree.cc:934-974: primitives held at the level of the first node that was split are moved
to the new nodes. `cur` and `k` are the position of `list_elem`: after a move the loop goes on with the successor of the
element in its new list. -/
def settle (bx : P → Box K n) (r : Node K n P) (first cur : Path n) (k : Nat) : Option (Node K n P) :=
  (r.get? cur) >>= fun nd =>
  match nd.list[k]? with
  | none => some r
  | some e =>
    if !e.forced then settle bx r first cur (k + 1) else
    (r.get? first) >>= fun sub =>
    (descend false (-1) (bx e.prim) sub 0 first {}) >>= fun (_, a) =>
    a.node >>= fun t =>
    if t = first then settle bx r first cur (k + 1) else
    (r.get? t) >>= fun tn =>
    let forced := tn.isLeaf && (match quadrants tn.box with
      | some q => decide (∃ i, (q i).containsBox (bx e.prim))
      | none => false)
    let r := r.modify (Node.mapList fun l => l.eraseIdx k) cur
    let r := r.modify (Node.mapList fun l => ⟨e.prim, forced⟩ :: l) t
    settle bx r first t 1
partial_fixpoint

/-- `SpatialTree::add`, SpatialTree.cc:863-976. -/
def add [FloorRing K] (start : K → Nat) (bx : P → Box K n) (root : Node K n P) (p : P) (maxLevel : Int := -1) :
    Option (Node K n P) :=
  (if root.box.containsBox (bx p) then some root else regrow start root (bx p)).bind fun root =>
  (descend true maxLevel (bx p) root 0 [] {}).bind fun (r, a) =>
  a.node.bind fun path =>
  let r := r.modify (Node.mapList fun l => ⟨p, a.forced⟩ :: l) path
  match a.first with
  | none => some r
  | some first => settle bx r first first 0

/-- `SpatialTree(BBoxT)`, SpatialTree.cc:978-983. -/
def ofBox (b : Box K n) : Node K n P := .leaf b []

/-- `grow_bbox`, SpatialTree.cc:115-118, the step. The box that is grown has no dimensions at first (`none`), and so takes
over the corners of the first box that is not empty. -/
def growStep (bx : P → Box K n) (b : Option (Box K n)) (p : P) : Option (Box K n) :=
  match b with
  | none => if (bx p).empty then none else some (Box.grow ⟨(bx p).min, (bx p).min⟩ (bx p))
  | some b => some (b.grow (bx p))

/-- `SpatialTree(num_primitives, prims, max_create_level)`, SpatialTree.cc:985-994. If all boxes are empty the box of the
root has no dimensions in the end and the first `add` uses a null pointer. -/
def ofPrims [FloorRing K] (start : K → Nat) (bx : P → Box K n) (prims : List P) (maxLevel : Int := -1) :
    Option (Node K n P) :=
  (prims.foldl (growStep bx) none).bind fun b => prims.foldlM (fun r p => add start bx r p maxLevel) (ofBox b)

end VW.SpatialTree
