/-
Model of the intrusive tree nodes of src/vw/Geometry/TreeNode.h.

A heap maps an address to a node (name, payload transform, and the three pointers `m_parent`,
`m_first_child`, `m_next_sibling`).  A computation that dereferences an address that is not allocated, or
that never returns, has the value `none`.  Simplifications: the cached vector `ancestry_` is the value
returned by `ancestry`; `Frame::Extras` is not modelled; names are lists of characters.
-/

namespace Verif.Geom.Frames

/-- A frame name or a path (`std::string`). -/
abbrev Str := List Char

/-- `TreeNode<Frame>`: src/vw/Geometry/TreeNode.h:58-67 (the members) with the payload of
src/vw/Geometry/Frame.h (name and transform). -/
structure Node (T : Type) where
  name : Str
  trans : T
  parent : Option Nat
  first : Option Nat
  next : Option Nat

/-- The allocated nodes by address. -/
abbrev Heap (T : Type) := Nat → Option (Node T)

variable {T : Type}

/-- Write to the node at address `a` (a store through a pointer; nothing happens at an address that is not
allocated, the callers read the node first). -/
def upd (h : Heap T) (a : Nat) (f : Node T → Node T) : Heap T :=
  fun x => if x = a then (h x).map f else h x

/-- `delete`: the storage at `a` is no longer allocated. -/
def free (h : Heap T) (a : Nat) : Heap T := fun x => if x = a then none else h x

/-- `register_child` (src/vw/Geometry/TreeNode.h:470-473): push at the front of the sibling list. -/
def register (h : Heap T) (p c : Nat) : Option (Heap T) := do
  let np ← h p
  let _ ← h c
  some (upd (upd h c (fun nd => { nd with next := np.first })) p (fun nd => { nd with first := some c }))

/-- The places `prev` can point to in `deregister_child`: the parent's head pointer or a sibling's link. -/
inductive Link where
  | head (p : Nat)
  | after (q : Nat)

/-- `*prev = v`. -/
def setLink (h : Heap T) : Link → Option Nat → Heap T
  | .head p, v => upd h p (fun nd => { nd with first := v })
  | .after q, v => upd h q (fun nd => { nd with next := v })

/-- The loop of `deregister_child` (src/vw/Geometry/TreeNode.h:476-486). -/
def deregLoop (h : Heap T) (prev : Link) (node : Option Nat) (c : Nat) : Option (Heap T) :=
  match node with
  | none => some h
  | some n =>
    if n = c then do
      let nc ← h c
      some (upd (setLink h prev nc.next) c (fun nd => { nd with next := none }))
    else do
      let nn ← h n
      deregLoop h (.after n) nn.next c
partial_fixpoint

/-- `deregister_child` (src/vw/Geometry/TreeNode.h:475-487). -/
def deregister (h : Heap T) (p c : Nat) : Option (Heap T) := do
  let np ← h p
  deregLoop h (.head p) np.first c

/-- `if (m_parent != NULL) m_parent->deregister_child(this)`: src/vw/Geometry/TreeNode.h:123-125 and
:244-245. -/
def unlink (h : Heap T) (n : Nat) : Option (Heap T) := do
  let nd ← h n
  match nd.parent with
  | none => some h
  | some q => deregister h q n

/-- `set_parent` (src/vw/Geometry/TreeNode.h:243-249). -/
def setParent (h : Heap T) (n : Nat) (p : Option Nat) : Option (Heap T) := do
  let h1 ← unlink h n
  let h2 := upd h1 n (fun nd => { nd with parent := p })
  match p with
  | none => some h2
  | some q => register h2 q n

/-- `new TreeNode(parent, data)` placed at address `a` by the allocator: src/vw/Geometry/TreeNode.h:92-101. -/
def newNode (h : Heap T) (a : Nat) (parent : Option Nat) (name : Str) (t : T) : Option (Heap T) :=
  let h1 : Heap T := fun x =>
    if x = a then some { name := name, trans := t, parent := parent, first := none, next := none } else h x
  match parent with
  | none => some h1
  | some q => register h1 q a

/-- The loop of the destructor that turns the children into roots: src/vw/Geometry/TreeNode.h:126-128. -/
def dropKids (h : Heap T) (n : Nat) : Option (Heap T) := do
  let nd ← h n
  match nd.first with
  | none => some h
  | some c => do
    let h' ← setParent h c none
    dropKids h' n
partial_fixpoint

/-- `delete node`: the destructor (src/vw/Geometry/TreeNode.h:122-129) and the release of the storage. -/
def destroy (h : Heap T) (n : Nat) : Option (Heap T) := do
  let h1 ← unlink h n
  let h2 ← dropKids h1 n
  some (free h2 n)

/-- `recursive_delete` (src/vw/Geometry/TreeNode.h:147-152); the `while` loop is unrolled: after a child has
been deleted the head pointer is read again. -/
def recDelete (h : Heap T) (n : Nat) : Option (Heap T) := do
  let nd ← h n
  match nd.first with
  | none => destroy h n
  | some c => do
    let h' ← recDelete h c
    recDelete h' n
partial_fixpoint

/-- The loop over the sibling links of `children` and `copy_children`
(src/vw/Geometry/TreeNode.h:381-385, :395-400). -/
def sibs (h : Heap T) (node : Option Nat) : Option (List Nat) :=
  match node with
  | none => some []
  | some n => do
    let nd ← h n
    let r ← sibs h nd.next
    some (n :: r)
partial_fixpoint

/-- `children` (src/vw/Geometry/TreeNode.h:378-388). -/
def children (h : Heap T) (n : Nat) : Option (List Nat) := do
  let nd ← h n
  sibs h nd.first

/-- The loop of `ancestry`, from the node up to its root (src/vw/Geometry/TreeNode.h:308-313). -/
def upward (h : Heap T) (node : Option Nat) : Option (List Nat) :=
  match node with
  | none => some []
  | some n => do
    let nd ← h n
    let r ← upward h nd.parent
    some (n :: r)
partial_fixpoint

/-- `ancestry` (src/vw/Geometry/TreeNode.h:306-317): from the root down to the node itself. -/
def ancestry (h : Heap T) (n : Nat) : Option (List Nat) := do
  let l ← upward h (some n)
  some l.reverse

/-- `root` (src/vw/Geometry/TreeNode.h:277-282). -/
def root (h : Heap T) (n : Nat) : Option Nat := do
  let nd ← h n
  match nd.parent with
  | none => some n
  | some p => root h p
partial_fixpoint

/-- `this->is_ancestor_of(node)` (src/vw/Geometry/TreeNode.h:287-295). -/
def isAncestorOf (h : Heap T) (self : Nat) (node : Option Nat) : Option Bool :=
  match node with
  | none => some false
  | some n => do
    let nd ← h n
    if nd.parent = some self then some true else isAncestorOf h self nd.parent
partial_fixpoint

/-- The binary search of `last_common_ancestor_index` (src/vw/Geometry/TreeNode.h:338-359); the value is
`base`, one more than the returned index. -/
def lcaLoop (a1 a2 : List Nat) (base len : Nat) : Nat :=
  if h : 0 < len then
    let half := len / 2
    let index := base + half
    if a1[index]? = a2[index]? then lcaLoop a1 a2 (index + 1) (len - half - 1)
    else lcaLoop a1 a2 base half
  else base
termination_by len
decreasing_by all_goals omega

/-- `self->last_common_ancestor_index(node)` (src/vw/Geometry/TreeNode.h:327-360). -/
def lcaIndex (h : Heap T) (self node : Nat) : Option Int := do
  let a1 ← ancestry h node
  let a2 ← ancestry h self
  some ((lcaLoop a1 a2 0 (min a1.length a2.length) : Nat) - 1 : Int)

/-- `self->last_common_ancestor(node)` (src/vw/Geometry/TreeNode.h:369-373): `some none` is a returned NULL. -/
def lca (h : Heap T) (self node : Nat) : Option (Option Nat) := do
  let i ← lcaIndex h self node
  let a ← ancestry h self
  if 0 ≤ i then some a[i.toNat]? else some none

/-- `num_offsprings` (src/vw/Geometry/TreeNode.h:213-221), over the sibling list starting at `node`. -/
def countFrom (h : Heap T) (node : Option Nat) : Option Nat :=
  match node with
  | none => some 0
  | some c => do
    let nc ← h c
    let k ← countFrom h nc.first
    let r ← countFrom h nc.next
    some ((1 + k) + r)
partial_fixpoint

/-- `num_offsprings` (src/vw/Geometry/TreeNode.h:213-221). -/
def numOffsprings (h : Heap T) (n : Nat) : Option Nat := do
  let nd ← h n
  countFrom h nd.first

/-- `pre_order_traverse` with a visitor that records the node (src/vw/Geometry/TreeNode.h:411-423). -/
def preOrder (h : Heap T) (n : Nat) : Option (List Nat) := do
  let nd ← h n
  let k ← match nd.first with
    | none => some []
    | some c => preOrder h c
  let s ← match nd.next with
    | none => some []
    | some c => preOrder h c
  some (n :: (k ++ s))
partial_fixpoint

/-- `post_order_traverse` with a visitor that records the node (src/vw/Geometry/TreeNode.h:434-445): the node is
recorded after its later siblings. -/
def postOrder (h : Heap T) (n : Nat) : Option (List Nat) := do
  let nd ← h n
  let k ← match nd.first with
    | none => some []
    | some c => postOrder h c
  let s ← match nd.next with
    | none => some []
    | some c => postOrder h c
  some (k ++ s ++ [n])
partial_fixpoint

/-- The loop of `breadth_first_traverse` with a visitor that records the node
(src/vw/Geometry/TreeNode.h:457-465). -/
def bfsLoop (h : Heap T) (queue : List Nat) : Option (List Nat) :=
  match queue with
  | [] => some []
  | n :: q => do
    let c ← children h n
    let r ← bfsLoop h (q ++ c)
    some (n :: r)
partial_fixpoint

/-- `breadth_first_traverse` (src/vw/Geometry/TreeNode.h:455-466). -/
def bfs (h : Heap T) (n : Nat) : Option (List Nat) := bfsLoop h [n]

end Verif.Geom.Frames
