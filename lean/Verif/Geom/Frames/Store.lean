import Verif.Geom.Frames.Heap

/-
Model of src/vw/Geometry/FrameStore.cc and of the name handling of src/vw/Geometry/FrameTreeNode.cc.

An operation that dereferences a dangling handle or never returns has the value `none`; otherwise it returns
(`ret`) or throws `vw::LogicErr` (`err`), with the state it leaves.  Locking is not modelled (every operation is
one step); extras are not modelled.
-/

namespace Verif.Geom.Frames

variable {T : Type}

/-- The node storage and `m_root_nodes` (src/vw/Geometry/FrameStore.h:353-356). -/
structure Store (T : Type) where
  heap : Heap T
  roots : List Nat

/-- How an operation of the store ends. -/
inductive Out (T : Type) where
  | ret (st : Store T)
  | err (st : Store T)

/-- The loop of `is_member` (src/vw/Geometry/FrameStore.cc:516-521). -/
def memberLoop (h : Heap T) (n : Nat) : List Nat → Option Bool
  | [] => some false
  | r :: rs =>
    if r = n then some true
    else do
      let b ← isAncestorOf h r (some n)
      if b then some true else memberLoop h n rs

/-- `is_member` (src/vw/Geometry/FrameStore.cc:512-524). -/
def isMember (st : Store T) (n : Option Nat) : Option Bool :=
  match n with
  | none => some false
  | some n => memberLoop st.heap n st.roots

/-- The loop of `assert_unique` (src/vw/Geometry/FrameStore.cc:549-552): false if the name is taken. -/
def freshIn (h : Heap T) (name : Str) : List Nat → Option Bool
  | [] => some true
  | c :: cs => do
    let nd ← h c
    if nd.name = name then some false else freshIn h name cs

/-- `assert_unique` (src/vw/Geometry/FrameStore.cc:526-553): false if it throws. -/
def assertUnique (st : Store T) (name : Str) (parent : Option Nat) : Option Bool :=
  match parent with
  | none => freshIn st.heap name st.roots
  | some p => do
    let c ← children st.heap p
    freshIn st.heap name c

/-- `parent.node == NULL || is_member(parent)`. -/
def parentOk (st : Store T) (parent : Option Nat) : Option Bool :=
  match parent with
  | none => some true
  | some p => isMember st (some p)

/-- `add(node, parent)` (src/vw/Geometry/FrameStore.cc:274-296). -/
def addNode (st : Store T) (node parent : Option Nat) : Option (Out T) :=
  match node with
  | none => some (.err st)
  | some n => do
    let m ← isMember st (some n)
    if m then some (.err st)
    else do
      let nd ← st.heap n
      if nd.name = [] then some (.err st)
      else do
        let ok ← parentOk st parent
        if !ok then some (.err st)
        else do
          let u ← assertUnique st nd.name parent
          if !u then some (.err st)
          else do
            let roots := if parent = none then st.roots ++ [n] else st.roots
            let h ← setParent st.heap n parent
            some (.ret ⟨h, roots⟩)

/-- `add(name, parent, p)` (src/vw/Geometry/FrameStore.cc:263-272), the node being placed at address `a`. -/
def addNew (st : Store T) (a : Nat) (name : Str) (parent : Option Nat) (t : T) : Option (Out T) := do
  let h ← newNode st.heap a none name t
  addNode ⟨h, st.roots⟩ (some a) parent

/-- `del(frame, recursive)` (src/vw/Geometry/FrameStore.cc:298-328). -/
def del (st : Store T) (frame : Option Nat) (recursive : Bool) : Option (Out T) :=
  match frame with
  | none => some (.err st)
  | some f =>
    let roots := st.roots.erase f
    if recursive then do
      let h ← recDelete st.heap f
      some (.ret ⟨h, roots⟩)
    else do
      let c ← children st.heap f
      let h ← destroy st.heap f
      some (.ret ⟨h, roots ++ c⟩)

/-- `set_parent(frame, parent)` (src/vw/Geometry/FrameStore.cc:330-358). -/
def reparent (st : Store T) (frame parent : Option Nat) : Option (Out T) :=
  match frame with
  | none => some (.err st)
  | some f => do
    let ok ← parentOk st parent
    if !ok then some (.err st)
    else do
      let nd ← st.heap f
      if nd.parent = parent then some (.ret st)
      else do
        let u ← assertUnique st nd.name parent
        if !u then some (.err st)
        else do
          let roots := st.roots.erase f
          let h ← setParent st.heap f parent
          some (.ret ⟨h, if parent = none then roots ++ [f] else roots⟩)

/-! ### Merging -/

/-- The names of the nodes of a list, paired with them. -/
def named (h : Heap T) : List Nat → Option (List (Str × Nat))
  | [] => some []
  | c :: cs => do
    let nd ← h c
    let r ← named h cs
    some ((nd.name, c) :: r)

/-- Insertion into a list sorted by name. -/
def insName (x : Str × Nat) : List (Str × Nat) → List (Str × Nat)
  | [] => [x]
  | y :: ys => if y.1 < x.1 then y :: insName x ys else x :: y :: ys

/-- `std::sort` with `FtnLess` (src/vw/Geometry/FrameTreeNode.cc:82-87, :101-103), as insertion sort (the order
of equal names is unspecified in the code). -/
def sortName : List (Str × Nat) → List (Str × Nat)
  | [] => []
  | x :: xs => insName x (sortName xs)

/-- The two kinds of activations of `merge_frame_trees`. -/
inductive Job where
  | tree (target source : Nat)
  | loop (target : Nat) (srcs tgts : List (Str × Nat))

/-- `merge_frame_trees` (src/vw/Geometry/FrameTreeNode.cc:90-123); `loop` is the `for` loop over the sorted
children with the second iterator `tgt_iter`. -/
def mergeTrees (h : Heap T) (job : Job) : Option (Heap T) :=
  match job with
  | .tree t s => do
    let nt ← h t
    let ns ← h s
    if nt.name ≠ ns.name then some h
    else do
      let sc ← children h s
      let sn ← named h sc
      let tc ← children h t
      let tn ← named h tc
      mergeTrees h (.loop t (sortName sn) (sortName tn))
  | .loop _ [] _ => some h
  | .loop t ((sname, s) :: srcs) tgts =>
    match tgts.dropWhile (fun x => decide (x.1 < sname)) with
    | [] => do
      let h' ← setParent h s (some t)
      mergeTrees h' (.loop t srcs [])
    | (tname, tc) :: rest => do
      let h' ← if sname < tname then setParent h s (some t) else mergeTrees h (.tree tc s)
      mergeTrees h' (.loop t srcs ((tname, tc) :: rest))
partial_fixpoint

/-- The search of `merge_tree` for a root with the name of the tree
(src/vw/Geometry/FrameStore.cc:471-478). -/
def rootNamed (h : Heap T) (name : Str) : List Nat → Option (Option Nat)
  | [] => some none
  | r :: rs => do
    let nd ← h r
    if nd.name = name then some (some r) else rootNamed h name rs

/-- `merge_tree(tree, start_frame)` (src/vw/Geometry/FrameStore.cc:455-483); the returned flag is omitted. -/
def mergeTree (st : Store T) (tree : Nat) (start : Option Nat) : Option (Out T) := do
  let m ← isMember st (some tree)
  if m then some (.err st)
  else
    match start with
    | some s => do
      let nt ← st.heap tree
      let ns ← st.heap s
      if nt.name ≠ ns.name then some (.err st)
      else do
        let h ← mergeTrees st.heap (.tree tree s)
        let h' ← recDelete h tree
        some (.ret ⟨h', st.roots⟩)
    | none => do
      let nt ← st.heap tree
      let r ← rootNamed st.heap nt.name st.roots
      match r with
      | some r => do
        let h ← mergeTrees st.heap (.tree r tree)
        let h' ← recDelete h tree
        some (.ret ⟨h', st.roots⟩)
      | none => some (.ret ⟨st.heap, st.roots ++ [tree]⟩)

/-! ### Names and paths -/

/-- The names along a list of nodes. -/
def nameList (h : Heap T) : List Nat → Option (List Str)
  | [] => some []
  | n :: ns => do
    let nd ← h n
    let r ← nameList h ns
    some (nd.name :: r)

/-- `name += "/" + …` over the elements. -/
def joinPath (l : List Str) : Str := (l.map (fun s => '/' :: s)).flatten

/-- `full_name` (src/vw/Geometry/FrameStore.cc:93-109) and the visitor `Append` (:185-194). -/
def fullName (h : Heap T) (n : Nat) : Option Str := do
  let a ← ancestry h n
  let l ← nameList h a
  some (joinPath l)

/-- The full names of a list of nodes. -/
def fullNames (h : Heap T) : List Nat → Option (List Str)
  | [] => some []
  | n :: ns => do
    let s ← fullName h n
    let r ← fullNames h ns
    some (s :: r)

/-- `frame_names` (src/vw/Geometry/FrameStore.cc:204-219). -/
def frameNames (h : Heap T) : List Nat → Option (List Str)
  | [] => some []
  | r :: rs => do
    let l ← preOrder h r
    let s ← fullNames h l
    let q ← frameNames h rs
    some (s ++ q)

/-- `splitPath` (src/vw/Geometry/FrameTreeNode.cc:126-150): the parts between slashes, without the empty ones
and without ".".  `cur` is the part being read. -/
def splitGo (cur : Str) : Str → List Str
  | [] => if cur = [] then [] else if cur = ['.'] then [] else [cur]
  | c :: cs =>
    if c = '/' then (if cur = [] then [] else if cur = ['.'] then [] else [cur]) ++ splitGo [] cs
    else splitGo (cur ++ [c]) cs

/-- `splitPath` (src/vw/Geometry/FrameTreeNode.cc:126-150). -/
def splitPath (path : Str) : List Str := splitGo [] path

/-- The search for a child with the given name (src/vw/Geometry/FrameTreeNode.cc:195-206). -/
def childNamed (h : Heap T) (name : Str) : List Nat → Option (Option Nat)
  | [] => some none
  | c :: cs => do
    let nd ← h c
    if nd.name = name then some (some c) else childNamed h name cs

/-- The breadth-first loop of `matchNode` (src/vw/Geometry/FrameTreeNode.cc:175-190); `f` is the recursive call
on the remaining elements. -/
def searchBfs (h : Heap T) (f : Nat → Option (Option Nat)) (queue : List Nat) : Option (Option Nat) :=
  match queue with
  | [] => some none
  | n :: q => do
    let r ← f n
    match r with
    | some m => some (some m)
    | none => do
      let c ← children h n
      searchBfs h f (q ++ c)
partial_fixpoint

/-- `matchNode` (src/vw/Geometry/FrameTreeNode.cc:152-211): `some none` is a returned NULL. -/
def matchNode (h : Heap T) (node : Nat) : List Str → Option (Option Nat)
  | [] => some (some node)
  | e :: es =>
    if e = ['.', '.'] then do
      let nd ← h node
      match nd.parent with
      | none => some none
      | some p => matchNode h p es
    else if e = ['.', '.', '.'] then
      searchBfs h (fun m => matchNode h m es) [node]
    else do
      let c ← children h node
      let r ← childNamed h e c
      match r with
      | none => some none
      | some m => matchNode h m es

/-- The free function `lookup` (src/vw/Geometry/FrameTreeNode.cc:214-237). -/
def lookupFrom (h : Heap T) (start : Nat) (path : Str) : Option (Option Nat) :=
  let es := splitPath path
  if path.head? = some '/' then do
    let r ← root h start
    match es with
    | [] => matchNode h r []
    | e :: rest =>
      if e = ['.', '.', '.'] then matchNode h r (e :: rest)
      else do
        let nr ← h r
        if nr.name = e then matchNode h r rest else some none
  else matchNode h start es

/-- The loops over the roots of `FrameStore::lookup` (src/vw/Geometry/FrameStore.cc:144-150, :164-170). -/
def lookupRoots (h : Heap T) (path : Str) : List Nat → Option (Option Nat)
  | [] => some none
  | r :: rs => do
    let m ← lookupFrom h r path
    match m with
    | some n => some (some n)
    | none => lookupRoots h path rs

/-- `FrameStore::lookup` (src/vw/Geometry/FrameStore.cc:136-175). -/
def lookup (st : Store T) (name : Str) (scope : Option Nat) : Option (Option Nat) := do
  let first ←
    if scope = none ∧ name ≠ [] ∧ name.head? ≠ some '/' then lookupRoots st.heap ('/' :: name) st.roots
    else some none
  match first with
  | some n => some (some n)
  | none =>
    let searchName :=
      if name ≠ [] ∧ name.head? ≠ some '/' ∧ (name.length < 4 ∨ name.take 4 ≠ ['.', '.', '.', '/'])
      then ['.', '.', '.', '/'] ++ name else name
    match scope with
    | none => lookupRoots st.heap searchName st.roots
    | some s =>
      if searchName.head? = some '/' then lookupRoots st.heap searchName st.roots
      else lookupFrom st.heap s searchName

end Verif.Geom.Frames
