import Mathlib.Data.List.Basic
import Mathlib.Logic.Relation
/-
Model of `src/vw/Math/DisjointSet.h` and of the tree construction in `src/vw/Math/MinimumSpanningTree.cc`.

Node pointers are natural numbers, in order of allocation; node `k` of a state with `n` nodes is live iff
`k < n`.  The null pointer is `none`.  Using a dangling pointer is undefined behaviour and is modelled by the
response `ub`.  Ranks are unbounded.  The two pointer-chasing loops of `find` take fuel `n + 1`; the
theorem `find_total` shows that they always end before it is used up.
-/
namespace VW.Graph

/-- The nodes of a `DisjointSet` (DisjointSet.h:48-55, 128-129).  `num_elems` is never read, so it is left
out. -/
structure DSet (V : Type) where
  n : Nat
  val : Nat → V
  parent : Nat → Option Nat
  rank : Nat → Nat

variable {V : Type}

/-- Function update. -/
def upd {β : Type} (f : Nat → β) (k : Nat) (v : β) : Nat → β := fun x => if x = k then v else f x

/-- `DisjointSet()`, DisjointSet.h:61. -/
def DSet.new (v0 : V) : DSet V := ⟨0, fun _ => v0, fun _ => none, fun _ => 0⟩

/-- `insert(e)`, DisjointSet.h:69-74: the new node is number `n`. -/
def DSet.insert (d : DSet V) (v : V) : DSet V :=
  { n := d.n + 1, val := upd d.val d.n v, parent := upd d.parent d.n none, rank := upd d.rank d.n 0 }

/-- `insert(e, s)` after its assertion, DisjointSet.h:77-80. -/
def DSet.insertIn (d : DSet V) (v : V) (s : Nat) : DSet V :=
  { n := d.n + 1, val := upd d.val d.n v, parent := upd d.parent d.n (some s), rank := upd d.rank d.n 0 }

/-- `combine(s1, s2)` after its assertions, DisjointSet.h:86-98. -/
def DSet.combine (d : DSet V) (s1 s2 : Nat) : DSet V × Nat :=
  if s1 = s2 then (d, s1)
  else if d.rank s1 > d.rank s2 then ({ d with parent := upd d.parent s2 (some s1) }, s1)
  else if d.rank s1 < d.rank s2 then ({ d with parent := upd d.parent s1 (some s2) }, s2)
  else ({ d with parent := upd d.parent s2 (some s1), rank := upd d.rank s1 (d.rank s1 + 1) }, s1)

/-- First loop of `find`, DisjointSet.h:106: `for (n = e; n->parent; n = n->parent) ;`. -/
def rootLoop (par : Nat → Option Nat) : Nat → Nat → Option Nat
  | 0, _ => none
  | k + 1, x => match par x with
    | none => some x
    | some p => rootLoop par k p

/-- Second loop of `find`, DisjointSet.h:108-111: at the loop test, with the current `n` and `p`. -/
def compressLoop (s : Nat) : Nat → (Nat → Option Nat) → Nat → Option Nat → Option (Nat → Option Nat)
  | 0, _, _, _ => none
  | k + 1, par, n, p =>
    match p with
    | none => some par
    | some q =>
      if q = s then some par
      else
        let p' := par n
        let par' := upd par n (some s)
        match p' with
        | none => some par'
        | some n' => compressLoop s k par' n' (some n')

/-- `find(Elem)` after its assertion, DisjointSet.h:103-113. -/
def DSet.find (d : DSet V) (e : Nat) : Option (DSet V × Nat) := do
  let s ← rootLoop d.parent (d.n + 1) e
  let par ← compressLoop s (d.n + 1) d.parent e (d.parent e)
  return ({ d with parent := par }, s)

/-- The list scan of `find(const ElemT&)`, DisjointSet.h:114-122 (nodes are listed in order of allocation). -/
def DSet.lookup [DecidableEq V] (d : DSet V) (v : V) : Option Nat :=
  (List.range d.n).find? (fun k => decide (d.val k = v))

/-- The calls of the API. -/
inductive Call (V : Type) where
  | insert (v : V)
  | insertIn (v : V) (s : Option Nat)
  | combine (s1 s2 : Option Nat)
  | find (e : Option Nat)
  | findVal (v : V)

/-- The possible outcomes: a node pointer (null is `ptr none`), ArgumentErr, an endless loop, undefined
behaviour. -/
inductive Resp where
  | ptr (p : Option Nat)
  | argErr
  | hang
  | ub
deriving DecidableEq

/-- Is this pointer a live root?  The tests `s && !s->parent`, DisjointSet.h:76, 84, 85: `none` = undefined
behaviour. -/
def DSet.validSet (d : DSet V) : Option Nat → Option Bool
  | none => some false
  | some s => if s < d.n then some (d.parent s).isNone else none

/-- One call. -/
def DSet.call [DecidableEq V] (d : DSet V) : Call V → DSet V × Resp
  | .insert v => (d.insert v, .ptr (some d.n))
  | .insertIn v s =>
    match d.validSet s, s with
    | none, _ => (d, .ub)
    | some true, some s => (d.insertIn v s, .ptr (some d.n))
    | _, _ => (d, .argErr)
  | .combine s1 s2 =>
    match d.validSet s1, s1 with
    | none, _ => (d, .ub)
    | some true, some a =>
      match d.validSet s2, s2 with
      | none, _ => (d, .ub)
      | some true, some b => ((d.combine a b).1, .ptr (some (d.combine a b).2))
      | _, _ => (d, .argErr)
    | _, _ => (d, .argErr)
  | .find none => (d, .argErr)
  | .find (some e) =>
    if e < d.n then
      match d.find e with
      | none => (d, .hang)
      | some (d', s) => (d', .ptr (some s))
    else (d, .ub)
  | .findVal v =>
    match d.lookup v with
    | none => (d, .ptr none)
    | some e => match d.find e with
      | none => (d, .hang)
      | some (d', s) => (d', .ptr (some s))

/-- A history: the calls made with their outcomes, oldest first, and the state reached. -/
inductive Hist [DecidableEq V] (v0 : V) : List (Call V × Resp) → DSet V → Prop where
  | start : Hist v0 [] (DSet.new v0)
  | call {h d} (c : Call V) : Hist v0 h d → Hist v0 (h ++ [(c, (d.call c).2)]) (d.call c).1

/-! ### Minimum spanning tree -/

/-- An `EdgePrimitive` (MinimumSpanningTree.h:38-47). -/
structure Edge (R : Type) where
  a : Int
  b : Int
  cost : R
deriving DecidableEq

variable {R : Type}

/-- MinimumSpanningTree.cc:60-68, over the non-empty list of primitives: (min_node, max_node). -/
def nodeRange : Edge R → List (Edge R) → Int × Int
  | e, es => es.foldl (fun (m : Int × Int) (f : Edge R) => (min (min m.1 f.a) f.b, max (max m.2 f.a) f.b))
      (min e.a e.b, max e.a e.b)

/-- `node_used`, MinimumSpanningTree.cc:70-78: is index `j` used? -/
def nodeUsed (minNode : Int) (es : List (Edge R)) (j : Nat) : Bool :=
  es.any (fun e => decide ((e.a - minNode).toNat = j) || decide ((e.b - minNode).toNat = j))

/-- MinimumSpanningTree.cc:85-91: fill `ds` and `ds_elem` for `k` indices. -/
def mkNodes (minNode : Int) (used : Nat → Bool) : Nat → DSet Int × (Nat → Option Nat)
  | 0 => (DSet.new 0, fun _ => none)
  | k + 1 =>
    let (d, el) := mkNodes minNode used k
    if used k then (d.insert (minNode + k), upd el k (some d.n)) else (d, upd el k none)

/-- The Kruskal loop, MinimumSpanningTree.cc:93-104: the edges marked used, in order.  `none` is a failed
assertion or endless loop in the disjoint set. -/
def kruskal (minNode : Int) (elem : Nat → Option Nat) : DSet Int → List (Edge R) → Option (List (Edge R))
  | _, [] => some []
  | d, e :: es => do
    let e1 ← elem (e.a - minNode).toNat
    let e2 ← elem (e.b - minNode).toNat
    let (d1, s1) ← d.find e1
    let (d2, s2) ← d1.find e2
    if s1 ≠ s2 then
      let rest ← kruskal minNode elem (d2.combine s1 s2).1 es
      return e :: rest
    else kruskal minNode elem d2 es

/-- Outcome of the constructor. -/
inductive MstResult (R : Type) where
  | tree (used : List (Edge R))
  | argErr
  | fail

/-- The constructor, MinimumSpanningTree.cc:46-127.  `garbage` is the uninitialised member `num_primitives`
that the assertion in line 47 reads.  `sorted` is the array after `qsort` (line 58). -/
def mstCtor (garbage : Int) (sorted : List (Edge R)) : MstResult R :=
  if garbage > 0 then
    match sorted with
    | [] => .fail
    | e :: es =>
      let (lo, hi) := nodeRange e es
      let (d, el) := mkNodes lo (nodeUsed lo (e :: es)) (hi - lo + 1).toNat
      match kruskal lo el d (e :: es) with
      | some used => .tree used
      | none => .fail
  else .argErr

/-- The members of a constructed tree that `apply` uses: `min_node`, `num_nodes`, `node_used`, and the
primitives with `prim_used`, in order. -/
structure Mst (R : Type) where
  lo : Int
  num : Nat
  used : Nat → Bool
  tree : List (Edge R)

/-- The object built from the sorted primitives, MinimumSpanningTree.cc:60-124. -/
def mkMst (e : Edge R) (es T : List (Edge R)) : Mst R :=
  let r := nodeRange e es
  ⟨r.1, (r.2 - r.1 + 1).toNat, nodeUsed r.1 (e :: es), T⟩

/-- `edges[node - min_node]`, MinimumSpanningTree.cc:106-122: the used primitives at a node, in order.  (A
primitive from a node to itself would be listed twice; such a primitive is never used.) -/
def Mst.adj (m : Mst R) (node : Int) : List (Edge R) :=
  m.tree.filter fun e => decide (e.a = node) || decide (e.b = node)

/-- `next_node`, MinimumSpanningTree.cc:174. -/
def Edge.other (e : Edge R) (node : Int) : Int := if node = e.a then e.b else e.a

/-- `apply_`, MinimumSpanningTree.cc:165-181: `visited` and the calls of the functor so far.  `none` is a
failed assertion; the recursion depth is limited by the fuel, which `apply_total` shows to be enough. -/
def Mst.dfs (m : Mst R) : Nat → Int → (Int → Bool) × List (Edge R × Int) → Option ((Int → Bool) × List (Edge R × Int))
  | 0, _, _ => none
  | k + 1, node, s =>
    if m.lo ≤ node ∧ node < m.lo + m.num ∧ m.used (node - m.lo).toNat = true ∧ s.1 node = false then
      (m.adj node).foldlM (fun s e =>
        if s.1 (e.other node) = true then some s
        else Mst.dfs m k (e.other node) (s.1, s.2 ++ [(e, node)]))
        ((fun x => if x = node then true else s.1 x), s.2)
    else none

/-- The starting index of `apply`, MinimumSpanningTree.cc:144-150. -/
def Mst.startIdx (m : Mst R) (start : Int) : Option Nat :=
  let j := start - m.lo
  let j := if j < 0 ∨ j ≥ m.num then 0 else j.toNat
  match ((List.range m.num).drop j).find? m.used with
  | some i => some i
  | none => (List.range m.num).find? m.used

/-- `apply`, MinimumSpanningTree.cc:139-162: the functor calls made, in order. -/
def Mst.apply (m : Mst R) (start : Int) : Option (List (Edge R × Int)) :=
  if m.num = 0 then some []
  else do
    let j ← m.startIdx start
    let s ← ((List.range m.num).drop j ++ (List.range m.num).take j).foldlM
      (fun (s : (Int → Bool) × List (Edge R × Int)) (i : Nat) =>
        if m.used i = true ∧ s.1 (m.lo + i) = false then Mst.dfs m (m.num + 1) (m.lo + i) s else some s)
      ((fun _ => false), [])
    return s.2

end VW.Graph
