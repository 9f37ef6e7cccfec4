import Verif.BA.AMap

/-
Model of the camera relation network: src/vw/BundleAdjustment/CameraRelation.{h,cc}.

Features live in a heap in the order in which they are made; a pointer is a position in the heap.  A measure of a
control point is the index of its image and the rest of it (`M`: position and sigma).  `none` is undefined behaviour.
-/

namespace Verif.BA

/-- `JFeature` (src/vw/BundleAdjustment/CameraRelation.h:38-120): `m_camera_id`, `m_point_id`, the measure,
`m_connections` and `m_map`. -/
structure Feature (M : Type) where
  cam : Nat
  pt : Nat
  meas : M
  conns : List Nat
  map : AMap Nat Nat

/-- `CameraNode` (src/vw/BundleAdjustment/CameraRelation.h:126-146); `map` is the multimap in its order. -/
structure CamNode where
  id : Nat
  relations : List Nat
  map : List (Nat × Nat)

structure RelNet (M : Type) where
  heap : List (Feature M)
  nodes : List CamNode

variable {M : Type}

/-- `add_node` up to a size (src/vw/BundleAdjustment/CameraRelation.cc:75-77 and :85-87). -/
def addNodes (nodes : List CamNode) (n : Nat) : List CamNode :=
  nodes ++ (List.range' nodes.length (n - nodes.length)).map (fun i => ⟨i, [], []⟩)

/-- One measure (src/vw/BundleAdjustment/CameraRelation.cc:81-91). -/
def addMeasure (pt : Nat) (st : RelNet M) (m : Nat × M) : RelNet M :=
  let nodes := if st.nodes.length ≤ m.1 then addNodes st.nodes (m.1 + 1) else st.nodes
  ⟨st.heap ++ [⟨m.1, pt, m.2, [], []⟩], nodes.modify m.1 (fun n => { n with relations := n.relations ++ [st.heap.length] })⟩

/-- `connection(con, false)` (src/vw/BundleAdjustment/CameraRelation.h:66-73). -/
def connect (heap : List (Feature M)) (a b : Nat) : List (Feature M) :=
  heap.modify a (fun f => { f with conns := f.conns ++ [b] })

/-- The linking of the features of a point (src/vw/BundleAdjustment/CameraRelation.cc:93-101): all pairs of positions in
`features_added`, the first one before the second. -/
def linkAll : List Nat → List (Feature M) → List (Feature M)
  | [], heap => heap
  | a :: rest, heap => linkAll rest (rest.foldl (fun h b => connect (connect h a b) b a) heap)

/-- One control point (src/vw/BundleAdjustment/CameraRelation.cc:79-102); `features_added.end() - 1` of an empty vector is
undefined. -/
def addPoint (st : RelNet M) (p : List (Nat × M) × Nat) : Option (RelNet M) :=
  if p.1 = [] then none
  else
    let st' := p.1.foldl (addMeasure p.2) st
    some { st' with heap := linkAll (List.range' st.heap.length p.1.length) st'.heap }

/-- `FeatureBase::build_map` (src/vw/BundleAdjustment/CameraRelation.h:96-100); `camOf` reads `m_camera_id` through a
pointer. -/
def featureMap (camOf : Nat → Nat) (conns : List Nat) : AMap Nat Nat :=
  conns.foldl (fun m b => m.set (camOf b) b) []

/-- `multimap::insert`: after the entries of the same key. -/
def minsert (k v : Nat) : List (Nat × Nat) → List (Nat × Nat)
  | [] => [(k, v)]
  | e :: l => if k < e.1 then (k, v) :: e :: l else e :: minsert k v l

/-- The pass of the loop of `build_map` for node `j` (src/vw/BundleAdjustment/CameraRelation.cc:54-68). -/
def buildNode (st : RelNet M) (j : Nat) : Option (RelNet M) := do
  let node ← st.nodes[j]?
  let heap := node.relations.foldl (fun h a => h.modify a (fun f =>
    { f with map := featureMap (fun b => ((h[b]?).map Feature.cam).getD 0) f.conns })) st.heap
  let mm := node.relations.foldl (fun mm a =>
    (((heap[a]?).map Feature.map).getD []).foldl (fun mm e => minsert e.1 a mm) mm) []
  some ⟨heap, st.nodes.set j { node with map := mm }⟩

/-- `build_map` (src/vw/BundleAdjustment/CameraRelation.cc:45-69). -/
def buildMap (st : RelNet M) : Option (RelNet M) := (List.range st.nodes.length).foldlM buildNode st

/-- `from_cnet` (src/vw/BundleAdjustment/CameraRelation.cc:71-106); the network is the size of its list of images and the
measures of each control point. -/
def fromCnet (numImages : Nat) (cnet : List (List (Nat × M))) : Option (RelNet M) := do
  let st ← cnet.zipIdx.foldlM addPoint ⟨[], addNodes [] numImages⟩
  buildMap st

end Verif.BA
