import Mathlib.Algebra.Order.Field.Basic
import Mathlib.Data.List.Basic

/-
Model of src/vw/Geometry/cutPoly.cc and of `cutEdge` of edgeUtils.cc.  Numbers are an ordered field (exact arithmetic).  The
vectors `X`, `Y` of coordinates with a vector of counts are modelled as lists of polygons, a polygon as a list of points.
-/

namespace Verif.Geom.Poly

variable {K : Type} [Field K] [LinearOrder K]

/-- A point `(x, y)`. -/
abbrev Pt (K : Type) := K × K

/-- `nx*x + ny*y`, the distance along the normal of a cut (src/vw/Geometry/cutPoly.cc:186-187). -/
def dot (n p : Pt K) : K := n.1 * p.1 + n.2 * p.2

/-- `cutEdge` (src/vw/Geometry/edgeUtils.cc:176-222). -/
def cutEdge (p0 p1 n : Pt K) (H : K) : Pt K :=
  let dot0 := dot n p0
  let dot1 := dot n p1
  let t := min (max ((H - dot0) / (dot1 - dot0)) 0) 1
  let c : Pt K := ((1 - t) * p0.1 + t * p1.1, (1 - t) * p0.2 + t * p1.2)
  let t2 := min (max ((H - dot1) / (dot0 - dot1)) 0) 1
  let c2 : Pt K := ((1 - t2) * p1.1 + t2 * p0.1, (1 - t2) * p1.2 + t2 * p0.2)
  let m : Pt K := (1 / 2 * c.1 + 1 / 2 * c2.1, 1 / 2 * c.2 + 1 / 2 * c2.2)
  if n.1 = 0 then (m.1, H / n.2) else if n.2 = 0 then (H / n.1, m.2) else m

/-- A point of `cutX`, `cutY`; `tag` tells whether it is also put into `ptsOnCutline`, and with which `isOutward`
(src/vw/Geometry/cutPoly.cc:165-260). -/
structure CutPt (K : Type) where
  pt : Pt K
  tag : Option Bool

/-- What the loop over the vertices puts into `cutX`, `cutY` for one vertex (src/vw/Geometry/cutPoly.cc:176-260). -/
def emit (n : Pt K) (H : K) (prev curr next : Pt K) : List (CutPt K) :=
  let dotCurr := dot n curr
  let dotNext := dot n next
  if dotCurr < H then
    if dotNext ≤ H then [⟨curr, none⟩]
    else [⟨curr, none⟩, ⟨cutEdge curr next n H, some true⟩]
  else if dotCurr > H then
    if dotNext ≥ H then [] else [⟨cutEdge curr next n H, some false⟩]
  else
    let dotPrev := dot n prev
    if dotPrev ≥ H ∧ dotNext ≥ H then []
    else if dotPrev ≥ H ∨ dotNext ≥ H then [⟨curr, some (decide (dotPrev < H))⟩]
    else [⟨curr, none⟩]

/-- Vertex `v` of a polygon. -/
def vert (l : List (Pt K)) (v : Nat) : Pt K := l.getD v (0, 0)

/-- The loop over the vertices (src/vw/Geometry/cutPoly.cc:176-260). -/
def emitAll (n : Pt K) (H : K) (l : List (Pt K)) : List (CutPt K) :=
  (List.range l.length).flatMap fun v =>
    emit n H (vert l (if v = 0 then l.length - 1 else v - 1)) (vert l v) (vert l ((v + 1) % l.length))

/-- `valIndex` (src/vw/Geometry/cutPoly.h:30-35); the partner of an outward point is found by `nextInward`. -/
structure ValIndex (K : Type) where
  val : K
  index : Nat
  isOutward : Bool

/-- `ptsOnCutline` after the loop (src/vw/Geometry/cutPoly.cc:205-208, 226-229, 250-253). -/
def onCutline (n : Pt K) (cuts : List (CutPt K)) : List (ValIndex K) :=
  cuts.zipIdx.filterMap fun c => c.1.tag.map fun o => ⟨n.1 * c.1.pt.2 - n.2 * c.1.pt.1, c.2, o⟩

/-- `nextIndexInward` of the outward point with index `i`, given the sorted points: the `j`-th outward point is matched to the
`j`-th inward one (src/vw/Geometry/cutPoly.cc:391-436). -/
def nextInward (srt : List (ValIndex K)) (i : Nat) : Nat :=
  let outs := (srt.filter (·.isOutward)).map (·.index)
  let ins := (srt.filter (!·.isOutward)).map (·.index)
  match (outs.zip ins).find? (·.1 = i) with
  | some p => p.2
  | none => 0

/-- Which point is visited next (src/vw/Geometry/cutPoly.cc:328-372). -/
def succ (n : Pt K) (H : K) (cuts : List (CutPt K)) (srt : List (ValIndex K)) (i : Nat) : Nat :=
  if dot n ((cuts.map (·.pt)).getD i (0, 0)) ≠ H then (i + 1) % cuts.length
  else match srt.find? (·.index = i) with
    | none => (i + 1) % cuts.length
    | some c => if c.isOutward then nextInward srt i else (i + 1) % cuts.length

/-- The inner loop: visit a component (src/vw/Geometry/cutPoly.cc:310-374).  `wasVisited` is a list of indices; the first
argument bounds the number of steps, one more than the number of points in the call. -/
def walk (next : Nat → Nat) : Nat → List Nat → Nat → List Nat
  | 0, _, _ => []
  | f + 1, vis, i => if vis.contains i then [] else i :: walk next f (i :: vis) (next i)

/-- The outer loop: the components, from the first point not visited each (src/vw/Geometry/cutPoly.cc:293-376). -/
def components (next : Nat → Nat) (N : Nat) : Nat → List Nat → List (List Nat)
  | 0, _ => []
  | f + 1, vis =>
    match (List.range N).find? (fun v => !vis.contains v) with
    | none => []
    | some i =>
      let c := walk next (N + 1) vis i
      c :: components next N f (c ++ vis)

/-- `cutToHalfSpace` (src/vw/Geometry/cutPoly.cc:158-390); `sort` is `std::sort` by `val`, which may put points of equal `val`
in any order. -/
def cutToHalf (sort : List (ValIndex K) → List (ValIndex K)) (n : Pt K) (H : K) (l : List (Pt K)) : List (List (Pt K)) :=
  let cuts := emitAll n H l
  let pts := onCutline n cuts
  if pts.isEmpty then [cuts.map (·.pt)]
  else
    let srt := sort pts
    (components (succ n H cuts srt) cuts.length (cuts.length + 1) []).map fun c =>
      c.map fun i => (cuts.map (·.pt)).getD i (0, 0)

/-- One run of the loop over the cuts in `cutPoly` (src/vw/Geometry/cutPoly.cc:120-151), for all polygons. -/
def cutAll (sort : List (ValIndex K) → List (ValIndex K)) (n : Pt K) (h : K) (polys : List (List (Pt K))) : List (List (Pt K)) :=
  polys.flatMap fun p =>
    if p.isEmpty then [] else (cutToHalf sort n ((n.1 + n.2) * h) p).filter (!·.isEmpty)

/-- `cutPoly` (src/vw/Geometry/cutPoly.cc:86-156). -/
def cutPoly (sort : List (ValIndex K) → List (ValIndex K)) (xll yll xur yur : K) (polys : List (List (Pt K))) : List (List (Pt K)) :=
  cutAll sort (0, 1) yur (cutAll sort (0, -1) yll (cutAll sort (1, 0) xur (cutAll sort (-1, 0) xll polys)))

end Verif.Geom.Poly
