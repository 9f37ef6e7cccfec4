import Mathlib.Analysis.SpecialFunctions.Pow.Real
import Verif.Geom.Poly.Cut

/-
Model of src/vw/Geometry/edgeUtils.cc and of functions of src/vw/Geometry/geomUtils.cc.  Exact arithmetic in an ordered field,
or the real numbers where distances are used.
-/

namespace Verif.Geom.Poly

variable {K : Type} [Field K] [LinearOrder K]

/-- `edgeIntersectsHorizontalEdge` (src/vw/Geometry/edgeUtils.cc:57-91). -/
def horizEdge (x0 y0 x1 y1 begx endx yval : K) : Bool :=
  if y0 > yval ∧ y1 > yval then false
  else if y0 < yval ∧ y1 < yval then false
  else if y1 - y0 = 0 then decide (max (min x0 x1) (min begx endx) ≤ min (max x0 x1) (max begx endx))
  else
    let detBeg := (begx - x0) * (y1 - y0) - (yval - y0) * (x1 - x0)
    let detEnd := (endx - x0) * (y1 - y0) - (yval - y0) * (x1 - x0)
    if detBeg > 0 ∧ detEnd > 0 then false
    else if detBeg < 0 ∧ detEnd < 0 then false
    else true

/-- `edgeIntersectsBox` (src/vw/Geometry/edgeUtils.cc:29-56). -/
def edgeBox (bx byy ex ey xl yl xh yh : K) : Bool :=
  if bx > xh ∧ ex > xh then false
  else if bx < xl ∧ ex < xl then false
  else if byy > yh ∧ ey > yh then false
  else if byy < yl ∧ ey < yl then false
  else if xl ≤ bx ∧ bx ≤ xh ∧ yl ≤ byy ∧ byy ≤ yh then true
  else if xl ≤ ex ∧ ex ≤ xh ∧ yl ≤ ey ∧ ey ≤ yh then true
  else if horizEdge bx byy ex ey xl xh yl then true
  else if horizEdge bx byy ex ey xl xh yh then true
  else if horizEdge byy bx ey ex yl yh xl then true
  else if horizEdge byy bx ey ex yl yh xh then true
  else false

/-- `distance` (src/vw/Geometry/baseUtils.h:44-46). -/
noncomputable def distance (p q : Pt ℝ) : ℝ := Real.sqrt ((q.1 - p.1) * (q.1 - p.1) + (q.2 - p.2) * (q.2 - p.2))

open Classical in
/-- `isPointOnEdge` (src/vw/Geometry/edgeUtils.cc:93-100). -/
noncomputable def isPointOnEdge (p0 p1 p : Pt ℝ) : Bool :=
  let dist1 := distance p0 p1
  let dist2 := distance p0 p
  let dist3 := distance p p1
  let tol : ℝ := 1 / 10 ^ 12
  decide (dist2 + dist3 ≤ (1 + tol) * dist1)

/-- `collinearEdgesIntersect` (src/vw/Geometry/edgeUtils.cc:102-126). -/
noncomputable def collinearEdges (a0 a1 b0 b1 : Pt ℝ) : Option (Pt ℝ) :=
  if isPointOnEdge a0 a1 b0 then some b0
  else if isPointOnEdge a0 a1 b1 then some b1
  else if isPointOnEdge b0 b1 a0 then some a0
  else if isPointOnEdge b0 b1 a1 then some a1
  else none

/-- The determinant `(px - x0)*(y1 - y0) - (py - y0)*(x1 - x0)` (src/vw/Geometry/edgeUtils.cc:142-145). -/
def det (p0 p1 p : Pt K) : K := (p.1 - p0.1) * (p1.2 - p0.2) - (p.2 - p0.2) * (p1.1 - p0.1)

/-- `edgesIntersect` (src/vw/Geometry/edgeUtils.cc:128-174): the loop of two rounds, written out. -/
noncomputable def edgesIntersect (a0 a1 b0 b1 : Pt ℝ) : Option (Pt ℝ) :=
  if (det a0 a1 b0 > 0 ∧ det a0 a1 b1 > 0) ∨ (det a0 a1 b0 < 0 ∧ det a0 a1 b1 < 0) then none
  else
    -- the edges are swapped
    let det0 := det b0 b1 a0
    let det1 := det b0 b1 a1
    if (det0 > 0 ∧ det1 > 0) ∨ (det0 < 0 ∧ det1 < 0) then none
    else if det0 = det1 then collinearEdges b0 b1 a0 a1
    else
      let t := -det0 / (det1 - det0)
      some ((1 - t) * a0.1 + t * a1.1, (1 - t) * a0.2 + t * a1.2)

/-- The loop of `isPointInPolyOrOnEdges` over the edges; the argument is `isInsideOrOnEdges`
(src/vw/Geometry/geomUtils.cc:508-534). -/
def inPolyLoop (x y : K) (acc : Bool) : List (Pt K × Pt K) → Bool
  | [] => acc
  | e :: rest =>
    let s := if e.1.1 > e.2.1 then (e.2, e.1) else e
    let x0 := s.1.1
    let y0 := s.1.2
    let x1 := s.2.1
    let y1 := s.2.2
    if x < x0 ∨ x > x1 then inPolyLoop x y acc rest
    else if x0 = x1 then
      if y ≥ min y0 y1 ∧ y ≤ max y0 y1 then true else inPolyLoop x y acc rest
    else
      let d := (y - y0) * (x1 - x0) - (x - x0) * (y1 - y0)
      if d = 0 then true
      else if x < x1 ∧ d < 0 then inPolyLoop x y (!acc) rest
      else inPolyLoop x y acc rest

/-- `isPointInPolyOrOnEdges` (src/vw/Geometry/geomUtils.cc:499-537). -/
def isPointInPolyOrOnEdges (x y : K) (l : List (Pt K)) : Bool :=
  if l.length = 0 then false
  else inPolyLoop x y false ((List.range l.length).map fun i => (vert l i, vert l ((i + 1) % l.length)))

/-- The point found by `minDistFromPtToSeg` (src/vw/Geometry/geomUtils.cc:170-192). -/
def minPt (q p0 p1 : Pt K) : Pt K :=
  let a := (p1.1 - p0.1) * (p1.1 - p0.1) + (p1.2 - p0.2) * (p1.2 - p0.2)
  let b := (q.1 - p0.1) * (p1.1 - p0.1) + (q.2 - p0.2) * (p1.2 - p0.2)
  let t := if a = 0 then 0 else b / a
  let t := max t 0
  let t := min t 1
  (p0.1 + t * (p1.1 - p0.1), p0.2 + t * (p1.2 - p0.2))

/-- `minDist` of `minDistFromPtToSeg` (src/vw/Geometry/geomUtils.cc:194). -/
noncomputable def minDist (q p0 p1 : Pt ℝ) : ℝ :=
  let m := minPt q p0 p1
  Real.sqrt ((q.1 - m.1) * (q.1 - m.1) + (q.2 - m.2) * (q.2 - m.2))

/-- `signedPolyArea` (src/vw/Geometry/geomUtils.cc:303-324). -/
def signedPolyArea (l : List (Pt K)) (counterCc : Bool) : K :=
  let sign : K := if counterCc then 1 else -1
  let area := (List.range l.length).foldl (fun area v =>
    let vNext := (v + 1) % l.length
    area + sign * (((vert l v).1 - (vert l 0).1) * ((vert l vNext).2 - (vert l 0).2)
      - ((vert l vNext).1 - (vert l 0).1) * ((vert l v).2 - (vert l 0).2))) 0
  area / 2

/-- A box: the corners. -/
structure Bx (K : Type) where
  min : Pt K
  max : Pt K

/-- `expandBoxToRatio` (src/vw/Geometry/geomUtils.cc:326-350); `none` is the exception. -/
def expandBoxToRatio (box : Bx K) (aspect : K) : Option (Bx K) :=
  if aspect ≤ 0 then none
  else
    let inBox : Bx K := if box.min.1 ≥ box.max.1 ∨ box.min.2 ≥ box.max.2 then ⟨(0, 0), (1, 1)⟩ else box
    let w := inBox.max.1 - inBox.min.1
    let h := inBox.max.2 - inBox.min.2
    if w / h < aspect then
      let delta := (h * aspect - w) / 2
      some ⟨(inBox.min.1 - delta, inBox.min.2), (inBox.max.1 + delta, inBox.max.2)⟩
    else if w / h > aspect then
      let delta := (w / aspect - h) / 2
      some ⟨(inBox.min.1, inBox.min.2 - delta), (inBox.max.1, inBox.max.2 + delta)⟩
    else some inBox

/-- `boxesIntersect` (src/vw/Geometry/geomUtils.cc:352-362). -/
def boxesIntersect (xl1 yl1 xh1 yh1 xl2 yl2 xh2 yh2 : K) : Bool :=
  decide (max xl1 xl2 ≤ min xh1 xh2) && decide (max yl1 yl2 ≤ min yh1 yh2)

/-- `linTrans` (src/vw/Geometry/geomUtils.h:160-174). -/
structure LinTrans (K : Type) where
  a11 : K
  a12 : K
  a21 : K
  a22 : K
  sx : K
  sy : K

/-- How a transform acts on a vertex (src/vw/Geometry/dPoly.cc:417-422, 469-472). -/
def LinTrans.app (T : LinTrans K) (p : Pt K) : Pt K := (T.a11 * p.1 + T.a12 * p.2 + T.sx, T.a21 * p.1 + T.a22 * p.2 + T.sy)

/-- `composeTransforms` (src/vw/Geometry/geomUtils.cc:364-379). -/
def composeTransforms (P Q : LinTrans K) : LinTrans K where
  a11 := P.a11 * Q.a11 + P.a12 * Q.a21
  a12 := P.a11 * Q.a12 + P.a12 * Q.a22
  a21 := P.a21 * Q.a11 + P.a22 * Q.a21
  a22 := P.a21 * Q.a12 + P.a22 * Q.a22
  sx := P.a11 * Q.sx + P.a12 * Q.sy + P.sx
  sy := P.a21 * Q.sx + P.a22 * Q.sy + P.sy

/-- `transAroundPt` (src/vw/Geometry/geomUtils.cc:381-393). -/
def transAroundPt (m11 m12 m21 m22 : K) (P : Pt K) : LinTrans K where
  a11 := m11
  a12 := m12
  a21 := m21
  a22 := m22
  sx := P.1 - m11 * P.1 - m12 * P.2
  sy := P.2 - m21 * P.1 - m22 * P.2

end Verif.Geom.Poly
