import Verif.Geom.DPoly.Model

/-
Model of the queries of `dPoly`, of sorting by size, of clipping to a box, and of writing to and reading from a file
(src/vw/Geometry/dPoly.cc).  `rt` stands for the square root of `<cmath>`, `sort` for `std::sort`.
-/

namespace Verif.Geom.Polys

open Verif.Geom.Poly

variable {K : Type} [Field K] [LinearOrder K]

/-- The outputs of `findClosestPolyVertex` and `findClosestPolyEdge`. -/
structure Hit (K : Type) where
  poly : Int
  vert : Int
  x : K
  y : K
  dist : K
deriving DecidableEq

/-- `distance` (src/vw/Geometry/baseUtils.h:46-48). -/
def dst (rt : K → K) (x0 y0 x1 y1 : K) : K := rt ((x1 - x0) * (x1 - x0) + (y1 - y0) * (y1 - y0))

/-- `findClosestPolyVertex` (src/vw/Geometry/dPoly.cc:742-772); `big` is `DBL_MAX`. -/
def findClosestPolyVertex (rt : K → K) (big x0 y0 : K) (d : DPoly K) : Hit K :=
  polyLoop (fun p s n st => forRange n (fun v (st : Hit K) =>
      let dist := dst rt x0 y0 (d.xv.getD (s + v) 0) (d.yv.getD (s + v) 0)
      if dist ≤ st.dist then ⟨p, v, d.xv.getD (s + v) 0, d.yv.getD (s + v) 0, dist⟩ else st) st)
    0 0 (d.numVerts.take d.numPolys) ⟨-1, -1, x0, y0, big⟩

/-- `findClosestPolyEdge` (src/vw/Geometry/dPoly.cc:780-823). -/
def findClosestPolyEdge (rt : K → K) (big x0 y0 : K) (d : DPoly K) : Hit K :=
  polyLoop (fun p s n st => forRange n (fun v (st : Hit K) =>
      let b := s + v
      let e := s + (v + 1) % n
      let m := minPt (x0, y0) (d.xv.getD b 0, d.yv.getD b 0) (d.xv.getD e 0, d.yv.getD e 0)
      let dist := rt ((x0 - m.1) * (x0 - m.1) + (y0 - m.2) * (y0 - m.2))
      if dist ≤ st.dist then ⟨p, v, m.1, m.2, dist⟩ else st) st)
    0 0 (d.numVerts.take d.numPolys) ⟨-1, -1, big, big, big⟩

/-- `findClosestAnnotation` (src/vw/Geometry/dPoly.cc:711-736): the index and the distance. -/
def findClosestAnnotation (rt : K → K) (big x0 y0 : K) (d : DPoly K) : Int × K :=
  forRange d.annos.length (fun a (st : Int × K) =>
    let dist := dst rt x0 y0 (d.annos.getD a ⟨0, 0, ""⟩).x (d.annos.getD a ⟨0, 0, ""⟩).y
    if dist ≤ st.2 then (a, dist) else st) (-1, big)

/-- `ptAndIndex` (src/vw/Geometry/dPoly.cc:1064-1068). -/
structure PtIdx (K : Type) where
  point : Pt K
  area : K
  index : Nat
deriving DecidableEq

/-- `greaterThan` (src/vw/Geometry/geomUtils.h:43-45). -/
def greaterThan (P Q : Pt K) : Bool := P.1 > Q.1 || (P.1 = Q.1 && P.2 > Q.2)

/-- `greaterThanPtIndex` (src/vw/Geometry/dPoly.cc:1069-1076). -/
def greaterThanPtIndex (P Q : PtIdx K) : Bool :=
  if greaterThan P.point Q.point then true
  else if greaterThan Q.point P.point then false
  else P.area > Q.area

/-- The vector `boxDims` of `sortFromLargestToSmallest` (src/vw/Geometry/dPoly.cc:1089-1109). -/
def boxDims (big : K) (cc : Bool) (d : DPoly K) : List (PtIdx K) :=
  let boxes := bdBoxes big d
  polyLoop (fun p s n (out : List (PtIdx K)) =>
    let b := boxes.getD p ⟨0, 0, 0, 0⟩
    let verts := ((d.xv.drop s).take n).zip ((d.yv.drop s).take n)
    out ++ [⟨(b.xur - b.xll, b.yur - b.yll), |signedPolyArea verts cc|, p⟩]) 0 0 (d.numVerts.take boxes.length) []

/-- `sortFromLargestToSmallest` (src/vw/Geometry/dPoly.cc:1079-1145). -/
def sortFromLargestToSmallest (sort : List (PtIdx K) → List (PtIdx K)) (big : K) (cc : Bool) (d : DPoly K) : DPoly K :=
  let dims := sort (boxDims big cc d)
  let n := (boxDims big cc d).length
  let ix : Nat → Nat := fun s => (dims.map (·.index)).getD s 0
  let numVerts := forRange n (fun s l => l.set s (d.numVerts.getD (ix s) 0)) d.numVerts
  let v := polyLoop (fun p s k (st : List K × List K) =>
    let start2 := startOf d.numVerts (ix p)
    forRange k (fun t (st : List K × List K) =>
      (st.1.set (s + t) (d.xv.getD (start2 + t) 0), st.2.set (s + t) (d.yv.getD (start2 + t) 0))) st)
    0 0 (numVerts.take n) (d.xv, d.yv)
  { d with
    numVerts := numVerts
    closed := forRange n (fun s l => l.set s (d.closed.getD (ix s) false)) d.closed
    colors := forRange n (fun s l => l.set s (d.colors.getD (ix s) "")) d.colors
    layers := forRange n (fun s l => l.set s (d.layers.getD (ix s) "")) d.layers
    xv := v.1
    yv := v.2 }

/-- `sortBySizeAndMaybeAddBigContainingRect` (src/vw/Geometry/dPoly.cc:1147-1190). -/
def sortBySizeAndMaybeAddBigContainingRect (sort : List (PtIdx K) → List (PtIdx K)) (big : K) (win : Box K) (cc : Bool) (d : DPoly K) : DPoly K :=
  let d1 := sortFromLargestToSmallest sort big cc d
  if d1.numPolys = 0 then d1
  else
    let n0 := d1.numVerts.getD 0 0
    if 0 ≤ signedPolyArea ((d1.xv.take n0).zip (d1.yv.take n0)) cc then d1
    else
      let b := bdBox big d1
      let xll := min b.xll win.xll
      let xur := max b.xur win.xur
      let yll := min b.yll win.yll
      let yur := max b.yur win.yur
      let extra := max |xur - xll| |yur - yll| + 10
      let d2 := appendRectangle d1 (xll - extra) (yll - extra) (xur + extra) (yur + extra) true (d1.colors.getD 0 "") (d1.layers.getD 0 "")
      sortFromLargestToSmallest sort big cc d2

/-- `cutPolyLine` (src/vw/Geometry/cutPoly.cc:30-85). -/
def cutPolyLine (sort : List (ValIndex K) → List (ValIndex K)) (b : Box K) (l : List (Pt K)) : List (List (Pt K)) :=
  (cutPoly sort b.xll b.yll b.xur b.yur [l ++ l.reverse]).map fun c => c.take (c.length / 2)

/-- Is the point in the box, the border included (src/vw/Geometry/dPoly.cc:267-268, 315, 1638; src/vw/Geometry/geomUtils.h:96-98). -/
def inBox (b : Box K) (p : Pt K) : Bool := p.1 ≥ b.xll && p.1 ≤ b.xur && p.2 ≥ b.yll && p.2 ≤ b.yur

/-- What `clipPoly` makes of one polygon (src/vw/Geometry/dPoly.cc:250-288). -/
def clipOne (sort : List (ValIndex K) → List (ValIndex K)) (b : Box K) (cloud closed : Bool) (l : List (Pt K)) : List (List (Pt K)) :=
  if cloud then [l.filter (inBox b)]
  else if closed then cutPoly sort b.xll b.yll b.xur b.yur [l]
  else cutPolyLine sort b l

/-- `clipPoly` (src/vw/Geometry/dPoly.cc:233-325). -/
def clipPoly (sort : List (ValIndex K) → List (ValIndex K)) (b : Box K) (d : DPoly K) : DPoly K :=
  let r := polyLoop (fun p s n (out : DPoly K) =>
    let cut := clipOne sort b d.cloud (d.closed.getD p false) (((d.xv.drop s).take n).zip ((d.yv.drop s).take n))
    cut.foldl (fun out c => appendPolygon out c.length (c.map Prod.fst) (c.map Prod.snd) (d.closed.getD p false) (d.colors.getD p "")
      (d.layers.getD p "")) out) 0 0 (d.numVerts.take d.numPolys) { reset with cloud := d.cloud }
  { r with
    annos := d.annos.filter fun a => inBox b (a.x, a.y)
    vertAnno := d.vertAnno.filter fun a => inBox b (a.x, a.y)
    polyAnno := d.polyAnno.filter fun a => inBox b (a.x, a.y)
    layerAnno := d.layerAnno.filter fun a => inBox b (a.x, a.y) }

/-- `markPolysIntersectingBox` (src/vw/Geometry/dPoly.cc:1587-1627). -/
def markPolysIntersectingBox (sort : List (ValIndex K) → List (ValIndex K)) (b : Box K) (d : DPoly K) : List Nat :=
  let ids := startingIndices d
  (forRange d.numPolys (fun p (st : Nat × List Nat) =>
    let hit :=
      if d.numVerts.getD p 0 = 1 then inBox b (d.xv.getD st.1 0, d.yv.getD st.1 0)
      else (clipPoly sort b (extractOnePoly p (some (ids.getD p 0)) d)).totalNumVerts != 0
    (st.1 + d.numVerts.getD p 0, if hit then st.2 ++ [p] else st.2)) (0, [])).2

/-- `erasePolysIntersectingBox` (src/vw/Geometry/dPoly.cc:1713-1719). -/
def erasePolysIntersectingBox (sort : List (ValIndex K) → List (ValIndex K)) (b : Box K) (d : DPoly K) : DPoly K :=
  eraseMarkedPolys (markPolysIntersectingBox sort b d) d

/-- A line of a file, as `writePoly` writes it and `readPoly` takes it apart (src/vw/Geometry/dPoly.cc:1234-1307, 1372-1410).
The text of numbers, colors and layers is not modelled: a line is what is read from it. -/
inductive Line (K : Type) where
  | color (c : String)
  | vert (x y : K) (layer : String)
  | anno (a : Anno K)
  | next
  | blank
deriving DecidableEq

/-- The state of the loop in `writePoly`. -/
structure WState (K : Type) where
  start : Nat
  annoCount : Nat
  color : String
  prevColor : String
  out : List (Line K)

/-- The loop over the vertices in `writePoly` (src/vw/Geometry/dPoly.cc:1381-1392). -/
def writeVerts (d : DPoly K) (layer : String) (start n annoCount : Nat) (out : List (Line K)) : Nat × List (Line K) :=
  forRange n (fun v (st : Nat × List (Line K)) =>
    let out := st.2 ++ [.vert (d.xv.getD (start + v) 0) (d.yv.getD (start + v) 0) layer]
    if st.1 < d.annos.length then (st.1 + 1, out ++ [.anno (d.annos.getD st.1 ⟨0, 0, ""⟩)]) else (st.1, out)) (annoCount, out)

/-- The body of the loop over the polygons in `writePoly` (src/vw/Geometry/dPoly.cc:1364-1414).  An empty polygon is skipped
before `start` is updated. -/
def writeBody (emptyLine : Bool) (d : DPoly K) (p : Nat) (st : WState K) : WState K :=
  if d.numVerts.getD p 0 = 0 then st
  else
    let start := if p > 0 then st.start + d.numVerts.getD (p - 1) 0 else st.start
    let color := if p < d.colors.length then d.colors.getD p "" else st.color
    let out := if color ≠ st.prevColor ∨ p = 0 then st.out ++ [.color color] else st.out
    let layer := if p < d.layers.length then d.layers.getD p "" else ""
    let r := writeVerts d layer start (d.numVerts.getD p 0) st.annoCount out
    let out := if !d.cloud then r.2 ++ [if emptyLine then .blank else .next] else r.2
    { start := start, annoCount := r.1, color := color, prevColor := color, out := out }

/-- `writePoly` (src/vw/Geometry/dPoly.cc:1354-1423). -/
def writePoly (defaultColor : String) (emptyLine : Bool) (d : DPoly K) : List (Line K) :=
  let st := forRange d.numPolys (writeBody emptyLine d) ⟨0, 0, defaultColor, defaultColor, []⟩
  st.out ++ (d.annos.drop st.annoCount).map .anno

/-- The state of the loop in `readPoly`. -/
structure RState (K : Type) where
  d : DPoly K
  beg : Nat
  fin : Nat
  layer : String
  color : String

/-- The body of the loop over the lines in `readPoly` (src/vw/Geometry/dPoly.cc:1236-1335). -/
def readBody (cloud : Bool) (line : Line K) (isLast : Bool) (st : RState K) : RState K :=
  let d := match line with
    | .anno a => { st.d with annos := st.d.annos ++ [a] }
    | .vert x y _ => { st.d with xv := st.d.xv ++ [x], yv := st.d.yv ++ [y] }
    | _ => st.d
  let color := match line with
    | .color c => c
    | _ => st.color
  let fin := match line with
    | .vert _ _ _ => st.fin + 1
    | _ => st.fin
  let layer := match line with
    | .vert _ _ l => if fin = st.beg + 1 then l else st.layer
    | _ => st.layer
  let last := isLast || (match line with
    | .next => true
    | _ => false) || cloud
  if last && st.beg < fin then
    if st.beg < fin - 1 ∧ d.xv.getD st.beg 0 = d.xv.getD (fin - 1) 0 ∧ d.yv.getD st.beg 0 = d.yv.getD (fin - 1) 0 then
      let fin := fin - 1
      { d := { d with
          xv := d.xv.take fin
          yv := d.yv.take fin
          closed := d.closed ++ [true]
          layers := d.layers ++ [layer]
          colors := d.colors ++ [color]
          numPolys := d.numPolys + 1
          numVerts := d.numVerts ++ [fin - st.beg]
          totalNumVerts := fin }
        beg := fin
        fin := fin
        layer := layer
        color := color }
    else
      { d := { d with
          closed := d.closed ++ [false]
          layers := d.layers ++ [layer]
          colors := d.colors ++ [color]
          numPolys := d.numPolys + 1
          numVerts := d.numVerts ++ [fin - st.beg]
          totalNumVerts := fin }
        beg := fin
        fin := fin
        layer := layer
        color := color }
  else { d := d, beg := st.beg, fin := fin, layer := layer, color := color }

/-- The loop over the lines. -/
def readLoop (cloud : Bool) : List (Line K) → RState K → RState K
  | [], st => st
  | l :: ls, st => readLoop cloud ls (readBody cloud l ls.isEmpty st)

/-- `readPoly` (src/vw/Geometry/dPoly.cc:1215-1340) of a file with these lines. -/
def readPoly (cloud : Bool) (lines : List (Line K)) : DPoly K :=
  (readLoop cloud lines ⟨{ reset with cloud := cloud }, 0, 0, "", "yellow"⟩).d

end Verif.Geom.Polys
