import Mathlib.Algebra.Order.Field.Basic
import Mathlib.Algebra.BigOperators.Group.List.Basic
import Mathlib.Data.List.Basic
import Verif.Geom.Poly.Edge

/-
Model of the class `dPoly`, a set of polygons (src/vw/Geometry/dPoly.h, dPoly.cc) and of `eraseMarkedElements`
(src/vw/Geometry/baseUtils.h).  The members are modelled one by one: the coordinates of all the vertices of all the polygons are
in two flat vectors, with a vector of numbers of vertices and vectors of attributes.  Numbers are an ordered field (exact
arithmetic); indices are natural numbers.  Reading `v[i]` is `getD`, writing is `set`: the theorems only use indices in range.
The marks, a `std::map<int, int>`, are the list of their keys.  What the C++ does to a const pointer into a vector (`xv + start`)
is a list with its first elements dropped.
-/

namespace Verif.Geom.Polys

open Verif.Geom.Poly

variable {K : Type}

/-- `anno` (src/vw/Geometry/geomUtils.h:47-57). -/
structure Anno (K : Type) where
  x : K
  y : K
  label : String
deriving DecidableEq

/-- The members of `dPoly` (src/vw/Geometry/dPoly.h:242-258). -/
structure DPoly (K : Type) where
  cloud : Bool
  xv : List K
  yv : List K
  numVerts : List Nat
  numPolys : Nat
  totalNumVerts : Nat
  closed : List Bool
  colors : List String
  layers : List String
  annos : List (Anno K)
  vertAnno : List (Anno K)
  polyAnno : List (Anno K)
  layerAnno : List (Anno K)
deriving DecidableEq

/-- `reset` (src/vw/Geometry/dPoly.cc:42-56). -/
def reset : DPoly K := ⟨false, [], [], [], 0, 0, [], [], [], [], [], [], []⟩

/-- A `for` loop over `0 … n-1`. -/
def forRange {σ : Type} (n : Nat) (body : Nat → σ → σ) (st : σ) : σ := (List.range n).foldl (fun s v => body v s) st

/-- A loop over the polygons: `int start = 0; for (pIter = 0; pIter < m_numPolys; pIter++) { if (pIter > 0) start +=
m_numVerts[pIter - 1]; ... }` (e.g. src/vw/Geometry/dPoly.cc:83-86).  `body` gets `pIter`, `start` and `m_numVerts[pIter]`. -/
def polyLoop {σ : Type} (body : Nat → Nat → Nat → σ → σ) : Nat → Nat → List Nat → σ → σ
  | _, _, [], st => st
  | p, s, n :: ns, st => polyLoop body (p + 1) (s + n) ns (body p s n st)

/-- `int start = 0; for (pIter = 0; pIter < polyIndex; pIter++) start += m_numVerts[pIter];`
(e.g. src/vw/Geometry/dPoly.cc:842-845). -/
def startOf (nv : List Nat) (p : Nat) : Nat := forRange p (fun i s => s + nv.getD i 0) 0

section field
variable [Field K] [LinearOrder K]

/-- Change the vertex `i`, e.g. `double x = ..., y = ...; m_xv[i] = x; m_yv[i] = y` (src/vw/Geometry/dPoly.cc:418-421). -/
def updPt (f : Pt K → Pt K) (i : Nat) (st : List K × List K) : List K × List K :=
  let r := f (st.1.getD i 0, st.2.getD i 0)
  (st.1.set i r.1, st.2.set i r.2)

/-- `appendPolygon` (src/vw/Geometry/dPoly.cc:130-152). -/
def appendPolygon (d : DPoly K) (n : Nat) (xv yv : List K) (closed : Bool) (color layer : String) : DPoly K :=
  if n = 0 then d
  else
    let v := forRange n (fun s (st : List K × List K) => (st.1 ++ [xv.getD s 0], st.2 ++ [yv.getD s 0])) (d.xv, d.yv)
    { d with
      numPolys := d.numPolys + 1
      totalNumVerts := d.totalNumVerts + n
      numVerts := d.numVerts ++ [n]
      closed := d.closed ++ [closed]
      colors := d.colors ++ [color]
      layers := d.layers ++ [layer]
      xv := v.1
      yv := v.2 }

/-- `setPolygon` (src/vw/Geometry/dPoly.cc:119-128). -/
def setPolygon (n : Nat) (xv yv : List K) (closed : Bool) (color layer : String) : DPoly K :=
  appendPolygon reset n xv yv closed color layer

/-- `appendRectangle` (src/vw/Geometry/dPoly.cc:154-162). -/
def appendRectangle (d : DPoly K) (xl yl xh yh : K) (closed : Bool) (color layer : String) : DPoly K :=
  appendPolygon d 4 [xl, xh, xh, xl] [yl, yl, yh, yh] closed color layer

/-- `setRectangle` (src/vw/Geometry/dPoly.cc:164-170). -/
def setRectangle (xl yl xh yh : K) (closed : Bool) (color layer : String) : DPoly K :=
  appendRectangle reset xl yl xh yh closed color layer

/-- `appendPolygons` (src/vw/Geometry/dPoly.cc:504-534). -/
def appendPolygons (d poly : DPoly K) : DPoly K :=
  let d' := polyLoop (fun p s n (d : DPoly K) =>
    appendPolygon d n (poly.xv.drop s) (poly.yv.drop s) (poly.closed.getD p false) (poly.colors.getD p "") (poly.layers.getD p ""))
    0 0 (poly.numVerts.take poly.numPolys) d
  { d' with annos := poly.annos.foldl (fun a x => a ++ [x]) d'.annos }

/-- Move an annotation. -/
def Anno.move (f : Pt K → Pt K) (a : Anno K) : Anno K := { a with x := (f (a.x, a.y)).1, y := (f (a.x, a.y)).2 }

/-- The loop over the vertices and the four kinds of annotations in `shift`, `rotate`, `scale` and `applyTransform`
(src/vw/Geometry/dPoly.cc:331-345, 361-379, 388-404, 466-485). -/
def moveAll (f : Pt K → Pt K) (d : DPoly K) : DPoly K :=
  let v := forRange d.xv.length (fun i => updPt f i) (d.xv, d.yv)
  { d with
    xv := v.1
    yv := v.2
    annos := d.annos.map (Anno.move f)
    vertAnno := d.vertAnno.map (Anno.move f)
    polyAnno := d.polyAnno.map (Anno.move f)
    layerAnno := d.layerAnno.map (Anno.move f) }

/-- `shift` (src/vw/Geometry/dPoly.cc:327-348). -/
def shift (sx sy : K) (d : DPoly K) : DPoly K := moveAll (fun p => (p.1 + sx, p.2 + sy)) d

/-- `rotate` (src/vw/Geometry/dPoly.cc:350-382), given the cosine `c` and the sine `s` of the angle. -/
def rotate (c s : K) (d : DPoly K) : DPoly K := moveAll (fun p => (c * p.1 - s * p.2, s * p.1 + c * p.2)) d

/-- `scale` (src/vw/Geometry/dPoly.cc:384-407). -/
def scale (k : K) (d : DPoly K) : DPoly K := moveAll (fun p => (p.1 * k, p.2 * k)) d

/-- `applyTransform` (src/vw/Geometry/dPoly.cc:458-488); the second result is the saved transform. -/
def applyTransform (a11 a12 a21 a22 sx sy : K) (d : DPoly K) : DPoly K × LinTrans K :=
  (moveAll (fun p => (a11 * p.1 + a12 * p.2 + sx, a21 * p.1 + a22 * p.2 + sy)) d, ⟨a11, a12, a21, a22, sx, sy⟩)

/-- `std::min_element` on the first `n` elements of `l`, `n` at least 1. -/
def minEl : List K → K
  | [] => 0
  | a :: l => l.foldl (fun m x => if x < m then x else m) a

/-- `std::max_element`. -/
def maxEl : List K → K
  | [] => 0
  | a :: l => l.foldl (fun m x => if m < x then x else m) a

/-- A box `xll, yll, xur, yur`. -/
structure Box (K : Type) where
  xll : K
  yll : K
  xur : K
  yur : K
deriving DecidableEq

/-- `bdBox` (src/vw/Geometry/dPoly.cc:58-74); `big` is `DBL_MAX/4`. -/
def bdBox (big : K) (d : DPoly K) : Box K :=
  if d.totalNumVerts = 0 then ⟨big, big, -big, -big⟩
  else ⟨minEl (d.xv.take d.totalNumVerts), minEl (d.yv.take d.totalNumVerts), maxEl (d.xv.take d.totalNumVerts), maxEl (d.yv.take d.totalNumVerts)⟩

/-- `bdBoxes` (src/vw/Geometry/dPoly.cc:76-106). -/
def bdBoxes (big : K) (d : DPoly K) : List (Box K) :=
  polyLoop (fun _ s n (out : List (Box K)) =>
    out ++ [if n = 0 then ⟨big, big, -big, -big⟩
      else ⟨minEl ((d.xv.drop s).take n), minEl ((d.yv.drop s).take n), maxEl ((d.xv.drop s).take n), maxEl ((d.yv.drop s).take n)⟩])
    0 0 (d.numVerts.take d.numPolys) []

/-- `bdBoxCenter` (src/vw/Geometry/dPoly.cc:108-117). -/
def bdBoxCenter (big : K) (d : DPoly K) : Pt K :=
  let b := bdBox big d
  ((b.xll + b.xur) / 2, (b.yll + b.yur) / 2)

/-- `applyTransformAroundBdBoxCenter` (src/vw/Geometry/dPoly.cc:491-502); no transform is saved for an empty set. -/
def applyTransformAroundBdBoxCenter (big a11 a12 a21 a22 : K) (d : DPoly K) : DPoly K × Option (LinTrans K) :=
  if d.totalNumVerts = 0 then (d, none)
  else
    let m := bdBoxCenter big d
    let r := applyTransform a11 a12 a21 a22 (m.1 - a11 * m.1 - a12 * m.2) (m.2 - a21 * m.1 - a22 * m.2) d
    (r.1, some r.2)

/-- The loop over the vertices of a polygon that starts at `s` and has `n` vertices. -/
def onVerts (f : Pt K → Pt K) (s n : Nat) (st : List K × List K) : List K × List K :=
  forRange n (fun v => updPt f (s + v)) st

/-- `transformMarkedPolys` (src/vw/Geometry/dPoly.cc:409-429). -/
def transformMarkedPolys (mark : List Nat) (T : LinTrans K) (d : DPoly K) : DPoly K :=
  let v := polyLoop (fun p s n st =>
    if mark.contains p then onVerts (fun q => (T.a11 * q.1 + T.a12 * q.2 + T.sx, T.a21 * q.1 + T.a22 * q.2 + T.sy)) s n st else st)
    0 0 (d.numVerts.take d.numPolys) (d.xv, d.yv)
  { d with xv := v.1, yv := v.2, vertAnno := [] }

/-- `transformMarkedPolysAroundPt` (src/vw/Geometry/dPoly.cc:444-449). -/
def transformMarkedPolysAroundPt (mark : List Nat) (m11 m12 m21 m22 : K) (P : Pt K) (d : DPoly K) : DPoly K :=
  transformMarkedPolys mark (transAroundPt m11 m12 m21 m22 P) d

/-- `insertVertex` (src/vw/Geometry/dPoly.cc:836-857). -/
def insertVertex (p v : Nat) (x y : K) (d : DPoly K) : DPoly K :=
  let iv := startOf d.numVerts p + v
  { d with
    xv := d.xv.insertIdx iv x
    yv := d.yv.insertIdx iv y
    totalNumVerts := d.totalNumVerts + 1
    numVerts := d.numVerts.set p (d.numVerts.getD p 0 + 1)
    vertAnno := [] }

/-- `eraseVertex` (src/vw/Geometry/dPoly.cc:859-879). -/
def eraseVertex (p v : Nat) (d : DPoly K) : DPoly K :=
  let iv := startOf d.numVerts p + v
  { d with
    xv := d.xv.eraseIdx iv
    yv := d.yv.eraseIdx iv
    totalNumVerts := d.totalNumVerts - 1
    numVerts := d.numVerts.set p (d.numVerts.getD p 0 - 1)
    vertAnno := [] }

/-- `changeVertexValue` (src/vw/Geometry/dPoly.cc:881-897). -/
def changeVertexValue (p v : Nat) (x y : K) (d : DPoly K) : DPoly K :=
  let s := startOf d.numVerts p
  { d with xv := d.xv.set (s + v) x, yv := d.yv.set (s + v) y, vertAnno := [] }

/-- `shiftEdge` (src/vw/Geometry/dPoly.cc:899-922). -/
def shiftEdge (p v : Nat) (sx sy : K) (d : DPoly K) : DPoly K :=
  let s := startOf d.numVerts p
  let f : Pt K → Pt K := fun q => (q.1 + sx, q.2 + sy)
  let st := updPt f (s + v) (d.xv, d.yv)
  if d.numVerts.getD p 0 ≤ 1 then { d with xv := st.1, yv := st.2, vertAnno := [] }
  else
    let e := (v + 1) % d.numVerts.getD p 0
    let st' := updPt f (s + e) st
    { d with xv := st'.1, yv := st'.2, vertAnno := [] }

/-- `shiftOnePoly` (src/vw/Geometry/dPoly.cc:924-941). -/
def shiftOnePoly (p : Nat) (sx sy : K) (d : DPoly K) : DPoly K :=
  let st := onVerts (fun q => (q.1 + sx, q.2 + sy)) (startOf d.numVerts p) (d.numVerts.getD p 0) (d.xv, d.yv)
  { d with xv := st.1, yv := st.2, vertAnno := [] }

/-- `shiftMarkedPolys` (src/vw/Geometry/dPoly.cc:955-961). -/
def shiftMarkedPolys (mark : List Nat) (sx sy : K) (d : DPoly K) : DPoly K :=
  mark.foldl (fun d p => shiftOnePoly p sx sy d) d

/-- `std::reverse` on the range `[s, s + n)`. -/
def revRange {α : Type} (s n : Nat) (l : List α) : List α := l.take s ++ ((l.drop s).take n).reverse ++ l.drop (s + n)

/-- `reverse` (src/vw/Geometry/dPoly.cc:1036-1046). -/
def reverse (d : DPoly K) : DPoly K :=
  let v := polyLoop (fun _ s n (st : List K × List K) => (revRange s n st.1, revRange s n st.2))
    0 0 (d.numVerts.take d.numPolys) (d.xv, d.yv)
  { d with xv := v.1, yv := v.2 }

/-- `reverseOnePoly` (src/vw/Geometry/dPoly.cc:1048-1061). -/
def reverseOnePoly (p : Nat) (d : DPoly K) : DPoly K :=
  let s := startOf d.numVerts p
  { d with xv := revRange s (d.numVerts.getD p 0) d.xv, yv := revRange s (d.numVerts.getD p 0) d.yv }

/-- `reverseMarkedPolys` (src/vw/Geometry/dPoly.cc:971-977). -/
def reverseMarkedPolys (mark : List Nat) (d : DPoly K) : DPoly K := mark.foldl (fun d p => reverseOnePoly p d) d

/-- `get_startingIndices` (src/vw/Geometry/dPoly.cc:979-987). -/
def startingIndices (d : DPoly K) : List Nat :=
  (forRange d.numPolys (fun i (st : Nat × List Nat) =>
    let s := st.1 + d.numVerts.getD i 0
    (s, st.2 ++ [s])) (0, [0])).2

/-- `extractOnePoly` (src/vw/Geometry/dPoly.cc:991-1014); `none` is the default `start_index = -1`. -/
def extractOnePoly (p : Nat) (startIndex : Option Nat) (d : DPoly K) : DPoly K :=
  let s := match startIndex with
    | some s => s
    | none => startOf d.numVerts p
  setPolygon (d.numVerts.getD p 0) (d.xv.drop s) (d.yv.drop s) (d.closed.getD p false) (d.colors.getD p "") (d.layers.getD p "")

/-- `extractMarkedPolys` (src/vw/Geometry/dPoly.cc:1016-1033). -/
def extractMarkedPolys (mark : List Nat) (d : DPoly K) : DPoly K :=
  let ids := startingIndices d
  forRange d.numPolys (fun p (out : DPoly K) =>
    if mark.contains p then appendPolygons out (extractOnePoly p (some (ids.getD p 0)) d) else out) reset

/-- `appendAndShiftMarkedPolys` (src/vw/Geometry/dPoly.cc:1730-1748), with the new marks. -/
def appendAndShiftMarkedPolys (mark : List Nat) (sx sy : K) (d : DPoly K) : DPoly K × List Nat :=
  let polys := shift sx sy (extractMarkedPolys mark d)
  let d' := appendPolygons d polys
  (d', List.range' d.numPolys (d'.numPolys - d.numPolys))

end field

/-- `eraseMarkedElements` (src/vw/Geometry/baseUtils.h:58-70): move the elements that stay to the front, then resize. -/
def eraseMarkedElements {α : Type} (dflt : α) (vals : List α) (marks : List Bool) : List α :=
  let r := forRange vals.length (fun i (st : List α × Nat) =>
    if marks.getD i false then st else (st.1.set st.2 (st.1.getD i dflt), st.2 + 1)) (vals, 0)
  r.1.take r.2

section field
variable [Field K] [LinearOrder K]

/-- `eraseMarkedPolys` (src/vw/Geometry/dPoly.cc:1667-1700). -/
def eraseMarkedPolys (mark : List Nat) (d : DPoly K) : DPoly K :=
  let m := polyLoop (fun p s n (st : List Bool × List Bool) =>
    if mark.contains p then (forRange n (fun v (dm : List Bool) => dm.set (s + v) true) st.1, st.2.set p true) else st)
    0 0 (d.numVerts.take d.numPolys) (List.replicate d.totalNumVerts false, List.replicate d.numPolys false)
  let xv := eraseMarkedElements 0 d.xv m.1
  let numVerts := eraseMarkedElements 0 d.numVerts m.2
  { d with
    xv := xv
    yv := eraseMarkedElements 0 d.yv m.1
    closed := eraseMarkedElements false d.closed m.2
    colors := eraseMarkedElements "" d.colors m.2
    layers := eraseMarkedElements "" d.layers m.2
    numVerts := numVerts
    totalNumVerts := xv.length
    numPolys := numVerts.length
    vertAnno := []
    layerAnno := [] }

/-- `eraseOnePoly` (src/vw/Geometry/dPoly.cc:825-834). -/
def eraseOnePoly (p : Nat) (d : DPoly K) : DPoly K := eraseMarkedPolys [p] d

/-- `replaceOnePoly` (src/vw/Geometry/dPoly.cc:1645-1665). -/
def replaceOnePoly (p n : Nat) (x y : List K) (d : DPoly K) : DPoly K :=
  let s := startOf d.numVerts p
  let xv := d.xv.take s ++ d.xv.drop (s + d.numVerts.getD p 0)
  let yv := d.yv.take s ++ d.yv.drop (s + d.numVerts.getD p 0)
  let xv := xv.take s ++ x.take n ++ xv.drop s
  let yv := yv.take s ++ y.take n ++ yv.drop s
  { d with
    xv := xv
    yv := yv
    numVerts := d.numVerts.set p n
    totalNumVerts := xv.length
    vertAnno := []
    layerAnno := [] }

/-- `set_color` (src/vw/Geometry/dPoly.cc:568-576): resize, then write all. -/
def setColor (color : String) (d : DPoly K) : DPoly K :=
  let c := d.colors.take d.numPolys ++ List.replicate (d.numPolys - d.colors.length) ""
  { d with colors := c.map fun _ => color }

/-- `set_isPolyClosed` (src/vw/Geometry/dPoly.cc:578-586). -/
def setClosed (b : Bool) (d : DPoly K) : DPoly K :=
  let c := d.closed.take d.numPolys ++ List.replicate (d.numPolys - d.closed.length) false
  { d with closed := c.map fun _ => b }

end field

end Verif.Geom.Polys
