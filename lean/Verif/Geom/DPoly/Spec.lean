import Mathlib.Data.List.Basic
import Mathlib.Data.List.GetD
import Verif.Geom.DPoly.Model

/-
The specification of a set of polygons: a list of polygons, a polygon being its list of vertices with its attributes.
-/

namespace Verif.Geom.Polys

open Verif.Geom.Poly

variable {K : Type}

/-- A polygon. -/
structure Poly (K : Type) where
  verts : List (Pt K)
  closed : Bool
  color : String
  layer : String
deriving DecidableEq

/-- What the accessors of a `dPoly` that holds the polygons `ps` return: the coordinates of all the vertices, polygon after
polygon, how many vertices each polygon has, how many polygons and vertices there are, and the attributes. -/
structure Rep (d : DPoly K) (ps : List (Poly K)) : Prop where
  xv : d.xv = (ps.flatMap (·.verts)).map Prod.fst
  yv : d.yv = (ps.flatMap (·.verts)).map Prod.snd
  numVerts : d.numVerts = ps.map (·.verts.length)
  numPolys : d.numPolys = ps.length
  total : d.totalNumVerts = (ps.map (·.verts.length)).sum
  closed : d.closed = ps.map (·.closed)
  colors : d.colors = ps.map (·.color)
  layers : d.layers = ps.map (·.layer)

/-- Apply `f` to the vertices of a polygon. -/
def Poly.onVerts (f : List (Pt K) → List (Pt K)) (p : Poly K) : Poly K := { p with verts := f p.verts }

end Verif.Geom.Polys
