import Mathlib.Analysis.InnerProductSpace.Basic
import Mathlib.Analysis.InnerProductSpace.PiL2
import Mathlib.Analysis.Real.Sqrt

/-! Model of `SphereBase` and `Sphere` (`src/vw/Geometry/Sphere.h`).

Exact real numbers; the space `E` is any real space with an inner product and at least one direction, such as `EuclideanSpace ℝ (Fin n)`, the
vectors of dimension `n`, for any `n > 0`. `norm_2` is its norm. The checks that dimensions agree are not modelled: all vectors are in `E`. -/

namespace VW.Sphere

variable {E : Type*} [NormedAddCommGroup E] [InnerProductSpace ℝ E]

/-- The members (Sphere.h:239-241). -/
structure Sph (E : Type*) where
  center : E
  radius : ℝ
  empty : Bool

/-- The default constructor (Sphere.h:47): the radius is not initialized, here a parameter. -/
def Sph.none (r : ℝ) : Sph E := ⟨0, r, true⟩

/-- Center and radius (Sphere.h:50-52). -/
def Sph.of (c : E) (r : ℝ) : Sph E := ⟨c, r, false⟩

/-- `grow` to a point (Sphere.h:74-94). -/
noncomputable def growPoint (s : Sph E) (p : E) : Sph E :=
  if s.empty then ⟨p, 0, false⟩
  else
    let v := p - s.center
    let dist := ‖v‖
    if dist > s.radius then
      let half := (dist - s.radius) / 2
      let c := s.center + half • (dist⁻¹ • v)
      let dist' := ‖p - c‖
      ⟨c, if dist' > 0 then s.radius + dist' else s.radius, false⟩
    else s

open Classical in
/-- `grow` to a sphere (Sphere.h:98-110). If the centers agree, `normalize` divides by zero and the point is not a number; no comparison with
it holds, so that nothing changes. -/
noncomputable def growSphere (s o : Sph E) : Sph E :=
  if o.empty then s
  else if s.empty then o
  else
    let v := o.center - s.center
    if v = 0 then s
    else growPoint s (o.center + o.radius • (‖v‖⁻¹ • v))

/-- `crop` (Sphere.h:114-149). -/
noncomputable def crop (s o : Sph E) : Sph E :=
  if s.empty || o.empty then s
  else
    let v := o.center - s.center
    let dist := ‖v‖
    if dist > s.radius + o.radius then ⟨s.center, 0, true⟩
    else if dist ≤ s.radius - o.radius then ⟨o.center, o.radius, s.empty⟩
    else if dist ≤ o.radius - s.radius then s
    else if s.radius ≥ dist then ⟨o.center, o.radius, s.empty⟩
    else if o.radius ≥ dist then s
    else
      let x := (dist + (s.radius * s.radius - o.radius * o.radius) / dist) / 2
      ⟨s.center + x • (dist⁻¹ • v), Real.sqrt (s.radius * s.radius - x * x), s.empty⟩

/-- `expand` (Sphere.h:152-155). -/
def expand (s : Sph E) (d : ℝ) : Sph E := if s.empty then s else { s with radius := s.radius + d }

/-- `contract` (Sphere.h:158-161). -/
def contract (s : Sph E) (d : ℝ) : Sph E := if s.empty then s else { s with radius := s.radius - d }

/-- `contains` a point (Sphere.h:165-168). -/
def Contains (s : Sph E) (p : E) : Prop := s.empty = false ∧ ‖s.center - p‖ ≤ s.radius

/-- `contains` a sphere (Sphere.h:173-175). -/
def ContainsSphere (s o : Sph E) : Prop := s.empty = false ∧ o.empty = false ∧ ‖s.center - o.center‖ ≤ s.radius - o.radius

/-- `intersects` (Sphere.h:180-182). -/
def Intersects (s o : Sph E) : Prop := s.empty = false ∧ o.empty = false ∧ ‖s.center - o.center‖ ≤ s.radius + o.radius

/-- `operator*=` (Sphere.h:210-214). -/
def scale (s : Sph E) (k : ℝ) : Sph E := ⟨k • s.center, s.radius * k, s.empty⟩

/-- `operator+=` (Sphere.h:226-229). -/
def offset (s : Sph E) (v : E) : Sph E := ⟨s.center + v, s.radius, s.empty⟩

/-- Equality (Sphere.h:290-292). -/
def Equal (s o : Sph E) : Prop := s.center = o.center ∧ s.radius = o.radius

/-- The constructor from a sphere of another type, or from a `SphereBase` (Sphere.h:339-341, 378-380). -/
def convert (s : Sph E) : Sph E := Sph.of s.center s.radius

end VW.Sphere
