import Verif.VecUtil.Model
/-
Model of the error minimised to project a point in a linescan camera, src/vw/Camera/LinescanErr.cc.

Arithmetic is exact; vectors are those of C164. A division by 0 is `none`, as is an exception.
-/
namespace VW.Linescan

open VW.VecUtil

/-- `dot_prod`. -/
def dotProd (a b : V3) : ℝ := a.x * b.x + a.y * b.y + a.z * b.z

/-- `a - b`. -/
def sub (a b : V3) : V3 := ⟨a.x - b.x, a.y - b.y, a.z - b.z⟩

open Classical in
/-- `normalize`; `none` is a division by 0. -/
noncomputable def normalize (v : V3) : Option V3 := if v.norm = 0 then none else some (v.over v.norm)

open Classical in
/-- The search for the smallest coordinate, LinescanErr.cc:37-41. -/
noncomputable def minIdx (v : V3) : Nat :=
  let m := 0
  let m := if |v.get 1| < |v.get m| then 1 else m
  let m := if |v.get 2| < |v.get m| then 2 else m
  m

open Classical in
/-- `findPerpVecs`, LinescanErr.cc:28-66. -/
noncomputable def findPerpVecs (vec : V3) : Option (V3 × V3) :=
  if |vec.norm - 1| > 1 / 100000 then none
  else
    let i := minIdx vec
    let j := if i = 0 then 1 else 0
    let k := if i = 0 then 2 else if i = 1 then 2 else 1
    let p : V3 := ⟨0, 0, 0⟩
    let p := p.set i 0
    let p := p.set j (-vec.get k)
    let p := p.set k (vec.get j)
    (normalize p).bind fun perp1 => (normalize (vec.cross perp1)).map fun perp2 => (perp1, perp2)

/-- A camera: centre and direction of each pixel. -/
structure Camera (P : Type) where
  center : P → V3
  dir : P → V3

/-- The constructor, LinescanErr.cc:68-77: `m_perp1` and `m_perp2`. -/
noncomputable def make {P : Type} (c : Camera P) (pt : V3) (guess : P) : Option (V3 × V3) :=
  (normalize (sub pt (c.center guess))).bind findPerpVecs

open Classical in
/-- `LinescanErr::operator()`, LinescanErr.cc:81-106. -/
noncomputable def err {P : Type} (c : Camera P) (pt : V3) (perp : V3 × V3) (pix : P) : Option (ℝ × ℝ) :=
  let camCtr := c.center pix
  let d := (sub pt camCtr).norm
  if d = 0 then none
  else
    let groundDir := (sub pt camCtr).over d
    let diff := sub (c.dir pix) groundDir
    some (dotProd diff perp.1 * d, dotProd diff perp.2 * d)

end VW.Linescan
