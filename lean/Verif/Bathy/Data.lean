import Verif.Bathy.Model
import Verif.Integral.Model

/-
Model of src/vw/Cartography/BathyData.cc: the fit of a plane to points, the masks, the list of planes.  Numbers are exact.
Reading of files is not modelled.
-/

namespace Verif.Camera.Bathy

variable {K : Type} [Field K] [LinearOrder K]

/-- The sums of `fitPlaneToPoints` (src/vw/Cartography/BathyData.cc:75-87). -/
structure Sums (K : Type) where
  n : K
  x : K
  y : K
  z : K
  xx : K
  yy : K
  xy : K
  xz : K
  yz : K

/-- One round of the loop. -/
def sumStep (s : Sums K) (p : V3 K) : Sums K :=
  ⟨s.n + 1, s.x + p.x, s.y + p.y, s.z + p.z, s.xx + p.x * p.x, s.yy + p.y * p.y, s.xy + p.x * p.y, s.xz + p.x * p.z, s.yz + p.y * p.z⟩

/-- The loop. -/
def sums (pts : List (V3 K)) : Sums K := pts.foldl sumStep ⟨0, 0, 0, 0, 0, 0, 0, 0, 0⟩

/-- `solve_symmetric` (src/vw/Math/LinearAlgebra.h:404-450) for three unknowns: the Cholesky decomposition of LAPACK's posv,
written without square roots; an error if the matrix is not positive definite. -/
def solveSym (a00 a10 a11 a20 a21 a22 b0 b1 b2 : K) : Option (K × K × K) :=
  if a00 ≤ 0 then none
  else
    let l10 := a10 / a00
    let l20 := a20 / a00
    let d1 := a11 - l10 * l10 * a00
    if d1 ≤ 0 then none
    else
      let l21 := (a21 - l20 * l10 * a00) / d1
      let d2 := a22 - l20 * l20 * a00 - l21 * l21 * d1
      if d2 ≤ 0 then none
      else
        let y1 := b1 - l10 * b0
        let y2 := b2 - l20 * b0 - l21 * y1
        let x2 := y2 / d2
        let x1 := y1 / d1 - l21 * x2
        let x0 := b0 / a00 - l10 * x1 - l20 * x2
        some (x0, x1, x2)

/-- `fitPlaneToPoints` (src/vw/Cartography/BathyData.cc:66-112); no value: an exception. -/
def fitPlane (sqrt : K → K) (pts : List (V3 K)) : Option (Plane K) :=
  if pts.length < 3 then none
  else
    let s := sums pts
    match solveSym s.xx s.xy s.yy s.x s.y s.n s.xz s.yz s.z with
    | none => none
    | some (alpha, beta, gamma) =>
      let a := -alpha
      let b := -beta
      let c := 1
      let d := -gamma
      let nrm := sqrt (a * a + b * b + c * c)
      some ⟨⟨a / nrm, b / nrm, c / nrm⟩, d / nrm⟩

/-- `read_bathy_mask` (src/vw/Cartography/BathyData.cc:117-147): a pixel of the file is valid, that is land; `nodata` is the value
of the file if it has one (else nothing is equal to the default). -/
def landPixel (nodata : Option ℚ) (v : ℚ) : Bool :=
  let valid := match nodata with
    | none => true
    | some d => !decide (v = d)
  if valid && decide (v ≤ 0) then false else valid

/-- `areMasked` (src/vw/Cartography/BathyData.cc:160-175); a mask is its size and the validity of its pixels. -/
def areMasked (lc lr : Int) (lm : Int → Int → Bool) (rc rr : Int) (rm : Int → Int → Bool) (lp rp : ℚ × ℚ) : Bool :=
  let lx := VW.Integral.cround lp.1
  let ly := VW.Integral.cround lp.2
  let rx := VW.Integral.cround rp.1
  let ry := VW.Integral.cround rp.2
  if lx < 0 ∨ lc ≤ lx ∨ ly < 0 ∨ lr ≤ ly then false
  else if rx < 0 ∨ rc ≤ rx ∨ ry < 0 ∨ rr ≤ ry then false
  else !lm lx ly && !rm rx ry

/-- `readBathyPlanes` (src/vw/Cartography/BathyData.cc:425-446) after the files were read; no value: an exception. -/
def clonePlanes {α : Type} (read : List α) (num : Nat) : Option (List α) :=
  if read.length ≠ 1 ∧ read.length ≠ num then none
  else
    match read with
    | [] => some []
    | a :: l => some ((a :: l) ++ List.replicate (num - (l.length + 1)) a)

end Verif.Camera.Bathy
