import Mathlib.Analysis.SpecialFunctions.Pow.Real
/-
Model of src/vw/Math/VectorUtils.cc and src/vw/Image/RoundAndClamp.h.

Arithmetic is exact. A division of a vector by 0 is `none` (NaN in the code).
-/
namespace VW.VecUtil

/-- `Vector3`. -/
@[ext] structure V3 where
  x : ℝ
  y : ℝ
  z : ℝ

namespace V3

/-- `v[i]`. -/
def get (v : V3) (i : Nat) : ℝ := if i = 0 then v.x else if i = 1 then v.y else v.z

/-- `v[i] = a`. -/
def set (v : V3) (i : Nat) (a : ℝ) : V3 :=
  if i = 0 then { v with x := a } else if i = 1 then { v with y := a } else { v with z := a }

/-- `v / a`. -/
noncomputable def over (v : V3) (a : ℝ) : V3 := ⟨v.x / a, v.y / a, v.z / a⟩

/-- `v * a`. -/
def times (v : V3) (a : ℝ) : V3 := ⟨v.x * a, v.y * a, v.z * a⟩

/-- `norm_2`. -/
noncomputable def norm (v : V3) : ℝ := Real.sqrt (v.x * v.x + v.y * v.y + v.z * v.z)

/-- `cross_prod`. -/
def cross (a b : V3) : V3 := ⟨a.y * b.z - a.z * b.y, a.z * b.x - a.x * b.z, a.x * b.y - a.y * b.x⟩

end V3

/-- What `formBasis` may do. -/
inductive Basis where
  | throw
  | nan
  | ok (X Y Z : V3)

open Classical in
/-- The search for the largest component, VectorUtils.cc:41-48. -/
noncomputable def maxIdx (Z : V3) : Nat :=
  let s : Nat × ℝ := (0, |Z.get 0|)
  let s := if |Z.get 1| > s.2 then (1, |Z.get 1|) else s
  let s := if |Z.get 2| > s.2 then (2, |Z.get 2|) else s
  s.1

open Classical in
/-- `formBasis`, VectorUtils.cc:30-62. -/
noncomputable def formBasis (V : V3) : Basis :=
  let norm := V.norm
  if norm = 0 then .throw
  else
    let Z := V.over norm
    let idx1 := (maxIdx Z + 1) % 3
    let idx2 := (maxIdx Z + 2) % 3
    let X : V3 := ⟨0, 0, 0⟩
    let X := X.set idx1 (-Z.get idx2)
    let X := X.set idx2 (Z.get idx1)
    if X.norm = 0 then .nan
    else
      let X := X.over X.norm
      .ok X (Z.cross X) Z

/-- `normalize(v) * offset`, VectorUtils.cc:85-86. -/
noncomputable def scaled (v : V3) (offset : ℝ) : V3 := (v.over v.norm).times offset

open Classical in
/-- `computePlaneTangents`, VectorUtils.cc:67-87; `none` is a division by 0. -/
noncomputable def planeTangents (n : V3) (offset : ℝ) : Option (V3 × V3) :=
  if |n.z| > 1 / 10 then some (scaled ⟨1, 0, -n.x / n.z⟩ offset, scaled ⟨0, 1, -n.y / n.z⟩ offset)
  else if |n.y| > 1 / 10 then some (scaled ⟨1, -n.x / n.y, 0⟩ offset, scaled ⟨0, -n.z / n.y, 1⟩ offset)
  else if n.x = 0 then none
  else some (scaled ⟨-n.y / n.x, 1, 0⟩ offset, scaled ⟨-n.z / n.x, 0, 1⟩ offset)

/-! ### RoundAndClamp.h -/

/-- `round`: halves away from 0. -/
noncomputable def round (v : ℝ) : Int := if 0 ≤ v then ⌊v + 1 / 2⌋ else ⌈v - 1 / 2⌉

open Classical in
/-- `round_and_clamp`, RoundAndClamp.h:36-49, for a type of the integers from `lo` to `hi`, whose limits as `double` are
`dlo` and `dhi`; `none` is a conversion out of range. -/
noncomputable def roundAndClamp (lo hi dlo dhi : Int) (val : ℝ) : Option Int :=
  let v := round val
  let v := if v < dlo then dlo else v
  let v := if v > dhi then dhi else v
  if lo ≤ v ∧ v ≤ hi then some v else none

end VW.VecUtil
