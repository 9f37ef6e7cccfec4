import Mathlib.Analysis.SpecialFunctions.Pow.Real
import Mathlib.Algebra.BigOperators.Fin
/-
Model of the Catmull-Rom curve, src/vw/Math/Catmull_Rom_spline.h.

Numbers are real (exact arithmetic); points have any dimension. `eps` stands for the machine epsilon.
-/
namespace VW.Spline

/-- A point of dimension d. -/
abbrev Pt (d : Nat) := Fin d → ℝ

/-- `alpha_distance`, Catmull_Rom_spline.h:31-41. -/
noncomputable def alphaDistance {d : Nat} (p q : Pt d) (alpha : ℝ) : ℝ :=
  (∑ i, (p i - q i) * (p i - q i)) ^ (alpha / 2)

/-- The members: the number n of control points, `m_pnts` and `m_s`, both of n + 3 elements, and `m_max_s`. -/
structure Curve (d : Nat) where
  n : Nat
  pnt : Nat → Pt d
  knot : Nat → ℝ
  maxS : ℝ

/-- What a call may do. -/
inductive Res (β : Type) where
  | throw
  | undefined
  | ok (v : β)

/-- `m_pnts` after Catmull_Rom_spline.h:95-107: the last point, all points, the first two. The moves in place are not
followed. -/
def extended {d : Nat} (n : Nat) (p : Nat → Pt d) (k : Nat) : Pt d :=
  if k = 0 then p (n - 1) else if k ≤ n then p (k - 1) else if k = n + 1 then p 0 else p 1

/-- `m_s`, Catmull_Rom_spline.h:109-122. -/
noncomputable def knots {d : Nat} (P : Nat → Pt d) (alpha : ℝ) : Nat → ℝ
  | 0 => -alphaDistance (P 0) (P 1) alpha
  | 1 => 0
  | i + 2 => knots P alpha (i + 1) + alphaDistance (P (i + 2)) (P (i + 1)) alpha

open Classical in
/-- The constructor, Catmull_Rom_spline.h:80-132, on the points `p 0`, ..., `p (n-1)`. -/
noncomputable def Curve.make {d : Nat} (eps : ℝ) (n : Nat) (p : Nat → Pt d) (closed : Bool) (alpha : ℝ) : Res (Curve d) :=
  if n < 4 then .throw
  else if alpha < 0 ∨ alpha > 1 then .throw
  else
    let P := extended n p
    let s := knots P alpha
    if |s 0| < eps then .throw
    else if (List.range (n + 3)).any (fun i => decide (2 ≤ i ∧ |alphaDistance (P i) (P (i - 1)) alpha| < eps)) then .throw
    else .ok { n := n, pnt := P, knot := s, maxS := if closed then s (n + 1) else s n }

/-- `parameter_at_point`, Catmull_Rom_spline.h:56-59. -/
def Curve.parameterAt {d : Nat} (c : Curve d) (i : Nat) : ℝ := c.knot (i + 1)

open Classical in
/-- `std::upper_bound(m_s.begin(), m_s.end(), s)` as an index. -/
noncomputable def Curve.upper {d : Nat} (c : Curve d) (s : ℝ) : Nat :=
  ((List.range (c.n + 3)).find? (fun k => decide (s < c.knot k))).getD (c.n + 3)

/-- The computation with the four knots about segment i, for one coordinate, Catmull_Rom_spline.h:146-191. -/
noncomputable def segment (s0 s1 s2 s3 p0 p1 p2 p3 s : ℝ) : ℝ :=
  let denom21 := 1 / (s2 - s1)
  let s0s := s0 - s
  let s1s := s1 - s
  let s2s := s2 - s
  let s3s := s3 - s
  let A1 := (1 / (s1 - s0)) * (s1s * p0 - s0s * p1)
  let A2 := denom21 * (s2s * p1 - s1s * p2)
  let B1 := (1 / (s2 - s0)) * (s2s * A1 - s0s * A2)
  let A3 := (1 / (s3 - s2)) * (s3s * p2 - s2s * p3)
  let B2 := (1 / (s3 - s1)) * (s3s * A2 - s1s * A3)
  denom21 * (s2s * B1 - s1s * B2)

/-- The computation of `prime` with the four knots about segment i, for one coordinate, Catmull_Rom_spline.h:206-285.
`B1` is formed with the `k1` and `k2` left from `A2`. -/
noncomputable def segmentPrime (s0 s1 s2 s3 p0 p1 p2 p3 s : ℝ) : ℝ :=
  let A1 := ((s1 - s) * (1 / (s1 - s0))) * p0 + ((s - s0) * (1 / (s1 - s0))) * p1
  let A1p := (1 / (s1 - s0)) * (p1 - p0)
  let k1 := (s2 - s) * (1 / (s2 - s1))
  let k2 := (s - s1) * (1 / (s2 - s1))
  let A2 := k1 * p1 + k2 * p2
  let A2p := (1 / (s2 - s1)) * (p2 - p1)
  let B1 := k1 * A1 + k2 * A2
  let A3 := ((s3 - s) * (1 / (s3 - s2))) * p2 + ((s - s2) * (1 / (s3 - s2))) * p3
  let A3p := (1 / (s3 - s2)) * (p3 - p2)
  let B2 := ((s3 - s) * (1 / (s3 - s1))) * A2 + ((s - s1) * (1 / (s3 - s1))) * A3
  let B1p := (1 / (s2 - s0)) * (A2 - A1 + (s2 - s) * A1p + (s - s0) * A2p)
  let B2p := (1 / (s3 - s1)) * (A3 - A2 + (s3 - s) * A2p + (s - s1) * A3p)
  (1 / (s2 - s1)) * (B2 - B1 + (s2 - s) * B1p + (s - s1) * B2p)

open Classical in
/-- The range check, the search and the reads shared by `operator()` and `prime`, Catmull_Rom_spline.h:136-144,
198-205: `undefined` is a read outside of `m_s` or `m_pnts`. -/
noncomputable def Curve.at {d : Nat} (c : Curve d) (f : ℝ → ℝ → ℝ → ℝ → ℝ → ℝ → ℝ → ℝ → ℝ → ℝ) (s : ℝ) : Res (Pt d) :=
  if s < 0 ∨ s > c.maxS then .throw
  else
    let i : Int := (c.upper s : Int) - 1
    if i - 1 < 0 ∨ i + 2 ≥ (c.n : Int) + 3 then .undefined
    else
      let i := i.toNat
      .ok fun j => f (c.knot (i - 1)) (c.knot i) (c.knot (i + 1)) (c.knot (i + 2))
        (c.pnt (i - 1) j) (c.pnt i j) (c.pnt (i + 1) j) (c.pnt (i + 2) j) s

/-- `operator()`, Catmull_Rom_spline.h:135-192. -/
noncomputable def Curve.eval {d : Nat} (c : Curve d) (s : ℝ) : Res (Pt d) := c.at segment s

/-- `prime`, Catmull_Rom_spline.h:194-287. -/
noncomputable def Curve.prime {d : Nat} (c : Curve d) (s : ℝ) : Res (Pt d) := c.at segmentPrime s

end VW.Spline
