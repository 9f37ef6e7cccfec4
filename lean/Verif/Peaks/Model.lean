import Mathlib.Order.Lattice
import Mathlib.Order.Defs.LinearOrder
import Mathlib.Algebra.Order.Ring.Int
import Mathlib.Analysis.SpecialFunctions.Pow.Real
import Mathlib.Analysis.SpecialFunctions.Log.Basic
/-
Model of the search for extrema, src/vw/InterestPoint/Extrema.h, and of the scale space it runs in,
src/vw/InterestPoint/ImageOctave.h.

An image is a function with a size; a read outside of it is `none` (undefined behaviour). Interest values are
elements of a linear order (no NaN). Scales and sigmas are real numbers (the code uses floats).
-/
namespace VW.Peaks

variable {α : Type} [LinearOrder α]

/-- An interest image. -/
structure Img (α : Type) where
  cols : Int
  rows : Int
  px : Int → Int → α

/-- `interest(i,j)`, column i, row j. -/
def Img.get (g : Img α) (i j : Int) : Option α :=
  if 0 ≤ i ∧ i < g.cols ∧ 0 ≤ j ∧ j < g.rows then some (g.px i j) else none

/-- A row of `if (bad(v, neighbour)) return false;` and the `return true` after it, on reads in the order of the code. -/
def passAll (bad : α → α → Bool) (v : α) : List (Option α) → Option Bool
  | [] => some true
  | none :: _ => none
  | some w :: rest => if bad v w then some false else passAll bad v rest

/-- The neighbours in the plane in the order of Extrema.h:44-55, 67-78. -/
def cross (g : Img α) (i j : Int) : List (Option α) :=
  [g.get i (j - 1), g.get i (j + 1), g.get (i - 1) j, g.get (i + 1) j]

/-- Extrema.h:51-55, 74-78, 144-147, 177-180. -/
def corners (g : Img α) (i j : Int) : List (Option α) :=
  [g.get (i - 1) (j - 1), g.get (i - 1) (j + 1), g.get (i + 1) (j - 1), g.get (i + 1) (j + 1)]

/-- `is_local_max`, Extrema.h:39-58. -/
def isLocalMax (g : Img α) (i j : Int) : Option Bool :=
  (g.get i j).bind fun v => passAll (fun v w => decide (v ≤ w)) v (cross g i j ++ corners g i j)

/-- `is_local_min`, Extrema.h:62-81. -/
def isLocalMin (g : Img α) (i j : Int) : Option Bool :=
  (g.get i j).bind fun v => passAll (fun v w => decide (v ≥ w)) v (cross g i j ++ corners g i j)

/-- `a || b` of two reads. -/
def orElse (a b : Option Bool) : Option Bool := a.bind fun x => if x then some true else b

/-- `is_local_minmax`, Extrema.h:85-87. -/
def isLocalMinmax (g : Img α) (i j : Int) : Option Bool := orElse (isLocalMax g i j) (isLocalMin g i j)

/-- The kinds of peaks, IP_MAX, IP_MIN and IP_MINMAX. -/
inductive Kind where
  | max | min | minmax
  deriving DecidableEq

/-- `is_extremum` and `IsSpatialExtremum`, Extrema.h:90-123. -/
def isExtremum (t : Kind) (g : Img α) (i j : Int) : Option Bool :=
  if t = .max then isLocalMax g i j
  else if t = .min then isLocalMin g i j
  else isLocalMinmax g i j

/-- The values of a loop variable, `for (x = lo; x < hi; x++)`. -/
def upto (lo hi : Int) : List Int := (List.range (hi - lo).toNat).map (fun (k : Nat) => lo + (k : Int))

/-- `IP_BORDER_WIDTH`, Extrema.h:32. -/
def border : Int := 1

/-- What the search records of an interest point: column, row, scale and interest. -/
structure Peak (α : Type) where
  x : Int
  y : Int
  scale : ℝ
  interest : α

/-- One pass of a loop body that appends an interest point when the check says so. -/
def visit (check : Option Bool) (p : Option (Peak α)) (acc : Option (List (Peak α))) : Option (List (Peak α)) :=
  acc.bind fun l => check.bind fun c => if c then p.map (fun p => l ++ [p]) else some l

/-- The spatial `find_peaks`, Extrema.h:229-248, on a list that holds `acc` before. -/
noncomputable def findPeaks (t : Kind) (g : Img α) (acc : List (Peak α)) : Option (List (Peak α)) :=
  (upto border (g.rows - border)).foldl (fun s j =>
    (upto border (g.cols - border)).foldl (fun s i =>
      visit (isExtremum t g i j) ((g.get i j).map fun v => ⟨i, j, 1, v⟩) s) s) (some acc)

/-! ### Space and scale -/

/-- Element of a vector of planes; `none` outside. -/
def plane (d : List (Img α)) (k : Int) : Option (Img α) := if k < 0 then none else d[k.toNat]?

/-- Same pixel location in the planes below and above, Extrema.h:140-142, 173-175. -/
def above (d : List (Img α)) (i j k : Int) : List (Option α) :=
  [(plane d (k - 1)).bind fun g => g.get i j, (plane d (k + 1)).bind fun g => g.get i j]

/-- `is_local_max` in space and scale, Extrema.h:128-155. -/
def isLocalMax3 (d : List (Img α)) (i j k : Int) : Option Bool :=
  (plane d k).bind fun g => (g.get i j).bind fun v =>
    passAll (fun v w => decide (v ≤ w)) v (cross g i j ++ above d i j k ++ corners g i j)

/-- `is_local_min` in space and scale, Extrema.h:159-187. -/
def isLocalMin3 (d : List (Img α)) (i j k : Int) : Option Bool :=
  (plane d k).bind fun g => (g.get i j).bind fun v =>
    passAll (fun v w => decide (v ≥ w)) v (cross g i j ++ above d i j k ++ corners g i j)

/-- `is_extremum`, `is_local_minmax` and `IsScaleExtremum` in space and scale, Extrema.h:190-226. -/
def isExtremum3 (t : Kind) (d : List (Img α)) (i j k : Int) : Option Bool :=
  if t = .max then isLocalMax3 d i j k
  else if t = .min then isLocalMin3 d i j k
  else orElse (isLocalMax3 d i j k) (isLocalMin3 d i j k)

/-- What `find_peaks` may do: fail an assertion, read outside, or return. -/
inductive Res (β : Type) where
  | throw
  | undefined
  | ok (v : β)

/-- `find_peaks` in space and scale, Extrema.h:252-296; `sc` is `octave.plane_index_to_scale`. The plane counter is
unsigned, which makes no difference as there is at least one plane. -/
noncomputable def findPeaks3 (t : Kind) (d : List (Img α)) (sc : Int → ℝ) (acc : List (Peak α)) :
    Res (List (Peak α)) :=
  match d with
  | [] => .throw
  | g0 :: _ =>
    if d.any (fun g => g.cols ≠ g0.cols || g.rows ≠ g0.rows) then .throw
    else
      match (upto 1 ((d.length : Int) - 1)).foldl (fun s k =>
        (upto border (g0.rows - border)).foldl (fun s j =>
          (upto border (g0.cols - border)).foldl (fun s i =>
            visit (isExtremum3 t d i j k)
              (((plane d k).bind fun g => g.get i j).map fun v => ⟨i, j, sc k, v⟩) s) s) s) (some acc) with
      | none => .undefined
      | some l => .ok l

/-! ### The octave -/

/-- `sigma_ratio`, ImageOctave.h:109. -/
noncomputable def ratio (P : Nat) : ℝ := (2 : ℝ) ^ ((1 : ℝ) / (P : ℝ))

/-- `sigma`, ImageOctave.h:105-116: the first is the initial sigma over the ratio, each next one the ratio times the
one before. -/
noncomputable def sigma (P : Nat) : Nat → ℝ
  | 0 => 1.6 / ratio P
  | i + 1 => sigma P i * ratio P

/-- `num_planes`, ImageOctave.h:102. -/
def numPlanes (P : Nat) : Nat := P + 2

/-- What is followed of an octave: the base scale and, for each plane, the square of the Gaussian sigma it was blurred
with in all, in its own pixels. Images themselves are not followed; as the code's comment says, the sigmas of
successive blurs add in quadrature, and subsampling by two halves the sigma. -/
structure Octave where
  base : Nat
  planes : Nat → ℝ

/-- `gaussian_filter` with a sigma. -/
noncomputable def blur (v s : ℝ) : ℝ := v + s ^ 2

/-- `subsample(..., 2)`. -/
noncomputable def halve (v : ℝ) : ℝ := v / 4

/-- The loop `scales[i] = gaussian_filter(scales[i-1], sqrt(...))` from plane `lo`, ImageOctave.h:150-157, 191-197. -/
noncomputable def blurFrom (P lo : Nat) (start : Nat → ℝ) : Nat → ℝ
  | 0 => start 0
  | i + 1 => if i + 1 < lo then start (i + 1)
    else blur (blurFrom P lo start i) (Real.sqrt (sigma P (i + 1) * sigma P (i + 1) - sigma P i * sigma P i))

/-- The constructor with `build_using`, ImageOctave.h:68-73, 124-160, on an image with camera blur 0.5. -/
noncomputable def Octave.first (P : Nat) : Octave :=
  let cam : ℝ := 0.5
  let p0 := if sigma P 0 > cam then blur (cam ^ 2) (Real.sqrt (sigma P 0 * sigma P 0 - cam * cam)) else cam ^ 2
  { base := 1, planes := blurFrom P 1 (fun _ => p0) }

/-- `build_next`, ImageOctave.h:164-200. -/
noncomputable def Octave.next (P : Nat) (o : Octave) : Octave :=
  let p0 := halve (o.planes (numPlanes P - 2))
  let p1 := halve (o.planes (numPlanes P - 1))
  { base := 2 * o.base, planes := blurFrom P 2 (fun k => if k = 0 then p0 else p1) }

/-- `plane_index_to_scale`, ImageOctave.h:76-79. -/
noncomputable def planeToScale (P : Nat) (base : Nat) (k : ℝ) : ℝ := (base : ℝ) * (2 : ℝ) ^ (k / (P : ℝ))

/-- Conversion to int, which cuts the fraction. -/
noncomputable def trunc (x : ℝ) : Int := if x < 0 then -⌊-x⌋ else ⌊x⌋

/-- `scale_to_plane_index`, ImageOctave.h:82-89. -/
noncomputable def scaleToPlane (P : Nat) (base : Nat) (s : ℝ) : Int :=
  trunc ((P : ℝ) * (Real.log s - Real.log (base : ℝ)) / Real.log 2 + 0.00001)

end VW.Peaks
