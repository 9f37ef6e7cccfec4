import Mathlib.Analysis.SpecialFunctions.Pow.Real
import Mathlib.Algebra.Order.Floor.Ring
/-
Model of the distance functions, src/vw/Image/DistanceFunction.{h,cc}.

Distances are real numbers (exact arithmetic), sizes are unbounded. An image is a function with a size; the distance
image is a function of the pixel, of which only the pixels of the image matter. Every read and write of the code is
guarded by the size, so none is outside.
-/
namespace VW.Dist

/-- Column and row. -/
abbrev Pix := Int × Int

/-- Sizes of an image. -/
structure Size where
  cols : Int
  rows : Int

/-- A distance image. -/
abbrev DImg := Pix → ℝ

/-- `for (v = lo; v < hi; v++)`. -/
def rng (lo hi : Int) : List Int := (List.range (hi - lo).toNat).map (fun (k : Nat) => lo + (k : Int))

/-- Two loops, the columns outside. -/
def pairs (c0 c1 r0 r1 : Int) : List Pix := (rng c0 c1).flatMap fun c => (rng r0 r1).map fun r => (c, r)

/-- `c < 0 || c >= cols || r < 0 || r >= rows`, negated. -/
def Size.has (s : Size) (p : Pix) : Bool := !(p.1 < 0 || p.1 ≥ s.cols || p.2 < 0 || p.2 ≥ s.rows)

/-- `dist(c, r) = v`. -/
def DImg.set (d : DImg) (p : Pix) (v : ℝ) : DImg := fun q => if q = p then v else d q

/-- `double(c - col) * double(c - col) + double(r - row) * double(r - row)`. -/
def dsq (p q : Pix) : ℝ := ((p.1 - q.1 : Int) : ℝ) * ((p.1 - q.1 : Int) : ℝ) + ((p.2 - q.2 : Int) : ℝ) * ((p.2 - q.2 : Int) : ℝ)

/-- The search for a neighbour with `good`, DistanceFunction.cc:61-73, DistanceFunction.h:80-92. -/
def hasNeighbour (s : Size) (good : Pix → Prop) [DecidablePred good] (q : Pix) : Bool :=
  (pairs (q.1 - 1) (q.1 + 1 + 1) (q.2 - 1) (q.2 + 1 + 1)).any fun p => s.has p && decide (good p)

/-- The loops about a boundary pixel `q`, DistanceFunction.cc:78-100, DistanceFunction.h:98-117; `upd p cur d` is the
new value at `p` given the one before and the distance. -/
noncomputable def paint (s : Size) (M : ℝ) (upd : Pix → ℝ → ℝ → ℝ) (q : Pix) (D : DImg) : DImg :=
  (pairs (q.1 - ⌈M⌉) (q.1 + ⌈M⌉ + 1) (q.2 - ⌈M⌉) (q.2 + ⌈M⌉ + 1)).foldl (fun D p =>
    if s.has p = false then D
    else if dsq p q ≥ M * M then D
    else D.set p (upd p (D p) (Real.sqrt (dsq p q)))) D

open Classical in
/-- `bounded_dist`, DistanceFunction.cc:36-107; `none` is the exception. -/
noncomputable def boundedDist (s : Size) (image : Pix → Int) (M : ℝ) : Option DImg :=
  if M < 0 then none
  else
    let D0 : DImg := fun p =>
      if image p ≠ 0 ∧ p.1 > 0 ∧ p.1 < s.cols - 1 ∧ p.2 > 0 ∧ p.2 < s.rows - 1 then M else 0
    some ((pairs 0 s.cols 0 s.rows).foldl (fun D q =>
      if D q > 0 then D
      else if hasNeighbour s (fun p => D p > 0) q = false then D
      else paint s M (fun _ cur d => if cur > 0 then min cur d else cur) q D) D0)

/-- `bounded_signed_dist`, DistanceFunction.h:52-124; `none` is the exception. -/
noncomputable def boundedSignedDist (s : Size) (valid : Pix → Bool) (M : ℝ) : Option DImg :=
  if M < 0 then none
  else
    let D0 : DImg := fun p => if valid p then M else -M
    some ((pairs 0 s.cols 0 s.rows).foldl (fun D q =>
      if valid q then D
      else if hasNeighbour s (fun p => valid p = true) q = false then D
      else paint s M (fun p cur d => if valid p then min cur d else max cur (-d)) q D) D0)

end VW.Dist
