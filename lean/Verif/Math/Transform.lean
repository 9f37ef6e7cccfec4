import Verif.BBox.Model
import Verif.Block.Model
import Verif.Math.Inverse
/-
Model of the transform functors of `src/vw/Math/Transform.h` and of `compute_transformed_bbox` and
`compute_transformed_bbox_fast`, `src/vw/Image/Transform.h`.

Coordinates are those of a linearly ordered field with a floor function (exact arithmetic; division by zero,
which in the program gives inf or nan, gives zero here: the theorems keep away from it).  Pixel coordinates
and boxes of pixels are unbounded integers.  The default `forward` and `reverse` of `Transform`, a
Levenberg-Marquardt search, are not modelled.
-/
namespace VW.Warp
open VW.Block (Rect)
open VW.BBox (Box growToInt big32)
open VW.Matrix (Mat)

/-- `Vector2`. -/
structure Pt (K : Type) where
  x : K
  y : K
deriving DecidableEq

variable {K : Type}

/-- A `Vector2` as the point of a `BBox`. -/
def Pt.vec (p : Pt K) : Fin 2 → K := fun i => if i = 0 then p.x else p.y

/-- `FunctionType`, Transform.h:35-39. -/
inductive FType where
  | convex
  | continuous
  | discontinuous
deriving DecidableEq

/-- A transform functor: what its four virtual functions return. -/
structure Tx (K : Type) where
  forward : Pt K → Pt K
  reverse : Pt K → Pt K
  forwardType : FType
  reverseType : FType

/-- `lo ≤ i < hi`, in order. -/
def intRange (lo hi : Int) : List Int := (List.range (hi - lo).toNat).map fun (k : Nat) => lo + (k : Int)

/-- The pixels whose transforms `forward_bbox` and `reverse_bbox` look at, Transform.h:150-172 and 181-203, in
order. -/
def samples (t : FType) (b : Rect) : List (Int × Int) :=
  match t with
  | .convex => [(b.x0, b.y0), (b.x1 - 1, b.y0), (b.x0, b.y1 - 1), (b.x1 - 1, b.y1 - 1)]
  | .continuous =>
    ((intRange b.x0 b.x1).flatMap fun x => [(x, b.y0), (x, b.y1 - 1)]) ++
    ((intRange (b.y0 + 1) (b.y1 - 1)).flatMap fun y => [(b.x0, y), (b.x1 - 1, y)])
  | .discontinuous => (intRange b.y0 b.y1).flatMap fun y => (intRange b.x0 b.x1).map fun x => (x, y)

section field
variable [Field K] [LinearOrder K]

/-- A pixel as a `Vector2`. -/
def pixel (q : Int × Int) : Pt K := ⟨q.1, q.2⟩

/-- Growing an empty box by the transforms of pixels. -/
def growAll (f : Pt K → Pt K) (l : List (Int × Int)) : Box K 2 :=
  l.foldl (fun b q => b.growPt (f (pixel q)).vec) (Box.default 2 (big32 : K))

/-- A `BBox<.,2>` as a `Rect`. -/
def toRect (b : Box Int 2) : Rect := ⟨b.min 0, b.min 1, b.max 0, b.max 1⟩

variable [IsStrictOrderedRing K] [FloorRing K]

/-- The body of `forward_bbox` and `reverse_bbox`, Transform.h:145-174 and 176-205. -/
def boxOf (f : Pt K → Pt K) (t : FType) (b : Rect) : Rect :=
  if b.empty then toRect (Box.default 2 big32)
  else toRect (growToInt (growAll f (samples t b)))

/-- `forward_bbox`, Transform.h:145-174. -/
def Tx.forwardBBox (t : Tx K) (b : Rect) : Rect := boxOf t.forward t.forwardType b

/-- `reverse_bbox`, Transform.h:176-205. -/
def Tx.reverseBBox (t : Tx K) (b : Rect) : Rect := boxOf t.reverse t.reverseType b

end field

section functors
variable [Field K] [LinearOrder K]

/-- `IdentityTransform`, Transform.h:231-237. -/
def identity : Tx K := ⟨id, id, .convex, .convex⟩

/-- `ResampleTransform`, Transform.h:242-263. -/
def resample (fx fy : K) : Tx K :=
  { forward := fun p => ⟨p.x * fx, p.y * fy⟩, reverse := fun p => ⟨p.x / fx, p.y / fy⟩,
    forwardType := .convex, reverseType := .convex }

/-- `TranslateTransform`, Transform.h:267-288. -/
def translate (tx ty : K) : Tx K :=
  { forward := fun p => ⟨p.x + tx, p.y + ty⟩, reverse := fun p => ⟨p.x - tx, p.y - ty⟩,
    forwardType := .convex, reverseType := .convex }

/-- A 2x2 matrix times a vector. -/
def apply2 (M : Mat K) (p : Pt K) : Pt K := ⟨M 0 0 * p.x + M 0 1 * p.y, M 1 0 * p.x + M 1 1 * p.y⟩

/-- `LinearTransform`, Transform.h:292-306; `none` is the exception of `inverse`. -/
def linear (M : Mat K) : Option (Tx K) :=
  (VW.Matrix.inverse2 M).map fun I => ⟨apply2 M, apply2 I, .convex, .convex⟩

/-- `AffineTransform`, Transform.h:310-341. -/
def affine (M : Mat K) (o : Pt K) : Option (Tx K) :=
  (VW.Matrix.inverse2 M).map fun I =>
    { forward := fun p => ⟨M 0 0 * p.x + M 0 1 * p.y + o.x, M 1 0 * p.x + M 1 1 * p.y + o.y⟩,
      reverse := fun p =>
        let px := p.x - o.x
        let py := p.y - o.y
        ⟨I 0 0 * px + I 0 1 * py, I 1 0 * px + I 1 1 * py⟩,
      forwardType := .convex, reverseType := .convex }

/-- `RotateTransform`, Transform.h:349-363, of which `c` and `s` are the cosine and the sine of the angle. -/
def rotate (c s : K) (o : Pt K) : Option (Tx K) :=
  let R : Mat K := fun i j => if i = 0 then (if j = 0 then c else -s) else (if j = 0 then s else c)
  let q := apply2 R o
  affine R ⟨o.x - q.x, o.y - q.y⟩

/-- The denominator of a homography, Transform.h:377, 383. -/
def weight (H : Mat K) (p : Pt K) : K := H 2 0 * p.x + H 2 1 * p.y + H 2 2

/-- A homography, Transform.h:376-387. -/
def project (H : Mat K) (p : Pt K) : Pt K :=
  ⟨(H 0 0 * p.x + H 0 1 * p.y + H 0 2) / weight H p, (H 1 0 * p.x + H 1 1 * p.y + H 1 2) / weight H p⟩

/-- `HomographyTransform`, Transform.h:369-390. -/
def homography (H : Mat K) : Option (Tx K) :=
  (VW.Matrix.inverse 3 H).map fun I => ⟨project H, project I, .convex, .convex⟩

/-- `InverseTransform`, Transform.h:395-411. -/
def Tx.inverse (t : Tx K) : Tx K := ⟨t.reverse, t.forward, t.reverseType, t.forwardType⟩

/-- `compose_type`, Transform.h:445-449. -/
def composeType (f g : FType) : FType :=
  if f = .discontinuous ∨ g = .discontinuous then .discontinuous
  else if f = .continuous ∨ g = .continuous then .continuous
  else .convex

/-- `CompositionTransform`, Transform.h:430-453. -/
def compose (t1 t2 : Tx K) : Tx K :=
  { forward := fun p => t1.forward (t2.forward p), reverse := fun p => t2.reverse (t1.reverse p),
    forwardType := composeType t1.forwardType t2.forwardType,
    reverseType := composeType t1.reverseType t2.reverseType }

/-- `affine2mat`, Transform.h:508-521. -/
def affine2mat (t : Tx K) : Mat K :=
  let O := t.forward ⟨0, 0⟩
  let A := t.forward ⟨1, 0⟩
  let B := t.forward ⟨0, 1⟩
  fun i j =>
    if i = 0 then (if j = 0 then A.x - O.x else if j = 1 then B.x - O.x else O.x)
    else if i = 1 then (if j = 0 then A.y - O.y else if j = 1 then B.y - O.y else O.y)
    else (if j = 2 then 1 else 0)

/-- `mat2affine`, Transform.h:523-525. -/
def mat2affine (T : Mat K) : Option (Tx K) := affine T ⟨T 0 2, T 1 2⟩

/-- Expressions a user can build out of the functors with `inverse` and `compose` (Transform.h:415-418,
457-484). -/
inductive Expr (K : Type) where
  | identity
  | resample (fx fy : K)
  | translate (tx ty : K)
  | linear (M : Mat K)
  | affine (M : Mat K) (o : Pt K)
  | rotate (c s : K) (o : Pt K)
  | homography (H : Mat K)
  | inverse (e : Expr K)
  | compose (a b : Expr K)

/-- The functor of an expression, or an exception. -/
def Expr.build : Expr K → Option (Tx K)
  | .identity => some VW.Warp.identity
  | .resample fx fy => some (VW.Warp.resample fx fy)
  | .translate tx ty => some (VW.Warp.translate tx ty)
  | .linear M => VW.Warp.linear M
  | .affine M o => VW.Warp.affine M o
  | .rotate c s o => VW.Warp.rotate c s o
  | .homography H => VW.Warp.homography H
  | .inverse e => e.build.map Tx.inverse
  | .compose a b => do
    let t1 ← a.build
    let t2 ← b.build
    return VW.Warp.compose t1 t2

/-! ### The size of a transformed image -/

/-- `compute_transformed_bbox`, Image/Transform.h:246-253 (without the warnings).  The box there is of floats;
here it is exact. -/
def transformedBBox (cols rows : Int) (t : Tx K) : Box K 2 :=
  growAll t.forward ((intRange 0 cols).flatMap fun x => (intRange 0 rows).map fun y => (x, y))

/-- The pixels of the perimeter, Image/Transform.h:279-301. -/
def perimeter (b : Rect) : List (Int × Int) :=
  ((intRange b.x0 b.x1).map fun x => (x, b.y0)) ++ ((intRange b.x0 b.x1).map fun x => (x, b.y1 - 1)) ++
  ((intRange b.y0 b.y1).map fun y => (b.x0, y)) ++ ((intRange b.y0 b.y1).map fun y => (b.x1 - 1, y))

/-- `compute_transformed_bbox_fast`, Image/Transform.h:271-314 (without the warnings). -/
def transformedBBoxFast (b : Rect) (t : Tx K) : Box K 2 := growAll t.forward (perimeter b)

end functors

end VW.Warp
