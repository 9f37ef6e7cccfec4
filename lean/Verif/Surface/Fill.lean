import Mathlib.Algebra.Order.Field.Rat
/-
Model of `TwoThresholdFill`, src/vw/Image/ImageSurface.h:221-312.

A tile has columns 0 … w-1 and rows 0 … h-1; values are rational. Output values are natural numbers (`uint8`).
-/
namespace VW.Surface

/-- A pixel: column and row. -/
abbrev Px := Int × Int

/-- The tile after the crop, with the parameters of the filter. -/
structure Tile where
  w : Nat
  h : Nat
  val : Px → ℚ
  low : ℚ
  high : ℚ
  outFalse : Nat
  outTrue : Nat

/-- The pixel is in the tile. -/
def Tile.has (t : Tile) (p : Px) : Bool := 0 ≤ p.1 && p.1 < t.w && 0 ≤ p.2 && p.2 < t.h

/-- `edge_wrapper(output_tile, c, r)`: `ValueEdgeExtension` with 0. -/
def Tile.wrap (t : Tile) (out : Px → Nat) (p : Px) : Nat := if t.has p then out p else 0

/-- The assignment `output_tile(c, r) = x`. -/
def put (out : Px → Nat) (p : Px) (x : Nat) : Px → Nat := fun q => if q = p then x else out q

/-- The body of the first pass, ImageSurface.h:268-277. -/
def step1 (t : Tile) (out : Px → Nat) (p : Px) : Px → Nat :=
  if t.val p > t.high ∨ (t.val p > t.low ∧ (t.wrap out (p.1 - 1, p.2 - 1) > 0 ∨ t.wrap out (p.1, p.2 - 1) > 0 ∨
      t.wrap out (p.1 + 1, p.2 - 1) > 0 ∨ t.wrap out (p.1 - 1, p.2) > 0)) then put out p t.outTrue
  else put out p t.outFalse

/-- The body of the second pass, ImageSurface.h:283-292. -/
def step2 (t : Tile) (out : Px → Nat) (p : Px) : Px → Nat :=
  if out p = t.outTrue then out
  else if t.val p > t.low ∧ (t.wrap out (p.1 + 1, p.2 + 1) > 0 ∨ t.wrap out (p.1, p.2 + 1) > 0 ∨
      t.wrap out (p.1 - 1, p.2 + 1) > 0 ∨ t.wrap out (p.1 + 1, p.2) > 0) then put out p t.outTrue
  else out

/-- The pixels in the order of the first pass, ImageSurface.h:266-267. -/
def order1 (t : Tile) : List Px :=
  (List.range t.h).flatMap fun (r : Nat) => (List.range t.w).map fun (c : Nat) => ((c : Int), (r : Int))

/-- The pixels in the order of the second pass, ImageSurface.h:281-282. -/
def order2 (t : Tile) : List Px :=
  (List.range t.h).reverse.flatMap fun (r : Nat) => (List.range t.w).reverse.map fun (c : Nat) => ((c : Int), (r : Int))

/-- The output tile after the first pass. -/
def pass1 (t : Tile) : Px → Nat := (order1 t).foldl (step1 t) fun _ => 0

/-- The output tile, ImageSurface.h:249-298. -/
def fill (t : Tile) : Px → Nat := (order2 t).foldl (step2 t) (pass1 t)

/-- An image with the parameters of the filter: as a tile, with `w` columns and `h` rows. -/
abbrev Image := Tile

/-- `prerasterize` for the box of columns x0 … x1-1 and rows y0 … y1-1, ImageSurface.h:250-261: the box is expanded by `e`,
cropped to the image, and the image cropped to it. Gives the corner and the tile. -/
def blockTile (m : Image) (e x0 y0 x1 y1 : Int) : Px × Tile :=
  let bx0 := max 0 (x0 - e)
  let by0 := max 0 (y0 - e)
  let bx1 := min (m.w : Int) (x1 + e)
  let by1 := min (m.h : Int) (y1 + e)
  ((bx0, by0), { m with w := (bx1 - bx0).toNat, h := (by1 - by0).toNat, val := fun p => m.val (p.1 + bx0, p.2 + by0) })

/-- The pixel `p` of the image when it is made in that box. -/
def blockAt (m : Image) (e x0 y0 x1 y1 : Int) (p : Px) : Nat :=
  let b := blockTile m e x0 y0 x1 y1
  fill b.2 (p.1 - b.1.1, p.2 - b.1.2)

end VW.Surface
