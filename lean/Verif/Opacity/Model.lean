/-
Model of src/vw/Image/ImageOpacity.h.

An image has columns 0 … cols-1 and rows 0 … rows-1; of a pixel only matters whether it is zero, opaque or transparent.
-/
namespace VW.Opacity

/-- An image with a mark at each pixel. -/
structure Img where
  cols : Nat
  rows : Nat
  nz : Nat → Nat → Bool

/-- `for (i = k; i < k + n; ++i) if (p(i)) break;`: the value of `i` after the loop. -/
def up (p : Nat → Bool) : Nat → Nat → Nat
  | k, 0 => k
  | k, n + 1 => if p k then k else up p (k + 1) n

/-- `for (i = k; i; --i) if (p(i)) break;`: the value of `i` after the loop. -/
def down (p : Nat → Bool) : Nat → Nat
  | 0 => 0
  | k + 1 => if p (k + 1) then k + 1 else down p k

/-- A box: corner, width and height. -/
structure Box where
  x : Nat
  y : Nat
  cols : Nat
  rows : Nat
deriving DecidableEq

/-- The inner loop over a row, `i != icols` after it. -/
def rowHit (m : Img) (j : Nat) : Bool := up (fun i => m.nz i j) 0 m.cols != m.cols

/-- The inner loop over a column, from `y` to `y + rows`, `j != y + rows` after it. -/
def colHit (m : Img) (y rows i : Nat) : Bool := up (fun j => m.nz i j) y rows != y + rows

/-- `nonzero_data_bounding_box`, ImageOpacity.h:80-121. -/
def nonzeroBox (m : Img) : Box :=
  let j := up (rowHit m) 0 m.rows
  if j ≠ m.rows then
    let y := j
    let j := down (rowHit m) (m.rows - 1)
    let rows := j - y + 1
    let x := up (colHit m y rows) 0 m.cols
    let i := down (colHit m y rows) (m.cols - 1)
    ⟨x, y, i - x + 1, rows⟩
  else ⟨0, 0, 0, 0⟩

/-- The two nested loops of `is_opaque_helper` and `is_transparent_helper`, ImageOpacity.h:33-39 and 58-64, for pixels with
alpha: `p` is the test of a pixel. -/
def allPx (cols rows : Nat) (p : Nat → Nat → Bool) : Bool :=
  (List.range rows).all fun y => (List.range cols).all fun x => p x y

end VW.Opacity
