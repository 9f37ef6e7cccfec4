import Mathlib.Algebra.Field.Basic
import Mathlib.Order.Lattice

/-! Model of block matching: `fast_box_sum` (src/vw/Stereo/Algorithms.h:41-129), the cost functions
(src/vw/Stereo/CostFunctions.h:71-236) and `best_of_search_convolution`, `calc_disparity`
(src/vw/Stereo/Correlation.cc:33-137, 330-375).

Simplifications: `float` and `double` are any ordered field (exact arithmetic, no NaN); images are functions of the pixel with a
size; loops over all pixels of an image are a change of every pixel at once; the input images are defined everywhere (the caller
extends them). `sqrt` is a parameter, the real square root in the theorems about cross correlation. -/

namespace VW.Corr

/-- `ImageView`. -/
structure Image (β : Type) where
  cols : Nat
  rows : Nat
  px : Nat → Nat → β

section
variable {α : Type} [Field α] [LinearOrder α]

/-- Adding a row of the image to the column sums (Algorithms.h:67-73). -/
def addRow (im : Image α) (y : Nat) (col : List α) : List α := List.zipWith (· + ·) col ((List.range im.cols).map (im.px · y))

/-- The same with a subtraction (Algorithms.h:102). -/
def subRow (im : Image α) (y : Nat) (col : List α) : List α := List.zipWith (· - ·) col ((List.range im.cols).map (im.px · y))

/-- The first column sums (Algorithms.h:62-76). -/
def colStart (im : Image α) (ky : Nat) : List α := (List.range ky).foldl (fun col y => addRow im y col) (List.replicate im.cols 0)

/-- Sliding along a row (Algorithms.h:88-95): the sum so far, the columns at `cfront`, the columns at `cback`. -/
def slide : α → List α → List α → List α
  | s, f :: fs, b :: bs => s :: slide (s + (f - b)) fs bs
  | s, _, _ => [s]

/-- One output row (Algorithms.h:82-95, 113-125). -/
def line (kx : Nat) (col : List α) : List α := slide ((col.take kx).foldl (· + ·) 0) (col.drop kx) col

/-- The rows: `n` are left after this one, which is row `y` (Algorithms.h:81-126). -/
def boxRows (im : Image α) (kx ky : Nat) : Nat → Nat → List α → List (List α)
  | 0, _, col => [line kx col]
  | n + 1, y, col => line kx col :: boxRows im kx ky n (y + 1) (subRow im y (addRow im (y + ky) col))

/-- `fast_box_sum` (Algorithms.h:41-129). -/
def fastBoxSum (im : Image α) (kx ky : Nat) : Except String (Image α) :=
  if ¬ (kx % 2 = 1 ∧ ky % 2 = 1) then .error "fast_box_sum: Kernel input not sized with odd values." else
  let out := boxRows im kx ky (im.rows - ky + 1 - 1) 0 (colStart im ky)
  .ok ⟨im.cols - kx + 1, im.rows - ky + 1, fun x y => (out.getD y []).getD x 0⟩

/-- `CostFunctionType` (CostFunctions.h:143-149), those that `calc_disparity` tells apart. -/
inductive Cost where
  | absolute
  | squared
  | ncc
deriving DecidableEq

/-- The per pixel functors (CostFunctions.h:72-141). -/
def pixelCost : Cost → α → α → α
  | .absolute, a, b => if a < b then b - a else a - b
  | .squared, a, b => (a - b) * (a - b)
  | .ncc, a, b => a * b

/-- `quality_comparison` (CostFunctions.h:173-176, 199-201, 233-235). -/
def better : Cost → α → α → Prop
  | .absolute, c, q => c < q
  | .squared, c, q => c < q
  | .ncc, c, q => c > q

instance (t : Cost) (c q : α) : Decidable (better t c q) := by cases t <;> (unfold better; infer_instance)

/-- `square(image)`. -/
def square (im : Image α) : Image α := ⟨im.cols, im.rows, fun x y => im.px x y * im.px x y⟩

/-- The side car data of `NCCCost` (CostFunctions.h:214-219): one over the sums of squares. -/
def precision (t : Cost) (im : Image α) (kx ky : Nat) : Except String (Image α) :=
  match t with
  | .ncc => match fastBoxSum (square im) kx ky with
    | .error e => .error e
    | .ok s => .ok ⟨s.cols, s.rows, fun x y => 1 / s.px x y⟩
  | _ => .ok ⟨0, 0, fun _ _ => 0⟩

/-- `cost_modification` (CostFunctions.h:169-171, 195-197, 227-231). -/
def modify (sqrt : α → α) (t : Cost) (lp rp : Image α) (m : Image α) (dx dy : Nat) : Image α :=
  match t with
  | .ncc => ⟨m.cols, m.rows, fun x y => m.px x y * sqrt (lp.px x y * rp.px (x + dx) (y + dy))⟩
  | _ => m

/-- `cost_metric` for one disparity (Correlation.cc:79-82). -/
def metric (sqrt : α → α) (t : Cost) (left right lp rp : Image α) (kx ky dx dy : Nat) : Except String (Image α) :=
  let applied : Image α := ⟨left.cols, left.rows, fun x y => pixelCost t (left.px x y) (right.px (x + dx) (y + dy))⟩
  match fastBoxSum applied kx ky with
  | .error e => .error e
  | .ok m => .ok (modify sqrt t lp rp m dx dy)

/-- A pixel of `quality_map` and of `disparity_map`. -/
structure Best (α : Type) where
  first : α
  second : α
  disp : Nat × Nat

/-- The update of one pixel (Correlation.cc:94-117). -/
def update (t : Cost) (c : α) (d : Nat × Nat) (b : Best α) : Best α :=
  if d ≠ (0, 0) then
    if better t c b.first then { b with first := c, disp := d }
    else if ¬ better t c b.second then { b with second := c }
    else b
  else { b with first := c, second := c }

/-- The disparities in the order of the two loops (Correlation.cc:64-66). -/
def disparities (sx sy : Nat) : List (Nat × Nat) := (List.range sy).flatMap fun dy => (List.range sx).map fun dx => (dx, dy)

/-- The search (Correlation.cc:64-119). -/
def search (sqrt : α → α) (t : Cost) (left right lp rp : Image α) (kx ky : Nat) :
    List (Nat × Nat) → (Nat → Nat → Best α) → Except String (Nat → Nat → Best α)
  | [], m => .ok m
  | d :: ds, m =>
    match metric sqrt t left right lp rp kx ky d.1 d.2 with
    | .error e => .error e
    | .ok c => search sqrt t left right lp rp kx ky ds fun x y => update t (c.px x y) d (m x y)

/-- `best_of_search_convolution` (Correlation.cc:33-137): a disparity and whether it is valid, for every pixel. -/
def bestOf (sqrt : α → α) (t : Cost) (left right : Image α) (sx sy kx ky : Nat) : Except String (Image ((Nat × Nat) × Bool)) :=
  match precision t left kx ky with
  | .error e => .error e
  | .ok lp => match precision t right kx ky with
    | .error e => .error e
    | .ok rp => match search sqrt t left right lp rp kx ky (disparities sx sy) (fun _ _ => ⟨0, 0, (0, 0)⟩) with
      | .error e => .error e
      | .ok m => .ok ⟨left.cols - kx + 1, left.rows - ky + 1, fun x y => ((m x y).disp, decide ((m x y).first ≠ (m x y).second))⟩

/-- `calc_disparity` (Correlation.cc:330-375), for the region of the left image with corner `(mx, my)` and size `w` by `h`. -/
def calcDisparity (sqrt : α → α) (t : Cost) (leftIn rightIn : Int → Int → α) (mx my : Int) (w h sx sy kx ky : Nat) :
    Except String (Image ((Nat × Nat) × Bool)) :=
  let left : Image α := ⟨w, h, fun x y => leftIn (mx + x) (my + y)⟩
  let right : Image α := ⟨w + sx - 1, h + sy - 1, fun x y => rightIn (mx + x) (my + y)⟩
  bestOf sqrt t left right sx sy kx ky

end

end VW.Corr
