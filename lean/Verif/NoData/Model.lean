import Mathlib.Algebra.Order.Field.Rat
import Mathlib.Algebra.Order.Field.Basic
import Mathlib.Algebra.Order.BigOperators.Group.Finset
import Mathlib.Algebra.Order.BigOperators.Ring.Finset
import Mathlib.Algebra.Order.Floor.Ring
import Mathlib.Data.Rat.Floor
import Mathlib.Data.Int.Interval
import Mathlib.Order.Interval.Finset.Basic
import Mathlib.Tactic.Linarith
import Mathlib.Tactic.NormNum
import Mathlib.Tactic.Ring
import Mathlib.Tactic.Positivity
import Mathlib.Tactic.FieldSimp
import Mathlib.Tactic.SplitIfs

/-! Model of `FillNoDataWithAvg` (`src/vw/Image/InpaintView.h`) and of `fillNodataWithSearchRadius` (`src/vw/Image/InpaintView.cc`).

A pixel is `none` if it is not valid, else its value (one channel, exact numbers). Places outside of an image have no meaning; what a copy of a part
holds elsewhere is a parameter. -/

namespace VW.NoData

/-- A masked image. -/
structure Img where
  w : ℤ
  h : ℤ
  px : ℤ → ℤ → Option ℚ

/-- The values of the loop variable of `for (k = lo; k <= hi; k++)`. -/
def span (lo hi : ℤ) : List ℤ := (List.range (hi - lo + 1).toNat).map (fun i : ℕ => lo + i)

/-- One place of the window (InpaintView.h:352-355). -/
def collect (img : Img) (acc : ℚ × ℤ) (c r : ℤ) : ℚ × ℤ :=
  match img.px c r with
  | none => acc
  | some v => (acc.1 + v, acc.2 + 1)

/-- The sum and the number of the valid pixels of the window (InpaintView.h:346-357): `val`, `nvalid`. -/
def gather (img : Img) (k : ℤ) (i j : ℤ) : ℚ × ℤ :=
  (span (max 0 (i - k / 2)) (min (img.w - 1) (i + k / 2))).foldl (fun acc c =>
    (span (max 0 (j - k / 2)) (min (img.h - 1) (j + k / 2))).foldl (fun acc r => collect img acc c r) acc) (0, 0)

/-- `FillNoDataWithAvg::operator()` (InpaintView.h:342-363). -/
def average (img : Img) (k : ℤ) (i j : ℤ) : Option ℚ :=
  match img.px i j with
  | some v => some v
  | none => if (gather img k i j).2 = 0 then none else some ((gather img k i j).1 / (gather img k i j).2)

/-- A box: least coordinates, and those after the last. -/
structure Box where
  x0 : ℤ
  y0 : ℤ
  x1 : ℤ
  y1 : ℤ
deriving DecidableEq

/-- `biased_box` (InpaintView.h:370-372). -/
def biased (img : Img) (k : ℤ) (b : Box) : Box :=
  ⟨max (b.x0 - k / 2) 0, max (b.y0 - k / 2) 0, min (b.x1 + k / 2) img.w, min (b.y1 + k / 2) img.h⟩

/-- A copy of a part, with the coordinates and the size of the whole (InpaintView.h:373-375): elsewhere there is `junk`. -/
def copied (img : Img) (b : Box) (junk : ℤ → ℤ → Option ℚ) : Img :=
  ⟨img.w, img.h, fun c r => if b.x0 ≤ c ∧ c < b.x1 ∧ b.y0 ≤ r ∧ r < b.y1 then img.px c r else junk c r⟩

/-- A pixel of the image rasterized for the box `b` (InpaintView.h:365-378). -/
def avgRaster (img : Img) (k : ℤ) (b : Box) (junk : ℤ → ℤ → Option ℚ) (i j : ℤ) : Option ℚ :=
  average (copied img (biased img k b) junk) k i j

/-- The constructor (InpaintView.h:330-334): is the size of the kernel accepted? -/
def accepted (k : ℤ) : Bool := decide (Int.tmod k 2 = 1) && decide (k > 0)

/-- The variables of the inner loops (InpaintView.cc:56). -/
structure Acc where
  val : ℚ
  weightSum : ℚ
  validCount : ℚ
  totalCount : ℚ

/-- One place of the search (InpaintView.cc:59-78). `pow` is the function `d ↦ pow(d, fill_power/2.0)`. -/
def visit (img : Img) (s : ℚ) (pow : ℚ → ℚ) (col row : ℤ) (a : Acc) (c r : ℤ) : Acc :=
  if c < 0 ∨ c ≥ img.w ∨ r < 0 ∨ r ≥ img.h then a
  else
    let dsq : ℚ := ((c - col : ℤ) : ℚ) * (c - col : ℤ) + ((r - row : ℤ) : ℚ) * (r - row : ℤ)
    if dsq > s * s then a
    else match img.px c r with
      | none => { a with totalCount := a.totalCount + 1 }
      | some v =>
        let weight := 1 / (1 + pow dsq)
        ⟨a.val + weight * v, a.weightSum + weight, a.validCount + 1, a.totalCount + 1⟩

/-- The search (InpaintView.cc:56-80). -/
def search (img : Img) (s : ℚ) (pow : ℚ → ℚ) (col row : ℤ) : Acc :=
  (span (col - ⌈s⌉) (col + ⌈s⌉)).foldl (fun a c =>
    (span (row - ⌈s⌉) (row + ⌈s⌉)).foldl (fun a r => visit img s pow col row a c r) a) ⟨0, 0, 0, 0⟩

/-- A pixel after one pass (InpaintView.cc:39-93). -/
def passAt (img : Img) (s : ℚ) (pow : ℚ → ℚ) (percent : ℚ) (col row : ℤ) : Option ℚ :=
  match img.px col row with
  | some v => some v
  | none =>
    let a := search img s pow col row
    if a.totalCount = 0 ∨ a.weightSum = 0 then none
    else if a.validCount / a.totalCount < percent / 100 then none
    else some (a.val / a.weightSum)

/-- One pass (InpaintView.cc:27-96). -/
def pass (img : Img) (s : ℚ) (pow : ℚ → ℚ) (percent : ℚ) : Img := ⟨img.w, img.h, passAt img s pow percent⟩

/-- All passes (InpaintView.cc:100-110). -/
def passes (img : Img) (s : ℚ) (pow : ℚ → ℚ) (percent : ℚ) : ℕ → Img
  | 0 => img
  | n + 1 => pass (passes img s pow percent n) s pow percent

end VW.NoData
