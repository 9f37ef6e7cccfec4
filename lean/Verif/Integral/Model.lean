import Mathlib.Algebra.Field.Basic
import Mathlib.Data.Rat.Floor
import Mathlib.Algebra.Field.Rat
/-
Model of `src/vw/InterestPoint/IntegralImage.h` and `.cc`.

The pixel type `float` is replaced by an arbitrary field `K` (exact arithmetic); the image memory is a
flat buffer `Nat → K`, as in `ImageView` (single plane: element (x,y) is at `x + y * cols`).  The initial
content of the buffer is arbitrary.
-/
namespace VW.Integral

/-- A counted loop `for (i = 0; i < n; i++) s = f(i, s)`. -/
def loop {σ : Type} (f : Nat → σ → σ) : Nat → σ → σ
  | 0, s => s
  | n + 1, s => f n (loop f n s)

section
variable {K : Type} [Field K]

/-- A store to the flat buffer. -/
def store (b : Nat → K) (p : Nat) (v : K) : Nat → K := fun q => if q = p then v else b q

/-- Zeroing the first row, IntegralImage.h:50-56 (`cols` is `integral.cols()`; the first element is
stored separately, then `cols - 1` increments of the column). -/
def zeroRow (cols : Nat) (b : Nat → K) : Nat → K :=
  loop (fun i b => store b (i + 1) 0) (cols - 1) (store b 0 0)

/-- Zeroing the first column, IntegralImage.h:57-61. -/
def zeroCol (cols rows : Nat) (b : Nat → K) : Nat → K :=
  loop (fun i b => store b ((i + 1) * cols) 0) (rows - 1) b

/-- One pixel of the fill, IntegralImage.h:75-79; `p` is the address of the destination pixel and
`offset` the row length of the integral image. -/
def fillPixel (offset : Nat) (src : Nat → Nat → K) (iy ix : Nat) (b : Nat → K) : Nat → K :=
  let p := (ix + 1) + (iy + 1) * offset
  store b p (src ix iy + b (p - 1) + b (p - offset) - b (p - offset - 1))

/-- `IntegralImage`, IntegralImage.h:42-91, for a source of the given size; `b` is the content of the
freshly allocated buffer. -/
def integralImage (cols rows : Nat) (src : Nat → Nat → K) (b : Nat → K) : Nat → K :=
  let w := cols + 1
  let b := zeroRow w b
  let b := zeroCol w (rows + 1) b
  loop (fun iy b => loop (fun ix b => fillPixel w src iy ix b) cols b) rows b

/-- `integral(x, y)`: `ImageView::operator()` on the flat buffer of row length `w`. -/
def pix (w : Nat) (b : Nat → K) (x y : Int) : K := b (x + y * w).toNat

/-- `IntegralBlock`, IntegralImage.cc:26-55 (the assertions are debug only). -/
def integralBlock (w : Nat) (b : Nat → K) (x0 y0 x1 y1 : Int) : K :=
  pix w b x0 y0 + pix w b x1 y1 - pix w b x0 y1 - pix w b x1 y0

/-- `XSecondDerivative`, IntegralImage.cc:69-101. -/
def xSecond (w : Nat) (b : Nat → K) (x y : Int) (fs : Nat) : K :=
  let lobe : Int := (fs / 3 : Nat)
  let half : Int := (fs / 3 / 2 : Nat)
  let d := integralBlock w b (x - lobe - half) (y - lobe + 1) (x - half) (y + lobe)
  let d := d - 2 * integralBlock w b (x - half) (y - lobe + 1) (x + half + 1) (y + lobe)
  let d := d + integralBlock w b (x + half + 1) (y - lobe + 1) (x + half + lobe + 1) (y + lobe)
  d / (fs * fs : Nat)

/-- `YSecondDerivative`, IntegralImage.cc:115-147. -/
def ySecond (w : Nat) (b : Nat → K) (x y : Int) (fs : Nat) : K :=
  let lobe : Int := (fs / 3 : Nat)
  let half : Int := (fs / 3 / 2 : Nat)
  let d := integralBlock w b (x - lobe + 1) (y - lobe - half) (x + lobe) (y - half)
  let d := d - 2 * integralBlock w b (x - lobe + 1) (y - half) (x + lobe) (y + half + 1)
  let d := d + integralBlock w b (x - lobe + 1) (y + half + 1) (x + lobe) (y + half + lobe + 1)
  d / (fs * fs : Nat)

/-- `XYDerivative`, IntegralImage.cc:150-182. -/
def xyDeriv (w : Nat) (b : Nat → K) (x y : Int) (fs : Nat) : K :=
  let lobe : Int := (fs / 3 : Nat)
  let d := integralBlock w b (x - lobe) (y - lobe) x y
  let d := d - integralBlock w b (x + 1) (y - lobe) (x + lobe + 1) y
  let d := d - integralBlock w b (x - lobe) (y + 1) x (y + lobe + 1)
  let d := d + integralBlock w b (x + 1) (y + 1) (x + 1 + lobe) (y + 1 + lobe)
  d / (fs * fs : Nat)

/-- C `round`: to the nearest integer, halves away from zero. -/
def cround (q : ℚ) : Int := if 0 ≤ q then ⌊q + 1 / 2⌋ else -⌊-q + 1 / 2⌋

/-- `HHaarWavelet` for integral coordinates, IntegralImage.h:131-166 (the bounds checks are debug only);
`size` is a rational (a float in the code). -/
def hHaar (w : Nat) (b : Nat → K) (x y : Int) (size : ℚ) : K :=
  let half := cround (size / 2)
  let isz := 2 * half
  let top := cround (y - size / 2)
  let left := cround (x - size / 2)
  let r := - pix w b left top
  let r := r + 2 * pix w b (left + half) top
  let r := r - pix w b (left + isz) top
  let r := r + pix w b left (top + isz)
  let r := r - 2 * pix w b (left + half) (top + isz)
  r + pix w b (left + isz) (top + isz)

/-- `VHaarWavelet` for integral coordinates, IntegralImage.h:176-211. -/
def vHaar (w : Nat) (b : Nat → K) (x y : Int) (size : ℚ) : K :=
  let half := cround (size / 2)
  let isz := 2 * half
  let top := cround (y - size / 2)
  let left := cround (x - size / 2)
  let r := - pix w b left top
  let r := r + pix w b (left + isz) top
  let r := r + 2 * pix w b left (top + half)
  let r := r - 2 * pix w b (left + isz) (top + half)
  let r := r - pix w b left (top + isz)
  r + pix w b (left + isz) (top + isz)

end
end VW.Integral
