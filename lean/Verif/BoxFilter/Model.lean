import Verif.Integral.Model
/-
Model of box filters, src/vw/InterestPoint/BoxFilter.h, and of the filters of OBALoG,
src/vw/InterestPoint/IntegralInterestOperator.{h,cc}.

Arithmetic is exact (rational pixels); a read outside of the integral image is `none`. One plane.
-/
namespace VW.BoxFilter

/-- `SumBox`, BoxFilter.h:36-40. -/
structure SumBox where
  startX : Int
  startY : Int
  sizeX : Int
  sizeY : Int
  weight : ℚ

/-- An integral image: its size and its pixels. -/
structure IImg where
  cols : Int
  rows : Int
  px : Int → Int → ℚ

/-- `*instance` with the accessor at (x, y). -/
def IImg.get (m : IImg) (x y : Int) : Option ℚ :=
  if 0 ≤ x ∧ x < m.cols ∧ 0 ≤ y ∧ y < m.rows then some (m.px x y) else none

/-- One box of `apply_box_filter_at_point`, BoxFilter.h:51-63, with the accessor at (x, y). -/
def boxSum (m : IImg) (x y : Int) (b : SumBox) : Option ℚ := do
  let x := x + b.startX
  let y := y + b.startY
  let s ← m.get x y
  let x := x + b.sizeX
  let t ← m.get x y
  let s := s - t
  let x := x + -b.sizeX
  let y := y + b.sizeY
  let t ← m.get x y
  let s := s - t
  let x := x + b.sizeX
  let t ← m.get x y
  return s + t

/-- `apply_box_filter_at_point`, BoxFilter.h:45-66. -/
def applyAt (m : IImg) (x y : Int) (box : List SumBox) : Option ℚ :=
  box.foldlM (fun result b => (boxSum m x y b).map fun s => result + b.weight * s) 0

/-- One step of the search for the largest side, BoxFilter.h:92-95. -/
def growSize (s : Int) (b : SumBox) : Int :=
  let s := if s < b.sizeX then b.sizeX else s
  if s < b.sizeY then b.sizeY else s

/-- The constructor of `BoxFilterView`, BoxFilter.h:88-98: `m_pixel_buffer`. -/
def pixelBuffer (box : List SumBox) : Int := box.foldl growSize 0 / 2

/-- `BoxFilterView::operator()`, BoxFilter.h:107-113. -/
def view (m : IImg) (box : List SumBox) (x y : Int) : Option ℚ :=
  if x < pixelBuffer box ∨ x ≥ m.cols - pixelBuffer box - 1 ∨ y < pixelBuffer box ∨ y ≥ m.rows - pixelBuffer box - 1 then
    some 0
  else applyAt m x y box

/-- The integral image of C32 as an image. -/
def integral (cols rows : Nat) (src : Nat → Nat → ℚ) (mem : Nat → ℚ) : IImg :=
  ⟨(cols : Int) + 1, (rows : Int) + 1, fun x y =>
    Integral.pix (cols + 1) (Integral.integralImage cols rows src mem) x y⟩

/-! ### OBALoG -/

/-- `SCALE_BOX_WIDTH`, IntegralInterestOperator.cc:29-39. -/
def boxWidth : List (List Int) :=
  [[11, 7, 5, 3, 3, 1],
   [13, 9, 7, 5, 3, 1],
   [17, 11, 9, 5, 5, 3],
   [21, 13, 11, 7, 7, 3],
   [27, 17, 13, 9, 9, 5],
   [33, 21, 17, 11, 11, 5],
   [41, 27, 21, 13, 13, 7],
   [51, 33, 27, 17, 17, 7],
   [3, 3, 3, 3, 3, 3],
   [3, 3, 3, 3, 3, 3]]

/-- `SCALE_BOX_HEIGHT`, IntegralInterestOperator.cc:40-50. -/
def boxHeight : List (List Int) :=
  [[11, 5, 7, 3, 1, 3],
   [13, 7, 9, 1, 3, 5],
   [17, 9, 11, 5, 3, 5],
   [21, 11, 13, 3, 7, 7],
   [27, 13, 17, 5, 9, 9],
   [33, 17, 21, 5, 11, 11],
   [41, 21, 27, 7, 13, 13],
   [51, 27, 33, 7, 17, 17],
   [3, 3, 3, 3, 3, 3],
   [3, 3, 3, 3, 3, 3]]

/-- `SCALE_BOX_WEIGHT`, IntegralInterestOperator.cc:51-61. -/
def boxWeight : List (List ℚ) :=
  [[6179999909 / 10000000000000, 8283999749 / 1000000000000, 8283999749 / 1000000000000, -3556599841 / 100000000000, -2788200043 / 50000000000, -2788200043 / 50000000000],
   [1329999941 / 5000000000000, 2444999991 / 500000000000, 2444999991 / 500000000000, -44284001 / 2000000000, -488499999 / 10000000000, -44284001 / 2000000000],
   [664856161 / 2500000000000, 3207367443 / 1000000000000, 3207367443 / 1000000000000, -1847865087 / 1000000000000, -2773847 / 125000000, -2773847 / 125000000],
   [218920823 / 1000000000000, 2005755751 / 1000000000000, 2005755751 / 1000000000000, -374866561 / 25000000000, -4123562639 / 5000000000000, -374866561 / 25000000000],
   [1030362087 / 10000000000000, 68905973 / 50000000000, 68905973 / 50000000000, -1200801709 / 125000000000, 445265169 / 200000000000, -1200801709 / 125000000000],
   [1799507093 / 25000000000000, 2064849631 / 2500000000000, 2064849631 / 2500000000000, -759048821 / 125000000000, -1177469443 / 1000000000000000, -759048821 / 125000000000],
   [3803569417 / 100000000000000, 5251058097 / 10000000000000, 5251058097 / 10000000000000, -971335157 / 250000000000, 176471907 / 625000000000, -971335157 / 250000000000],
   [1446027291 / 50000000000000, 3287680581 / 10000000000000, 3287680581 / 10000000000000, -152983541 / 62500000000, -2717150913 / 10000000000000, -152983541 / 62500000000],
   [1, -1, 1, -1, 1, -1],
   [1, -1, 1, -1, 1, -1]]

/-- One box, IntegralInterestOperator.h:92-101. -/
def obalogBox (scale b : Nat) : SumBox :=
  let w := (boxWidth.getD scale []).getD b 0
  let h := (boxHeight.getD scale []).getD b 0
  { startX := -(w / 2), startY := -(h / 2), sizeX := w, sizeY := h, weight := (boxWeight.getD scale []).getD b 0 }

/-- The filter assembled by `OBALoGInterestOperator`, IntegralInterestOperator.h:89-103. -/
def obalogFilter (scale : Nat) : List SumBox := (List.range 6).map (obalogBox scale)

/-- The interest image of `OBALoGInterestOperator`, IntegralInterestOperator.h:106. -/
def interest (m : IImg) (scale : Nat) (x y : Int) : Option ℚ := (view m (obalogFilter scale) x y).map fun v => |v|

end VW.BoxFilter
