import Verif.Edge.Model
/-
Model of `src/vw/Image/Convolution.h`: ConvolutionView and SeparableConvolutionView.

Pixels and kernel coefficients are elements of one commutative ring (exact arithmetic); the conversion of
a sum to the pixel type (`channel_cast_clamp_if_int`, or the cast to `result_type`) is an arbitrary function
`cast`.  Reads outside the pixels of a view are `none`.  Planes are left out.
-/
namespace VW.Conv
open VW.Block (Rect)
open VW.Edge (Child Mode)

variable {K : Type} [CommRing K]

/-- The loop of `correlate_1d_at_point`, Convolution.h:57-61, with the pointers advanced `i` times already and
`n` iterations left. -/
def corr1 (k : Nat → K) (s : Nat → Option K) : Nat → Nat → K → Option K
  | 0, _, acc => some acc
  | n + 1, i, acc => do
    let v ← s i
    corr1 k s n (i + 1) (acc + k i * v)

/-- The loops of `correlate_2d_at_point`, Convolution.h:78-88: `n` rows left, starting at row `j`. -/
def corr2 (cols : Nat) (k : Nat → Nat → K) (s : Nat → Nat → Option K) : Nat → Nat → K → Option K
  | 0, _, acc => some acc
  | n + 1, j, acc => do
    let acc ← corr1 (fun i => k i j) (fun i => s i j) cols 0 acc
    corr2 cols k s n (j + 1) acc

/-- `ConvolutionView`, Convolution.h:104-113: the image, the edge extension (a function of the image and the
position), the kernel before rotation, and its origin. -/
structure CView (K : Type) where
  child : Child K
  ext : Child K → Int → Int → Option K
  kw : Nat
  kh : Nat
  ker : Nat → Nat → K
  mci : Int
  mcj : Int

/-- `NoEdgeExtension::operator()`, EdgeExtension.tcc:34-38. -/
def noEdge (c : Child K) (i j : Int) : Option K := c.get i j

/-- The constructor that centres the kernel, Convolution.h:129-131. -/
def CView.centered (child : Child K) (m : Mode K) (kw kh : Nat) (ker : Nat → Nat → K) : CView K :=
  { child, ext := m.eval, kw, kh, ker, mci := ((kw : Int) - 1).tdiv 2, mcj := ((kh : Int) - 1).tdiv 2 }

/-- `ConvolutionView::operator()`, Convolution.h:141-157; `Rotate180View` reads the kernel backwards
(ImageTransform.h, `Rotate180View`). -/
def CView.eval (cast : K → K) (v : CView K) (x y : Int) : Option K :=
  let ci := (v.kw : Int) - 1 - v.mci
  let cj := (v.kh : Int) - 1 - v.mcj
  let k := fun i j => v.ker (v.kw - 1 - i) (v.kh - 1 - j)
  if x ≥ ci ∧ y ≥ cj ∧ x ≤ v.child.cols - v.kw + ci ∧ y ≤ v.child.rows - v.kh + cj then
    (corr2 v.kw k (fun i j => v.child.get (x - ci + i) (y - cj + j)) v.kh 0 0).map cast
  else
    (corr2 v.kw k (fun i j => v.ext v.child (x - ci + i) (y - cj + j)) v.kh 0 0).map cast

/-- A buffer holding the pixels of `r`, at offset `r.min`: `ImageView src = edge_extend(image, r, edge)`;
only [0,w)×[0,h) may be read. -/
def buffer (r : Rect) (f : Int → Int → Option K) (a b : Int) : Option K :=
  if 0 ≤ a ∧ a < r.width ∧ 0 ≤ b ∧ b < r.height then f (a + r.x0) (b + r.y0) else none

/-- `ConvolutionView::prerasterize`, Convolution.h:160-173: rasterizes the support of `bbox` and shifts the
origin back with a crop. -/
def CView.prerasterize (v : CView K) (bbox : Rect) : CView K :=
  let ci := (v.kw : Int) - 1 - v.mci
  let cj := (v.kh : Int) - 1 - v.mcj
  let x0 := bbox.x0 - ci
  let y0 := bbox.y0 - cj
  let src : Rect := ⟨x0, y0, x0 + (bbox.width + (v.kw - 1)), y0 + (bbox.height + (v.kh - 1))⟩
  { v with
    child := { cols := v.child.cols, rows := v.child.rows,
               get := fun i j => buffer src (v.ext v.child) (i + -src.x0) (j + -src.y0) }
    ext := noEdge }

/-- `SeparableConvolutionView`, Convolution.h:191-199; a kernel is its length and coefficients. -/
structure SView (K : Type) where
  child : Child K
  ext : Child K → Int → Int → Option K
  ni : Nat
  nj : Nat
  ik : Nat → K
  jk : Nat → K
  mci : Int
  mcj : Int

/-- `generate2DKernel`, Convolution.h:201-208: entry (a,b) of the 2D kernel. -/
def SView.kernel2d (v : SView K) (a b : Nat) : K :=
  let ni := if v.ni = 0 then 1 else v.ni
  let nj := if v.nj = 0 then 1 else v.nj
  (if v.ni = 0 then 1 else v.ik (ni - 1 - a)) * (if v.nj = 0 then 1 else v.jk (nj - 1 - b))

/-- `SeparableConvolutionView::operator()`, Convolution.h:244-264. -/
def SView.eval (cast : K → K) (v : SView K) (x y : Int) : Option K :=
  let ni := if v.ni = 0 then 1 else v.ni
  let nj := if v.nj = 0 then 1 else v.nj
  let ci : Int := if v.ni = 0 then 0 else v.ni - 1 - v.mci
  let cj : Int := if v.nj = 0 then 0 else v.nj - 1 - v.mcj
  if x ≥ ci ∧ y ≥ cj ∧ x ≤ v.child.cols - ni + ci ∧ y ≤ v.child.rows - nj + cj then
    (corr2 ni v.kernel2d (fun i j => v.child.get (x - ci + i) (y - cj + j)) nj 0 0).map cast
  else
    (corr2 ni v.kernel2d (fun i j => v.ext v.child (x - ci + i) (y - cj + j)) nj 0 0).map cast

/-- One output of `convolve_1d`, Convolution.h:313-343: the kernel is traversed from its end. -/
def conv1 (cast : K → K) (n : Nat) (k : Nat → K) (s : Nat → Option K) : Option K :=
  (corr1 (fun i => k (n - 1 - i)) s n 0 0).map cast

/-- `SeparableConvolutionView::rasterize`, Convolution.h:285-310: pixel (a,b) of the destination, which is
pixel (bbox.min + (a,b)) of the view. -/
def SView.rasterize (cast : K → K) (v : SView K) (bbox : Rect) (a b : Int) : Option K :=
  if v.ni = 0 ∧ v.nj = 0 then v.ext v.child (a + bbox.x0) (b + bbox.y0)
  else
    let cb : Rect := ⟨bbox.x0 - (if v.ni = 0 then 0 else v.ni - v.mci - 1),
                      bbox.y0 - (if v.nj = 0 then 0 else v.nj - v.mcj - 1),
                      bbox.x1 + (if v.ni = 0 then 0 else v.mci),
                      bbox.y1 + (if v.nj = 0 then 0 else v.mcj)⟩
    let srcBuf := buffer cb (v.ext v.child)
    if v.ni > 0 ∧ v.nj > 0 then
      let work : Int → Int → Option K := fun a b =>
        if 0 ≤ a ∧ a < bbox.width ∧ 0 ≤ b ∧ b < cb.height then
          conv1 cast v.ni v.ik (fun t => srcBuf (a + t) b)
        else none
      conv1 cast v.nj v.jk (fun t => work a (b + t))
    else if v.ni > 0 then conv1 cast v.ni v.ik (fun t => srcBuf (a + t) b)
    else conv1 cast v.nj v.jk (fun t => srcBuf a (b + t))

/-- `SeparableConvolutionView::prerasterize` followed by a read, Convolution.h:275-280: the crop undoes the
offset of the rasterized box. -/
def SView.prerasterRead (cast : K → K) (v : SView K) (bbox : Rect) (x y : Int) : Option K :=
  let a := x + -bbox.x0
  let b := y + -bbox.y0
  if 0 ≤ a ∧ a < bbox.width ∧ 0 ≤ b ∧ b < bbox.height then v.rasterize cast bbox a b else none

end VW.Conv
