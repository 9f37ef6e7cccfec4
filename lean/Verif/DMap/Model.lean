import Mathlib.Algebra.Order.Field.Basic
import Mathlib.Algebra.Order.Floor.Defs
import Mathlib.Algebra.Order.Group.Unbundled.Int
import Mathlib.Data.List.Sort

/-
Model of the consistency check of src/vw/Stereo/Correlate.cc and of the disparity map tools of
src/vw/Stereo/DisparityMap.h.  Numbers are exact.  An image is a function of column and row, with its size given separately.
-/

namespace Verif.DMap

/-- `PixelMask<Vector2i>` or `PixelMask<Vector2f>`: a disparity and whether it is valid. -/
structure Disp (K : Type) where
  dx : K
  dy : K
  valid : Bool
  deriving DecidableEq, Repr

/-- The default pixel, which is invalid. -/
def Disp.none {K : Type} [Zero K] : Disp K := ⟨0, 0, false⟩

/-- An image. -/
abbrev Img (V : Type) := Int → Int → V

/-- Changing a pixel. -/
def Img.set {V : Type} (I : Img V) (c r : Int) (v : V) : Img V := fun x y => if x = c ∧ y = r then v else I x y

/-! ## Consistency check -/

/-- The state of the loops of `cross_corr_consistency_check`: the map that is changed and the image of differences. -/
structure CCState where
  l2r : Img (Disp Int)
  diff : Img (Option Int)
  count : Nat
  matchCount : Nat

/-- The body of the loops (src/vw/Stereo/Correlate.cc:1466-1491).  `r2l` is another image than the one that is changed. -/
def ccPixel (r2l : Img (Disp Int)) (rcols rrows : Int) {T : Type} [LinearOrder T] (conv : Int → T) (thresh : T)
    (off : Int × Int) (s : CCState) (p : Int × Int) : CCState :=
  let d := s.l2r p.1 p.2
  let x := p.1 + d.dx
  let y := p.2 + d.dy
  if x < 0 ∨ rcols ≤ x ∨ y < 0 ∨ rrows ≤ y then { s with l2r := s.l2r.set p.1 p.2 { d with valid := false } }
  else if !d.valid || !(r2l x y).valid then { s with l2r := s.l2r.set p.1 p.2 { d with valid := false } }
  else
    let df := max |d.dx + (r2l x y).dx| |d.dy + (r2l x y).dy|
    if conv df ≤ thresh then
      { s with count := s.count + 1, matchCount := s.matchCount + 1, diff := s.diff.set (p.1 + off.1) (p.2 + off.2) (some df) }
    else { s with matchCount := s.matchCount + 1, l2r := s.l2r.set p.1 p.2 { d with valid := false } }

/-- The pixels of an image, row by row. -/
def pixels (cols rows : Nat) : List (Int × Int) :=
  (List.range rows).flatMap (fun r : Nat => (List.range cols).map (fun c : Nat => ((c : Int), (r : Int))))

/-- `cross_corr_consistency_check` (src/vw/Stereo/Correlate.cc:1441-1502). -/
def crossCheck (l2r r2l : Img (Disp Int)) (lcols lrows rcols rrows : Nat) {T : Type} [LinearOrder T] (conv : Int → T)
    (thresh : T) (off : Int × Int) (diff : Img (Option Int)) : CCState :=
  (pixels lcols lrows).foldl (ccPixel r2l rcols rrows conv thresh off) ⟨l2r, diff, 0, 0⟩

/-! ## Masks -/

/-- A box of pixels (`BBox2i`); the maximum is outside. -/
structure Box where
  x0 : Int
  y0 : Int
  x1 : Int
  y1 : Int
  deriving DecidableEq

/-- `contains` (src/vw/Math/BBox.tcc:122-129). -/
def Box.has (b : Box) (x y : Int) : Prop := b.x0 ≤ x ∧ x < b.x1 ∧ b.y0 ≤ y ∧ y < b.y1

instance (b : Box) (x y : Int) : Decidable (b.has x y) := by unfold Box.has; infer_instance

/-- `crop` (src/vw/Math/BBox.tcc:108-120) with the bounds of an image. -/
def Box.crop (b : Box) (cols rows : Int) : Box := ⟨max b.x0 0, max b.y0 0, min b.x1 cols, min b.y1 rows⟩

/-- An image of which only a part is in memory: reading elsewhere gives no value. -/
abbrev Part (V : Type) := Int → Int → Option V

/-- An image rasterized in a box and put back in its place: `crop(ImageView(crop(image, box)), -min, size)`
(src/vw/Stereo/DisparityMap.h:158-159, 178-181). -/
def part {V : Type} (I : Img V) (b : Box) : Part V := fun x y => if b.has x y then some (I x y) else Option.none

variable {K : Type} [Field K] [LinearOrder K] [FloorRing K]

/-- Conversion of a floating point coordinate to `int32`, towards zero. -/
def toInt (x : K) : Int := if 0 ≤ x then ⌊x⌋ else ⌈x⌉

/-- `DisparityMaskView` (src/vw/Stereo/DisparityMap.h:98-102), on images or parts of them. -/
structure MaskView (K : Type) where
  disp : Part (Disp K)
  mask1 : Part Bool
  mask2 : Part Bool
  cols2 : Int
  rows2 : Int

/-- `operator()` (src/vw/Stereo/DisparityMap.h:141-164); no value: a read outside of what is in memory. -/
def MaskView.eval (v : MaskView K) (i j : Int) : Option (Disp K) :=
  match v.mask1 i j with
  | Option.none => Option.none
  | some false => some .none
  | some true =>
    match v.disp i j with
    | Option.none => Option.none
    | some d =>
      if !d.valid then some .none
      else if (i : K) + d.dx < 0 ∨ (v.cols2 : K) ≤ i + d.dx ∨ (j : K) + d.dy < 0 ∨ (v.rows2 : K) ≤ j + d.dy then some .none
      else
        match v.mask2 (toInt ((i : K) + d.dx)) (toInt ((j : K) + d.dy)) with
        | Option.none => Option.none
        | some m => if m then some d else some .none

/-- `has_valid_mask` (src/vw/Stereo/DisparityMap.h:104-118). -/
def hasMask (I : Img Bool) (b : Box) : Prop := ∃ x y, b.has x y ∧ I x y = true

/-- The smallest and largest value of a coordinate over the valid disparities of a box: `PixelAccumulator`
(src/vw/Image/Statistics.h:282-290) of `EWMinMaxAccumulator`, over the pixels given. -/
def dispRange (l : List (Disp K)) : Option (K × K × K × K) :=
  l.foldl (fun acc d => if d.valid then
    match acc with
    | Option.none => some (d.dx, d.dy, d.dx, d.dy)
    | some (a, b, c, e) => some (min a d.dx, min b d.dy, max c d.dx, max e d.dy)
    else acc) Option.none

/-- The pixels of a box. -/
def boxPixels (b : Box) : List (Int × Int) :=
  (List.range (b.y1 - b.y0).toNat).flatMap (fun r : Nat => (List.range (b.x1 - b.x0).toNat).map (fun c : Nat =>
    (b.x0 + (c : Int), b.y0 + (r : Int))))

open Classical in
/-- `prerasterize` (src/vw/Stereo/DisparityMap.h:166-239): the box, the search range if there is one. -/
noncomputable def maskPrerasterize (disp : Img (Disp K)) (mask1 mask2 : Img Bool) (cols2 rows2 : Int) (range : Option Box) (b : Box) :
    MaskView K :=
  let empty : Part (Disp K) := fun _ _ => Option.none
  if ¬ hasMask mask1 b then ⟨empty, part mask1 b, fun _ _ => Option.none, 0, 0⟩
  else
    match range with
    | some s =>
      let rb := Box.crop ⟨b.x0 + s.x0, b.y0 + s.y0, b.x1 + s.x1, b.y1 + s.y1⟩ cols2 rows2
      if ¬ hasMask mask2 rb then ⟨empty, part (fun _ _ => false) b, fun _ _ => Option.none, 0, 0⟩
      else ⟨part disp b, part mask1 b, part mask2 rb, cols2, rows2⟩
    | Option.none =>
      match dispRange ((boxPixels b).map (fun p => disp p.1 p.2)) with
      | Option.none => ⟨part disp b, part mask1 b, fun _ _ => Option.none, 0, 0⟩
      | some (a, c, e, f) =>
        let rb := Box.crop ⟨b.x0 + ⌊a⌋, b.y0 + ⌊c⌋, b.x1 + ⌈e⌉, b.y1 + ⌈f⌉⟩ cols2 rows2
        ⟨part disp b, part mask1 b, part mask2 rb, cols2, rows2⟩

/-- `DisparityRangeMaskFunc` (src/vw/Stereo/DisparityMap.h:275-282); `mn`, `mx` are the points given. -/
def rangeMask (mn mx : K × K) (d : Disp K) (i j : Int) : Disp K :=
  if d.valid then
    if (i : K) + d.dx < mn.1 ∨ mx.1 - 1 ≤ (i : K) + d.dx ∨ (j : K) + d.dy < mn.1 ∨ mx.2 - 1 ≤ (j : K) + d.dy then .none
    else d
  else d

/-- `TransformDisparitiesFunc` (src/vw/Stereo/DisparityMap.h:1030-1042). -/
def transformFunc (rev : K × K → K × K) (d : Disp K) (i j : Int) : Disp K :=
  let p := rev ((i : K) + d.dx, (j : K) + d.dy)
  if d.valid then ⟨p.1 - i, p.2 - j, true⟩ else ⟨p.1 - i, p.2 - j, false⟩

/-- `transform_disparities` by a homography in a region (src/vw/Stereo/DisparityMap.h:1205-1221), for a pixel; `rnd` is
the rounding or does nothing. -/
def transformRegion (fwd : K × K → K × K) (rnd : K → K) (corner : Int × Int) (d : Disp K) (x y : Int) : Disp K :=
  if !d.valid then .none
  else
    let beg : K × K := (((corner.1 + x : Int) : K), ((corner.2 + y : Int) : K))
    let t := fwd (beg.1 + d.dx, beg.2 + d.dy)
    ⟨rnd (t.1 - beg.1), rnd (t.2 - beg.2), true⟩

/-- `IntersectPixelMaskData` (src/vw/Stereo/DisparityMap.h:1233-1239). -/
def intersectData (a b : Disp K) : Disp K := if a.valid then a else if b.valid then b else a

/-! ## Resampling -/

/-- The neighbours and weights of `DisparitySubsampleView` (src/vw/Stereo/DisparityMap.h:1273-1299). -/
def subWeights : List (Int × Int × Nat) :=
  [(0, 0, 10), (1, 0, 5), (0, 1, 5), (-1, 0, 5), (0, -1, 5), (1, 1, 2), (-1, -1, 2), (-1, 1, 2), (1, -1, 2)]

/-- The sums over the valid neighbours and their total weight (src/vw/Stereo/DisparityMap.h:1268-1299). -/
def subSums {A : Type} [Semiring A] (I : Img (Disp A)) (ci cj : Int) : A × A × Nat :=
  subWeights.foldl (fun s w => let d := I (ci + w.1) (cj + w.2.1)
    if d.valid then (s.1 + (w.2.2 : A) * d.dx, s.2.1 + (w.2.2 : A) * d.dy, s.2.2 + w.2.2) else s) (0, 0, 0)

/-- `DisparitySubsampleView::operator()` (src/vw/Stereo/DisparityMap.h:1266-1305); `dv` is the division of the channel
type by an integer. -/
def subsample {A : Type} [Semiring A] (dv : A → Nat → A) (I : Img (Disp A)) (i j : Int) : Disp A :=
  let s := subSums I (2 * i) (2 * j)
  if 0 < s.2.2 then ⟨dv s.1 (s.2.2 * 2), dv s.2.1 (s.2.2 * 2), true⟩ else .none

/-- The size (src/vw/Stereo/DisparityMap.h:1261-1262). -/
def subSize (n : Int) : Int := 1 + Int.tdiv (n - 1) 2

/-- The box of the child that is prerasterized (src/vw/Stereo/DisparityMap.h:1308-1311). -/
def subBox (b : Box) : Box := ⟨2 * b.x0 - 1, 2 * b.y0 - 1, 2 * b.x1 + 1, 2 * b.y1 + 1⟩

/-- `DisparityUpsampleView::operator()` (src/vw/Stereo/DisparityMap.h:1341-1344). -/
def upsample {A : Type} [Semiring A] (I : Img (Disp A)) (i j : Int) : Disp A :=
  let d := I (i / 2) (j / 2)
  ⟨d.dx * 2, d.dy * 2, d.valid⟩

/-- The box of the child that is prerasterized (src/vw/Stereo/DisparityMap.h:1346-1348): the box itself. -/
def upBox (b : Box) : Box := b

/-! ## Outliers -/

/-- The offsets of a window, row by row. -/
def window (h v : Nat) : List (Int × Int) :=
  (List.range (2 * v + 1)).flatMap (fun r : Nat => (List.range (2 * h + 1)).map (fun c : Nat => ((c : Int) - h, (r : Int) - v)))

/-- `pad_bbox` (src/vw/Image/PerPixelAccessorViews.h:88-95) with the `work_area` of the outlier functors
(src/vw/Stereo/DisparityMap.h:353-354): the box is not empty. -/
def padBox (h v : Nat) (b : Box) : Box :=
  ⟨b.x0 + -h, b.y0 + -v, b.x0 + -h + ((b.x1 - b.x0) + ((h : Int) - -h)), b.y0 + -v + ((b.y1 - b.y0) + ((v : Int) - -v))⟩

/-- `RmOutliersUsingThreshFunc::operator()` (src/vw/Stereo/DisparityMap.h:357-387). -/
def rmThresh (h v : Nat) (pixThr rejThr : K) (I : Img (Disp K)) (i j : Int) : Disp K :=
  let d := I i j
  if d.valid then
    let s := (window h v).foldl (fun (s : Nat × Nat) w =>
      let e := I (i + w.1) (j + w.2)
      (if e.valid && decide (|d.dx - e.dx| ≤ pixThr) && decide (|d.dy - e.dy| ≤ pixThr) then s.1 + 1 else s.1, s.2 + 1)) (0, 0)
    if (s.1 : K) / (s.2 : K) < rejThr then .none else d
  else d

/-- The magnitudes of the valid disparities of a window (src/vw/Stereo/DisparityMap.h:496-510). -/
def magnitudes (h v : Nat) (I : Img (Disp K)) (i j : Int) : List K :=
  (window h v).filterMap (fun w => let e := I (i + w.1) (j + w.2); if e.valid then some (|e.dx| + |e.dy|) else Option.none)

/-- The cutoff (src/vw/Stereo/DisparityMap.h:511-513). -/
def cutoff (h v : Nat) (I : Img (Disp K)) (i j : Int) : K :=
  let l := (magnitudes h v I i j).mergeSort (fun a b => decide (a ≤ b))
  if l.isEmpty then 0 else 2 * l.getD (3 * l.length / 4) 0

/-- A row of the loop that computes the mean (src/vw/Stereo/DisparityMap.h:520-533): iterations left, column, sums and
number.  After a large disparity the column is not advanced. -/
def meanRow (I : Img (Disp K)) (cut : K) (y : Int) : Nat → Int → K × K × Nat → K × K × Nat
  | 0, _, s => s
  | k + 1, x, s =>
    let e := I x y
    if e.valid then
      if cut < |e.dx| + |e.dy| then meanRow I cut y k x s
      else meanRow I cut y k (x + 1) (s.1 + e.dx, s.2.1 + e.dy, s.2.2 + 1)
    else meanRow I cut y k (x + 1) s

/-- `RmOutliersUsingMeanFunc::operator()` (src/vw/Stereo/DisparityMap.h:484-553). -/
def rmMean (h v : Nat) (maxDiffSq : K) (I : Img (Disp K)) (i j : Int) : Disp K :=
  let d := I i j
  if !d.valid then d
  else
    let s := (List.range (2 * v + 1)).foldl (fun s (r : Nat) => meanRow I (cutoff h v I i j) (j + ((r : Int) - v)) (2 * h + 1) (i - h) s)
      ((0, 0, 0) : K × K × Nat)
    let err := if 0 < s.2.2 then
        (d.dx - s.1 / (s.2.2 : K)) * (d.dx - s.1 / (s.2.2 : K)) + (d.dy - s.2.1 / (s.2.2 : K)) * (d.dy - s.2.1 / (s.2.2 : K))
      else maxDiffSq + 1
    if maxDiffSq < err then .none else d

/-- The indices at which `RmOutliersUsingStdDev::operator()` writes the values it records
(src/vw/Stereo/DisparityMap.h:655-677): one for each valid pixel of the window. -/
def stdWrites (h v : Nat) (I : Img (Disp K)) (i j : Int) : List Nat :=
  List.range ((window h v).countP (fun w => (I (i + w.1) (j + w.2)).valid))

/-- The size of the vectors they are written to (src/vw/Stereo/DisparityMap.h:656-657). -/
def stdSize (_h v : Nat) : Nat := (2 * v + 1) * (2 * v + 1)

/-- The valid disparities of a window. -/
def validIn (h v : Nat) (I : Img (Disp K)) (i j : Int) : List (Disp K) :=
  ((window h v).map (fun w => I (i + w.1) (j + w.2))).filter (fun d => d.valid)

/-- `RmOutliersUsingStdDev::operator()` (src/vw/Stereo/DisparityMap.h:646-722), where the values recorded fit in the
vectors; `sqrt` is the square root. -/
def rmStd (sqrt : K → K) (h v : Nat) (pixThr rejThr : K) (I : Img (Disp K)) (i j : Int) : Disp K :=
  let d := I i j
  if !d.valid then d
  else
    let l := validIn h v I i j
    if l.length = 0 then .none
    else
      let mx := (l.map (·.dx)).sum / (l.length : K)
      let my := (l.map (·.dy)).sum / (l.length : K)
      let sx := sqrt ((l.map (fun e => (e.dx - mx) * (e.dx - mx))).sum / (l.length : K))
      let sy := sqrt ((l.map (fun e => (e.dy - my) * (e.dy - my))).sum / (l.length : K))
      let sx := if sx < rejThr then rejThr else sx
      let sy := if sy < rejThr then rejThr else sy
      if pixThr * sx < |d.dx - mx| ∨ pixThr * sy < |d.dy - my| then .none else d

/-- `StdDevImageFunc::operator()` (src/vw/Stereo/DisparityMap.h:962-995) for a single channel: the window reaches from
`-w/2` to `w/2`. -/
def stdDevImage (w h : Nat) (I : Img K) (i j : Int) : K :=
  let l := (window (w / 2) (h / 2)).map (fun o => I (i + o.1) (j + o.2))
  let mean := l.sum / ((w : K) * h)
  (l.map (fun x => (x - mean) * (x - mean))).sum / ((w : K) * h - 1)

end Verif.DMap
