import Verif.View.Model
import Verif.Conv.Model
import Mathlib.Analysis.SpecialFunctions.Log.Base
import Mathlib.Algebra.Field.Defs
import Mathlib.Algebra.Order.Floor.Defs
/-
Model of the quadtree generator, src/vw/Mosaic/QuadTreeGenerator.{h,cc}.

Exact arithmetic: pixels are elements of a field (no rounding to a channel type), logarithms are real, integers
are unbounded.  The source image is a function; writing a tile is recording it.  The branch function is the
default one; progress reports and file types are left out.
-/
namespace VW.Quad
open VW.Block (Rect)
open VW.View (shift)

variable {K : Type}

/-- `get_tree_levels`, QuadTreeGenerator.h:127-133. -/
noncomputable def treeLevels (W H T : Int) : Int :=
  let maxdim := max W H
  let levels := 1 + ⌈Real.log ((maxdim : ℝ) / (T : ℝ)) / Real.log 2⌉
  if levels < 1 then 1 else levels

/-- The region `generate` starts with, QuadTreeGenerator.cc:101. -/
noncomputable def rootRegion (W H T : Int) : Rect :=
  ⟨0, 0, T * 2 ^ (treeLevels W H T - 1).toNat, T * 2 ^ (treeLevels W H T - 1).toNat⟩

/-! ### Paths, QuadTreeGenerator.cc:29-62; a path is the list of its components. -/

/-- `name.substr(i, n)` for i = 0, n, 2n, ... < length - n (QuadTreeGenerator.cc:40-42, 56-58). `n` must be positive. -/
def chunks (n : Nat) (s : List Char) (i : Nat) : List (List Char) :=
  if h : i < s.length - n ∧ 0 < n then (s.drop i).take n :: chunks n s (i + n) else []
termination_by s.length - i
decreasing_by omega

/-- `simple_image_path`, QuadTreeGenerator.cc:29-33. -/
def simplePath (tree : List (List Char)) (name : List Char) : List (List Char) := tree ++ ['r' :: name]

/-- `tiered_image_path`, QuadTreeGenerator.cc:35-46. -/
def tieredPath (n : Nat) (tree : List (List Char)) (name : List Char) : List (List Char) :=
  tree ++ chunks n ('r' :: name) 0 ++ ['r' :: name]

/-- `named_tiered_image_path`, QuadTreeGenerator.cc:48-63; `stem` is the last component of the tree's name
without its extension. -/
def namedTieredPath (n : Nat) (tree : List (List Char)) (stem name : List Char) : List (List Char) :=
  if name = [] then tree ++ [stem] else tree ++ chunks n name 0 ++ [name]

/-! ### Branching -/

/-- `(region + v) / 2` (QuadTreeGenerator.cc:75-78; BBox.tcc:271-286); not called with an empty region. -/
def halfBox (r : Rect) (vx vy : Int) : Rect :=
  ⟨(r.x0 + vx).tdiv 2, (r.y0 + vy).tdiv 2, (r.x1 + vx).tdiv 2, (r.y1 + vy).tdiv 2⟩

/-- The box of the child with digit `d`, QuadTreeGenerator.cc:75-78. -/
def quarter (d : Char) (r : Rect) : Rect :=
  if d = '0' then halfBox r r.x0 r.y0
  else if d = '1' then halfBox r r.x1 r.y0
  else if d = '2' then halfBox r r.x0 r.y1
  else halfBox r r.x1 r.y1

/-- The test of QuadTreeGenerator.cc:72. -/
def splits (T : Int) (r : Rect) : Prop := r.width > T ∧ r.height > T

instance (T : Int) (r : Rect) : Decidable (splits T r) := by unfold splits; infer_instance

/-- `default_branch_func`, QuadTreeGenerator.cc:68-81. -/
def branch (T : Int) (name : List Char) (r : Rect) : List (List Char × Rect) :=
  if splits T r then
    [(name ++ ['0'], quarter '0' r), (name ++ ['1'], quarter '1' r),
     (name ++ ['2'], quarter '2' r), (name ++ ['3'], quarter '3' r)]
  else []

/-! ### Images -/

/-- `ImageView` with its dimensions. -/
structure Img (K : Type) where
  w : Int
  h : Int
  px : Int → Int → K

/-- Reading; `none` is outside. -/
def Img.get (im : Img K) (x y : Int) : Option K :=
  if 0 ≤ x ∧ x < im.w ∧ 0 ≤ y ∧ y < im.h then some (im.px x y) else none

variable [Field K]

/-- The separable box filter inside `box_subsample`, QuadTreeGenerator.h:59-67 (constant edge extension). -/
def boxFilter (im : Img K) (sx sy : Nat) : Conv.SView K :=
  { child := ⟨im.w, im.h, im.get⟩, ext := Edge.Mode.constant.eval, ni := sx, nj := sy,
    ik := fun _ => 1 / (sx : K), jk := fun _ => 1 / (sy : K), mci := sx - 1, mcj := sy - 1 }

/-- `box_subsample`, QuadTreeGenerator.h:58-69.  `rasterize` resizes the result to the size of the subsampled view
(ImageViewBase.h:336-342), whatever it was constructed with.  A scale below 1 violates the checks of SubsampleView. The
values default to 0 where the filter reads outside (it never does, `boxFilter_value`). -/
def boxSubsample (im : Img K) (sx sy : Int) : Option (Img K) :=
  if 0 < sx ∧ 0 < sy then
    some { w := 1 + (im.w - 1).tdiv sx, h := 1 + (im.h - 1).tdiv sy,
           px := fun i j => ((boxFilter im sx.toNat sy.toNat).eval id (sx * i) (sy * j)).getD 0 }
  else none

/-- `elem_quot(bbox, v)`, BBox.tcc:352-357. -/
def quotBox (b : Rect) (vx vy : Int) : Rect :=
  if b.empty then ⟨0, 0, 0, 0⟩ else ⟨b.x0.tdiv vx, b.y0.tdiv vy, b.x1.tdiv vx, b.y1.tdiv vy⟩

/-- `elem_prod(bbox, v)`, BBox.tcc:345-350. -/
def prodBox (b : Rect) (vx vy : Int) : Rect :=
  if b.empty then ⟨0, 0, 0, 0⟩ else ⟨b.x0 * vx, b.y0 * vy, b.x1 * vx, b.y1 * vy⟩

/-- The settings of the generator and its source, QuadTreeGenerator.h:273-289. -/
structure Cfg (K : Type) where
  T : Int
  W : Int
  H : Int
  src : Int → Int → K
  cropBox : Rect
  cropImages : Bool
  cullImages : Bool
  /-- `m_sparse_image_check`. -/
  sparse : Rect → Bool
  /-- `PixelHasAlpha` and `nonzero_data_bounding_box`. -/
  hasAlpha : Bool
  nonzero : Img K → Rect

/-- A processed tile: `TileInfo` and, if a file was written, its content. -/
structure Tile (K : Type) where
  name : List Char
  region : Rect
  imageBox : Rect
  file : Option (Img K)

/-- The part of a region that has data, QuadTreeGenerator.h:207-211. -/
def Cfg.dataBox (c : Cfg K) (region : Rect) : Rect :=
  let crop : Rect := ⟨0, 0, c.W, c.H⟩
  let crop := if c.cropBox.empty then crop else crop.crop c.cropBox
  region.crop crop

/-- A leaf tile, QuadTreeGenerator.h:228-236. -/
def Cfg.leaf (c : Cfg K) (region ib : Rect) (sx sy : Int) : Img K :=
  let im : Img K := { w := ib.width, h := ib.height, px := fun i j => c.src (ib.x0 + i) (ib.y0 + j) }
  let im : Img K :=
    if ib ≠ region then
      { w := region.width, h := region.height,
        px := fun i j => (im.get (i + (region.x0 - ib.x0)) (j + (region.y0 - ib.y0))).getD 0 }
    else im
  if region.width ≠ c.T ∨ region.height ≠ c.T then
    { w := 1 + (im.w - 1).tdiv sx, h := 1 + (im.h - 1).tdiv sy, px := fun i j => im.px (sx * i) (sy * j) }
  else im

/-- `crop(image, dst_bbox) = ...`, QuadTreeGenerator.h:259-260: `none` is the exception for different sizes or a
division by zero. -/
def Cfg.place (c : Cfg K) (region : Rect) (sx sy : Int) (im : Img K) (cr : Rect) (ch : Img K) : Option (Img K) :=
  let d := quotBox (shift cr (-region.x0) (-region.y0)) sx sy
  if d.width = 0 ∨ d.height = 0 then none else do
  let b ← boxSubsample ch (c.T.tdiv d.width) (c.T.tdiv d.height)
  if b.w = d.width ∧ b.h = d.height then
    return { im with px := fun i j => if d.has i j then b.px (i - d.x0) (j - d.y0) else im.px i j }
  else none

/-- One pass of the loop over the children, QuadTreeGenerator.h:241-261; `res` is what the recursive call gives. -/
def Cfg.child (c : Cfg K) (region ib : Rect) (sx sy : Int) (cr : Rect) (res : Option (Option (Img K) × List (Tile K)))
    (st : Img K × List (Tile K)) : Option (Img K × List (Tile K)) :=
  if (cr.crop ib).empty then some st
  else do
    let (ch, ts) ← res
    match ch with
    | none => return (st.1, st.2 ++ ts)
    | some ch => return (← c.place region sx sy st.1 cr ch, st.2 ++ ts)

/-- Cropping, culling and writing, QuadTreeGenerator.h:264-299. -/
def Cfg.write (c : Cfg K) (name : List Char) (region ib : Rect) (sx sy : Int) (im : Img K) : Tile K :=
  if c.cropImages ∨ c.cullImages then
    let d := quotBox (shift ib (-region.x0) (-region.y0)) sx sy
    let d := if c.hasAlpha then d.crop (c.nonzero im) else d
    if d.width ≠ c.T ∨ d.height ≠ c.T then
      { name, region, imageBox := shift (prodBox d sx sy) region.x0 region.y0,
        file := if d.empty then none
                else if c.cropImages then
                  some { w := d.width, h := d.height, px := fun i j => im.px (d.x0 + i) (d.y0 + j) }
                else some im }
    else { name, region, imageBox := ib, file := some im }
  else { name, region, imageBox := ib, file := some im }

theorem tdiv2 (a : Int) : -1 ≤ a - 2 * a.tdiv 2 ∧ a - 2 * a.tdiv 2 ≤ 1 := by
  have h := Int.tmod_add_mul_tdiv a 2
  have h1 := Int.lt_tmod_of_pos a (show (0 : Int) < 2 by omega)
  have h2 := Int.tmod_lt_of_pos a (show (0 : Int) < 2 by omega)
  omega

theorem half_smaller {r : Rect} {T vx vy : Int} (hT : 0 < T) (h : r.width > T)
    (hx : vx = r.x0 ∨ vx = r.x1) : (halfBox r vx vy).width.toNat < r.width.toNat := by
  unfold Rect.width at h ⊢
  by_cases he : r.empty = true
  · rw [if_pos he] at h; omega
  · rw [if_neg he] at h ⊢
    by_cases he' : (halfBox r vx vy).empty = true
    · rw [if_pos he']; simp; omega
    · rw [if_neg he']; simp only [halfBox]
      have a := tdiv2 (r.x0 + vx)
      have b := tdiv2 (r.x1 + vx)
      rcases hx with rfl | rfl <;> omega

theorem quarter_smaller {r : Rect} {T : Int} (d : Char) (hT : 0 < T) (h : r.width > T) :
    (quarter d r).width.toNat < r.width.toNat := by
  unfold quarter
  split
  · exact half_smaller hT h (Or.inl rfl)
  · split
    · exact half_smaller hT h (Or.inr rfl)
    · split
      · exact half_smaller hT h (Or.inl rfl)
      · exact half_smaller hT h (Or.inr rfl)

/-- `Processor::generate_branch`, QuadTreeGenerator.h:197-303. The result is the returned image (`none`: an invalid
image) and the processed tiles in order; `none` is an exception.  The loop over the children of `branch` is written
out, because `branch` gives these four or none; `0 < T` is tested for termination only. -/
def Cfg.gen (c : Cfg K) (name : List Char) (region : Rect) : Option (Option (Img K) × List (Tile K)) :=
  let ib := c.dataBox region
  if ib.empty then
    some (if c.cropImages ∨ c.cullImages then none else some { w := c.T, h := c.T, px := fun _ _ => 0 }, [])
  else if c.sparse region = false then some (none, [])
  else
    let sx := region.width.tdiv c.T
    let sy := region.height.tdiv c.T
    if _h : splits c.T region ∧ 0 < c.T then
      let st : Img K × List (Tile K) := ({ w := c.T, h := c.T, px := fun _ _ => 0 }, [])
      do
        let st ← c.child region ib sx sy (quarter '0' region) (c.gen (name ++ ['0']) (quarter '0' region)) st
        let st ← c.child region ib sx sy (quarter '1' region) (c.gen (name ++ ['1']) (quarter '1' region)) st
        let st ← c.child region ib sx sy (quarter '2' region) (c.gen (name ++ ['2']) (quarter '2' region)) st
        let st ← c.child region ib sx sy (quarter '3' region) (c.gen (name ++ ['3']) (quarter '3' region)) st
        return (some st.1, st.2 ++ [c.write name region ib sx sy st.1])
    else
      let im := c.leaf region ib sx sy
      some (some im, [c.write name region ib sx sy im])
termination_by region.width.toNat
decreasing_by all_goals exact quarter_smaller _ _h.2 _h.1.1

/-- `generate`, QuadTreeGenerator.cc:93-104: the processed tiles. -/
noncomputable def Cfg.generate (c : Cfg K) : Option (List (Tile K)) := do
  let (_, ts) ← c.gen [] (rootRegion c.W c.H c.T)
  return ts

end VW.Quad
