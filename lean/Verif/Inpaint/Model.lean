import Verif.Blob.Model
import Verif.Sparse.Model
import Verif.Image.Grassfire
import Mathlib.Algebra.Order.Field.Rat
import Mathlib.Algebra.Order.Field.Basic

/-! Model of `InpaintView` (`src/vw/Image/InpaintView.h`): blobs of an image are filled, tile by tile. Blobs are `BlobCompressed` (C52,
`Verif.Blob.Model`), the patches are collected in a `SparseCompositeView` (C137, `Verif.Sparse.Model`), the distances come from `grassfire` (C50,
`Verif.Image.Grassfire`).

A pixel is its value (one channel, exact numbers); the values written are valid. What a copy of a part of an image holds outside of it is a
parameter. The box of a blob in the index is its `bounding_box`. -/

namespace VW.Inpaint
open VW.Blob (Compressed decompress boundingBox intersects)
open VW.Grassfire (Pos grassfire raster)
open VW.Sparse (View)

/-- An image. -/
structure Img where
  w : Int
  h : Int
  px : Int → Int → ℚ

/-- A box: least coordinates, and those after the last. -/
structure Box where
  x0 : Int
  y0 : Int
  x1 : Int
  y1 : Int
deriving DecidableEq

/-- The box of a blob. -/
def blobBox (b : Compressed) : Box := ⟨(boundingBox b).1, (boundingBox b).2.1, (boundingBox b).2.2.1, (boundingBox b).2.2.2⟩

/-- `BBox::expand(1)`, of a box that is not empty (BBox.tcc:228-234). -/
def Box.expand (a : Box) : Box := ⟨a.x0 - 1, a.y0 - 1, a.x1 + 1, a.y1 + 1⟩

/-- Writing a pixel. -/
def set (d : Pos → ℚ) (p : Pos) (v : ℚ) : Pos → ℚ := fun q => if q = p then v else d q

/-- The weighted sum of the eight neighbours (InpaintView.h:116-135). -/
def around (d : Pos → ℚ) (l : Pos) : ℚ :=
  176765 / 1000000 * d (l.1 - 1, l.2 - 1) + 73235 / 1000000 * d (l.1, l.2 - 1) + 176765 / 1000000 * d (l.1 + 1, l.2 - 1)
    + 73235 / 1000000 * d (l.1 - 1, l.2) + 73235 / 1000000 * d (l.1 + 1, l.2)
    + 176765 / 1000000 * d (l.1 - 1, l.2 + 1) + 73235 / 1000000 * d (l.1, l.2 + 1) + 176765 / 1000000 * d (l.1 + 1, l.2 + 1)

/-- One round over the pixels of a hole, in place (InpaintView.h:115-139). -/
def sweep (ps : List Pos) (d : Pos → ℚ) : Pos → ℚ := ps.foldl (fun d l => set d l (around d l)) d

/-- The rounds (InpaintView.h:114). -/
def sweeps (ps : List Pos) : Nat → (Pos → ℚ) → Pos → ℚ
  | 0, d => d
  | n + 1, d => sweeps ps n (sweep ps d)

/-- `max_pixel_value( distance )` (InpaintView.h:101); distances are not negative. -/
def maxDistance (dist : Pos → Int) (W H : Nat) : Nat := ((raster 0 W 0 H).foldl (fun m p => max m (dist p)) 0).toNat

/-- `processing_order` (InpaintView.h:104-110): by distance, then by column, then by row. -/
def processingOrder (dist : Pos → Int) (W H m : Nat) : List Pos :=
  (List.range' 1 m).flatMap (fun d : Nat =>
    (List.range W).flatMap (fun i : Nat =>
      ((List.range H).map (fun j : Nat => ((i : Int), (j : Int)))).filter (fun p => dist p = d)))

/-- The pixels of a blob relative to a box (InpaintView.h:82-86). -/
def holes (b : Compressed) (bb : Box) : List Pos := (decompress b).map (fun p => (p.1 - bb.x0, p.2 - bb.y0))

/-- `mask` (InpaintView.h:93-97). -/
def mask (hs : List Pos) (p : Pos) : Nat := if p ∈ hs then 255 else 0

/-- `cropped_copy` (InpaintView.h:89-90); 0 outside of it. -/
def cropped (view : Int → Int → ℚ) (bb : Box) (p : Pos) : ℚ :=
  if 0 ≤ p.1 ∧ p.1 < bb.x1 - bb.x0 ∧ 0 ≤ p.2 ∧ p.2 < bb.y1 - bb.y0 then view (p.1 + bb.x0) (p.2 + bb.y0) else 0

/-- The patch with the hole filled (InpaintView.h:99-144). -/
def fill (view : Int → Int → ℚ) (b : Compressed) (bb : Box) (grass : Bool) (dflt : ℚ) : Pos → ℚ :=
  let W := (bb.x1 - bb.x0).toNat
  let H := (bb.y1 - bb.y0).toNat
  if grass then
    let dist := grassfire (fun p => decide (mask (holes b bb) p = 0)) W H false
    let m := maxDistance dist W H
    sweeps (processingOrder dist W H m) (10 * m * m) (cropped view bb)
  else (holes b bb).foldl (fun d p => set d p dflt) (cropped view bb)

/-- `copy_mask(cropped_copy, create_mask( mask, 0 ))` (InpaintView.h:147), by rows. -/
def patchRows (hs : List Pos) (W H : Nat) (d : Pos → ℚ) : List (List (Option ℚ)) :=
  (List.range H).map (fun j : Nat => (List.range W).map (fun i : Nat =>
    if mask hs ((i : Int), (j : Int)) = 0 then none else some (d ((i : Int), (j : Int)))))

/-- `InpaintTask` (InpaintView.h:67-148): the patch and its place, `none` if the blob is left as it is. -/
def task (w h : Int) (view : Int → Int → ℚ) (grass : Bool) (dflt : ℚ) (b : Compressed) : Option (Int × Nat × List (List (Option ℚ))) :=
  let bb := (blobBox b).expand
  if bb.x0 < 0 ∨ bb.y0 < 0 ∨ bb.x1 ≥ w ∨ bb.y1 ≥ h then none
  else some (bb.x0, bb.y0.toNat, patchRows (holes b bb) (bb.x1 - bb.x0).toNat (bb.y1 - bb.y0).toNat (fill view b bb grass dflt))

/-- All tasks, each absorbed by the view (InpaintView.h:216-221); `none` is an exception. -/
def run (w h : Int) (view : Int → Int → ℚ) (grass : Bool) (dflt : ℚ) (v : View ℚ) : List Compressed → Option (View ℚ)
  | [] => some v
  | b :: t => match task w h view grass dflt b with
    | none => run w h view grass dflt v t
    | some p => match v.absorb p.1 p.2.1 p.2.2 with
      | none => none
      | some v' => run w h view grass dflt v' t

/-- The test of a blob against the tile (InpaintView.h:197-198; `BBox::intersects` is BBox.tcc:142-151). -/
def touches (t : Box) (b : Compressed) : Bool :=
  let a := blobBox b
  !(decide (a.x0 ≥ t.x1) || decide (a.x1 ≤ t.x0) || decide (a.y0 ≥ t.y1) || decide (a.y1 ≤ t.y0)) && intersects b t.x0 t.y0 t.x1 t.y1

/-- `BBox::grow` by a box that is not empty (BBox.tcc:82-106). -/
def Box.grow (a c : Box) : Box := ⟨min a.x0 c.x0, min a.y0 c.y0, max a.x1 c.x1, max a.y1 c.y1⟩

/-- `BBox::crop` (BBox.tcc:110-120) to the image. -/
def Box.crop (a : Box) (w h : Int) : Box := ⟨max a.x0 0, max a.y0 0, min a.x1 w, min a.y1 h⟩

/-- `bbox_expanded` (InpaintView.h:195-205). -/
def expanded (img : Img) (t : Box) (bs : List Compressed) : Box :=
  ((bs.foldl (fun a b => a.grow (blobBox b)) t).expand).crop img.w img.h

/-- A copy of a part, with the coordinates of the whole (InpaintView.h:208-210): elsewhere there is `junk`. -/
def copied (img : Img) (a : Box) (junk : Int → Int → ℚ) (c r : Int) : ℚ :=
  if a.x0 ≤ c ∧ c < a.x1 ∧ a.y0 ≤ r ∧ r < a.y1 then img.px c r else junk c r

/-- `prerasterize` (InpaintView.h:189-224). -/
def prerasterize (img : Img) (bs : List Compressed) (grass : Bool) (dflt : ℚ) (t : Box) (junk : Int → Int → ℚ) : Option (View ℚ) :=
  let hit := bs.filter (touches t)
  let view := copied img (expanded img t hit) junk
  run img.w img.h view grass dflt (View.create img.h.toNat view) hit

end VW.Inpaint
