import Verif.Blob.Model
import Mathlib.Data.List.Basic

/-! Model of `ErodeView` (`src/vw/Image/ErodeView.h`): an image with the pixels of blobs masked out. Blobs are `BlobCompressed`, as modelled for
C52 (`Verif.Blob.Model`).

A row of the mask is a `std::map` from the last column of a segment to its first one; here the list of its entries in the order of the keys.
Columns (int32) do not overflow. -/

namespace VW.Erode
open VW.Blob (Compressed)

/-- An entry of a row: last column, first column (ErodeView.h:128-133). -/
abbrev Seg := Int × Int

/-- `std::map::insert`: no change if the key exists. -/
def insertKey (k : Seg) : List Seg → List Seg
  | [] => [k]
  | h :: t => if k.1 < h.1 then k :: h :: t else if k.1 = h.1 then h :: t else h :: insertKey k t

/-- How the loop over old segments ends: the new segment is contained in an old one (with the entries left), it is to be inserted (last and
first column, entries kept), or "Failed to compare row segments!". -/
inductive Res where
  | skip (left : List Seg)
  | add (en st : Int) (kept : List Seg)
  | fail
deriving DecidableEq

/-- An entry is kept. -/
def Res.keep (o : Seg) : Res → Res
  | .skip l => .skip (o :: l)
  | .add en st k => .add en st (o :: k)
  | .fail => .fail

/-- The loop over old segments (ErodeView.h:273-330), from the first to the last that may touch the new segment `st … en`. -/
def merge (st en : Int) : List Seg → Res
  | [] => .add en st []
  | o :: t =>
    if o.1 < st - 1 ∨ o.2 > en + 1 then (merge st en t).keep o
    else if o.2 ≤ st ∧ o.1 ≥ en then .skip (o :: t)
    else if o.2 ≥ st ∧ o.1 ≤ en then merge st en t
    else if (o.1 ≥ st - 1 ∧ o.1 ≤ en + 1) ∨ (o.2 ≥ st - 1 ∧ o.2 ≤ en + 1) then merge (if o.2 < st then o.2 else st) (if o.1 > en then o.1 else en) t
    else .fail

/-- A segment is added to a row (ErodeView.h:254-338); `none` is the exception. -/
def addSeg (row : List Seg) (st en : Int) : Option (List Seg) :=
  let before := row.takeWhile (fun o => o.1 < st - 1)
  let rest := row.dropWhile (fun o => o.1 < st - 1)
  let low := rest.takeWhile (fun o => o.1 < en)
  let high := rest.dropWhile (fun o => o.1 < en)
  match merge st en (low ++ high.take 1) with
  | .skip l => some (before ++ l ++ high.drop 1)
  | .add en' st' k => some (insertKey (en', st') (before ++ k ++ high.drop 1))
  | .fail => none

/-- The segments of a row of a blob, whose ends are one after the last column (ErodeView.h:243-252). -/
def addRow (row : List Seg) (minX : Int) : List (Int × Int) → Option (List Seg)
  | [] => some row
  | s :: t => match addSeg row (s.1 + minX) (s.2 + minX - 1) with
    | none => none
    | some r => addRow r minX t

/-- What an absorb ends with: a mask, and whether there was no exception (what was absorbed before an exception stays). -/
structure State where
  rows : List (List Seg)
  ok : Bool
deriving DecidableEq

/-- The rows of a blob from the row `y` of the image on (ErodeView.h:230-342). A row that is not one of the image is an `InputErr`; a negative one
becomes a large `size_t`. -/
def absorbRows (data : List (List Seg)) (minX y : Int) : List (List (Int × Int)) → State
  | [] => ⟨data, true⟩
  | r :: rs =>
    if y < 0 ∨ y ≥ data.length then ⟨data, false⟩
    else match addRow (data.getD y.toNat []) minX r with
      | none => ⟨data, false⟩
      | some row => absorbRows (data.set y.toNat row) minX (y + 1) rs

/-- `absorb` of a blob (ErodeView.h:223-345). -/
def absorb (data : List (List Seg)) (b : Compressed) : State := absorbRows data b.minX b.minY b.rows

/-- `absorb` of a list of blobs, or of an index (ErodeView.h:347-363). -/
def absorbAll (data : List (List Seg)) : List Compressed → State
  | [] => ⟨data, true⟩
  | b :: bs => if (absorb data b).ok then absorbAll (absorb data b).rows bs else absorb data b

/-- The constructors (ErodeView.h:168-186): one empty row for each one of the image. -/
def create (h : Nat) (bs : List Compressed) : State := absorbAll (List.replicate h []) bs

/-- `operator()` (ErodeView.h:198-221): `none` is the invalid pixel, else the one of the image below. -/
def pixel {α : Type} (data : List (List Seg)) (img : Int → Int → α) (i j : Int) : Option α :=
  match (data.getD j.toNat []).find? (fun o => o.1 ≥ i) with
  | some o => if i < o.2 then some (img i j) else none
  | none => some (img i j)

/-- A copy of the pixels of a box, as an image of the whole size (ErodeView.h:41-51): at `i`, `j` the pixel of the copy at `i - x0`, `j - y0`. -/
def hidden {α : Type} (img : Int → Int → α) (x0 y0 : Int) : Int → Int → α :=
  fun i j => (fun c r => img (c + x0) (r + y0)) (i - x0) (j - y0)

/-- `prerasterize` and `rasterize` (ErodeView.h:365-383): the same mask over the copy. -/
def raster {α : Type} (data : List (List Seg)) (img : Int → Int → α) (x0 y0 i j : Int) : Option α := pixel data (hidden img x0 y0) i j

end VW.Erode
