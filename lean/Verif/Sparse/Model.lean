import Mathlib.Data.List.Basic
import Mathlib.Data.List.GetD

/-! Model of `SparseCompositeView` (`src/vw/Image/SparseView.h`): patches over an image, stored as strips of pixels per row.

A row of the store is a `std::map` from the column after a strip to its pixels; here the list of its entries in the order of the keys. Columns
(int32) do not overflow. -/

namespace VW.Sparse

variable {α : Type}

/-- An entry of a row: the column after the strip, the pixels (SparseView.h:54-57). -/
abbrev Strip (α : Type) := Int × List α

/-- The first column of a strip (SparseView.h:87, 166, 180). -/
def Strip.start (s : Strip α) : Int := s.1 - s.2.length

/-- The pixel of a strip at a column, if it is not before the strip (SparseView.h:87-91). -/
def Strip.at (s : Strip α) (i : Int) : Option α := if i < s.start then none else s.2[(i - s.start).toNat]?

/-- What `operator()` finds in a row (SparseView.h:81-94): the first strip that ends after the column; `none` where the image below is used. -/
def lookup (row : List (Strip α)) (i : Int) : Option α :=
  match row.find? (fun s => s.1 > i) with
  | some s => s.at i
  | none => none

/-- A strip is inserted (SparseView.h:161-190); `none` is the `NoImplErr`. -/
def insert (row : List (Strip α)) (e : Int) (v : List α) : Option (List (Strip α)) :=
  let before := row.takeWhile (fun s => s.1 < e)
  match row.dropWhile (fun s => s.1 < e) with
  | [] => some (before ++ [(e, v)])
  | it :: after =>
    let overlapsPrev := match before.getLast? with
      | none => false
      | some prev => decide (e - v.length < prev.1)
    if overlapsPrev || decide (e > Strip.start it) then none
    else if e = Strip.start it then some (before ++ (it.1, v ++ it.2) :: after)
    else some (before ++ (e, v) :: it :: after)

/-- The strips of valid pixels of a row of the input (SparseView.h:117-141): `c` is the next column, `temp` the strip being built, empty if there
is none. -/
def strips : Nat → List α → List (Option α) → List (Nat × List α)
  | c, temp, [] => if temp.isEmpty then [] else [(c, temp)]
  | c, temp, some a :: t => strips (c + 1) (temp ++ [a]) t
  | c, temp, none :: t => if temp.isEmpty then strips (c + 1) [] t else (c, temp) :: strips (c + 1) [] t

/-- The strips of a row are inserted (SparseView.h:143-147, 157-194). -/
def insertAll (row : List (Strip α)) (x0 : Int) : List (Nat × List α) → Option (List (Strip α))
  | [] => some row
  | s :: t => match insert row (s.1 + x0) s.2 with
    | none => none
    | some r => insertAll r x0 t

/-- The view: its store, and the image below. -/
structure View (α : Type) where
  data : List (List (Strip α))
  under : Int → Int → α

/-- The constructor (SparseView.h:68-71): one row for each of the image. -/
def View.create (h : Nat) (under : Int → Int → α) : View α := ⟨List.replicate h [], under⟩

/-- `operator()` (SparseView.h:79-95). -/
def View.pixel (v : View α) (i : Int) (j : Nat) : α := (lookup (v.data.getD j []) i).getD (v.under i j)

/-- The rows of a patch from the row `y` on (SparseView.h:153-195). -/
def absorbRows (data : List (List (Strip α))) (x0 : Int) (y : Nat) : List (List (Option α)) → Option (List (List (Strip α)))
  | [] => some data
  | r :: rs => match insertAll (data.getD y []) x0 (strips 0 [] r) with
    | none => none
    | some row => absorbRows (data.set y row) x0 (y + 1) rs

/-- `absorb` (SparseView.h:104-196) of a patch, given by its rows; `none` is the exception. -/
def View.absorb (v : View α) (x0 : Int) (y0 : Nat) (patch : List (List (Option α))) : Option (View α) :=
  (absorbRows (v.data ++ List.replicate (y0 + patch.length - v.data.length) []) x0 y0 patch).map (fun d => { v with data := d })

end VW.Sparse
