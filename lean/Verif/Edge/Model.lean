import Verif.Block.Model
import Mathlib.Algebra.Ring.Defs
import Mathlib.Algebra.Ring.Int.Defs
/-
Model of the edge extension modes, `src/vw/Image/EdgeExtension.{h,tcc}`, and `mod`
(`src/vw/Math/Functions.h`).

A child view is a partial function: `none` is a read outside the pixels the view has (undefined
behaviour).  The plane index is left out (it is passed through unchanged).  The code treats the two
axes by textually repeated code; here each axis formula is one function used for both axes.  Pixels are
elements of a commutative ring (exact arithmetic); integers are unbounded.
-/
namespace VW.Edge
open VW.Block (Rect)

/-- `mod`, Functions.h:83-89. -/
def vwMod (a b : Int) : Int :=
  let m := a.tmod b
  if b < 0 then (if m > 0 then m + b else m) else (if m < 0 then m + b else m)

/-- A child image view with its dimensions. -/
structure Child (α : Type) where
  cols : Int
  rows : Int
  get : Int → Int → Option α

/-- The modes of EdgeExtension.tcc:31-299. -/
inductive Mode (α : Type) where
  | zero
  | value (v : α)
  | constant
  | periodic
  | cylindrical
  | reflect
  | linear

variable {α : Type}

/-- `(i<0) ? 0 : (i>=n) ? (n-1) : i`, EdgeExtension.tcc:92-93, 161. -/
def clampIdx (n i : Int) : Int := if i < 0 then 0 else if i ≥ n then n - 1 else i

/-- `d %= n; if (d < 0) d += n`, EdgeExtension.tcc:115-118, 159-160; `none` is a division by zero. -/
def periodIdx (n i : Int) : Option Int :=
  if n = 0 then none else some (let d := i.tmod n; if d < 0 then d + n else d)

/-- EdgeExtension.tcc:195-203; `none` is a division by zero. -/
def reflectIdx (n i : Int) : Option Int :=
  let d := if i < 0 then -i else i
  let nm1 := n - 1
  if 2 * nm1 = 0 then none else
  let d := d.tmod (2 * nm1)
  some (if d > nm1 then 2 * nm1 - d else d)

/-- The function call operators of the modes, EdgeExtension.tcc:48-276, in the order of the file. -/
def Mode.eval [CommRing α] (m : Mode α) (v : Child α) (i j : Int) : Option α :=
  match m with
  | .zero => if i ≥ 0 ∧ j ≥ 0 ∧ i < v.cols ∧ j < v.rows then v.get i j else some 0
  | .value x => if i ≥ 0 ∧ j ≥ 0 ∧ i < v.cols ∧ j < v.rows then v.get i j else some x
  | .constant => v.get (clampIdx v.cols i) (clampIdx v.rows j)
  | .periodic => do let a ← periodIdx v.cols i; let b ← periodIdx v.rows j; v.get a b
  | .cylindrical => do let a ← periodIdx v.cols i; v.get a (clampIdx v.rows j)
  | .reflect => do let a ← reflectIdx v.cols i; let b ← reflectIdx v.rows j; v.get a b
  | .linear => do
    let vcm1 := v.cols - 1
    let vrm1 := v.rows - 1
    if i < 0 then
      if j < 0 then
        return (← v.get 0 0) - (i : α) * ((← v.get 0 0) - (← v.get 1 0)) - (j : α) * ((← v.get 0 0) - (← v.get 0 1))
      else if j > vrm1 then
        return (← v.get 0 vrm1) - (i : α) * ((← v.get 0 vrm1) - (← v.get 1 vrm1))
          + ((j - vrm1 : Int) : α) * ((← v.get 0 vrm1) - (← v.get 0 (vrm1 - 1)))
      else return (← v.get 0 j) - (i : α) * ((← v.get 0 j) - (← v.get 1 j))
    else if i > vcm1 then
      if j < 0 then
        return (← v.get vcm1 0) + ((i - vcm1 : Int) : α) * ((← v.get vcm1 0) - (← v.get (vcm1 - 1) 0))
          - (j : α) * ((← v.get vcm1 0) - (← v.get vcm1 1))
      else if j > vrm1 then
        return (← v.get vcm1 vrm1) + ((i - vcm1 : Int) : α) * ((← v.get vcm1 vrm1) - (← v.get (vcm1 - 1) vrm1))
          + ((j - vrm1 : Int) : α) * ((← v.get vcm1 vrm1) - (← v.get vcm1 (vrm1 - 1)))
      else return (← v.get vcm1 j) + ((i - vcm1 : Int) : α) * ((← v.get vcm1 j) - (← v.get (vcm1 - 1) j))
    else
      if j < 0 then return (← v.get i 0) - (j : α) * ((← v.get i 0) - (← v.get i 1))
      else if j > vrm1 then
        return (← v.get i vrm1) + ((j - vrm1 : Int) : α) * ((← v.get i vrm1) - (← v.get i (vrm1 - 1)))
      else v.get i j

/-! ### source_bbox: one axis, image size `n`, requested [lo,hi), requested width `w` -/

/-- EdgeExtension.tcc:98-105, 182-187. -/
def constSrc (n lo hi : Int) : Int × Int :=
  (if lo < 0 then 0 else if lo ≥ n then n - 1 else lo,
   if hi > n then n else if hi ≤ 0 then 1 else hi)

/-- EdgeExtension.tcc:124-135 and 136-147, 168-180. -/
def periodSrc (n lo hi w : Int) : Int × Int :=
  if w ≥ n then (0, n)
  else
    let a := vwMod lo n
    let b := vwMod (hi - 1) n + 1
    if a ≥ b then (0, n) else (a, b)

/-- EdgeExtension.tcc:209-230 and 231-252. -/
def reflectSrc (n lo hi w : Int) : Int × Int :=
  if w ≥ 2 * n - 2 then (0, n)
  else
    let a := vwMod lo (2 * n - 2)
    let b := vwMod (hi - 1) (2 * n - 2) + 1
    if a ≥ b then (0, min (max b (2 * n - 1 - a)) n)
    else if a ≥ n then (2 * n - 1 - b, 2 * n - 1 - a)
    else if b > n then (min a (2 * n - 1 - b), n)
    else (a, b)

/-- EdgeExtension.tcc:281-288 and 289-296. -/
def linearSrc (n lo hi : Int) : Int × Int :=
  let r1 : Int × Int := if lo < 0 then (0, max hi 2) else (lo, hi)
  if hi > n then (min r1.1 (n - 2), n) else r1

/-- `source_bbox` of the modes, EdgeExtension.tcc:57-61, 81-85, 96-107, 121-149, 165-189, 206-254, 278-298. -/
def Mode.sourceBBox (m : Mode α) (cols rows : Int) (b : Rect) : Rect :=
  let mk := fun (x y : Int × Int) => Rect.mk x.1 y.1 x.2 y.2
  match m with
  | .zero => b.crop ⟨0, 0, cols, rows⟩
  | .value _ => b.crop ⟨0, 0, cols, rows⟩
  | .constant => mk (constSrc cols b.x0 b.x1) (constSrc rows b.y0 b.y1)
  | .periodic => mk (periodSrc cols b.x0 b.x1 b.width) (periodSrc rows b.y0 b.y1 b.height)
  | .cylindrical => mk (periodSrc cols b.x0 b.x1 b.width) (constSrc rows b.y0 b.y1)
  | .reflect => mk (reflectSrc cols b.x0 b.x1 b.width) (reflectSrc rows b.y0 b.y1 b.height)
  | .linear => mk (linearSrc cols b.x0 b.x1) (linearSrc rows b.y0 b.y1)

/-- `EdgeExtensionView` (EdgeExtension.h:106-170): a child, an offset and a mode. -/
structure EView (α : Type) where
  child : Child α
  xoff : Int
  yoff : Int
  mode : Mode α

/-- `EdgeExtensionView::operator()`, EdgeExtension.h:144-146. -/
def EView.read [CommRing α] (e : EView α) (i j : Int) : Option α :=
  e.mode.eval e.child (i + e.xoff) (j + e.yoff)

/-- `BBox2i + Vector2i` (BBox.tcc:281-286, 309-): empty boxes stay as they are. -/
def shift (b : Rect) (x y : Int) : Rect :=
  if b.empty then b else ⟨b.x0 + x, b.y0 + y, b.x1 + x, b.y1 + y⟩

/-- `EdgeExtensionView::source_bbox`, EdgeExtension.h:150-152. -/
def EView.sourceBBox (e : EView α) (b : Rect) : Rect :=
  e.mode.sourceBBox e.child.cols e.child.rows (shift b e.xoff e.yoff)

/-- A child prerasterized over a box only has the pixels of that box (the dimensions are kept). -/
def Child.restrict (c : Child α) (b : Rect) : Child α :=
  { c with get := fun i j => if b.has i j then c.get i j else none }

/-- `EdgeExtensionView::prerasterize`, EdgeExtension.h:155-161. -/
def EView.prerasterize (e : EView α) (bbox : Rect) : EView α :=
  let src := e.sourceBBox bbox
  let src := if src.empty then ⟨0, 0, 0, 0⟩ else src
  { e with child := e.child.restrict src }

end VW.Edge
