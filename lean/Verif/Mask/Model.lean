import Mathlib.Data.Fin.Basic
import Mathlib.Algebra.Group.Defs
import Mathlib.Algebra.Field.Basic

/-
Model of src/vw/Image/PixelMask.h and src/vw/Image/MaskViews.h.  A pixel has `n` channels of type `C`; conversions between
channel types are left out, so arguments and result of an operation have channels of the same type.
`validate_mask` is left out: its functor is declared but never defined.
-/

namespace Verif.Mask

/-- `ChannelRange` (src/vw/Image/PixelTypeInfo.h:94-129): `min()` is zero, `max()` is not. -/
class ChanRange (C : Type) [Zero C] where
  top : C
  top_ne : top ≠ 0

variable {C : Type} [Zero C] [DecidableEq C] [ChanRange C] {n : Nat}

/-- `PixelMask` (src/vw/Image/PixelMask.h:47-54): the child pixel and the valid channel. -/
structure PMask (n : Nat) (C : Type) where
  child : Fin n → C
  valid : C

/-- `is_valid` (src/vw/Image/PixelMask.h:178-180): the valid channel used as a truth value. -/
def PMask.isValid (p : PMask n C) : Bool := p.valid ≠ 0

/-- `PixelMask()` (src/vw/Image/PixelMask.h:59-62). -/
def PMask.default : PMask n C := ⟨fun _ => 0, 0⟩

/-- `PixelMask( T const& pix)` (src/vw/Image/PixelMask.h:83-86). -/
def PMask.ofChild (c : Fin n → C) : PMask n C := ⟨c, ChanRange.top⟩

/-- `PixelMask( PixelMask<T> other )` (src/vw/Image/PixelMask.h:66-77). -/
def PMask.convert (p : PMask n C) : PMask n C := ⟨p.child, if p.valid ≠ 0 then ChanRange.top else 0⟩

/-- `validate` (src/vw/Image/PixelMask.h:110). -/
def PMask.validate (p : PMask n C) : PMask n C := { p with valid := ChanRange.top }

/-- `invalidate` (src/vw/Image/PixelMask.h:107). -/
def PMask.invalidate (p : PMask n C) : PMask n C := { p with valid := 0 }

/-- `toggle` (src/vw/Image/PixelMask.h:113-118). -/
def PMask.toggle (p : PMask n C) : PMask n C := if p.valid ≠ 0 then { p with valid := 0 } else { p with valid := ChanRange.top }

/-- `operator[]` (src/vw/Image/PixelMask.h:133-145): index `n` is the valid channel. -/
def PMask.get (p : PMask n C) (i : Fin (n + 1)) : C := if h : i.val < n then p.child ⟨i.val, h⟩ else p.valid

/-! ## Operations by channel -/

/-- `BinaryCompoundFunctor`, general case (src/vw/Image/PixelMask.h:325-335). -/
def binGeneral (f : C → C → C) (a b : PMask n C) : PMask n C :=
  let r : PMask n C := PMask.default
  let r := { r with child := fun i => f (a.child i) (b.child i) }
  if a.valid ≠ 0 ∧ b.valid ≠ 0 then r.validate else r

/-- `BinaryCompoundFunctor`, one to four channels (src/vw/Image/PixelMask.h:337-379). -/
def binSmall (f : C → C → C) (a b : PMask n C) : PMask n C :=
  let r : PMask n C := PMask.ofChild (fun i => f (a.child i) (b.child i))
  if a.valid = 0 ∨ b.valid = 0 then r.invalidate else r

/-- Which of the two is taken is decided by the number of channels (src/vw/Image/PixelMask.h:325-379). -/
def binOp (f : C → C → C) (a b : PMask n C) : PMask n C :=
  if 1 ≤ n ∧ n ≤ 4 then binSmall f a b else binGeneral f a b

/-- `BinaryInPlaceCompoundFunctor` (src/vw/Image/PixelMask.h:413-470). -/
def binInPlace (f : C → C → C) (a b : PMask n C) : PMask n C :=
  let a := { a with child := fun i => f (a.child i) (b.child i) }
  if b.valid = 0 then a.invalidate else a

/-- `UnaryCompoundFunctor` (src/vw/Image/PixelMask.h:501-554). -/
def unOp (f : C → C) (a : PMask n C) : PMask n C :=
  if 1 ≤ n ∧ n ≤ 4 then
    let r : PMask n C := PMask.ofChild (fun i => f (a.child i))
    if a.valid = 0 then r.invalidate else r
  else
    let r : PMask n C := { (PMask.default : PMask n C) with child := fun i => f (a.child i) }
    if a.valid ≠ 0 then r.validate else r

/-- `UnaryInPlaceCompoundFunctor` (src/vw/Image/PixelMask.h:587-634). -/
def unInPlace (f : C → C) (a : PMask n C) : PMask n C := { a with child := fun i => f (a.child i) }

/-- Operators between a masked pixel and a masked scalar (src/vw/Image/PixelMask.h:732-759); `f` takes the channel and the
scalar, in the order of the operator. -/
def maskedScalar (f : C → C → C) (p : PMask n C) (s : PMask 1 C) : PMask n C :=
  if s.valid = 0 then unOp (fun c => f c (s.child 0)) p.invalidate else unOp (fun c => f c (s.child 0)) p

/-- In-place operators between a masked pixel and a masked scalar (src/vw/Image/PixelMask.h:761-768). -/
def maskedScalarInPlace (f : C → C → C) (p : PMask n C) (s : PMask 1 C) : PMask n C :=
  unInPlace (fun c => f c (s.child 0)) (if s.valid = 0 then p.invalidate else p)

/-- `ArgArgMaskedSafeQuotientFunctor` (src/vw/Image/PixelMask.h:667-681). -/
def safeQuotient (div : C → C → C) (a b : PMask n C) : PMask n C :=
  if ∀ i, b.child i = 0 then
    if a.isValid && b.isValid then (PMask.default : PMask n C).validate else PMask.default
  else binOp div a b

/-- `ArgArgInPlaceMaskedSafeQuotientFunctor` (src/vw/Image/PixelMask.h:707-720). -/
def safeQuotientInPlace (div : C → C → C) (a b : PMask n C) : PMask n C :=
  if ∀ i, b.child i = 0 then
    if a.isValid && b.isValid then PMask.ofChild (fun _ => 0) else PMask.default
  else (binOp div a b).convert

/-- `mean_channel_value` of a masked pixel (src/vw/Image/PixelMask.h:254-267): the loop ends before the last channel of the
child. -/
def meanChannel {K : Type} [Field K] [DecidableEq K] (p : PMask n K) : K :=
  if p.valid ≠ 0 then (((List.finRange n).take (n - 1)).map p.child).sum / (n : K) else 0

/-! ## Values that may be NaN -/

/-- A floating point value: `none` is NaN. -/
abbrev Flt (α : Type) := Option α

/-- `==` of floating point values. -/
def feq {α : Type} [DecidableEq α] (a b : Flt α) : Bool :=
  match a, b with
  | some x, some y => x = y
  | _, _ => false

/-- `<` of floating point values. -/
def flt {α : Type} [LinearOrder α] (a b : Flt α) : Bool :=
  match a, b with
  | some x, some y => x < y
  | _, _ => false

/-- A masked value: the value and whether it is valid. -/
abbrev MVal (V : Type) := V × Bool

variable {α : Type} [LinearOrder α]

/-- `CreatePixelMask` (src/vw/Image/MaskViews.h:48-67); `zero` is the default pixel. -/
def createMask (zero nodata value : Flt α) : MVal (Flt α) :=
  if !feq value nodata && feq value value then (value, true)
  else if !feq value value then (zero, false)
  else if !feq nodata nodata then (value, true)
  else (zero, false)

/-- `CreatePixelMaskLE` (src/vw/Image/MaskViews.h:74-94). -/
def createMaskLE (zero nodata value : Flt α) : MVal (Flt α) :=
  if flt nodata value then (value, true)
  else if !feq value value then (zero, false)
  else if !feq nodata nodata then (value, true)
  else (zero, false)

/-- `CreatePixelRangeMask` (src/vw/Image/MaskViews.h:100-154). -/
def createRangeMask (zero lo hi value : Flt α) : MVal (Flt α) :=
  if flt hi value || flt value lo || !feq value value then (zero, false) else (value, true)

/-- `CreatePixelRangeMask2` (src/vw/Image/MaskViews.h:160-184). -/
def createRangeMask2 (zero nodata hi value : Flt α) : MVal (Flt α) :=
  if flt nodata value && (flt value hi || feq value hi) then (value, true)
  else if !feq value value then (zero, false)
  else (zero, false)

/-- `CreatePixelMaskNan` (src/vw/Image/MaskViews.h:190-201). -/
def createMaskNan (zero value : Flt α) : MVal (Flt α) :=
  match value with
  | none => (zero, false)
  | some _ => (value, true)

/-- `ApplyPixelMask` (src/vw/Image/MaskViews.h:273-280). -/
def applyMask {V : Type} (nodata : V) (m : MVal V) : V := if m.2 then m.1 else nodata

/-- `CopyPixelMask` (src/vw/Image/MaskViews.h:310-322). -/
def copyMask {V W : Type} (m : MVal V) (mask : MVal W) : MVal V := if !mask.2 then (m.1, false) else m

/-- `UnionPixelMask` (src/vw/Image/MaskViews.h:616-628). -/
def unionMask {V W : Type} (m : MVal V) (mask : MVal W) : MVal V := if m.2 || mask.2 then (m.1, true) else (m.1, false)

/-- `IntersectPixelMask` (src/vw/Image/MaskViews.h:648-660). -/
def intersectMask {V W : Type} (m : MVal V) (mask : MVal W) : MVal V := if m.2 && mask.2 then (m.1, true) else (m.1, false)

/-- `InvertPixelMask` (src/vw/Image/MaskViews.h:549-555). -/
def invertMask {V : Type} (m : MVal V) : MVal V := (m.1, !m.2)

/-- `InvalidatePixelMask` (src/vw/Image/MaskViews.h:591-597). -/
def invalidateMask {V : Type} (m : MVal V) : MVal V := (m.1, false)

/-- `MaskToAlpha` (src/vw/Image/MaskViews.h:344-352): a pixel with alpha is its colour and alpha; `zero` and 0 are those of
the default pixel, `opaque` the largest alpha. -/
def maskToAlpha {V A : Type} [Zero A] (zero : V) (opaq : A) (m : MVal V) : V × A := if !m.2 then (zero, 0) else (m.1, opaq)

/-- `AlphaToMask` (src/vw/Image/MaskViews.h:373-382). -/
def alphaToMask {V A : Type} [Zero A] [DecidableEq A] (zero : V) (p : V × A) : MVal V :=
  if p.2 = 0 then (zero, false) else (p.1, true)

/-! ## Edge masks -/

/-- The loops that search from the lower end: the first index with another value than the mask value, or the size
(src/vw/Image/MaskViews.h:454-457, 470-473). -/
def scanUp {V : Type} [DecidableEq V] (f : Int → V) (mask : V) (size : Nat) : Nat → Int → Int
  | 0, i => i
  | k + 1, i => if i < size ∧ f i = mask then scanUp f mask size k (i + 1) else i

/-- The loops that search from the upper end (src/vw/Image/MaskViews.h:460-463, 476-479): the last index, or -1. -/
def scanDown {V : Type} [DecidableEq V] (f : Int → V) (mask : V) : Nat → Int → Int
  | 0, i => i
  | k + 1, i => if 0 ≤ i ∧ f i = mask then scanDown f mask k (i - 1) else i

/-- `EdgeMaskView::valid` and the constructor (src/vw/Image/MaskViews.h:413-418, 428-482). -/
def edgeValid {V : Type} [DecidableEq V] (img : Int → Int → V) (cols rows : Nat) (mask : V) (buffer : Int) (i j : Int) : Bool :=
  let left := scanUp (fun x => img x j) mask cols cols 0 + buffer
  let right := scanDown (fun x => img x j) mask cols ((cols : Int) - 1) - buffer
  let top := scanUp (fun y => img i y) mask rows rows 0 + buffer
  let bottom := scanDown (fun y => img i y) mask rows ((rows : Int) - 1) - buffer
  i > left && i < right && j > top && j < bottom

/-- `EdgeMaskView::operator()` (src/vw/Image/MaskViews.h:491-496); `zero` is the default pixel. -/
def edgeMask {V : Type} [DecidableEq V] (zero : V) (img : Int → Int → V) (cols rows : Nat) (mask : V) (buffer : Int)
    (i j : Int) : MVal V :=
  if edgeValid img cols rows mask buffer i j then (img i j, true) else (zero, false)

end Verif.Mask
