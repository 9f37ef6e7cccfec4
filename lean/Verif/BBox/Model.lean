import Mathlib.Algebra.Order.Ring.Defs
import Mathlib.Algebra.Order.Floor.Ring
/-
Model of `vw::math::BBox<RealT, DimN>`, `src/vw/Math/BBox.tcc`.

A box of dimension `n` is a pair of functions `Fin n → α`.  `α` is any linear order (ordered ring
where arithmetic is needed): exact arithmetic, no rounding or overflow.  Dimension mismatches
(VW_ASSERT) cannot be expressed and are not modelled.  Loops over the dimensions, whose iterations do
not interact, are pointwise definitions.
-/
namespace VW.BBox

structure Box (α : Type) (n : Nat) where
  min : Fin n → α
  max : Fin n → α

variable {α : Type} {n : Nat}

section order
variable [LinearOrder α]

/-- `grow(point)`, BBox.tcc:82-98. -/
def Box.growPt (b : Box α n) (p : Fin n → α) : Box α n :=
  { max := fun i => if p i > b.max i then p i else b.max i,
    min := fun i => if p i < b.min i then p i else b.min i }

/-- `empty()`, BBox.tcc:156-160. -/
def Box.empty (b : Box α n) : Bool := decide (∃ i, b.min i ≥ b.max i) || decide (n ≤ 0)

/-- `fully_empty()`, BBox.tcc:163-167. -/
def Box.fullyEmpty (b : Box α n) : Bool := decide (∃ i, b.min i > b.max i) || decide (n ≤ 0)

/-- `grow(bbox)`, BBox.tcc:102-106. -/
def Box.growBox (b c : Box α n) : Box α n :=
  if c.empty then b else (b.growPt c.min).growPt c.max

/-- `crop(bbox)`, BBox.tcc:110-120. -/
def Box.crop (b c : Box α n) : Box α n :=
  { min := fun i => if b.min i < c.min i then c.min i else b.min i,
    max := fun i => if b.max i > c.max i then c.max i else b.max i }

/-- `contains(point)`, BBox.tcc:124-129: half-open. -/
def Box.contains (b : Box α n) (p : Fin n → α) : Bool :=
  decide (n ≠ 0) && decide (∀ i, p i ≥ b.min i) && decide (∀ i, p i < b.max i)

/-- `contains(bbox)`, BBox.tcc:133-138. -/
def Box.containsBox (b c : Box α n) : Bool :=
  decide (n ≠ 0) && decide (∀ i, c.min i ≥ b.min i) && decide (∀ i, c.max i ≤ b.max i)

/-- `intersects(bbox)`, BBox.tcc:142-152. -/
def Box.intersects (b c : Box α n) : Bool :=
  if ∃ i, b.min i ≥ c.max i ∨ b.max i ≤ c.min i then false else decide (n ≠ 0)

end order

section ring
variable [CommRing α] [LinearOrder α]

/-- The default box, BBox.tcc:38-45, with `big` = 2^31 - 2 in the coordinate type. -/
def Box.default (n : Nat) (big : α) : Box α n := { min := fun _ => big, max := fun _ => -big }

/-- `width()`/`height()`/`depth()`, BBox.tcc:170-188, for dimension `i`. -/
def Box.extent (b : Box α n) (i : Fin n) : α := if b.empty then 0 else b.max i - b.min i

/-- `expand(vec)`, BBox.tcc:238-246 (`expand(offset)`, 228-234, is the constant vector). -/
def Box.expand (b : Box α n) (v : Fin n → α) : Box α n :=
  if b.empty then b else { min := fun i => b.min i - v i, max := fun i => b.max i + v i }

/-- `contract(offset)`, BBox.tcc:249-255. -/
def Box.contract (b : Box α n) (o : α) : Box α n :=
  if b.empty then b else { min := fun i => b.min i + o, max := fun i => b.max i - o }

/-- `operator*=`, BBox.tcc:259-266; `none` is the ArgumentErr exception. -/
def Box.scale (b : Box α n) (s : α) : Option (Box α n) :=
  if s > 0 then
    some (if b.empty then b else { min := fun i => b.min i * s, max := fun i => b.max i * s })
  else none

/-- `operator+=`, BBox.tcc:281-286. -/
def Box.translate (b : Box α n) (v : Fin n → α) : Box α n :=
  if b.empty then b else { min := fun i => b.min i + v i, max := fun i => b.max i + v i }

/-- `operator-=`, BBox.tcc:290-295. -/
def Box.translateNeg (b : Box α n) (v : Fin n → α) : Box α n :=
  if b.empty then b else { min := fun i => b.min i - v i, max := fun i => b.max i - v i }

/-- `area()` of a 2-d box, BBox.tcc:192-197. -/
def Box.area (b : Box α 2) : α :=
  if b.empty then 0 else (b.max 0 - b.min 0) * (b.max 1 - b.min 1)

/-- `elem_prod(bbox, v)`, BBox.tcc:346-350. -/
def Box.elemProd (big : α) (b : Box α n) (v : Fin n → α) : Box α n :=
  if b.empty then Box.default n big else { min := fun i => b.min i * v i, max := fun i => b.max i * v i }

end ring

section field
variable [Field α] [LinearOrder α]

/-- `operator/=`, BBox.tcc:270-277, on a floating type. -/
def Box.scaleDiv (b : Box α n) (s : α) : Option (Box α n) :=
  if s > 0 then
    some (if b.empty then b else { min := fun i => b.min i / s, max := fun i => b.max i / s })
  else none

/-- `2^31 - 2`, the bound used by the default constructor (BBox.tcc:40). -/
def big32 : Int := 2147483646

/-- `grow_bbox_to_int`, BBox.tcc:368-391.  The `(int32)` casts are exact because the property ranges
over boxes within int32. -/
def growToInt [IsStrictOrderedRing α] [FloorRing α] (b : Box α n) : Box Int n :=
  if ∃ i, b.min i > b.max i then Box.default n big32
  else { min := fun i => ⌊b.min i⌋, max := fun i => ⌊b.max i⌋ + 1 }

end field

/-- `uint32` with wrap-around arithmetic. -/
abbrev U32 := Fin 4294967296

/-- The default box of `BBox<uint32>`: `big = 2147483646` and `-big` wraps around (BBox.tcc:40-44). -/
def defaultU32 (n : Nat) : Box U32 n := { min := fun _ => 2147483646, max := fun _ => -2147483646 }

end VW.BBox
