import Mathlib.Data.Rat.Floor
import Mathlib.Algebra.Order.Field.Rat
import Mathlib.Order.Basic

/-! Model of `src/vw/Cartography/Chipper.{h,cc}`: the points of a cloud are put in the cells of an image, block by block, so that
every block of the image holds points that are close together.

Simplifications: coordinates are rationals (no NaN, no infinities); sizes are natural numbers (no 32 bit wrap); the conversion
through the georeference is a parameter `conv`; the directions stored for naming the arrays (`m_dir`) and the narrow extents
passed to `emit` are not modelled, as nothing reads them. -/

namespace VW.Chipper

/-- `ChipPtRef` (Chipper.h:66-81). -/
structure Ref where
  pos : ℚ
  pt : Nat
  o : Nat
deriving DecidableEq, Repr, Inhabited

/-- A `ChipRefList` (Chipper.h:83-129) by index. -/
abbrev Arr := Nat → Ref

/-- `vec[i] = x`. -/
def put (a : Arr) (i : Nat) (x : Ref) : Arr := fun j => if j = i then x else a j

/-- `vec[i].m_oindex = o`. -/
def putO (a : Arr) (i o : Nat) : Arr := fun j => if j = i then { a j with o := o } else a j

/-- A point of the cloud: `x()`, `y()`, and the value that is stored in the image for it (`m_inbuf[..]`, converted when there is
a georeference, Chipper.cc:331-337). -/
structure Pt (α : Type) where
  x : ℚ
  y : ℚ
  val : α

/-- The members that change while chipping: the three arrays `m_xvec` (0), `m_yvec` (1), `m_spare` (2), `m_currChip`, and the
output image by (column, row). -/
structure St (α : Type) where
  arr : Fin 3 → Arr
  cur : Nat
  img : Nat → Nat → α

/-- The constant members of the `Chipper`, and the size of the output image. -/
structure Cfg (α : Type) where
  buf : List (Pt α)
  bs : Nat
  cols : Nat
  rows : Nat
  zero : α

variable {α : Type}

def St.set (s : St α) (k : Fin 3) (a : Arr) : St α := { s with arr := fun j => if j = k then a else s.arr j }

/-- `std::stable_sort` by `operator<` on `m_pos` (Chipper.cc:126,134). -/
def sort (l : List Ref) : List Ref := l.mergeSort (fun a b => decide (a.pos ≤ b.pos))

/-- The loop `for i: vec[keys[i]].m_oindex = i` (Chipper.cc:127-131 and 137-138). -/
def link (a : Arr) (keys : List Nat) (i : Nat) : Arr :=
  match keys with
  | [] => a
  | k :: ks => link (putO a k i) ks (i + 1)

/-- The array holding a list; beyond its end nothing is read. -/
def ofList (l : List Ref) : Arr := fun i => l.getD i ⟨0, 0, 0⟩

/-- The list of the first `n` entries of an array. -/
def toList (a : Arr) (n : Nat) : List Ref := (List.range n).map a

/-- The references before sorting (Chipper.cc:108-122): one per point, in order. -/
def refs (coord : Pt α → ℚ) (buf : List (Pt α)) : List Ref := buf.zipIdx.map fun p => ⟨coord p.1, p.2, 0⟩

/-- `Chipper::load` (Chipper.cc:97-139). -/
def load (buf : List (Pt α)) : Arr × Arr :=
  let n := buf.length
  let xs := sort (refs Pt.x buf)
  let y0 := link (ofList (refs Pt.y buf)) (xs.map Ref.pt) 0
  let ys := sort (toList y0 n)
  let x1 := link (ofList xs) (ys.map Ref.o) 0
  (x1, ofList ys)

/-- `lround` of a number that is not negative (Chipper.cc:161). -/
def lround (q : ℚ) : Nat := ⌊q + 1 / 2⌋₊

/-- The loop of `Chipper::partition` (Chipper.cc:158-163): `total` grows by the size of a partition, exactly. -/
def cumulate (step : ℚ) : Nat → ℚ → List Nat
  | 0, _ => []
  | k + 1, total => lround (total + step) :: cumulate step k (total + step)

/-- `num_partitions` (Chipper.cc:146-150). -/
def numPartitions (size m : Nat) : Nat := size / m + (if size % m ≠ 0 then 1 else 0)

/-- `Chipper::partition` (Chipper.cc:144-164). -/
def partition (size m : Nat) : List Nat :=
  let n := numPartitions size m
  0 :: cumulate ((size : ℚ) / n) n 0

/-- The loop of `Chipper::emit` (Chipper.cc:326-341): entries `widemin + t` of the wide array, with `count = t`. -/
def paint (cf : Cfg α) (startx starty : Nat) (wide : Arr) : List Nat → Nat → (Nat → Nat → α) → (Nat → Nat → α)
  | [], _, img => img
  | idx :: is, count, img =>
    let x := count / cf.bs
    let y := count - x * cf.bs
    let v := match cf.buf[(wide idx).pt]? with
      | some p => p.val
      | none => cf.zero -- not reached: the index would be beyond the buffer
    paint cf startx starty wide is (count + 1)
      (fun c r => if c = startx + x ∧ r = starty + y then v else img c r)

/-- `Chipper::emit` (Chipper.cc:303-345). -/
def emit (cf : Cfg α) (wide : Fin 3) (widemin widemax : Nat) (s : St α) : Except String (St α) :=
  if ¬ (widemax + 1 - widemin ≤ cf.bs * cf.bs) then .error "Chipper: book-keeping failure!" else
  let nrb := cf.rows / cf.bs
  let posx := s.cur / nrb
  let posy := s.cur - posx * nrb
  let startx := posx * cf.bs
  let starty := posy * cf.bs
  if ¬ (startx + cf.bs ≤ cf.cols ∧ starty + cf.bs ≤ cf.rows) then .error "Chipper: Out of bounds!" else
  .ok { s with img := paint cf startx starty (s.arr wide) (List.range' widemin (widemax + 1 - widemin)) 0 s.img
               cur := s.cur + 1 }

/-- `Chipper::finalSplit` (Chipper.cc:236-301); `left1 … right2` are only passed on to `emit`, which ignores them. -/
def finalSplit (cf : Cfg α) (parts : List Nat) (wide : Fin 3) (pleft pright : Nat) (s : St α) : Except String (St α) :=
  let left := parts.getD pleft 0
  let right := parts.getD pright 0 - 1
  let center := parts.getD (pright - 1) 0
  match emit cf wide left (center - 1) s with
  | .error e => .error e
  | .ok s => emit cf wide center right s

/-- The loop of `Chipper::split` (Chipper.cc:209-223) over the indices `is`; state: wide and spare array, `lstart`, `rstart`. -/
def sift (narrow : Arr) (center : Nat) : List Nat → Arr × Arr × Nat × Nat → Arr × Arr × Nat × Nat
  | [], t => t
  | i :: is, (wide, spare, lstart, rstart) =>
    if (narrow i).o < center then
      sift narrow center is (putO wide (narrow i).o lstart, put spare lstart (narrow i), lstart + 1, rstart)
    else
      sift narrow center is (putO wide (narrow i).o rstart, put spare rstart (narrow i), lstart, rstart + 1)

/-- `Chipper::split` (Chipper.cc:184-231); `rec` is `decideSplit`. -/
def split (cf : Cfg α) (parts : List Nat) (rec : Fin 3 → Fin 3 → Fin 3 → Nat → Nat → St α → Except String (St α))
    (wide narrow spare : Fin 3) (pleft pright : Nat) (s : St α) : Except String (St α) :=
  let left := parts.getD pleft 0
  let right := parts.getD pright 0 - 1
  if pright - pleft = 1 then emit cf wide left right s
  else if pright - pleft = 2 then finalSplit cf parts wide pleft pright s
  else
    let pcenter := (pleft + pright) / 2
    let center := parts.getD pcenter 0
    let t := sift (s.arr narrow) center (List.range' left (right + 1 - left)) (s.arr wide, s.arr spare, left, center)
    let s := (s.set wide t.1).set spare t.2.1
    match rec wide spare narrow pleft pcenter s with
    | .error e => .error e
    | .ok s => rec wide spare narrow pcenter pright s

/-- `Chipper::decideSplit` (Chipper.cc:166-182). The recursion is bounded by `fuel`; running out of it is an error here, and
`chip_spec` shows that it does not happen. -/
def decideSplit (cf : Cfg α) (parts : List Nat) : Nat → Fin 3 → Fin 3 → Fin 3 → Nat → Nat → St α → Except String (St α)
  | 0, _, _, _, _, _, _ => .error "no fuel"
  | fuel + 1, v1, v2, spare, pleft, pright, s =>
    let left := parts.getD pleft 0
    let right := parts.getD pright 0 - 1
    let v1range := (s.arr v1 right).pos - (s.arr v1 left).pos
    let v2range := (s.arr v2 right).pos - (s.arr v2 left).pos
    if v1range > v2range then split cf parts (decideSplit cf parts fuel) v1 v2 spare pleft pright s
    else split cf parts (decideSplit cf parts fuel) v2 v1 spare pleft pright s

/-- The constructor `Chipper::Chipper` (Chipper.cc:65-95): the image it leaves. -/
def chip (cf : Cfg α) : Except String (Nat → Nat → α) :=
  let img0 : Nat → Nat → α := fun _ _ => cf.zero
  let total := cf.buf.length
  if total = 0 then .ok img0 else
  if ¬ (cf.cols % cf.bs = 0 ∧ cf.rows % cf.bs = 0) then .error "Chipper: The image size must be multiple of the block size." else
  if ¬ (total ≤ cf.cols * cf.rows) then .error "Chipper: More points were passed in than output image size." else
  let (x, y) := load cf.buf
  let spare : Arr := fun _ => ⟨0, 0, 0⟩
  let parts := partition total (cf.bs * cf.bs)
  let s : St α := ⟨fun k => if k = 0 then x else if k = 1 then y else spare, 0, img0⟩
  match decideSplit cf parts parts.length 0 1 2 0 (parts.length - 1) s with
  | .error e => .error e
  | .ok s => .ok s.img

end VW.Chipper
