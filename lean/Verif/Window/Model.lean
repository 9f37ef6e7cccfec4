import Verif.Stats.Model
/-
Model of the filters over a sliding window, src/vw/Image/WindowAlgorithms.h.

A pixel is an optional number, `none` for an invalid one. An edge-extended image is a total function of column and row
(what edge extension gives is the subject of C35). Numbers are elements of an ordered field, sizes are unbounded.
-/
namespace VW.Window
open VW.Stats

variable {K : Type} [Field K] [LinearOrder K] [IsStrictOrderedRing K] [FloorRing K]

/-- An image extended beyond its edges. -/
abbrev Ext (K : Type) := Int → Int → Option K

/-- The tile asked for: its corner and its size. -/
structure Box where
  x : Int
  y : Int
  w : Int
  h : Int

/-- A region copied into memory, `ImageView src = crop(edge_extend(image), box)`: outside of it a read is undefined
(the outer `none`). -/
def copied (e : Ext K) (b : Box) (i j : Int) : Option (Option K) :=
  if 0 ≤ i ∧ i < b.w ∧ 0 ≤ j ∧ j < b.h then some (e (b.x + i) (b.y + j)) else none

/-! ### StdDevView -/

/-- `m_half_width` and `m_half_height`, WindowAlgorithms.h:57-58, 177-178. -/
def half (n : Nat) : Int := (n / 2 : Nat)

/-- `larger_bbox`, WindowAlgorithms.h:79-80: expanded on all sides by half the width. -/
def larger (b : Box) (m : Int) : Box := ⟨b.x - m, b.y - m, b.w + 2 * m, b.h + 2 * m⟩

/-- `if (is_valid(p)) push(p) else pop()`, WindowAlgorithms.h:93-96, 104-107, on a read. -/
def feed (s : Option (Sliding K)) (p : Option (Option K)) : Option (Sliding K) :=
  s.bind fun s => p.map fun p =>
    match p with
    | some v => s.push v
    | none => s.pop

/-- `for (v = -n; v <= n; ++v)`. -/
def span (n : Int) : List Int := (List.range (2 * n + 1).toNat).map (fun (k : Nat) => (k : Int) - n)

/-- One column of the window, WindowAlgorithms.h:92-97, 103-108: `x` and `r` are column and row in `src`, which is read
from `r + y + row_off` with `row_off` half the width. -/
def feedColumn (src : Int → Int → Option (Option K)) (hw hh : Int) (x r : Int) (s : Option (Sliding K)) :
    Option (Sliding K) :=
  (span hh).foldl (fun s y => feed s (src x (r + y + hw))) s

/-- The state of the functor after column `c` of row `r` of the tile, WindowAlgorithms.h:89-110. -/
def stdState (src : Int → Int → Option (Option K)) (w h : Nat) (r : Int) : Nat → Option (Sliding K)
  | 0 => (span (half w)).foldl (fun s x => feedColumn src (half w) (half h) (0 + x + half w) r s)
      (some (Sliding.new (w * h)))
  | c + 1 => feedColumn src (half w) (half h) ((c + 1 : Nat) + half w + half w) r (stdState src w h r c)

/-- `dst(c,r)` of `StdDevView::prerasterize`, WindowAlgorithms.h:76-117, before the square root. The outer `none` is a
read outside of `src`, the inner one NaN. -/
def stdDev (e : Ext K) (w h : Nat) (b : Box) (c r : Nat) : Option (Option K) :=
  (stdState (copied e (larger b (half w))) w h r c).map Sliding.variance

/-! ### WindowFunctionView with WindowMedianFunctor -/

/-- What the median functor gives. -/
inductive Res (K : Type) where
  /-- a read or a write outside -/
  | undefined
  /-- the exception of the median of nothing -/
  | throw
  | invalid
  | value (m : K)

/-- `if (is_valid(p)) { m_values[index] = p; ++index; }`, WindowAlgorithms.h:231-234, on a read. -/
def gather (s : Option (List K)) (p : Option (Option K)) : Option (List K) :=
  s.bind fun l => p.map fun p =>
    match p with
    | some v => l ++ [v]
    | none => l

/-- The loops that collect the valid values, WindowAlgorithms.h:228-236: by rows. -/
def collect (img : Nat → Nat → Option (Option K)) (w h : Nat) : Option (List K) :=
  (List.range h).foldl (fun s r => (List.range w).foldl (fun s c => gather s (img c r)) s) (some [])

/-- `int min_valid_values = area * 0.9`, WindowAlgorithms.h:239-240, without rounding. -/
def minValid (w h : Nat) : Nat := 9 * (h * w) / 10

/-- `WindowMedianFunctor::operator()`, WindowAlgorithms.h:224-260: the result and what becomes of `m_values`. -/
def medianOp (store : List K) (img : Nat → Nat → Option (Option K)) (w h : Nat) : Res K × List K :=
  match collect img w h with
  | none => (.undefined, store)
  | some vals =>
    if store.length < vals.length then (.undefined, store)
    else
      let store' := vals ++ store.drop vals.length
      if vals.length < minValid w h then (.invalid, store')
      else if vals.length = store'.length then
        match destructiveMedian store' with
        | none => (.throw, store')
        | some (m, v) => (.value m, v)
      else
        match destructiveMedian (store'.take vals.length) with
        | none => (.throw, store'.take vals.length)
        | some (m, v) => (.value m, v ++ List.replicate (store'.length - vals.length) 0)

/-- `WindowFunctionView::operator()`, WindowAlgorithms.h:192-195: the functor on the edge-extended region of interest. -/
def medianAt (store : List K) (e : Int → Int → Option (Option K)) (w h : Nat) (x y : Int) : Res K × List K :=
  medianOp store (fun c r => e (x - half w + c) (y - half h + r)) w h

/-- `src_bbox`, WindowAlgorithms.h:204-207. -/
def support (b : Box) (w h : Nat) : Box := ⟨b.x - half w, b.y - half h, b.w + w - 1, b.h + h - 1⟩

/-- A pixel of the prerasterized view, WindowAlgorithms.h:202-213: `crop(src, -min.x, -min.y, ...)` moves the copied
region back to its place; there is no edge extension. -/
def medianTile (store : List K) (e : Ext K) (w h : Nat) (b : Box) (x y : Int) : Res K × List K :=
  let s := support b w h
  medianAt store (fun i j => copied e s (i + -s.x) (j + -s.y)) w h x y

end VW.Window
