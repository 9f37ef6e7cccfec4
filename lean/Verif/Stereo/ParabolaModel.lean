import Mathlib.Analysis.Real.Sqrt
import Mathlib.Algebra.BigOperators.Fin
import Mathlib.Tactic.Linarith
import Mathlib.Tactic.NormNum
import Mathlib.Tactic.Ring
import Mathlib.Tactic.FieldSimp
import Mathlib.Tactic.Positivity
import Mathlib.Tactic.FinCases

/-! Model of the refinement of disparities by a parabola: `ParabolaSubpixelView` (`src/vw/Stereo/ParabolaSubpixelView.{h,cc}`) per pixel, and
`ParabolaFit2d` and `IterativeMaskBoxCounter` (`src/vw/Stereo/SGMAssist.h`).

Numbers are real (`float` in the code, no rounding). A division by zero, which gives an infinity or NaN in the code and so fails the comparison
that follows, gives 0 here; see `refine`. -/

namespace VW.Parabola

/-- The place in the list of costs for a difference of disparities (ParabolaSubpixelView.cc:187-205). -/
def slot (dx dy : ℤ) : Option (Fin 9) :=
  if dx = -1 ∧ dy = -1 then some 0
  else if dx = 0 ∧ dy = -1 then some 1
  else if dx = 1 ∧ dy = -1 then some 2
  else if dx = -1 ∧ dy = 0 then some 3
  else if dx = 0 ∧ dy = 0 then some 4
  else if dx = 1 ∧ dy = 0 then some 5
  else if dx = -1 ∧ dy = 1 then some 6
  else if dx = 0 ∧ dy = 1 then some 7
  else if dx = 1 ∧ dy = 1 then some 8
  else none

/-- One disparity of the loops, at one pixel (ParabolaSubpixelView.cc:159-205); `cost` is the metric of the pixel for a disparity. -/
def record (cost : ℤ → ℤ → ℝ) (disp : ℤ × ℤ) (patch : Fin 9 → ℝ) (x y : ℤ) : Fin 9 → ℝ :=
  match slot (x - disp.1) (y - disp.2) with
  | none => patch
  | some k => fun i => if i = k then cost x y else patch i

/-- A range of disparities: the least, and those after the last. -/
structure Range where
  x0 : ℤ
  y0 : ℤ
  x1 : ℤ
  y1 : ℤ

/-- The loops over the range of a zone, expanded by one (ParabolaSubpixelView.cc:106, 115-120), as far as they concern one pixel. -/
def collect (cost : ℤ → ℤ → ℝ) (disp : ℤ × ℤ) (r : Range) (patch : Fin 9 → ℝ) : Fin 9 → ℝ :=
  (List.range (r.x1 + 1 - (r.x0 - 1)).toNat).foldl (fun patch (dx : ℕ) =>
    (List.range (r.y1 + 1 - (r.y0 - 1)).toNat).foldl (fun patch (dy : ℕ) =>
      record cost disp patch (dx + (r.x0 - 1)) (dy + (r.y0 - 1))) patch) patch

/-- The six numbers of a surface a·x² + b·y² + c·x·y + d·x + e·y + f. -/
structure Surface where
  a : ℝ
  b : ℝ
  c : ℝ
  d : ℝ
  e : ℝ
  f : ℝ

/-- `m_p_A_matrix * z` (ParabolaSubpixelView.h:83-89, ParabolaSubpixelView.cc:242; the same numbers in SGMAssist.h:86-94, 107). -/
noncomputable def fit (z : Fin 9 → ℝ) : Surface :=
  ⟨1 / 6 * z 0 - 1 / 3 * z 1 + 1 / 6 * z 2 + 1 / 6 * z 3 - 1 / 3 * z 4 + 1 / 6 * z 5 + 1 / 6 * z 6 - 1 / 3 * z 7 + 1 / 6 * z 8,
   1 / 6 * z 0 + 1 / 6 * z 1 + 1 / 6 * z 2 - 1 / 3 * z 3 - 1 / 3 * z 4 - 1 / 3 * z 5 + 1 / 6 * z 6 + 1 / 6 * z 7 + 1 / 6 * z 8,
   1 / 4 * z 0 - 1 / 4 * z 2 - 1 / 4 * z 6 + 1 / 4 * z 8,
   -1 / 6 * z 0 + 1 / 6 * z 2 - 1 / 6 * z 3 + 1 / 6 * z 5 - 1 / 6 * z 6 + 1 / 6 * z 8,
   -1 / 6 * z 0 - 1 / 6 * z 1 - 1 / 6 * z 2 + 1 / 6 * z 6 + 1 / 6 * z 7 + 1 / 6 * z 8,
   -1 / 9 * z 0 + 2 / 9 * z 1 - 1 / 9 * z 2 + 2 / 9 * z 3 + 5 / 9 * z 4 + 2 / 9 * z 5 - 1 / 9 * z 6 + 2 / 9 * z 7 - 1 / 9 * z 8⟩

/-- `denom` (ParabolaSubpixelView.cc:250, SGMAssist.h:112). -/
def Surface.denom (s : Surface) : ℝ := 4 * s.a * s.b - s.c * s.c

/-- `offset` (ParabolaSubpixelView.cc:251-252, SGMAssist.h:116-117). -/
noncomputable def Surface.offset (s : Surface) : ℝ × ℝ :=
  ((s.c * s.e - 2 * s.b * s.d) / s.denom, (s.c * s.d - 2 * s.a * s.e) / s.denom)

/-- `norm_2`. -/
noncomputable def norm2 (v : ℝ × ℝ) : ℝ := Real.sqrt (v.1 * v.1 + v.2 * v.2)

open Classical in
/-- A pixel of the result (ParabolaSubpixelView.cc:235-263). If `denom` is 0 the comparison fails in the code; here the offset is 0: the result is
the same. -/
noncomputable def refine (disp : Option (ℤ × ℤ)) (z : Fin 9 → ℝ) : Option (ℝ × ℝ) :=
  match disp with
  | none => none
  | some d =>
    if ¬ (∀ i : Fin 8, z i.succ = z i.castSucc) then
      let o := (fit z).offset
      if norm2 o < 5 then some ((d.1 : ℝ) + o.1, (d.2 : ℝ) + o.2) else some ((d.1 : ℝ), (d.2 : ℝ))
    else some ((d.1 : ℝ), (d.2 : ℝ))

open Classical in
/-- `ParabolaFit2d::find_peak` (SGMAssist.h:99-135); `erfX`, `erfY` are the functions `t ↦ erf(t/(s·sqrt(2)))`. -/
noncomputable def findPeak (erfX erfY : ℝ → ℝ) (z : Fin 9 → ℝ) : Option (ℝ × ℝ) :=
  if |(fit z).denom| < 1 / 100 then none
  else
    let o := (fit z).offset
    let p := (erfX o.1 / 2, erfY o.2 / 2)
    if norm2 p ≥ 1 / 2 then some (p.1 / (norm2 p / (1 / 2)), p.2 / (norm2 p / (1 / 2))) else some p

/-- `IterativeMaskBoxCounter` (SGMAssist.h:150-204): the mask, the size of the box; the queue of column sums, the sum and the place. -/
structure Counter where
  mask : ℤ → ℤ → ℕ
  w : ℕ
  h : ℕ
  sums : List ℤ
  sum : ℤ
  x : ℤ
  y : ℤ

/-- The constructor (SGMAssist.h:152-160). -/
def Counter.create (mask : ℤ → ℤ → ℕ) (w h : ℕ) : Counter := ⟨mask, w, h, [], 0, -1, 0⟩

/-- The number of positive values of a column from a row on (SGMAssist.h:180-183, 213-217). -/
def columnSum (mask : ℤ → ℤ → ℕ) (h : ℕ) (col row : ℤ) : ℤ :=
  (List.range h).foldl (fun s (r : ℕ) => if mask col (row + r) > 0 then s + 1 else s) 0

/-- `recompute` (SGMAssist.h:208-222), without the result. -/
def Counter.recompute (c : Counter) : Counter :=
  (List.range c.w).foldl (fun (c' : Counter) (i : ℕ) =>
    { c' with sums := c'.sums ++ [columnSum c.mask c.h (c.x + i) c.y], sum := c'.sum + columnSum c.mask c.h (c.x + i) c.y }) { c with sums := [] }

/-- `next_pixel` (SGMAssist.h:163-188): the new state; `none` is `front()` of an empty queue. The result is `fraction` of it. -/
def Counter.next (c : Counter) : Option Counter :=
  if c.x < 0 then some ({ c with x := 0 }).recompute
  else match c.sums with
    | [] => none
    | s :: t => some { c with x := c.x + 1, sums := t ++ [columnSum c.mask c.h (c.x + 1 + c.w - 1) c.y],
                              sum := c.sum - s + columnSum c.mask c.h (c.x + 1 + c.w - 1) c.y }

/-- The value `next_pixel` returns (SGMAssist.h:187, 221). -/
def Counter.fraction (c : Counter) : ℚ := (c.sum : ℚ) / ((c.w : ℚ) * c.h)

/-- `advance_row` (SGMAssist.h:191-196). -/
def Counter.advance (c : Counter) : Counter := { c with x := -1, y := c.y + 1, sum := 0 }

end VW.Parabola
