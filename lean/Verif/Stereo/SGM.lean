import Verif.Image.Float

/-! Model of semi-global matching (src/vw/Stereo/SGM.h, SGM.cc, SGMAssist.h, src/vw/Image/PixelIterator.h).

Path costs are `uint16`: every addition is written with its wrap-around, or its saturation in the SSE version. Disparities and
coordinates are integers (no `int` overflow). -/

namespace VW.SGM

/-- A pixel (column, row) or a disparity (dx, dy). -/
abbrev Pt := Int × Int

/-- The parameters (SGM.h:150-175): the search range of the whole image and the two penalties; `sse` tells which of the two
versions of `evaluate_path` is compiled. -/
structure Params where
  minX : Int
  minY : Int
  maxX : Int
  maxY : Int
  p1 : Nat
  p2 : Nat
  sse : Bool
deriving Repr

/-- `m_num_disp_x` (SGM.cc:99). -/
def Params.numX (P : Params) : Int := P.maxX - P.minX + 1

/-- `m_num_disp_y` (SGM.cc:100). -/
def Params.numY (P : Params) : Int := P.maxY - P.minY + 1

/-- `CostFunctionType` as far as `set_parameters` tells it apart. -/
inductive CostType where
  | census
  | ternary
  | other
deriving DecidableEq, Repr

/-- `set_parameters`, the default of p1 (SGM.cc:106-132). -/
def defaultP1 (t : CostType) (kernel : Nat) : Nat :=
  match t with
  | .census => if kernel = 3 then 3 else if kernel = 5 then 15 else if kernel = 7 then 30 else if kernel = 9 then 20 else 3
  | .ternary => if kernel = 3 then 12 else if kernel = 5 then 30 else if kernel = 7 then 40 else if kernel = 9 then 40 else 30
  | .other => 3

/-- `set_parameters`, the default of p2 (SGM.cc:134-160). -/
def defaultP2 (t : CostType) (kernel : Nat) : Nat :=
  match t with
  | .census => if kernel = 3 then 70 else if kernel = 5 then 750 else if kernel = 7 then 1500 else if kernel = 9 then 1000 else 22
  | .ternary => if kernel = 3 then 600 else if kernel = 5 then 1500 else if kernel = 7 then 2000 else if kernel = 9 then 2000 else 30
  | .other => 250

/-- A value of `AccumCostType`, `uint16`. -/
def u16 (x : Nat) : Nat := x % 65536

/-- `get_bad_accum_val` (SGM.h:240). -/
def Params.bad (P : Params) : Nat := u16 (255 + P.p2)

/-- `xy_to_disp` (SGM.cc:2723-2726). -/
def Params.disp (P : Params) (dx dy : Int) : Int := (dy - P.minY) * P.numX + (dx - P.minX)

/-- The search range of a pixel, inclusive: an element of `m_disp_bound_image` (SGM.h:187). -/
structure Range where
  x0 : Int
  y0 : Int
  x1 : Int
  y1 : Int
deriving DecidableEq, Repr

def Range.width (b : Range) : Nat := (b.x1 - b.x0 + 1).toNat
def Range.height (b : Range) : Nat := (b.y1 - b.y0 + 1).toNat

/-- `get_num_disparities` (SGM.h:244-247). -/
def Range.num (b : Range) : Int := (b.x1 - b.x0 + 1) * (b.y1 - b.y0 + 1)

/-- The disparities of a range in the order of the loops over dy and dx; the position in this list is the index `d`, `packed_d`. -/
def Range.disps (b : Range) : List Pt :=
  (List.range b.height).flatMap fun (j : Nat) => (List.range b.width).map fun (i : Nat) => (b.x0 + (i : Int), b.y0 + (j : Int))

/-- The values that `full_index`, `full_d` take in those loops (SGM.cc:833-847, 855-860, 921-931): set at the start of each row, counted
up in the row. -/
def Range.fulls (P : Params) (b : Range) : List Int :=
  (List.range b.height).flatMap fun (j : Nat) => (List.range b.width).map fun (i : Nat) => P.disp b.x0 (b.y0 + (j : Int)) + (i : Int)

/-- A row or column next to another, kept in the search range (SGM.cc:764-767, 776-779). -/
def less (lo v : Int) : Int := if v - 1 < lo then v else v - 1
def more (hi v : Int) : Int := if v + 1 > hi then v else v + 1

/-- `populate_adjacent_disp_lookup_table` (SGM.cc:755-799). -/
def Params.adjacent (P : Params) : List Int :=
  (List.range P.numY.toNat).flatMap fun (j : Nat) => (List.range P.numX.toNat).flatMap fun (i : Nat) =>
    let dy := P.minY + (j : Int)
    let dx := P.minX + (i : Int)
    let yl := less P.minY dy - P.minY
    let yo := dy - P.minY
    let ym := more P.maxY dy - P.minY
    let xl := less P.minX dx - P.minX
    let xo := dx - P.minX
    let xm := more P.maxX dx - P.minX
    [yl * P.numX + xo, yo * P.numX + xl, yo * P.numX + xm, ym * P.numX + xo,
     yl * P.numX + xl, yl * P.numX + xm, ym * P.numX + xl, ym * P.numX + xm]

/-- `full_prior_buffer`. -/
abbrev Buf := Int → Nat

def Buf.set (m : Buf) (a : Int) (v : Nat) : Buf := fun i => if i = a then v else m i

/-- The jump penalty at a step with the given change of intensity (SGM.cc:813-818, 1021-1026). -/
def Params.p2Mod (P : Params) (gradient : Nat) : Nat :=
  let p := if gradient > 0 then P.p2 / gradient else P.p2
  if p < P.p1 then P.p1 else p

/-- `prior[d]` and the like. -/
def at' (v : List Nat) (i : Nat) : Nat := v.getD i 0

/-- Putting the costs of the previous pixel into the buffer, and their minimum (SGM.cc:826-849, 1031-1056). -/
def insertPrior (P : Params) (b : Range) (prior : List Nat) (buf : Buf) : Buf × Nat :=
  (b.fulls P).zipIdx.foldl
    (fun (st : Buf × Nat) (e : Int × Nat) => (st.1.set e.1 (at' prior e.2), if at' prior e.2 < st.2 then at' prior e.2 else st.2)) (buf, P.bad)

/-- One disparity without SSE (SGM.cc:862-890). -/
def combineWrap (P : Params) (buf : Buf) (minPrior p2m loc : Nat) (full : Int) : Nat :=
  let look := fun k : Nat => buf (P.adjacent.getD ((full * 8).toNat + k) 0)
  let adj := min (min (min (min (min (min (min (look 0) (look 1)) (look 2)) (look 3)) (look 4)) (look 5)) (look 6)) (look 7)
  let adj := u16 (adj + P.p1)
  let low := min (buf full) adj
  let low := min low (u16 (minPrior + p2m))
  (((loc : Int) + low - minPrior) % 65536).toNat

/-- Saturating addition, `_mm_adds_epu16`; `_mm_subs_epu16` is the subtraction of natural numbers. -/
def adds (a b : Nat) : Nat := min 65535 (a + b)

/-- One disparity with SSE (SGM.cc:956-974, 1094-1107). The eight lanes do the same; that they are filled and flushed eight at a time is
left out. -/
def combineSat (P : Params) (buf : Buf) (minPrior p2m loc : Nat) (full : Int) : Nat :=
  let look := fun k : Nat => buf (P.adjacent.getD ((full * 8).toNat + k) 0)
  let adj := min (min (min (look 0) (look 1)) (min (look 2) (look 3))) (min (min (look 4) (look 5)) (min (look 6) (look 7)))
  let low := min (adds adj P.p1) (min (buf full) (u16 (minPrior + p2m)))
  adds low loc - minPrior

/-- `evaluate_path` (SGM.cc:806-933, 1014-1149): the output costs and the buffer afterwards. -/
def evaluate (P : Params) (cur prev : Range) (prior loc : List Nat) (gradient : Nat) (buf : Buf) : List Nat × Buf :=
  let p2m := P.p2Mod gradient
  let st := insertPrior P prev prior buf
  let out := (cur.fulls P).zipIdx.map fun (e : Int × Nat) =>
    if P.sse then combineSat P st.1 st.2 p2m (at' loc e.2) e.1 else combineWrap P st.1 st.2 p2m (at' loc e.2) e.1
  (out, (prev.fulls P).foldl (fun (m : Buf) a => m.set a P.bad) st.1)

/-- What the matcher works on: the size of the output, the search range of every pixel, its packed vector of costs and the value of the
left image there. -/
structure Matcher where
  P : Params
  width : Int
  height : Int
  range : Pt → Range
  cost : Pt → List Nat
  image : Pt → Nat

/-- `PixelLineIterator::Direction` (PixelIterator.h:148). -/
inductive Dir where
  | TL | T | TR | L | R | BL | B | BR
deriving DecidableEq, Repr

/-- The step of each direction (PixelIterator.h:154-163). -/
def Dir.step : Dir → Pt
  | .TL => (-1, -1)
  | .T => (0, -1)
  | .TR => (1, -1)
  | .L => (-1, 0)
  | .R => (1, 0)
  | .BL => (-1, 1)
  | .B => (0, 1)
  | .BR => (1, 1)

/-- The `k`-th pixel of a line: `operator++` `k` times (PixelIterator.h:173, 194). -/
def along (d : Dir) (start : Pt) (k : Nat) : Pt := (start.1 + k * d.step.1, start.2 + k * d.step.2)

/-- `is_good` (PixelIterator.h:176-178). -/
def good (w h : Int) (q : Pt) : Bool := decide (q.1 ≥ 0) && decide (q.2 ≥ 0) && decide (q.1 < w) && decide (q.2 < h)

/-- The number of pixels of a line: the iterations of `while (is_good())`. The loop leaves the image after at most width + height
steps. -/
def lineLength (w h : Int) (d : Dir) (start : Pt) : Nat :=
  ((List.range (w.toNat + h.toNat + 1)).find? fun k => !good w h (along d start k)).getD 0

/-- `std::abs(curr_pixel_val - last_pixel_val)`. -/
def gradientOf (a b : Nat) : Nat := ((a : Int) - b).natAbs

/-- The loop of `PixelPassDoWork` (SGMAssist.h:726-768): the costs of the `k`-th pixel of a line and the buffer after it. The line buffer
is one vector for each pixel; that it is large enough is a separate theorem. -/
def pass (M : Matcher) (d : Dir) (start : Pt) : Nat → List Nat × Buf
  | 0 => ((List.range (M.range start).num.toNat).map (at' (M.cost start)), fun _ => M.P.bad)
  | k + 1 =>
    let q := along d start (k + 1)
    let q' := along d start k
    let st := pass M d start k
    evaluate M.P (M.range q) (M.range q') st.1 (M.cost q) (gradientOf (M.image q) (M.image q')) st.2

/-- The lines of a direction, as the tasks are added (SGM.cc:2488-2608). -/
def starts (w h : Int) : Dir → List Pt
  | .B => (List.range w.toNat).map fun (i : Nat) => ((i : Int), 0)
  | .T => (List.range w.toNat).map fun (i : Nat) => ((i : Int), h - 1)
  | .R => (List.range h.toNat).map fun (i : Nat) => (0, (i : Int))
  | .L => (List.range h.toNat).map fun (i : Nat) => (w - 1, (i : Int))
  | .BR => ((List.range w.toNat).map fun (i : Nat) => ((i : Int), 0)) ++ ((List.range' 1 (h.toNat - 1)).map fun (i : Nat) => (0, (i : Int)))
  | .BL => ((List.range w.toNat).map fun (i : Nat) => ((i : Int), 0)) ++
      ((List.range' 1 (h.toNat - 1)).map fun (i : Nat) => (w - 1, (i : Int)))
  | .TR => ((List.range w.toNat).map fun (i : Nat) => ((i : Int), h - 1)) ++ ((List.range (h.toNat - 1)).map fun (i : Nat) => (0, (i : Int)))
  | .TL => ((List.range w.toNat).map fun (i : Nat) => ((i : Int), h - 1)) ++
      ((List.range (h.toNat - 1)).map fun (i : Nat) => (w - 1, (i : Int)))

/-- The order of the directions (SGM.cc:2488-2608). -/
def dirs : List Dir := [.B, .T, .R, .L, .BR, .BL, .TR, .TL]

/-- An addition to the accumulated cost of a pixel and (packed) disparity. -/
structure Add where
  pixel : Pt
  index : Nat
  value : Nat
deriving DecidableEq

/-- The additions of one task (SGMAssist.h:792-819). -/
def taskAdds (M : Matcher) (d : Dir) (start : Pt) : List Add :=
  (List.range (lineLength M.width M.height d start)).flatMap fun k =>
    (List.range (M.range (along d start k)).num.toNat).map fun i => ⟨along d start k, i, at' (pass M d start k).1 i⟩

/-- `m_accum_buffer`, seen as a vector for each pixel. -/
abbrev Accum := Pt → Nat → Nat

/-- `output_accum_ptr[i] += computed_accum_ptr[i]` (SGMAssist.h:813). -/
def Accum.add (m : Accum) (a : Add) : Accum := fun q i => if q = a.pixel ∧ i = a.index then u16 (m q i + a.value) else m q i

/-- The additions of all tasks, direction after direction (SGM.cc:2462-2612). -/
def allAdds (M : Matcher) : List Add :=
  dirs.flatMap fun d => (starts M.width M.height d).flatMap fun s => taskAdds M d s

/-- `calc_main_buf_size` (SGM.cc:687-698): where the vectors of the pixels start in the large buffers, in the order of the pixels, and the
size of the buffers. -/
def bufferStarts (nums : List Int) : List Int × Int :=
  let r := nums.foldl (fun (st : List Int × Int) n => (st.1 ++ [st.2], st.2 + n)) ([], 0)
  (r.1, if r.2 < 6 then 6 else r.2)

/-- `one_buf_size` (SGMAssist.h:565-587). The square root is that of whole numbers: the `double` root of a number below 2^31, cut to
`int`, is the same. -/
def oneBufSize (w h numDisp mainBuf : Nat) : Nat :=
  let line := Nat.sqrt (w * w + h * h) + 1
  if line * numDisp > mainBuf then mainBuf else line * numDisp

/-- `disp_index_to_xy` (SGM.cc:2737-2745). -/
def indexToXY (b : Range) (i : Int) : Pt :=
  let w := b.x1 - b.x0 + 1
  let dy := Int.tdiv i w
  (i - dy * w + b.x0, dy + b.y0)

/-! ### Choosing a disparity -/

/-- The minimum, its first position and how often it occurs (SGM.cc:1171-1191, 1256-1263). -/
def scan (v : List Nat) : Nat × Nat × Nat :=
  v.zipIdx.foldl (fun (st : Nat × Nat × Nat) (e : Nat × Nat) =>
    let (mv, mi, mc) := st
    let mc := if e.1 = mv then mc + 1 else mc
    if e.1 < mv then (e.1, e.2, 1) else (mv, mi, mc)) (65535, 0, 0)

open VW.Float in
/-- A mean of neighbours with weights 1/3, in `double`, rounded (SGM.cc:1228-1254). -/
def mean3 (l : List Nat) : Nat :=
  let third := rnd 53 (1 / 3)
  let s := l.foldl (fun (a : ℚ × ℚ) (x : Nat) => (rnd 53 (a.1 + rnd 53 (x * third)), rnd 53 (a.2 + third))) (0, 0)
  let q := rnd 53 (s.1 / s.2)
  -- `round`, for a number that is not negative
  ((q + 1 / 2).num / ((q + 1 / 2).den : Int)).toNat % 65536

/-- One pass of the filter over a `w` by `h` array (SGM.cc:1223-1268): along the rows or down the columns. -/
def smooth (vertical : Bool) (w h : Nat) (v : List Nat) : List Nat :=
  (List.range h).flatMap fun (r : Nat) => (List.range w).map fun (c : Nat) =>
    let i := r * w + c
    if vertical then
      mean3 ((if r = 0 then [] else [at' v (i - w)]) ++ [at' v i] ++ (if r + 1 ≥ h then [] else [at' v (i + w)]))
    else
      mean3 ((if c = 0 then [] else [at' v (i - 1)]) ++ [at' v i] ++ (if c + 1 ≥ w then [] else [at' v (i + 1)]))

/-- The loop of `select_best_disparity` (SGM.cc:1211-1275); `n` counts down from 6. -/
def selectLoop (w h : Nat) : Nat → List Nat → Nat × Nat × Nat → List Nat × Nat × Nat
  | 0, v, st => (v, st.2)
  | n + 1, v, st =>
    if st.2.2 > 1 then
      let v' := smooth (decide (6 - (n + 1) ≥ 5)) w h v
      selectLoop w h n v' (scan v')
    else (v, st.2)

/-- `select_best_disparity` (SGM.cc:1159-1284): the smoothed costs, the index of the best and how often its cost occurs. -/
def selectBest (b : Range) (accum : List Nat) : List Nat × Nat × Nat :=
  let v := (List.range (b.width * b.height)).map (at' accum)
  selectLoop b.width b.height 6 v (scan v)

/-- A pixel of `create_disparity_view` (SGM.cc:1314-1345); `none` is an invalid disparity. -/
def choose (b : Range) (accum : List Nat) : Option Pt :=
  if b.num = 0 then none else some (indexToXY b (selectBest b accum).2.1)

/-! ### Search ranges -/

/-- `ZERO_SEARCH_AREA` (SGM.cc:298). -/
def zeroRange : Range := ⟨0, 0, -1, -1⟩

/-- The search range of a pixel with a disparity from the level below, or without (SGM.cc:383-428). `prev` is the disparity found there if
there is one and it is valid. -/
def priorRange (P : Params) (bufX bufY : Int) (prev : Option Pt) : Range × Bool :=
  let full : Range := ⟨P.minX, P.minY, P.maxX, P.maxY⟩
  match prev with
  | none => (full, true)
  | some d =>
    let dx := d.1 * 2
    let dy := d.2 * 2
    let onEdge := (decide (P.numX ≥ 10) && (decide (dx ≤ P.minX) || decide (dx ≥ P.maxX))) ||
      (decide (P.numY ≥ 10) && (decide (dy ≤ P.minY) || decide (dy ≥ P.maxY)))
    if onEdge then (full, true)
    else
      let x0 := dx - bufX
      let x1 := dx + bufX
      let y0 := dy - bufY
      let y1 := dy + bufY
      (⟨if x0 < P.minX then P.minX else x0, if y0 < P.minY then P.minY else y0,
        if x1 > P.maxX then P.maxX else x1, if y1 > P.maxY then P.maxY else y1⟩, false)

/-- Restriction to the valid part of the right image (SGM.cc:432-455): `v` is the valid region, inclusive, relative to the pixel. -/
def maskRange (b v : Range) : Range :=
  let r : Range := ⟨max v.x0 b.x0, max v.y0 b.y0, min v.x1 b.x1, min v.y1 b.y1⟩
  if r.x0 > r.x1 ∨ r.y0 > r.y1 then zeroRange else r

end VW.SGM
