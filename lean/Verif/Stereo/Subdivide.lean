import Mathlib.Data.Int.Order.Basic
import Mathlib.Tactic.Common

/-! Model of `subdivide_regions` (src/vw/Stereo/Correlation.cc:139-328), which breaks up an image into regions with narrower ranges
of disparities.

A pixel of the disparity image is `none` if it is masked. The comparison of the two estimates of the work,
`split_search > current_search*IMPROVEMENT_RATIO` (Correlation.cc:179-242), is left open: it is any function of the region. That covers
every outcome it can have, also with overflow of the `int32` products. Coordinates are unbounded integers. -/

namespace VW.Subdivide

/-- `BBox2i`. -/
structure Box where
  x0 : Int
  y0 : Int
  x1 : Int
  y1 : Int
deriving DecidableEq, Repr

/-- `BBox2i()` (BBox.tcc:38-45). -/
def Box.dflt : Box := ⟨2147483646, 2147483646, -2147483646, -2147483646⟩

/-- `empty()` (BBox.tcc:156-160). -/
def Box.empty (b : Box) : Bool := decide (b.x0 ≥ b.x1) || decide (b.y0 ≥ b.y1)

/-- `width()` (BBox.tcc:170-174). -/
def Box.width (b : Box) : Int := if b.empty then 0 else b.x1 - b.x0

/-- `height()` (BBox.tcc:177-181). -/
def Box.height (b : Box) : Int := if b.empty then 0 else b.y1 - b.y0

/-- `grow(bbox)` (BBox.tcc:82-106). -/
def Box.grow (b c : Box) : Box :=
  if c.empty then b else ⟨min b.x0 (min c.x0 c.x1), min b.y0 (min c.y0 c.y1), max b.x1 (max c.x0 c.x1), max b.y1 (max c.y0 c.y1)⟩

/-- `expand(1)` (BBox.tcc:228-234). -/
def Box.expand1 (b : Box) : Box := if b.empty then b else ⟨b.x0 - 1, b.y0 - 1, b.x1 + 1, b.y1 + 1⟩

/-- `crop` (BBox.tcc:110-120). -/
def Box.crop (b c : Box) : Box := ⟨max b.x0 c.x0, max b.y0 c.y0, min b.x1 c.x1, min b.y1 c.y1⟩

/-- The pixels of `crop(disparity, b)`. -/
def Box.pixels (b : Box) : List (Int × Int) :=
  (List.range (b.y1 - b.y0).toNat).flatMap fun (j : Nat) => (List.range (b.x1 - b.x0).toNat).map fun (i : Nat) => (b.x0 + i, b.y0 + j)

/-- A disparity image. -/
abbrev Disp := Int × Int → Option (Int × Int)

/-- `PixelAccumulator<EWMinMaxAccumulator<Vector2i>>::operator()` (Statistics.h:199-211, 286-289); the state is the least and the
greatest values so far. -/
def accumulate (disp : Disp) (acc : Option Box) (p : Int × Int) : Option Box :=
  match disp p with
  | none => acc
  | some d => match acc with
    | none => some ⟨d.1, d.2, d.1, d.2⟩
    | some m => some ⟨if d.1 < m.x0 then d.1 else m.x0, if d.2 < m.y0 then d.2 else m.y0,
        if d.1 < m.x0 then m.x1 else if d.1 > m.x1 then d.1 else m.x1,
        if d.2 < m.y0 then m.y1 else if d.2 > m.y1 then d.2 else m.y1⟩

/-- The accumulator applied to a region, and the box `BBox2i(minimum(), maximum() + Vector2i(1,1))` made of it. -/
def rangeOf (disp : Disp) (b : Box) : Option Box :=
  (b.pixels.foldl (accumulate disp) none).map fun m => ⟨m.x0, m.y0, m.x1 + 1, m.y1 + 1⟩

/-- `q1_search` to `q4_search` (Correlation.cc:173-215). -/
def searchOf (disp : Disp) (q : Box) : Box := (rangeOf disp q).getD Box.dflt

/-- The quadrants (Correlation.cc:166-172). -/
def q1 (b : Box) : Box := ⟨b.x0, b.y0, b.x0 + (b.x1 - b.x0) / 2, b.y0 + (b.y1 - b.y0) / 2⟩
def q2 (b : Box) : Box := ⟨b.x0 + (b.x1 - b.x0) / 2, b.y0, b.x1, b.y0 + (b.y1 - b.y0) / 2⟩
def q3 (b : Box) : Box := ⟨b.x0, b.y0 + (b.y1 - b.y0) / 2, b.x0 + (b.x1 - b.x0) / 2, b.y1⟩
def q4 (b : Box) : Box := ⟨b.x0 + (b.x1 - b.x0) / 2, b.y0 + (b.y1 - b.y0) / 2, b.x1, b.y1⟩

/-- One of the steps of Correlation.cc:223-236. -/
def joinSearch (cur s : Box) : Box := if s ≠ Box.dflt ∧ cur = Box.dflt then s else cur.grow s

/-- `current_search_region` (Correlation.cc:222-236). -/
def currentSearch (s1 s2 s3 s4 : Box) : Box :=
  let cur := if s1 ≠ Box.dflt then s1 else Box.dflt
  joinSearch (joinSearch (joinSearch cur s2) s3) s4

/-- `SearchParam`: a region of the image and a range of disparities. -/
abbrev Param := Box × Box

/-- The test whether two failed quadrants can be merged (Correlation.cc:266-268, 276-278, 286-288, 302-304). -/
def canMerge (a b : Param) : Bool := (decide (a.1.x0 = b.1.x0) || decide (a.1.y0 = b.1.y0)) && decide (a.2 = b.2)

/-- What is pushed for the quadrants that failed to split (Correlation.cc:256-315). -/
def mergeFailed (b cur : Box) : List Param → List Param
  | [] => []
  | [f] => [f]
  | [f, g] => if canMerge f g then [(f.1.grow g.1, f.2)] else [f, g]
  | [f, g, h] =>
    if canMerge f g then [(f.1.grow g.1, f.2), h]
    else if canMerge g h then [(g.1.grow h.1, g.2), f]
    else if canMerge f h then [(f.1.grow h.1, f.2), g]
    else [f, g, h]
  | _ => [(b, cur)]

/-- A region too small to be split (Correlation.cc:147-151). -/
def small (b : Box) : Bool := decide ((b.x1 - b.x0) * (b.y1 - b.y0) ≤ 200) || decide (b.width < 16) || decide (b.height < 16)

theorem not_small {b : Box} (h : small b = false) : b.x0 + 16 ≤ b.x1 ∧ b.y0 + 16 ≤ b.y1 := by
  unfold small at h
  simp only [Bool.or_eq_false_iff, decide_eq_false_iff_not, not_lt] at h
  obtain ⟨⟨_, h1⟩, h2⟩ := h
  unfold Box.width at h1
  unfold Box.height at h2
  split at h1 <;> split at h2 <;> omega

/-- `subdivide_regions` (Correlation.cc:139-328): its result and what it appends to the list. `img` is `bounding_box(disparity)`,
`tooMuch` the comparison of the estimates. -/
def subdivide (disp : Disp) (img : Box) (tooMuch : Box → Bool) (b : Box) (fail : Nat) : Bool × List Param :=
  if _hs : small b = true then
    match rangeOf disp (b.expand1.crop img) with
    | none => (true, [])
    | some r => (true, [(b, r)])
  else
    let s1 := searchOf disp (q1 b)
    let s2 := searchOf disp (q2 b)
    let s3 := searchOf disp (q3 b)
    let s4 := searchOf disp (q4 b)
    let cur := currentSearch s1 s2 s3 s4
    if tooMuch b && fail == 0 then
      let r1 := subdivide disp img tooMuch (q1 b) (fail + 1)
      let r2 := subdivide disp img tooMuch (q2 b) (fail + 1)
      let r3 := subdivide disp img tooMuch (q3 b) (fail + 1)
      let r4 := subdivide disp img tooMuch (q4 b) (fail + 1)
      let failed := (if r1.1 then [] else [(q1 b, s1)]) ++ (if r2.1 then [] else [(q2 b, s2)]) ++
        (if r3.1 then [] else [(q3 b, s3)]) ++ (if r4.1 then [] else [(q4 b, s4)])
      (true, r1.2 ++ r2.2 ++ r3.2 ++ r4.2 ++ mergeFailed b cur failed)
    else if tooMuch b && fail > 0 then (false, [])
    else
      (true, (subdivide disp img tooMuch (q1 b) 0).2 ++ (subdivide disp img tooMuch (q2 b) 0).2 ++
        (subdivide disp img tooMuch (q3 b) 0).2 ++ (subdivide disp img tooMuch (q4 b) 0).2)
termination_by (b.x1 - b.x0).toNat + (b.y1 - b.y0).toNat
decreasing_by
  all_goals
    have := not_small (b := b) (by simpa using _hs)
    simp only [q1, q2, q3, q4]
    omega

end VW.Subdivide
