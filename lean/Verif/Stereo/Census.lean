import Verif.Math.Functions
import Verif.Stereo.SGM

/-! Model of the census transforms (src/vw/Image/CensusTransform.h) and of the matching costs made from them (src/vw/Stereo/SGM.cc:40-75,
1736-1891).

An image is a function of column and row with values 0..255 (`uint8`). All additions to codes are written with the wrap-around of their
type. `int` is unbounded (the thresholds are centre ± the given difference). -/

namespace VW.Census

open VW.SGM (Pt Range)

/-- The pixels of an image of `uint8`, CensusTransform.h:47-54. -/
abbrev Img := Int → Int → Nat

/-- The loop variable of `for (int r = hi; r >= lo; --r)`, CensusTransform.h:83-84. -/
def down (hi lo : Int) : List Int := (List.range (hi - lo + 1).toNat).map fun (k : Nat) => hi - (k : Int)

/-- The pixels visited by the two loops, the central one skipped: CensusTransform.h:83-86, 100-103, 175-178, 202-205. `h` is 1, 2, 3. -/
def windowPos (h col row : Int) : List Pt :=
  (down (row + h) (row - h)).flatMap fun r => (down (col + h) (col - h)).filterMap fun c =>
    if r = row ∧ c = col then none else some (c, r)

/-- `cols` of the pattern of 9x9, CensusTransform.h:135-143, 300-308. -/
def cols9 : List Int :=
  [0, 4, 8, 1, 3, 5, 7, 2, 4, 6, 1, 4, 7, 0, 2, 3, 5, 6, 8, 1, 4, 7, 2, 4, 6, 1, 3, 5, 7, 0, 4, 8]

/-- `rows` of the pattern of 9x9, CensusTransform.h:145-153, 310-318. -/
def rows9 : List Int :=
  [0, 0, 0, 1, 1, 1, 1, 2, 2, 2, 3, 3, 3, 4, 4, 4, 4, 4, 4, 5, 5, 5, 6, 6, 6, 7, 7, 7, 7, 8, 8, 8]

/-- `cols` of the pattern of ternary 7x7, CensusTransform.h:242-248. -/
def cols7 : List Int :=
  [0, 2, 3, 4, 6, 1, 3, 5, 0, 2, 3, 4, 6, 0, 1, 2, 4, 5, 6, 0, 2, 3, 4, 6, 1, 3, 5, 0, 2, 3, 4, 6]

/-- `rows` of the pattern of ternary 7x7, CensusTransform.h:250-256. -/
def rows7 : List Int :=
  [0, 0, 0, 0, 0, 1, 1, 1, 2, 2, 2, 2, 2, 3, 3, 3, 3, 3, 3, 4, 4, 4, 4, 4, 5, 5, 5, 6, 6, 6, 6, 6]

/-- The pixels `image(col+cols[i]-h, row+rows[i]-h)`, CensusTransform.h:158, 263, 325. -/
def tablePos (cs rs : List Int) (h col row : Int) : List Pt :=
  List.zipWith (fun c r => (col + c - h, row + r - h)) cs rs

/-- One pixel of a binary transform of `w` bits, CensusTransform.h:87-89, 104-106, 158-161; the state is (output, addend). -/
def binStep (w : Nat) (I : Img) (center : Nat) (s : Nat × Nat) (p : Pt) : Nat × Nat :=
  (if I p.1 p.2 > center then (s.1 + s.2) % 2 ^ w else s.1, s.2 * 2 % 2 ^ w)

/-- The loop of the binary transforms. -/
def binary (w : Nat) (I : Img) (center : Nat) (ps : List Pt) : Nat := (ps.foldl (binStep w I center) (0, 1)).1

/-- One of the lines of CensusTransform.h:68-75. -/
def add8 (I : Img) (center : Nat) (c r : Int) (v : Nat) (out : Nat) : Nat :=
  if I c r > center then (out + v) % 2 ^ 8 else out

/-- `get_census_value_3x3`, CensusTransform.h:64-77. -/
def census3 (I : Img) (col row : Int) : Nat :=
  let center := I col row
  let o := add8 I center (col - 1) (row - 1) 128 0
  let o := add8 I center col (row - 1) 64 o
  let o := add8 I center (col + 1) (row - 1) 32 o
  let o := add8 I center (col - 1) row 16 o
  let o := add8 I center (col + 1) row 8 o
  let o := add8 I center (col - 1) (row + 1) 4 o
  let o := add8 I center col (row + 1) 2 o
  add8 I center (col + 1) (row + 1) 1 o

/-- `get_census_value_5x5` (`uint32`), CensusTransform.h:78-93. -/
def census5 (I : Img) (col row : Int) : Nat := binary 32 I (I col row) (windowPos 2 col row)

/-- `get_census_value_7x7` (`uint64`), CensusTransform.h:95-110. -/
def census7 (I : Img) (col row : Int) : Nat := binary 64 I (I col row) (windowPos 3 col row)

/-- `get_census_value_9x9` (`uint32`), CensusTransform.h:112-164. -/
def census9 (I : Img) (col row : Int) : Nat := binary 32 I (I col row) (tablePos cols9 rows9 4 col row)

/-- One pixel of a ternary transform of `w` bits, CensusTransform.h:179-188, 206-215, 263-272, 325-334. -/
def terStep (w : Nat) (I : Img) (low high : Int) (s : Nat × Nat) (p : Pt) : Nat × Nat :=
  let val : Int := I p.1 p.2
  let out := if val ≥ low then
      let o := (s.1 + s.2) % 2 ^ w
      if val > high then (o + s.2 * 2) % 2 ^ w else o
    else s.1
  (out, s.2 * 4 % 2 ^ w)

/-- The loop of the ternary transforms. -/
def ternary (w : Nat) (I : Img) (low high : Int) (ps : List Pt) : Nat := (ps.foldl (terStep w I low high) (0, 1)).1

/-- `get_census_value_ternary_3x3` (`uint16`), CensusTransform.h:167-192. -/
def ternary3 (t : Int) (I : Img) (col row : Int) : Nat :=
  ternary 16 I (I col row - t) (I col row + t) (windowPos 1 col row)

/-- `get_census_value_ternary_5x5` (`uint64`), CensusTransform.h:194-219. -/
def ternary5 (t : Int) (I : Img) (col row : Int) : Nat :=
  ternary 64 I (I col row - t) (I col row + t) (windowPos 2 col row)

/-- `get_census_value_ternary_7x7` (`uint64`), CensusTransform.h:222-275. -/
def ternary7 (t : Int) (I : Img) (col row : Int) : Nat :=
  ternary 64 I (I col row - t) (I col row + t) (tablePos cols7 rows7 3 col row)

/-- `get_census_value_ternary_9x9` (`uint64`), CensusTransform.h:277-337. -/
def ternary9 (t : Int) (I : Img) (col row : Int) : Nat :=
  ternary 64 I (I col row - t) (I col row + t) (tablePos cols9 rows9 4 col row)

/-- `hamming_distance` for `uint32` and `uint64` (Math/Functions.h:252-260): the bits are counted by the compiler's function. -/
def hammingPop (a b : Nat) : Nat := Functions.popcount (a ^^^ b)

/-- An image with its size: what can be read (ImageView). -/
structure Sized where
  cols : Int
  rows : Int
  at_ : Img

/-- An element of `left_census`, `right_census` (SGM.cc:1747-1757): the image of the codes is smaller by `2*half_kernel`; its elements have
`w` bits, to which the code is cut. `none` is a read outside. -/
def codeAt (w : Nat) (code : Img → Int → Int → Nat) (half : Int) (S : Sized) (c r : Int) : Option Nat :=
  if 0 ≤ c ∧ c < S.cols - 2 * half ∧ 0 ≤ r ∧ r < S.rows - 2 * half then
    some (code S.at_ (c + half) (r + half) % 2 ^ w) else none

/-- One cost in `get_hamming_distance_costs` (SGM.cc:66-69): `CostType` is `uint8`. -/
def cost (w : Nat) (ham : Nat → Nat → Nat) (code : Img → Int → Int → Nat) (half : Int) (L R : Sized) (c r dx dy : Int) : Option Nat := do
  let a ← codeAt w code half L (c - half) (r - half)
  let b ← codeAt w code half R (c - half + dx) (r - half + dy)
  pure (ham a b % 2 ^ 8)

/-- The cost function of `compute_disparity_costs` (SGM.cc:1736-1880, 1884-1902) for a kernel size, binary or ternary: the types of the code
images, the transform and the Hamming distance of that type. `none`: an error is thrown. -/
def costOf (k : Int) (tern : Option Int) (L R : Sized) (c r dx dy : Int) : Option Nat :=
  let half := (k - 1).tdiv 2
  match k, tern with
  | 3, none => cost 8 (Functions.hamming 8) census3 half L R c r dx dy
  | 3, some t => cost 16 (Functions.hamming 16) (ternary3 t) half L R c r dx dy
  | 5, none => cost 32 hammingPop census5 half L R c r dx dy
  | 5, some t => cost 32 hammingPop (ternary5 t) half L R c r dx dy
  | 7, none => cost 64 hammingPop census7 half L R c r dx dy
  | 7, some t => cost 64 hammingPop (ternary7 t) half L R c r dx dy
  | 9, none => cost 32 hammingPop census9 half L R c r dx dy
  | 9, some t => cost 64 hammingPop (ternary9 t) half L R c r dx dy
  | _, _ => none

/-- The cost buffer of `get_hamming_distance_costs` (SGM.cc:50-74): rows, columns, then the disparities of the pixel in the order of
`Range.disps`. `f` is the cost of pixel and disparity. -/
def costBuffer (f : Int → Int → Int → Int → Option Nat) (minRow maxRow minCol maxCol : Int) (bounds : Int → Int → Range) :
    List (Option Nat) :=
  (List.range (maxRow - minRow + 1).toNat).flatMap fun (j : Nat) =>
    (List.range (maxCol - minCol + 1).toNat).flatMap fun (i : Nat) =>
      (bounds i j).disps.map fun d => f (minCol + i) (minRow + j) d.1 d.2

end VW.Census
