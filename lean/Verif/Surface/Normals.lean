import Verif.VecUtil.Model
/-
Model of `compute_normals`, `dot_prod` and `mean_fill_transparent`, src/vw/Image/ImageSurface.h:36-218.

Arithmetic is exact (the code uses float). One plane; colours are treated channel by channel.
-/
namespace VW.Surface

open VW.VecUtil

/-- A masked height image: `none` is a transparent pixel. -/
structure Dem where
  cols : Int
  rows : Int
  val : Int → Int → Option ℝ

/-- The nearest index of a line of `n` pixels. -/
def clampTo (n i : Int) : Int := if i < 0 then 0 else if n - 1 < i then n - 1 else i

/-- `edge_extend(image, ConstantEdgeExtension())`. -/
def Dem.ext (d : Dem) (x y : Int) : Option ℝ := d.val (clampTo d.cols x) (clampTo d.rows y)

open Classical in
/-- `normalize`; `none` is a division by 0. -/
noncomputable def normalize (v : V3) : Option V3 := if v.norm = 0 then none else some (v.over v.norm)

/-- A result of `ComputeNormalsFunc`: invalid, not a number (`nan`), or a vector. -/
inductive Normal
  | invalid
  | nan
  | vec (n : V3)

/-- `ComputeNormalsFunc::operator()` at the pixel (x, y), ImageSurface.h:168-190. -/
noncomputable def normalAt (d : Dem) (u v : ℝ) (x y : Int) : Normal :=
  match d.ext x y with
  | none => .invalid
  | some alt1 =>
    match d.ext (x + 1) y with
    | none => .invalid
    | some alt2 =>
      match d.ext (x + 1 - 1) (y + 1) with
      | none => .invalid
      | some alt3 =>
        match normalize (V3.cross ⟨u, 0, alt2 - alt1⟩ ⟨0, v, alt3 - alt1⟩) with
        | none => .nan
        | some n => .vec n

/-- `DotProdFunc::operator()` with a vector of length not 0, ImageSurface.h:208-220. -/
noncomputable def shade (light n : V3) : ℝ :=
  let l := light.over light.norm
  n.x * l.x + n.y * l.y + n.z * l.z

/-- A pixel with alpha. -/
structure APx where
  col : ℝ
  alpha : ℝ

/-- An image with alpha. -/
structure AImg where
  cols : Int
  rows : Int
  px : Int → Int → APx

/-- `edge_extend(m_image, ConstantEdgeExtension())`. -/
def AImg.ext (m : AImg) (x y : Int) : APx := m.px (clampTo m.cols x) (clampTo m.rows y)

/-- The moves of the accessor: `next_col`, `next_row`, `prev_col`, …, ImageSurface.h:55-86. -/
def moves : List (Int × Int) := [(1, 0), (0, 1), (-1, 0), (-1, 0), (0, -1), (0, -1), (1, 0), (1, 0)]

/-- The state of `accumulate_mean`. -/
structure Acc where
  x : Int
  y : Int
  sum : ℝ
  weight : ℝ

/-- One move and the two additions after it. -/
noncomputable def accStep (get : Int → Int → APx) (a : Acc) (m : Int × Int) : Acc :=
  let p := get (a.x + m.1) (a.y + m.2)
  ⟨a.x + m.1, a.y + m.2, a.sum + p.col * p.alpha, a.weight + p.alpha⟩

open Classical in
/-- `accumulate_mean`, ImageSurface.h:43-95. -/
noncomputable def accumulateMean (get : Int → Int → APx) (x y : Int) : APx :=
  let a := moves.foldl (accStep get) ⟨x, y, 0, 0⟩
  if a.weight ≤ 0 then ⟨0, 0⟩ else ⟨a.sum / a.weight, 0⟩

open Classical in
/-- `MeanFillTransparent::operator()`, ImageSurface.h:109-133. -/
noncomputable def meanFill (m : AImg) (x y : Int) : APx :=
  if (m.px x y).alpha = 0 then
    if x > 1 ∧ y > 1 ∧ x + 1 < m.cols ∧ y + 1 < m.rows then accumulateMean m.px x y else accumulateMean m.ext x y
  else m.px x y

end VW.Surface
