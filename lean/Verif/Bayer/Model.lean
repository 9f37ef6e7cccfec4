import Mathlib.Data.Int.Basic
/-
Model of src/vw/Camera/BayerFilter.h.

Channels are integers; sums are formed in `int` (as for 8 and 16 bit channels) and do not overflow; the conversion back to
the channel loses nothing for averages of channel values.
-/
namespace VW.Bayer

/-- A mosaic image of one channel. -/
structure Img where
  cols : Int
  rows : Int
  px : Int → Int → Int

/-- `edge_extend(view_, ZeroEdgeExtension())(i, j)`. -/
def Img.view (m : Img) (i j : Int) : Int := if 0 ≤ i ∧ i < m.cols ∧ 0 ≤ j ∧ j < m.rows then m.px i j else 0

/-- A pixel of three channels. -/
structure RGB where
  r : Int
  g : Int
  b : Int
deriving DecidableEq

/-- The pixel (i, j) of `inverse_bayer_filter`, BayerFilter.h:46-66, for i and j not negative. -/
def inverseBayer (m : Img) (i j : Int) : RGB :=
  if i % 2 ≠ j % 2 then
    let g := m.view (i + 1) (j + 1)
    if i % 2 ≠ 0 then
      let b := (m.view i (j + 1) + m.view (i + 2) (j + 1)) / 2
      let r := (m.view (i + 1) j + m.view (i + 1) (j + 2)) / 2
      ⟨r, g, b⟩
    else
      let r := (m.view i (j + 1) + m.view (i + 2) (j + 1)) / 2
      let b := (m.view (i + 1) j + m.view (i + 1) (j + 2)) / 2
      ⟨r, g, b⟩
  else if i % 2 ≠ 0 then
    let r := m.view (i + 1) (j + 1)
    let b := (m.view i j + m.view (i + 2) j + m.view (i + 2) (j + 2) + m.view i (j + 2)) / 4
    let g := (m.view (i + 1) j + m.view (i + 1) (j + 2) + m.view (i + 2) (j + 1) + m.view i (j + 1)) / 4
    ⟨r, g, b⟩
  else
    let b := m.view (i + 1) (j + 1)
    let r := (m.view i j + m.view (i + 2) j + m.view (i + 2) (j + 2) + m.view i (j + 2)) / 4
    let g := (m.view (i + 1) j + m.view (i + 1) (j + 2) + m.view (i + 2) (j + 1) + m.view i (j + 1)) / 4
    ⟨r, g, b⟩

end VW.Bayer
