import Verif.Image.Warp
import Verif.Edge.Props
import Verif.Math.TransformProps
import Mathlib.Tactic.FieldSimp
import Mathlib.Tactic.Linarith
import Mathlib.Tactic.LinearCombination
import Mathlib.Tactic.NormNum
import Mathlib.Tactic.Ring
/-
Image warping: interpolation, transformed images, approximated transforms.
-/
namespace VW.Warp
open VW.Block (Rect)
open VW.Edge (Child Mode EView IsImage)

variable {K : Type} [Field K] [LinearOrder K] [IsStrictOrderedRing K] [FloorRing K]

/-! ### Specification -/

/-- The view has a value at every pixel of the plane. -/
def Shows (s : Src K) (px : Int → Int → K) : Prop := ∀ x y, s x y = some (px x y)

/-- The bilinear blend of four pixels: `u` and `v` are the distances from the first. -/
def blend (p00 p10 p01 p11 u v : K) : K := (1 - v) * ((1 - u) * p00 + u * p10) + v * ((1 - u) * p01 + u * p11)

/-- The cubic (Catmull-Rom) curve through `p1` and `p2`, at `n` between them. -/
def catmull (p0 p1 p2 p3 n : K) : K :=
  p1 + (p2 - p0) / 2 * n + (p0 - 5 / 2 * p1 + 2 * p2 - p3 / 2) * n ^ 2 + ((p3 - p0) / 2 + 3 / 2 * (p1 - p2)) * n ^ 3

/-- The coordinate is one of a 32-bit integer. -/
def In32 (i : K) : Prop := (-2 ^ 31 : K) ≤ i ∧ i < (2 ^ 31 : K)

/-! ### Floor and round -/

theorem floor_some {i : K} (h : In32 i) : VW.Functions.floor i = some ⌊i⌋ := by
  have : VW.Functions.InI32 ⌊i⌋ := by
    obtain ⟨h1, h2⟩ := h
    unfold VW.Functions.InI32
    have e1 : (-2 ^ 31 : Int) ≤ ⌊i⌋ := by rw [Int.le_floor]; push_cast; norm_num at h1 ⊢; exact h1
    have e2 : ⌊i⌋ < (2 ^ 31 : Int) := by rw [Int.floor_lt]; push_cast; norm_num at h2 ⊢; exact h2
    omega
  obtain ⟨v, hv⟩ := (VW.Functions.floor_defined i).2 this
  rw [hv, VW.Functions.floor_spec hv]

theorem round_bounds {i : K} {x a b : Int} (h : VW.Functions.round i = some x) (ha : (a : K) ≤ i) (hb : i < (b : K)) :
    a ≤ x ∧ x ≤ b := by
  obtain ⟨h1, _⟩ := VW.Functions.round_spec h
  obtain ⟨h2, h3⟩ := abs_le.1 h1
  constructor
  · have : (a : K) < ((x + 1 : Int) : K) := by push_cast; linarith
    have := Int.cast_lt.1 this
    omega
  · have : ((x - 1 : Int) : K) < (b : K) := by push_cast; linarith
    have := Int.cast_lt.1 this
    omega

theorem floor_bounds {i : K} {x a b : Int} (h : VW.Functions.floor i = some x) (ha : (a : K) ≤ i) (hb : i < (b : K)) :
    a ≤ x ∧ x < b := by
  rw [VW.Functions.floor_spec h]
  exact ⟨Int.le_floor.2 ha, Int.floor_lt.2 hb⟩

theorem round_int (x : Int) (h : In32 (x : K)) : VW.Functions.round (x : K) = some x := by
  obtain ⟨h1, h2⟩ := h
  have e2 : x < (2 ^ 31 : Int) := by
    have : ((x : Int) : K) < ((2 ^ 31 : Int) : K) := by push_cast; norm_num at h2 ⊢; exact h2
    exact Int.cast_lt.1 this
  have e1 : (-2 ^ 31 : Int) ≤ x := by
    have : ((-2 ^ 31 : Int) : K) ≤ ((x : Int) : K) := by push_cast; norm_num at h1 ⊢; exact h1
    exact Int.cast_le.1 this
  have h3 : ((x : Int) : K) + 1 ≤ 2 ^ 31 := by
    have : ((x + 1 : Int) : K) ≤ ((2 ^ 31 : Int) : K) := Int.cast_le.2 (by omega)
    push_cast at this; norm_num at this ⊢; exact this
  obtain ⟨v, hv⟩ := (VW.Functions.round_defined (x : K)).2 ⟨by linarith, by linarith⟩
  obtain ⟨h4, _⟩ := VW.Functions.round_spec hv
  obtain ⟨h5, h6⟩ := abs_le.1 h4
  have h7 : ((x - 1 : Int) : K) < (v : K) := by push_cast; linarith
  have h8 : (v : K) < ((x + 1 : Int) : K) := by push_cast; linarith
  have := Int.cast_lt.1 h7
  have := Int.cast_lt.1 h8
  have : v = x := by omega
  rw [hv, this]

/-! ### Interpolation reads only pixels near the point -/

theorem pad_has {m : Interp} {b : Rect} {x y : Int} : (pad m b).has x y = true ↔
    b.x0 - m.buffer ≤ x ∧ b.y0 - m.buffer ≤ y ∧ x < b.x1 + m.buffer ∧ y < b.y1 + m.buffer := by
  rw [has_iff]
  simp only [pad]
  constructor <;> intro h <;> omega

/-- The interpolated value of a point in a box of pixels depends only on the pixels of the box widened by the
`pixel_buffer` of the method on the right and at the bottom, and by one less on the left and at the top. -/
theorem eval_reads (m : Interp) (cast : K → K) (s s' : Src K) (b : Rect) (p : Pt K) (hp : Covers b p)
    (h : ∀ x y, b.x0 - (m.buffer - 1) ≤ x ∧ x < b.x1 + m.buffer ∧ b.y0 - (m.buffer - 1) ≤ y ∧ y < b.y1 + m.buffer →
      s x y = s' x y) : m.eval cast s p.x p.y = m.eval cast s' p.x p.y := by
  obtain ⟨h1, h2, h3, h4⟩ := hp
  cases m with
  | nearest =>
    show nearestAt s p.x p.y = nearestAt s' p.x p.y
    unfold nearestAt
    cases hx : VW.Functions.round p.x with
    | none => rfl
    | some x =>
      cases hy : VW.Functions.round p.y with
      | none => rfl
      | some y =>
        have bx := round_bounds hx h1 h2
        have bY := round_bounds hy h3 h4
        simp only [bind, Option.bind]
        apply h
        simp only [Interp.buffer]
        omega
  | bilinear =>
    show bilinearAt cast s p.x p.y = bilinearAt cast s' p.x p.y
    unfold bilinearAt
    cases hx : VW.Functions.floor p.x with
    | none => rfl
    | some x =>
      cases hy : VW.Functions.floor p.y with
      | none => rfl
      | some y =>
        have bx := floor_bounds hx h1 h2
        have bY := floor_bounds hy h3 h4
        have g : ∀ u v, x ≤ u → u ≤ x + 1 → y ≤ v → v ≤ y + 1 → s u v = s' u v := by
          intro u v _ _ _ _
          apply h
          simp only [Interp.buffer]
          omega
        simp only [bind, Option.bind]
        rw [g x y (by omega) (by omega) (by omega) (by omega), g (x + 1) y (by omega) (by omega) (by omega) (by omega),
          g (x + 1 + -1) (y + 1) (by omega) (by omega) (by omega) (by omega),
          g (x + 1 + -1 + 1) (y + 1) (by omega) (by omega) (by omega) (by omega)]
  | bicubic =>
    show bicubicAt cast s p.x p.y = bicubicAt cast s' p.x p.y
    unfold bicubicAt
    cases hx : VW.Functions.floor p.x with
    | none => rfl
    | some x =>
      cases hy : VW.Functions.floor p.y with
      | none => rfl
      | some y =>
        have bx := floor_bounds hx h1 h2
        have bY := floor_bounds hy h3 h4
        have g : ∀ u v, x - 1 ≤ u → u ≤ x + 2 → y - 1 ≤ v → v ≤ y + 2 → s u v = s' u v := by
          intro u v _ _ _ _
          apply h
          simp only [Interp.buffer]
          omega
        have gr : ∀ v n, y - 1 ≤ v → v ≤ y + 2 → cubicRow s (x - 1) v n = cubicRow s' (x - 1) v n := by
          intro v n _ _
          unfold cubicRow
          rw [g (x - 1) v (by omega) (by omega) (by omega) (by omega), g (x - 1 + 1) v (by omega) (by omega) (by omega) (by omega),
            g (x - 1 + 2) v (by omega) (by omega) (by omega) (by omega), g (x - 1 + 3) v (by omega) (by omega) (by omega) (by omega)]
        simp only [bind, Option.bind]
        rw [g x y (by omega) (by omega) (by omega) (by omega), gr (y - 1) _ (by omega) (by omega),
          gr (y - 1 + 1) _ (by omega) (by omega), gr (y - 1 + 1 + 1) _ (by omega) (by omega),
          gr (y - 1 + 1 + 1 + 1) _ (by omega) (by omega)]

/-- So only on the pixels of the box widened by the `pixel_buffer`. -/
theorem eval_local (m : Interp) (cast : K → K) (s s' : Src K) (b : Rect) (p : Pt K) (hp : Covers b p)
    (h : ∀ x y, (pad m b).has x y = true → s x y = s' x y) : m.eval cast s p.x p.y = m.eval cast s' p.x p.y := by
  apply eval_reads m cast s s' b p hp
  intro x y hxy
  apply h
  rw [pad_has]
  omega

/-! ### Rasterizing a warped image -/

omit [LinearOrder K] [IsStrictOrderedRing K] [FloorRing K] in
theorem interpPre_read (m : Interp) (acc : Bool) (e : EView K) (hc : e.mode.minSize ≤ e.child.cols)
    (hr : e.mode.minSize ≤ e.child.rows) (b : Rect) {x y : Int} (h : (pad m b).has x y = true) :
    interpPre m acc e b x y = e.read x y := by
  have key := VW.Edge.prerasterize_read_partial e hc hr (pad m b) h
  unfold interpPre
  cases acc with
  | true => exact key
  | false =>
    simp only [Bool.false_eq_true, if_false, fillBuffer]
    have hh := has_iff.1 h
    rw [if_pos (by omega), show (pad m b).x0 + (x + -(pad m b).x0) = x by omega,
      show (pad m b).y0 + (y + -(pad m b).y0) = y by omega]
    exact key

/-- A warped image rasterized over a box has the values it has when read pixel by pixel — although the source image is
only rasterized over the box that the reverse transform gives —, at every pixel whose reverse transform is in that
box; for every interpolation, every edge extension, and whether or not the source has to be copied to a buffer. -/
theorem warp_raster_partial (m : Interp) (cast : K → K) (acc : Bool) (e : EView K) (t : Tx K) (b : Rect) (x y : Int)
    (hc : e.mode.minSize ≤ e.child.cols) (hr : e.mode.minSize ≤ e.child.rows)
    (hcov : Covers (t.reverseBBox b) (t.reverse (pixel (x, y)))) :
    warpRaster m cast acc e t b x y = warpEval m cast e.read t (pixel (x, y)) :=
  eval_local m cast _ _ _ _ hcov fun _ _ h => interpPre_read m acc e hc hr _ h

/-- So for every functor built without homographies. -/
theorem warp_raster_affine (ex : Expr K) (t : Tx K) (hb : ex.build = some t) (ha : ex.Affine) (m : Interp) (cast : K → K)
    (acc : Bool) (e : EView K) (b : Rect) (x y : Int) (hx : b.has x y = true)
    (hc : e.mode.minSize ≤ e.child.cols) (hr : e.mode.minSize ≤ e.child.rows) :
    warpRaster m cast acc e t b x y = warpEval m cast e.read t (pixel (x, y)) := by
  apply warp_raster_partial m cast acc e t b x y hc hr
  exact (bbox_covers_affine ex t hb ha b x y hx).2

/-- And for every function at all that is marked as discontinuous (the default for functors users write). -/
theorem warp_raster_discontinuous (t : Tx K) (ht : t.reverseType = .discontinuous) (m : Interp) (cast : K → K)
    (acc : Bool) (e : EView K) (b : Rect) (x y : Int) (hx : b.has x y = true)
    (hc : e.mode.minSize ≤ e.child.cols) (hr : e.mode.minSize ≤ e.child.rows) :
    warpRaster m cast acc e t b x y = warpEval m cast e.read t (pixel (x, y)) := by
  apply warp_raster_partial m cast acc e t b x y hc hr
  unfold Tx.reverseBBox
  rw [ht]
  exact discontinuous_covers t.reverse b x y hx

omit [LinearOrder K] [IsStrictOrderedRing K] [FloorRing K] in
/-- An edge extended image shows a value at every pixel of the plane. -/
theorem extended_shows (e : EView K) {px : Int → Int → K} (h : IsImage e.child px) (hc : e.mode.minSize ≤ e.child.cols)
    (hr : e.mode.minSize ≤ e.child.rows) : ∃ px', Shows e.read px' := by
  have : ∀ x y, ∃ v, e.read x y = some v := by
    intro x y
    obtain ⟨v, hv⟩ := VW.Edge.prerasterize_total_partial e h hc hr ⟨x, y, x + 1, y + 1⟩ (i := x) (j := y)
      (by rw [has_iff]; simp)
    rw [VW.Edge.prerasterize_read_partial e hc hr _ (by rw [has_iff]; simp)] at hv
    exact ⟨v, hv⟩
  choose f hf using this
  exact ⟨f, hf⟩

/-! ### Values of the interpolation methods -/

variable {s : Src K} {px : Int → Int → K}

theorem bilinear_eq (cast : K → K) (hs : Shows s px) (i j : K) (hi : In32 i) (hj : In32 j) :
    bilinearAt cast s i j = some (cast (blend (px ⌊i⌋ ⌊j⌋) (px (⌊i⌋ + 1) ⌊j⌋) (px ⌊i⌋ (⌊j⌋ + 1)) (px (⌊i⌋ + 1) (⌊j⌋ + 1))
      (i - ⌊i⌋) (j - ⌊j⌋))) := by
  unfold bilinearAt
  simp only [floor_some hi, floor_some hj, bind, Option.bind, hs _ _, pure]
  by_cases h : ((⌊i⌋ : Int) : K) = i ∧ ((⌊j⌋ : Int) : K) = j
  · rw [if_pos h]
    congr 2
    unfold blend
    rw [h.1, h.2]
    ring
  · rw [if_neg h]
    rw [show ⌊i⌋ + 1 + -1 = ⌊i⌋ by omega]
    congr 2
    unfold blend
    ring

/-- Bilinear interpolation is the blend of the corners of the cell of the point, of any of its cells if there are
several: the value does not jump from cell to cell. -/
theorem bilinear_cell (cast : K → K) (hs : Shows s px) (i j : K) (hi : In32 i) (hj : In32 j) (x y : Int)
    (hx : (x : K) ≤ i ∧ i ≤ (x : K) + 1) (hy : (y : K) ≤ j ∧ j ≤ (y : K) + 1) :
    bilinearAt cast s i j =
      some (cast (blend (px x y) (px (x + 1) y) (px x (y + 1)) (px (x + 1) (y + 1)) (i - x) (j - y))) := by
  rw [bilinear_eq cast hs i j hi hj]
  congr 2
  have kx : ⌊i⌋ = x ∨ (⌊i⌋ = x + 1 ∧ i = (x : K) + 1) := by
    rcases lt_or_eq_of_le hx.2 with h | h
    · left; rw [Int.floor_eq_iff]; exact ⟨hx.1, h⟩
    · right
      refine ⟨?_, h⟩
      rw [h, show (x : K) + 1 = ((x + 1 : Int) : K) by push_cast; rfl, Int.floor_intCast]
  have ky : ⌊j⌋ = y ∨ (⌊j⌋ = y + 1 ∧ j = (y : K) + 1) := by
    rcases lt_or_eq_of_le hy.2 with h | h
    · left; rw [Int.floor_eq_iff]; exact ⟨hy.1, h⟩
    · right
      refine ⟨?_, h⟩
      rw [h, show (y : K) + 1 = ((y + 1 : Int) : K) by push_cast; rfl, Int.floor_intCast]
  unfold blend
  rcases kx with a | ⟨a, a'⟩ <;> rcases ky with c | ⟨c, c'⟩
  · rw [a, c]
  · rw [a, c, c']; push_cast; ring
  · rw [a, c, a']; push_cast; ring
  · rw [a, c, a', c']; push_cast; ring

/-- At pixels every method gives the pixel. -/
theorem eval_at_pixel (m : Interp) (cast : K → K) (hs : Shows s px) (x y : Int) (hx : In32 (x : K)) (hy : In32 (y : K)) :
    m.eval cast s (x : K) (y : K) = some (if m = .nearest then px x y else cast (px x y)) := by
  cases m with
  | nearest =>
    show nearestAt s _ _ = _
    unfold nearestAt
    simp only [round_int x hx, round_int y hy, bind, Option.bind, hs _ _, if_true]
  | bilinear =>
    show bilinearAt cast s _ _ = _
    unfold bilinearAt
    simp only [floor_some hx, floor_some hy, Int.floor_intCast, bind, Option.bind, hs _ _, pure]
    simp
  | bicubic =>
    show bicubicAt cast s _ _ = _
    unfold bicubicAt
    simp only [floor_some hx, floor_some hy, Int.floor_intCast, bind, Option.bind, hs _ _, pure]
    simp

/-- Nearest: the value of a pixel at most half a pixel away in each direction. -/
theorem nearest_spec (cast : K → K) (i j v : K) (h : Interp.nearest.eval cast s i j = some v) :
    ∃ x y, s x y = some v ∧ |(x : K) - i| ≤ 1 / 2 ∧ |(y : K) - j| ≤ 1 / 2 := by
  change nearestAt s i j = some v at h
  unfold nearestAt at h
  simp only [Option.bind_eq_bind, Option.bind_eq_some_iff] at h
  obtain ⟨x, hx, y, hy, h⟩ := h
  exact ⟨x, y, h, (VW.Functions.round_spec hx).1, (VW.Functions.round_spec hy).1⟩

omit [FloorRing K] in
theorem blend_between {p00 p10 p01 p11 u v lo hi : K} (hu : 0 ≤ u ∧ u ≤ 1) (hv : 0 ≤ v ∧ v ≤ 1)
    (h00 : lo ≤ p00 ∧ p00 ≤ hi) (h10 : lo ≤ p10 ∧ p10 ≤ hi) (h01 : lo ≤ p01 ∧ p01 ≤ hi) (h11 : lo ≤ p11 ∧ p11 ≤ hi) :
    lo ≤ blend p00 p10 p01 p11 u v ∧ blend p00 p10 p01 p11 u v ≤ hi := by
  have conv : ∀ a c w : K, 0 ≤ w → w ≤ 1 → lo ≤ a ∧ a ≤ hi → lo ≤ c ∧ c ≤ hi →
      lo ≤ (1 - w) * a + w * c ∧ (1 - w) * a + w * c ≤ hi := by
    intro a c w h0 h1 ha hc
    have k1 := mul_nonneg h0 (sub_nonneg.2 hc.1)
    have k2 := mul_nonneg (sub_nonneg.2 h1) (sub_nonneg.2 ha.1)
    have k3 := mul_nonneg h0 (sub_nonneg.2 hc.2)
    have k4 := mul_nonneg (sub_nonneg.2 h1) (sub_nonneg.2 ha.2)
    constructor <;> nlinarith
  unfold blend
  exact conv _ _ v hv.1 hv.2 (conv _ _ u hu.1 hu.2 h00 h10) (conv _ _ u hu.1 hu.2 h01 h11)

/-- Bilinear interpolation stays between the least and the greatest of the four pixels around the point (`cast`, if it
is rounding to integers, does not leave an interval with integer bounds). -/
theorem bilinear_between (cast : K → K) (hs : Shows s px) (i j lo hi : K) (hi' : In32 i) (hj : In32 j)
    (hpx : ∀ a b, a = 0 ∨ a = 1 → b = 0 ∨ b = 1 → lo ≤ px (⌊i⌋ + a) (⌊j⌋ + b) ∧ px (⌊i⌋ + a) (⌊j⌋ + b) ≤ hi)
    (hcast : ∀ u, lo ≤ u ∧ u ≤ hi → lo ≤ cast u ∧ cast u ≤ hi) :
    ∃ v, Interp.bilinear.eval cast s i j = some v ∧ lo ≤ v ∧ v ≤ hi := by
  refine ⟨_, bilinear_eq cast hs i j hi' hj, ?_⟩
  have f1 := Int.floor_le i
  have f2 := Int.lt_floor_add_one i
  have f3 := Int.floor_le j
  have f4 := Int.lt_floor_add_one j
  have a := hpx 0 0 (by simp) (by simp)
  have b := hpx 1 0 (by simp) (by simp)
  have c := hpx 0 1 (by simp) (by simp)
  have d := hpx 1 1 (by simp) (by simp)
  simp only [add_zero] at a b c d
  exact hcast _ (blend_between ⟨by linarith, by linarith⟩ ⟨by linarith, by linarith⟩ a b c d)

/-- Bilinear interpolation of a ramp is the ramp. -/
theorem bilinear_ramp (i j a b c d : K) (hi : In32 i) (hj : In32 j)
    (hs : Shows s fun x y => a + b * (x : K) + c * (y : K) + d * (x : K) * (y : K)) :
    Interp.bilinear.eval id s i j = some (a + b * i + c * j + d * i * j) := by
  show bilinearAt id s i j = _
  rw [bilinear_eq id hs i j hi hj]
  simp only [id, blend]
  congr 1
  push_cast
  ring

omit [FloorRing K] in
theorem cubicRow_eq (hs : Shows s px) (x y : Int) (n : K) :
    cubicRow s x y n = some (2 * catmull (px x y) (px (x + 1) y) (px (x + 2) y) (px (x + 3) y) n) := by
  unfold cubicRow
  simp only [hs _ _, bind, Option.bind, pure, cubicWeight, catmull]
  congr 1
  have : (2 : K) ≠ 0 := two_ne_zero
  field_simp
  ring

/-- The value of a bicubic patch, whose second pixel in both directions is `(x,y)`. -/
def patch (px : Int → Int → K) (x y : Int) (u v : K) : K :=
  let row := fun k => catmull (px (x - 1) k) (px x k) (px (x + 1) k) (px (x + 2) k) u
  catmull (row (y - 1)) (row y) (row (y + 1)) (row (y + 2)) v

theorem bicubic_eq (cast : K → K) (hs : Shows s px) (i j : K) (hi : In32 i) (hj : In32 j) :
    bicubicAt cast s i j = some (cast (patch px ⌊i⌋ ⌊j⌋ (i - ⌊i⌋) (j - ⌊j⌋))) := by
  unfold bicubicAt
  simp only [floor_some hi, floor_some hj, bind, Option.bind, hs _ _, pure, cubicRow_eq hs]
  by_cases h : ((⌊i⌋ : Int) : K) = i ∧ ((⌊j⌋ : Int) : K) = j
  · rw [if_pos h]
    congr 2
    unfold patch catmull
    rw [h.1, h.2]
    ring
  · rw [if_neg h]
    congr 2
    rw [show ⌊i⌋ - 1 + 1 = ⌊i⌋ by omega, show ⌊i⌋ - 1 + 2 = ⌊i⌋ + 1 by omega, show ⌊i⌋ - 1 + 3 = ⌊i⌋ + 2 by omega,
      show ⌊j⌋ - 1 + 1 = ⌊j⌋ by omega, show ⌊j⌋ + 1 + 1 = ⌊j⌋ + 2 by omega]
    unfold patch
    simp only
    generalize catmull (px (⌊i⌋ - 1) (⌊j⌋ - 1)) (px ⌊i⌋ (⌊j⌋ - 1)) (px (⌊i⌋ + 1) (⌊j⌋ - 1)) (px (⌊i⌋ + 2) (⌊j⌋ - 1)) (i - ⌊i⌋) = r0
    generalize catmull (px (⌊i⌋ - 1) ⌊j⌋) (px ⌊i⌋ ⌊j⌋) (px (⌊i⌋ + 1) ⌊j⌋) (px (⌊i⌋ + 2) ⌊j⌋) (i - ⌊i⌋) = r1
    generalize catmull (px (⌊i⌋ - 1) (⌊j⌋ + 1)) (px ⌊i⌋ (⌊j⌋ + 1)) (px (⌊i⌋ + 1) (⌊j⌋ + 1)) (px (⌊i⌋ + 2) (⌊j⌋ + 1)) (i - ⌊i⌋) = r2
    generalize catmull (px (⌊i⌋ - 1) (⌊j⌋ + 2)) (px ⌊i⌋ (⌊j⌋ + 2)) (px (⌊i⌋ + 1) (⌊j⌋ + 2)) (px (⌊i⌋ + 2) (⌊j⌋ + 2)) (i - ⌊i⌋) = r3
    simp only [cubicWeight, catmull]
    have : (2 : K) ≠ 0 := two_ne_zero
    have h4 : (4 : K) ≠ 0 := four_ne_zero
    field_simp
    ring

omit [FloorRing K] in
theorem catmull_ends (p0 p1 p2 p3 : K) : catmull p0 p1 p2 p3 0 = p1 ∧ catmull p0 p1 p2 p3 1 = p2 := by
  unfold catmull
  constructor
  · ring
  · have : (2 : K) ≠ 0 := two_ne_zero
    field_simp
    ring

/-- Bicubic interpolation is the patch of the cell of the point, of any of its cells if there are several. -/
theorem bicubic_cell (cast : K → K) (hs : Shows s px) (i j : K) (hi : In32 i) (hj : In32 j) (x y : Int)
    (hx : (x : K) ≤ i ∧ i ≤ (x : K) + 1) (hy : (y : K) ≤ j ∧ j ≤ (y : K) + 1) :
    Interp.bicubic.eval cast s i j = some (cast (patch px x y (i - x) (j - y))) := by
  show bicubicAt cast s i j = _
  rw [bicubic_eq cast hs i j hi hj]
  congr 2
  have kx : ⌊i⌋ = x ∨ (⌊i⌋ = x + 1 ∧ i = (x : K) + 1) := by
    rcases lt_or_eq_of_le hx.2 with h | h
    · left; rw [Int.floor_eq_iff]; exact ⟨hx.1, h⟩
    · right
      refine ⟨?_, h⟩
      rw [h, show (x : K) + 1 = ((x + 1 : Int) : K) by push_cast; rfl, Int.floor_intCast]
  have ky : ⌊j⌋ = y ∨ (⌊j⌋ = y + 1 ∧ j = (y : K) + 1) := by
    rcases lt_or_eq_of_le hy.2 with h | h
    · left; rw [Int.floor_eq_iff]; exact ⟨hy.1, h⟩
    · right
      refine ⟨?_, h⟩
      rw [h, show (y : K) + 1 = ((y + 1 : Int) : K) by push_cast; rfl, Int.floor_intCast]
  have z : ∀ a : K, a + 1 - (a + 1) = 0 := fun a => by ring
  have o : ∀ a : K, a + 1 - a = 1 := fun a => by ring
  unfold patch
  rcases kx with a | ⟨a, a'⟩ <;> rcases ky with c | ⟨c, c'⟩
  · rw [a, c]
  · rw [a, c, c']; push_cast
    simp only [z, o, catmull_ends]
  · rw [a, c, a']; push_cast
    simp only [z, o, catmull_ends, show x + 1 - 1 = x by omega]
  · rw [a, c, a', c']; push_cast
    simp only [z, o, catmull_ends]

omit [FloorRing K] in
theorem catmull_quadratic (c0 c1 c2 x n : K) :
    catmull (c0 + c1 * (x - 1) + c2 * (x - 1) ^ 2) (c0 + c1 * x + c2 * x ^ 2) (c0 + c1 * (x + 1) + c2 * (x + 1) ^ 2)
      (c0 + c1 * (x + 2) + c2 * (x + 2) ^ 2) n = c0 + c1 * (x + n) + c2 * (x + n) ^ 2 := by
  unfold catmull
  have : (2 : K) ≠ 0 := two_ne_zero
  field_simp
  ring

/-- Bicubic interpolation of an image that is quadratic in both coordinates is exact. -/
theorem bicubic_quadratic (i j : K) (hi : In32 i) (hj : In32 j) (a b c : K → K)
    (ha : ∃ a0 a1 a2, ∀ y, a y = a0 + a1 * y + a2 * y ^ 2) (hb : ∃ b0 b1 b2, ∀ y, b y = b0 + b1 * y + b2 * y ^ 2)
    (hc : ∃ c0 c1 c2, ∀ y, c y = c0 + c1 * y + c2 * y ^ 2)
    (hs : Shows s fun x y => a y + b y * (x : K) + c y * (x : K) ^ 2) :
    Interp.bicubic.eval id s i j = some (a j + b j * i + c j * i ^ 2) := by
  show bicubicAt id s i j = _
  rw [bicubic_eq id hs i j hi hj]
  simp only [id, patch]
  congr 1
  push_cast
  simp only [catmull_quadratic]
  obtain ⟨a0, a1, a2, ha⟩ := ha
  obtain ⟨b0, b1, b2, hb⟩ := hb
  obtain ⟨c0, c1, c2, hc⟩ := hc
  rw [show (⌊i⌋ : K) + (i - ⌊i⌋) = i by ring]
  have q := catmull_quadratic (a0 + b0 * i + c0 * i ^ 2) (a1 + b1 * i + c1 * i ^ 2) (a2 + b2 * i + c2 * i ^ 2)
    ((⌊j⌋ : Int) : K) (j - ⌊j⌋)
  rw [show (⌊j⌋ : K) + (j - ⌊j⌋) = j by ring] at q
  rw [ha j, hb j, hc j]
  refine Eq.trans ?_ (q.trans ?_)
  · congr 1 <;> rw [ha, hb, hc] <;> ring
  · ring

/-- Bicubic interpolation leaves the range of the pixels: beside a step from 1 to 0 it is above 1. -/
theorem bicubic_overshoot : ∃ (s : Src ℚ) (px : Int → Int → ℚ) (v : ℚ), Shows s px ∧ (∀ x y, 0 ≤ px x y ∧ px x y ≤ 1) ∧
    Interp.bicubic.eval id s (-1 / 2) 0 = some v ∧ 1 < v := by
  refine ⟨fun x _ => some (if x ≤ 0 then 1 else 0), fun x _ => if x ≤ 0 then 1 else 0, 17 / 16, fun _ _ => rfl, ?_, ?_,
    by norm_num⟩
  · intro x y
    dsimp only
    split <;> norm_num
  · have h := bicubic_cell (s := fun x _ => some (if x ≤ 0 then (1 : ℚ) else 0)) (px := fun x _ => if x ≤ 0 then 1 else 0)
      id (fun _ _ => rfl) (-1 / 2) 0 (by unfold In32; norm_num) (by unfold In32; norm_num) (-1) 0 (by norm_num) (by norm_num)
    rw [h]
    simp only [patch, catmull, id]
    norm_num

/-! ### Transformed images -/

/-- Under the identity a warped image is the image. -/
theorem warp_identity (m : Interp) (cast : K → K) (hs : Shows s px) (x y : Int) (hx : In32 (x : K)) (hy : In32 (y : K)) :
    warpEval m cast s identity (pixel (x, y)) = some (if m = .nearest then px x y else cast (px x y)) :=
  eval_at_pixel m cast hs x y hx hy

/-- Translated by whole pixels it is the image moved. -/
theorem warp_translate (m : Interp) (cast : K → K) (hs : Shows s px) (x y a b : Int)
    (hx : In32 ((x - a : Int) : K)) (hy : In32 ((y - b : Int) : K)) :
    warpEval m cast s (translate (a : K) (b : K)) (pixel (x, y)) =
      some (if m = .nearest then px (x - a) (y - b) else cast (px (x - a) (y - b))) := by
  rw [← eval_at_pixel m cast hs (x - a) (y - b) hx hy]
  simp only [warpEval, translate, pixel]
  push_cast
  rfl

/-- Magnified by a whole number, each pixel of the image is where its coordinates times the factor point; so the
values of the image are not changed by resampling. -/
theorem warp_magnify (m : Interp) (cast : K → K) (hs : Shows s px) (x y : Int) (k l : Nat) (hk : 0 < k) (hl : 0 < l)
    (hx : In32 (x : K)) (hy : In32 (y : K)) :
    warpEval m cast s (resample (k : K) (l : K)) (pixel ((k : Int) * x, (l : Int) * y)) =
      some (if m = .nearest then px x y else cast (px x y)) := by
  rw [← eval_at_pixel m cast hs x y hx hy]
  have h1 : (k : K) ≠ 0 := by exact_mod_cast hk.ne'
  have h2 : (l : K) ≠ 0 := by exact_mod_cast hl.ne'
  simp only [warpEval, resample, pixel]
  push_cast
  rw [mul_div_cancel_left₀ _ h1, mul_div_cancel_left₀ _ h2]

/-- The size of a resampled image is the scaled size rounded. -/
theorem resampledSize_spec (n : Int) (f : K) (r : Int) (hn : 0 ≤ n) (hf : 0 ≤ f) (h : resampledSize n f = some r) :
    0 ≤ r ∧ (r : K) ≤ (n : K) * f + 1 / 2 ∧ (n : K) * f - 1 / 2 < (r : K) := by
  unfold resampledSize at h
  obtain ⟨_, h1, _⟩ := VW.Functions.toI32_eq h
  have hn' : (0 : K) ≤ n := by exact_mod_cast hn
  have := mul_nonneg hn' hf
  obtain ⟨h2, h3⟩ := h1 (by linarith)
  refine ⟨?_, by linarith, by linarith⟩
  have : ((-1 : Int) : K) < (r : K) := by push_cast; linarith
  have := Int.cast_lt.1 this
  omega

/-- Resizing takes the pixels of the result from within the image. -/
theorem resize_within (cols rows w h x y : Int) (hc : 0 < cols) (hr : 0 < rows) (hx : 0 ≤ x ∧ x < w) (hy : 0 ≤ y ∧ y < h) :
    Covers ⟨0, 0, cols, rows⟩ ((resizeTx cols rows w h : Tx K).reverse (pixel (x, y))) := by
  have key : ∀ c w x : Int, 0 < c → 0 ≤ x → x < w →
      0 ≤ (x : K) / ((w : K) / (c : K)) ∧ (x : K) / ((w : K) / (c : K)) < (c : K) := by
    intro c w x hc h0 h1
    have hc' : (0 : K) < c := by exact_mod_cast hc
    have hx' : (0 : K) ≤ x := by exact_mod_cast h0
    have hw' : (x : K) < w := by exact_mod_cast h1
    have hw : (0 : K) < w := lt_of_le_of_lt hx' hw'
    have hq := div_pos hw hc'
    refine ⟨div_nonneg hx' hq.le, ?_⟩
    rw [div_lt_iff₀ hq, mul_div_cancel₀ _ hc'.ne']
    exact hw'
  have k1 := key cols w x hc hx.1 hx.2
  have k2 := key rows h y hr hy.1 hy.2
  simp only [Covers, resizeTx, resample, pixel, Int.cast_zero]
  exact ⟨k1.1, k1.2, k2.1, k2.2⟩

/-! ### No-data -/

/-- With a no-data value no pixel ever comes from the edge extension: the result depends only on the pixels of the
image. -/
theorem noData_no_extension (m : Interp) (cast : K → K) (s s' : Src K) (cols rows : Int) (t : Tx K) (nodata : K) (p : Pt K)
    (h : ∀ x y, 0 ≤ x ∧ x < cols ∧ 0 ≤ y ∧ y < rows → s x y = s' x y) :
    noDataEval m cast s cols rows t nodata p = noDataEval m cast s' cols rows t nodata p := by
  unfold noDataEval
  dsimp only
  split
  · rfl
  · rename_i hn
    simp only [not_or, not_lt, ge_iff_le, not_le] at hn
    obtain ⟨h1, h2, h3, h4⟩ := hn
    apply eval_reads m cast s s' ⟨m.buffer - 1, m.buffer - 1, cols - m.buffer, rows - m.buffer⟩ _ ⟨h1, h2, h3, h4⟩
    intro x y hxy
    apply h
    simp only at hxy
    omega

/-- Rasterized over a box, an image with a no-data value has the values it has when read pixel by pixel, at every pixel
whose reverse transform is in the box of the reverse transform. -/
theorem noData_raster_partial (m : Interp) (cast : K → K) (acc : Bool) (e : EView K) (t : Tx K) (nodata : K) (b : Rect)
    (x y : Int) (hc : e.mode.minSize ≤ e.child.cols) (hr : e.mode.minSize ≤ e.child.rows)
    (hcov : Covers (t.reverseBBox b) (t.reverse (pixel (x, y)))) :
    noDataRaster m cast acc e t nodata b x y =
      noDataEval m cast e.read e.child.cols e.child.rows t nodata (pixel (x, y)) := by
  unfold noDataRaster noDataEval
  dsimp only
  split
  · rfl
  · exact eval_local m cast _ _ _ _ hcov fun _ _ h => interpPre_read m acc e hc hr _ h

/-- A point within the image, but in its outermost pixels, is given the no-data value: under the identity the last
column and the last row of every image are lost (and with bicubic interpolation the last two and the first). -/
theorem noData_loses_border (m : Interp) (cast : K → K) (s : Src K) (cols rows x y : Int) (nodata : K)
    (h : x = cols - 1 ∨ y = rows - 1) : noDataEval m cast s cols rows identity nodata (pixel (x, y)) = some nodata := by
  have e : 1 ≤ m.buffer := by cases m <;> simp [Interp.buffer]
  unfold noDataEval
  dsimp only
  rw [if_pos]
  rcases h with rfl | rfl
  · right; left
    exact Int.cast_le.2 (by omega)
  · right; right; right
    exact Int.cast_le.2 (by omega)

/-- All other pixels keep their values. -/
theorem noData_identity (m : Interp) (cast : K → K) (hs : Shows s px) (cols rows x y : Int) (nodata : K)
    (hx : In32 (x : K)) (hy : In32 (y : K))
    (h : m.buffer - 1 ≤ x ∧ x < cols - m.buffer ∧ m.buffer - 1 ≤ y ∧ y < rows - m.buffer) :
    noDataEval m cast s cols rows identity nodata (pixel (x, y)) =
      some (if m = .nearest then px x y else cast (px x y)) := by
  unfold noDataEval
  dsimp only
  rw [if_neg]
  · exact eval_at_pixel m cast hs x y hx hy
  · simp only [not_or, not_lt, ge_iff_le, not_le]
    refine ⟨?_, ?_, ?_, ?_⟩
    · exact Int.cast_le.2 h.1
    · exact Int.cast_lt.2 h.2.1
    · exact Int.cast_le.2 h.2.2.1
    · exact Int.cast_lt.2 h.2.2.2

/-! ### Approximated transforms -/

/-- The point of the box at fractions `u`, `v` of its width and height. -/
def inBox (b : Rect) (u v : K) : Pt K :=
  ⟨(b.x0 : K) + u * ((b.x1 - b.x0 : Int) : K), (b.y0 : K) + v * ((b.y1 - b.y0 : Int) : K)⟩

/-- The table has the exact transforms of its grid points. -/
def Exact (f : Pt K → Pt K) (b : Rect) (t : Table K) : Prop :=
  2 ≤ t.n ∧ ∀ x y, x < t.n → y < t.n → t.at_ x y = f (inBox b ((x : K) / ((t.n : K) - 1)) ((y : K) / ((t.n : K) - 1)))

omit [LinearOrder K] [IsStrictOrderedRing K] [FloorRing K] in
theorem firstTable_exact (f : Pt K → Pt K) (b : Rect) : Exact f b (firstTable f b) := by
  refine ⟨le_refl _, ?_⟩
  intro x y hx hy
  have hx' : x = 0 ∨ x = 1 := by simp only [firstTable] at hx; omega
  have hy' : y = 0 ∨ y = 1 := by simp only [firstTable] at hy; omega
  rcases hx' with rfl | rfl <;> rcases hy' with rfl | rfl <;> simp only [firstTable, inBox] <;> congr 2 <;>
    push_cast <;> norm_num

omit [FloorRing K] in
theorem refined_exact (f : Pt K → Pt K) (b : Rect) (prev : Table K) (h : Exact f b prev) :
    Exact f b ⟨2 * prev.n - 1, refined f b prev (2 * prev.n - 1)⟩ := by
  obtain ⟨h2, h⟩ := h
  refine ⟨by simp only; omega, ?_⟩
  intro x y hx hy
  simp only at hx hy ⊢
  unfold refined
  by_cases he : y % 2 = 0 ∧ x % 2 = 0
  · rw [if_pos he, h (x / 2) (y / 2) (by omega) (by omega)]
    have hn : ((2 * prev.n - 1 : Nat) : K) - 1 = 2 * ((prev.n : K) - 1) := by
      rw [Nat.cast_sub (by omega)]; push_cast; ring
    have key : ∀ z : Nat, z % 2 = 0 → ((z / 2 : Nat) : K) / ((prev.n : K) - 1) = (z : K) / (2 * ((prev.n : K) - 1)) := by
      intro z hz
      obtain ⟨w, rfl⟩ : ∃ w, z = 2 * w := ⟨z / 2, by omega⟩
      rw [Nat.mul_div_cancel_left _ (by norm_num)]
      push_cast
      rw [mul_div_mul_left _ _ (two_ne_zero)]
    rw [hn, key x he.2, key y he.1]
  · rw [if_neg he]
    rfl

omit [FloorRing K] in
theorem buildFrom_exact (f : Pt K → Pt K) (b : Rect) (tolSqr : K) (prev : Table K) (h : Exact f b prev) (t : Table K)
    (ht : buildFrom f b tolSqr prev = some t) :
    Exact f b t ∧ (t.n : Int) < b.x1 - b.x0 ∧ (t.n : Int) < b.y1 - b.y0 ∧ 3 ≤ t.n := by
  revert h t
  induction prev using buildFrom.induct (f := f) (b := b) (tolSqr := tolSqr) with
  | case1 prev n hn =>
    intro h t ht
    unfold buildFrom at ht
    rw [dif_pos hn] at ht
    cases ht
  | case2 prev n hn tab herr ih =>
    intro h t ht
    unfold buildFrom at ht
    rw [dif_neg hn] at ht
    simp only at ht
    rw [if_pos herr] at ht
    exact ih (refined_exact f b prev h) t ht
  | case3 prev n hn herr =>
    intro h t ht
    unfold buildFrom at ht
    rw [dif_neg hn] at ht
    simp only at ht
    rw [if_neg herr] at ht
    obtain rfl := Option.some.inj ht
    have h2 := h.1
    refine ⟨refined_exact f b prev h, ?_⟩
    simp only [not_or, not_le, not_lt, ge_iff_le] at hn
    simp only
    omega

omit [FloorRing K] in
/-- What the table of an approximated transform has: the exact transforms of the points of a grid, finer than the pixels
of the box in no direction. -/
theorem approxTable_exact (f : Pt K → Pt K) (b : Rect) (tol : K) (t : Table K) (h : approxTable f b tol = some t) :
    Exact f b t ∧ (t.n : Int) < b.x1 - b.x0 ∧ (t.n : Int) < b.y1 - b.y0 ∧ 3 ≤ t.n :=
  buildFrom_exact f b _ _ (firstTable_exact f b) t h

theorem cell_spec (n : Nat) (hn : 1 ≤ n) (p : K) : cell n p < n ∧
    (0 ≤ p → p ≤ (n : K) → ((cell n p : Nat) : K) ≤ p ∧ p ≤ ((cell n p : Nat) : K) + 1) := by
  have f1 := Int.floor_le p
  have f2 := Int.lt_floor_add_one p
  unfold cell
  simp only
  by_cases h0 : ⌊p⌋ < 0
  · rw [if_pos h0, if_neg (by omega)]
    refine ⟨by omega, fun h _ => ?_⟩
    have : (0 : Int) ≤ ⌊p⌋ := Int.floor_nonneg.2 h
    omega
  · rw [if_neg h0]
    by_cases h1 : ⌊p⌋ ≥ (n : Int)
    · rw [if_pos h1]
      refine ⟨by omega, fun _ hp => ?_⟩
      have e : (((n : Int) - 1).toNat : Nat) = n - 1 := by omega
      have h1' : ((n : Int) : K) ≤ (⌊p⌋ : K) := Int.cast_le.2 h1
      push_cast at h1'
      rw [e, Nat.cast_sub hn]
      push_cast
      constructor <;> linarith
    · rw [if_neg h1]
      refine ⟨by omega, fun _ _ => ?_⟩
      have e : ((⌊p⌋.toNat : Nat) : K) = ((⌊p⌋ : Int) : K) := by
        have : ((⌊p⌋.toNat : Nat) : Int) = ⌊p⌋ := by omega
        rw [← this]
        push_cast
        rfl
      rw [e]
      exact ⟨f1, f2.le⟩

/-- The approximation is the transform itself at the points of its grid. -/
theorem approx_at_grid (f : Pt K → Pt K) (b : Rect) (tol : K) (t : Table K) (h : approxTable f b tol = some t) (x y : Nat)
    (hx : x < t.n) (hy : y < t.n) :
    approxReverse f b (approxTable f b tol) (inBox b ((x : K) / ((t.n : K) - 1)) ((y : K) / ((t.n : K) - 1))) =
      f (inBox b ((x : K) / ((t.n : K) - 1)) ((y : K) / ((t.n : K) - 1))) := by
  obtain ⟨⟨_, hex⟩, hw, hh, h3⟩ := approxTable_exact f b tol t h
  rw [h, ← hex x y hx hy]
  have n1 : ((t.n - 1 : Nat) : K) = (t.n : K) - 1 := by rw [Nat.cast_sub (by omega)]; push_cast; rfl
  have n0 : (t.n : K) - 1 ≠ 0 := by
    rw [← n1]
    have : t.n - 1 ≠ 0 := by omega
    exact_mod_cast this
  have key : ∀ lo hi : Int, ∀ z : Nat, lo < hi →
      ((t.n - 1 : Nat) : K) * ((lo : K) + (z : K) / ((t.n : K) - 1) * ((hi - lo : Int) : K) - (lo : K)) / ((hi : K) - (lo : K)) = (z : K) := by
    intro lo hi z hlt
    have : (hi : K) - (lo : K) ≠ 0 := by
      have : (lo : K) < (hi : K) := Int.cast_lt.2 hlt
      exact (sub_pos.2 this).ne'
    rw [n1]
    push_cast
    field_simp
    ring
  have kc : ∀ z : Nat, z < t.n → (cell (t.n - 1) (z : K) = z ∧ z < t.n - 1) ∨ (cell (t.n - 1) (z : K) + 1 = z) := by
    intro z hz
    have hf : ⌊(z : K)⌋ = (z : Int) := by rw [show (z : K) = ((z : Int) : K) by push_cast; rfl, Int.floor_intCast]
    unfold cell
    simp only [hf]
    rw [if_neg (show ¬ ((z : Int) < 0) by omega)]
    split <;> omega
  unfold approxReverse
  simp only [inBox]
  rw [key b.x0 b.x1 x (by omega), key b.y0 b.y1 y (by omega)]
  rcases kc x hx with ⟨cx, _⟩ | cx <;> rcases kc y hy with ⟨cy, _⟩ | cy
  · rw [cx, cy]; simp
  · have e : (y : K) - ((cell (t.n - 1) (y : K) : Nat) : K) = 1 := by
      rw [sub_eq_iff_eq_add, ← Nat.cast_one, ← Nat.cast_add, add_comm 1, cy]
    rw [cx, e, cy]; simp
  · have e : (x : K) - ((cell (t.n - 1) (x : K) : Nat) : K) = 1 := by
      rw [sub_eq_iff_eq_add, ← Nat.cast_one, ← Nat.cast_add, add_comm 1, cx]
    rw [cy, e, cx]; simp
  · have e : (y : K) - ((cell (t.n - 1) (y : K) : Nat) : K) = 1 := by
      rw [sub_eq_iff_eq_add, ← Nat.cast_one, ← Nat.cast_add, add_comm 1, cy]
    have e' : (x : K) - ((cell (t.n - 1) (x : K) : Nat) : K) = 1 := by
      rw [sub_eq_iff_eq_add, ← Nat.cast_one, ← Nat.cast_add, add_comm 1, cx]
    rw [e, e', cx, cy]; simp

omit [IsStrictOrderedRing K] [FloorRing K] in
theorem maxSqrErr_le (f : Pt K → Pt K) (b : Rect) (prev : Table K) (n : Nat) (x y : Nat) (hx : x < n) (hy : y < n)
    (h : ¬ (y % 2 = 0 ∧ x % 2 = 0)) : sqrErr f b prev n x y ≤ maxSqrErr f b prev n := by
  have gen : ∀ (l : List (Nat × Nat)) (m : K), (∀ q ∈ l, ¬ (q.2 % 2 = 0 ∧ q.1 % 2 = 0) → sqrErr f b prev n q.1 q.2 ≤
      l.foldl (fun m q => if q.2 % 2 = 0 ∧ q.1 % 2 = 0 then m
        else let e := sqrErr f b prev n q.1 q.2; if e > m then e else m) m) ∧
      m ≤ l.foldl (fun m q => if q.2 % 2 = 0 ∧ q.1 % 2 = 0 then m
        else let e := sqrErr f b prev n q.1 q.2; if e > m then e else m) m := by
    intro l
    induction l with
    | nil => intro m; exact ⟨by simp, le_refl _⟩
    | cons q l ih =>
      intro m
      rw [List.foldl_cons]
      generalize hm : (if q.2 % 2 = 0 ∧ q.1 % 2 = 0 then m
        else let e := sqrErr f b prev n q.1 q.2; if e > m then e else m) = m'
      obtain ⟨i1, i2⟩ := ih m'
      have h1 : m ≤ m' := by
        rw [← hm]
        dsimp only
        split
        · exact le_refl _
        · split
          · rename_i g; exact g.le
          · exact le_refl _
      refine ⟨?_, le_trans h1 i2⟩
      intro r hr hne
      rcases List.mem_cons.1 hr with rfl | hr
      · refine le_trans ?_ i2
        rw [← hm, if_neg hne]
        dsimp only
        split
        · exact le_refl _
        · rename_i g; exact not_lt.1 g
      · exact i1 r hr hne
  apply (gen _ 0).1 (x, y) ?_ h
  simp only [List.mem_flatMap, List.mem_map, List.mem_range, Prod.mk.injEq]
  exact ⟨y, hy, x, hx, rfl, rfl⟩

/-- One coordinate of blending in a table at a multiple of half a cell. -/
theorem halfway (n z : Nat) (hn : 1 ≤ n) (hz : z ≤ 2 * n) (q : Nat → K) :
    q (cell n ((z : K) / 2)) * (1 - ((z : K) / 2 - ((cell n ((z : K) / 2) : Nat) : K))) +
      q (cell n ((z : K) / 2) + 1) * ((z : K) / 2 - ((cell n ((z : K) / 2) : Nat) : K)) =
    if z % 2 = 0 then q (z / 2) else (q (z / 2) + q (z / 2 + 1)) / 2 := by
  have t2 : (2 : K) ≠ 0 := two_ne_zero
  have hf : ⌊(z : K) / 2⌋ = ((z / 2 : Nat) : Int) := by
    rw [Int.floor_eq_iff]
    have : (z : K) = 2 * ((z / 2 : Nat) : K) + ((z % 2 : Nat) : K) := by
      exact_mod_cast (Nat.div_add_mod z 2).symm
    have h1 : ((z % 2 : Nat) : K) ≤ 1 := by exact_mod_cast (by omega : z % 2 ≤ 1)
    have h0 : (0 : K) ≤ ((z % 2 : Nat) : K) := Nat.cast_nonneg _
    rw [Int.cast_natCast]
    constructor <;> linarith
  have hc : cell n ((z : K) / 2) = if z / 2 = n then n - 1 else z / 2 := by
    unfold cell
    simp only [hf]
    split <;> split <;> (try split) <;> omega
  by_cases h : z / 2 = n
  · have e : z = 2 * n := by omega
    rw [hc, if_pos h, if_pos (by omega), h, Nat.cast_sub hn, show n - 1 + 1 = n by omega, e]
    push_cast
    rw [mul_div_cancel_left₀ _ t2]
    ring
  · rw [hc, if_neg h]
    by_cases he : z % 2 = 0
    · have e : (z : K) = 2 * ((z / 2 : Nat) : K) := by exact_mod_cast (by omega : z = 2 * (z / 2))
      rw [if_pos he, e, mul_div_cancel_left₀ _ t2]
      have : ((z / 2 : Nat) : K) - ((z / 2 : Nat) : K) = 0 := sub_self _
      simp
    · have e : (z : K) = 2 * ((z / 2 : Nat) : K) + 1 := by exact_mod_cast (by omega : z = 2 * (z / 2) + 1)
      rw [if_neg he, e]
      generalize ((z / 2 : Nat) : K) = w
      field_simp
      ring

/-- What the refinement of the grid checks: the table accepted is twice as fine as one whose approximation is within the
tolerance at all points of the accepted one. -/
theorem approx_checked (f : Pt K → Pt K) (b : Rect) (tol : K) (t : Table K) (h : approxTable f b tol = some t) :
    ∃ prev : Table K, Exact f b prev ∧ t.n = 2 * prev.n - 1 ∧ ∀ x y : Nat, x < t.n → y < t.n →
      let g := inBox b ((x : K) / ((t.n : K) - 1)) ((y : K) / ((t.n : K) - 1))
      let a := approxReverse f b (some prev) g
      ((f g).x - a.x) ^ 2 + ((f g).y - a.y) ^ 2 ≤ tol ^ 2 := by
  have step : ∀ prev, Exact f b prev → buildFrom f b (tol * tol) prev = some t → ∃ prev : Table K, Exact f b prev ∧
      t.n = 2 * prev.n - 1 ∧ ¬ maxSqrErr f b prev (2 * prev.n - 1) > tol * tol ∧ t.at_ = refined f b prev (2 * prev.n - 1) := by
    intro prev
    induction prev using buildFrom.induct (f := f) (b := b) (tolSqr := tol * tol) with
    | case1 prev n hn =>
      intro _ ht
      unfold buildFrom at ht
      rw [dif_pos hn] at ht
      cases ht
    | case2 prev n hn tab herr ih =>
      intro h ht
      unfold buildFrom at ht
      rw [dif_neg hn] at ht
      simp only at ht
      rw [if_pos herr] at ht
      exact ih (refined_exact f b prev h) ht
    | case3 prev n hn herr =>
      intro hE ht
      unfold buildFrom at ht
      rw [dif_neg hn] at ht
      simp only at ht
      rw [if_neg herr] at ht
      obtain rfl := Option.some.inj ht
      exact ⟨prev, hE, rfl, herr, rfl⟩
  obtain ⟨⟨h2, hex⟩, hw, hh, h3⟩ := approxTable_exact f b tol t h
  obtain ⟨prev, hp, hn, herr, hat⟩ := step _ (firstTable_exact f b) h
  refine ⟨prev, hp, hn, ?_⟩
  intro x y hx hy
  have p2 := hp.1
  have n1 : ((prev.n - 1 : Nat) : K) = (prev.n : K) - 1 := by rw [Nat.cast_sub (by omega)]; push_cast; rfl
  have nt : (t.n : K) - 1 = 2 * ((prev.n - 1 : Nat) : K) := by
    rw [hn, n1, Nat.cast_sub (by omega)]; push_cast; ring
  have n0 : ((prev.n - 1 : Nat) : K) ≠ 0 := by
    have : prev.n - 1 ≠ 0 := by omega
    exact_mod_cast this
  have key : ∀ lo hi : Int, ∀ z : Nat, lo < hi →
      ((prev.n - 1 : Nat) : K) * ((lo : K) + (z : K) / ((t.n : K) - 1) * ((hi - lo : Int) : K) - (lo : K)) /
        ((hi : K) - (lo : K)) = (z : K) / 2 := by
    intro lo hi z hlt
    have : (hi : K) - (lo : K) ≠ 0 := by
      have : (lo : K) < (hi : K) := Int.cast_lt.2 hlt
      exact (sub_pos.2 this).ne'
    rw [nt]
    push_cast
    field_simp
    ring
  intro g a
  have hfg : f g = refined f b prev (2 * prev.n - 1) x y := by
    rw [← hat, hex x y hx hy]
  have ha : a = approxReverse f b (some prev) g := rfl
  have hax : ∀ c : Pt K → K, (∀ u v : K, c ⟨u, v⟩ = u) ∨ (∀ u v : K, c ⟨u, v⟩ = v) → c a =
      (if x % 2 = 0 then (if y % 2 = 0 then c (prev.at_ (x / 2) (y / 2)) else (c (prev.at_ (x / 2) (y / 2)) + c (prev.at_ (x / 2) (y / 2 + 1))) / 2)
       else ((if y % 2 = 0 then c (prev.at_ (x / 2) (y / 2)) else (c (prev.at_ (x / 2) (y / 2)) + c (prev.at_ (x / 2) (y / 2 + 1))) / 2) +
        (if y % 2 = 0 then c (prev.at_ (x / 2 + 1) (y / 2)) else (c (prev.at_ (x / 2 + 1) (y / 2)) + c (prev.at_ (x / 2 + 1) (y / 2 + 1))) / 2)) / 2) := by
    intro c hc
    have e1 : c a =
        (c (prev.at_ (cell (prev.n - 1) ((x : K) / 2)) (cell (prev.n - 1) ((y : K) / 2))) * (1 - ((y : K) / 2 - ((cell (prev.n - 1) ((y : K) / 2) : Nat) : K))) +
          c (prev.at_ (cell (prev.n - 1) ((x : K) / 2)) (cell (prev.n - 1) ((y : K) / 2) + 1)) * ((y : K) / 2 - ((cell (prev.n - 1) ((y : K) / 2) : Nat) : K))) *
          (1 - ((x : K) / 2 - ((cell (prev.n - 1) ((x : K) / 2) : Nat) : K))) +
        (c (prev.at_ (cell (prev.n - 1) ((x : K) / 2) + 1) (cell (prev.n - 1) ((y : K) / 2))) * (1 - ((y : K) / 2 - ((cell (prev.n - 1) ((y : K) / 2) : Nat) : K))) +
          c (prev.at_ (cell (prev.n - 1) ((x : K) / 2) + 1) (cell (prev.n - 1) ((y : K) / 2) + 1)) * ((y : K) / 2 - ((cell (prev.n - 1) ((y : K) / 2) : Nat) : K))) *
          ((x : K) / 2 - ((cell (prev.n - 1) ((x : K) / 2) : Nat) : K)) := by
      rw [ha]
      show c (approxReverse f b (some prev) (inBox b _ _)) = _
      unfold approxReverse inBox
      dsimp only
      rw [key b.x0 b.x1 x (by omega), key b.y0 b.y1 y (by omega)]
      rcases hc with hc | hc
      · have : ∀ p : Pt K, c p = p.x := fun p => hc p.x p.y
        simp only [this]
      · have : ∀ p : Pt K, c p = p.y := fun p => hc p.x p.y
        simp only [this]
    rw [e1, halfway (prev.n - 1) y (by omega) (by omega) (fun k => c (prev.at_ (cell (prev.n - 1) ((x : K) / 2)) k)),
      halfway (prev.n - 1) y (by omega) (by omega) (fun k => c (prev.at_ (cell (prev.n - 1) ((x : K) / 2) + 1) k))]
    exact halfway (prev.n - 1) x (by omega) (by omega)
      (fun k => if y % 2 = 0 then c (prev.at_ k (y / 2)) else (c (prev.at_ k (y / 2)) + c (prev.at_ k (y / 2 + 1))) / 2)
  have hX := hax Pt.x (Or.inl fun _ _ => rfl)
  have hY := hax Pt.y (Or.inr fun _ _ => rfl)
  by_cases hev : y % 2 = 0 ∧ x % 2 = 0
  · rw [hX, hY, hfg]
    unfold refined
    simp only [if_pos hev.1, if_pos hev.2, if_pos hev, sub_self]
    have := sq_nonneg tol
    linarith
  · have hle := maxSqrErr_le f b prev (2 * prev.n - 1) x y (by omega) (by omega) hev
    have : ((f g).x - a.x) ^ 2 + ((f g).y - a.y) ^ 2 = sqrErr f b prev (2 * prev.n - 1) x y := by
      rw [hX, hY, hfg]
      unfold sqrErr
      dsimp only
      by_cases hy2 : y % 2 = 0
      · have hx2 : ¬ x % 2 = 0 := fun hx2 => hev ⟨hy2, hx2⟩
        simp only [if_pos hy2, if_neg hx2]
        ring
      · by_cases hx2 : x % 2 = 0
        · simp only [if_neg hy2, if_pos hx2]
          ring
        · simp only [if_neg hy2, if_neg hx2]
          have t2 : (2 : K) ≠ 0 := two_ne_zero
          have t4 : (4 : K) ≠ 0 := four_ne_zero
          ring
    rw [this]
    calc _ ≤ _ := hle
      _ ≤ tol * tol := not_lt.1 herr
      _ = tol ^ 2 := (sq tol).symm

/-- An affine function is approximated exactly, everywhere, whatever the tolerance. -/
theorem approx_affine (f : Pt K → Pt K) (b : Rect) (tol : K) (a1 a2 a3 c1 c2 c3 : K)
    (hf : ∀ p, f p = ⟨a1 * p.x + a2 * p.y + a3, c1 * p.x + c2 * p.y + c3⟩) (p : Pt K) :
    approxReverse f b (approxTable f b tol) p = f p := by
  cases h : approxTable f b tol with
  | none => rfl
  | some t =>
    obtain ⟨⟨_, hex⟩, hw, hh, h3⟩ := approxTable_exact f b tol t h
    have n1 : ((t.n - 1 : Nat) : K) = (t.n : K) - 1 := by rw [Nat.cast_sub (by omega)]; push_cast; rfl
    have n0 : (t.n : K) - 1 ≠ 0 := by
      rw [← n1]
      have : t.n - 1 ≠ 0 := by omega
      exact_mod_cast this
    have wx : (b.x1 : K) - (b.x0 : K) ≠ 0 := by
      have : (b.x0 : K) < (b.x1 : K) := Int.cast_lt.2 (by omega)
      exact (sub_pos.2 this).ne'
    have wy : (b.y1 : K) - (b.y0 : K) ≠ 0 := by
      have : (b.y0 : K) < (b.y1 : K) := Int.cast_lt.2 (by omega)
      exact (sub_pos.2 this).ne'
    unfold approxReverse
    simp only
    generalize hcx : cell (t.n - 1) (((t.n - 1 : Nat) : K) * (p.x - (b.x0 : K)) / ((b.x1 : K) - (b.x0 : K))) = ix
    generalize hcy : cell (t.n - 1) (((t.n - 1 : Nat) : K) * (p.y - (b.y0 : K)) / ((b.y1 : K) - (b.y0 : K))) = iy
    have lx : ix < t.n - 1 := by rw [← hcx]; exact (cell_spec _ (by omega) _).1
    have ly : iy < t.n - 1 := by rw [← hcy]; exact (cell_spec _ (by omega) _).1
    rw [hex ix iy (by omega) (by omega), hex (ix + 1) iy (by omega) (by omega), hex ix (iy + 1) (by omega) (by omega),
      hex (ix + 1) (iy + 1) (by omega) (by omega)]
    simp only [hf, inBox, n1]
    push_cast
    congr 1
    · field_simp
      ring
    · field_simp
      ring

/-- Within the box the approximation is a blend of the transforms of four points of the box, and so between the least and
the greatest of them. -/
theorem approx_between (f : Pt K → Pt K) (b : Rect) (tol : K) (t : Table K) (h : approxTable f b tol = some t) (p : Pt K)
    (hx : (b.x0 : K) ≤ p.x ∧ p.x ≤ (b.x1 : K)) (hy : (b.y0 : K) ≤ p.y ∧ p.y ≤ (b.y1 : K)) (lo hi : Pt K)
    (hb : ∀ q, (b.x0 : K) ≤ q.x ∧ q.x ≤ (b.x1 : K) → (b.y0 : K) ≤ q.y ∧ q.y ≤ (b.y1 : K) →
      (lo.x ≤ (f q).x ∧ (f q).x ≤ hi.x) ∧ (lo.y ≤ (f q).y ∧ (f q).y ≤ hi.y)) :
    (lo.x ≤ (approxReverse f b (approxTable f b tol) p).x ∧ (approxReverse f b (approxTable f b tol) p).x ≤ hi.x) ∧
    (lo.y ≤ (approxReverse f b (approxTable f b tol) p).y ∧ (approxReverse f b (approxTable f b tol) p).y ≤ hi.y) := by
  obtain ⟨⟨_, hex⟩, hw, hh, h3⟩ := approxTable_exact f b tol t h
  rw [h]
  have n1 : ((t.n - 1 : Nat) : K) = (t.n : K) - 1 := by rw [Nat.cast_sub (by omega)]; push_cast; rfl
  have npos : (0 : K) < (t.n : K) - 1 := by
    rw [← n1]
    have : 0 < t.n - 1 := by omega
    exact_mod_cast this
  have wx : (0 : K) < (b.x1 : K) - (b.x0 : K) := sub_pos.2 (Int.cast_lt.2 (by omega))
  have wy : (0 : K) < (b.y1 : K) - (b.y0 : K) := sub_pos.2 (Int.cast_lt.2 (by omega))
  have rng : ∀ lo hi q : K, 0 < hi - lo → lo ≤ q → q ≤ hi →
      0 ≤ ((t.n - 1 : Nat) : K) * (q - lo) / (hi - lo) ∧ ((t.n - 1 : Nat) : K) * (q - lo) / (hi - lo) ≤ ((t.n - 1 : Nat) : K) := by
    intro lo hi q hp h1 h2
    rw [n1]
    refine ⟨div_nonneg (mul_nonneg npos.le (by linarith)) hp.le, ?_⟩
    rw [div_le_iff₀ hp]
    exact mul_le_mul_of_nonneg_left (by linarith) npos.le
  have rx := rng _ _ p.x wx hx.1 hx.2
  have ry := rng _ _ p.y wy hy.1 hy.2
  unfold approxReverse
  simp only
  have cx := cell_spec (t.n - 1) (by omega) (((t.n - 1 : Nat) : K) * (p.x - (b.x0 : K)) / ((b.x1 : K) - (b.x0 : K)))
  have cy := cell_spec (t.n - 1) (by omega) (((t.n - 1 : Nat) : K) * (p.y - (b.y0 : K)) / ((b.y1 : K) - (b.y0 : K)))
  generalize cell (t.n - 1) (((t.n - 1 : Nat) : K) * (p.x - (b.x0 : K)) / ((b.x1 : K) - (b.x0 : K))) = ix at *
  generalize cell (t.n - 1) (((t.n - 1 : Nat) : K) * (p.y - (b.y0 : K)) / ((b.y1 : K) - (b.y0 : K))) = iy at *
  generalize ((t.n - 1 : Nat) : K) * (p.x - (b.x0 : K)) / ((b.x1 : K) - (b.x0 : K)) = px at *
  generalize ((t.n - 1 : Nat) : K) * (p.y - (b.y0 : K)) / ((b.y1 : K) - (b.y0 : K)) = py at *
  obtain ⟨lx, bx⟩ := cx
  obtain ⟨ly, bY⟩ := cy
  have bx := bx rx.1 rx.2
  have bY := bY ry.1 ry.2
  have grid : ∀ x y : Nat, x < t.n → y < t.n →
      (lo.x ≤ (t.at_ x y).x ∧ (t.at_ x y).x ≤ hi.x) ∧ (lo.y ≤ (t.at_ x y).y ∧ (t.at_ x y).y ≤ hi.y) := by
    intro x y hx hy
    rw [hex x y hx hy]
    have k : ∀ z : Nat, z < t.n → 0 ≤ (z : K) / ((t.n : K) - 1) ∧ (z : K) / ((t.n : K) - 1) ≤ 1 := by
      intro z hz
      refine ⟨div_nonneg (Nat.cast_nonneg _) npos.le, ?_⟩
      rw [div_le_one npos, ← n1]
      exact_mod_cast (by omega : z ≤ t.n - 1)
    have kx := k x hx
    have ky := k y hy
    apply hb <;> simp only [inBox] <;> push_cast
    · have := mul_nonneg kx.1 wx.le
      have := mul_nonneg (sub_nonneg.2 kx.2) wx.le
      constructor <;> nlinarith
    · have := mul_nonneg ky.1 wy.le
      have := mul_nonneg (sub_nonneg.2 ky.2) wy.le
      constructor <;> nlinarith
  have g00 := grid ix iy (by omega) (by omega)
  have g10 := grid (ix + 1) iy (by omega) (by omega)
  have g01 := grid ix (iy + 1) (by omega) (by omega)
  have g11 := grid (ix + 1) (iy + 1) (by omega) (by omega)
  have form : ∀ a00 a10 a01 a11 u v : K, (a00 * (1 - v) + a01 * v) * (1 - u) + (a10 * (1 - v) + a11 * v) * u =
      blend a00 a10 a01 a11 u v := by
    intro a00 a10 a01 a11 u v; unfold blend; ring
  rw [form, form]
  have u0 : 0 ≤ px - (ix : K) ∧ px - (ix : K) ≤ 1 := ⟨by linarith, by linarith⟩
  have v0 : 0 ≤ py - (iy : K) ∧ py - (iy : K) ≤ 1 := ⟨by linarith, by linarith⟩
  exact ⟨blend_between u0 v0 g00.1 g10.1 g01.1 g11.1, blend_between u0 v0 g00.2 g10.2 g01.2 g11.2⟩

omit [FloorRing K] in
/-- A box at most three pixels wide or high is not approximated. -/
theorem approx_small (f : Pt K → Pt K) (b : Rect) (tol : K) (h : b.x1 - b.x0 ≤ 3 ∨ b.y1 - b.y0 ≤ 3) :
    approxTable f b tol = none := by
  cases ht : approxTable f b tol with
  | none => rfl
  | some t =>
    obtain ⟨_, h1, h2, h3⟩ := approxTable_exact f b tol t ht
    omega

omit [IsStrictOrderedRing K] [FloorRing K] in
theorem affine_fn {M : VW.Matrix.Mat K} {o : Pt K} {t : Tx K} (h : affine M o = some t) (fwd : Bool) :
    ∃ a1 a2 a3 c1 c2 c3 : K, ∀ p, t.dir fwd p = ⟨a1 * p.x + a2 * p.y + a3, c1 * p.x + c2 * p.y + c3⟩ := by
  simp only [VW.Warp.affine, Option.map_eq_some_iff] at h
  obtain ⟨I, _, rfl⟩ := h
  cases fwd
  · refine ⟨I 0 0, I 0 1, -(I 0 0 * o.x + I 0 1 * o.y), I 1 0, I 1 1, -(I 1 0 * o.x + I 1 1 * o.y), fun p => ?_⟩
    simp only [Tx.dir, Bool.false_eq_true, if_false, Pt.mk.injEq]
    constructor <;> ring
  · exact ⟨M 0 0, M 0 1, o.x, M 1 0, M 1 1, o.y, fun p => rfl⟩

omit [IsStrictOrderedRing K] [FloorRing K] in
/-- The functors built without homographies are affine functions. -/
theorem affine_formula (ex : Expr K) : ∀ (t : Tx K) (fwd : Bool), ex.build = some t → ex.Affine →
    ∃ a1 a2 a3 c1 c2 c3 : K, ∀ p, t.dir fwd p = ⟨a1 * p.x + a2 * p.y + a3, c1 * p.x + c2 * p.y + c3⟩ := by
  induction ex with
  | identity =>
    intro t fwd h _
    obtain rfl := Option.some.inj h
    refine ⟨1, 0, 0, 0, 1, 0, fun p => ?_⟩
    cases fwd <;> simp [Tx.dir, VW.Warp.identity]
  | resample fx fy =>
    intro t fwd h _
    obtain rfl := Option.some.inj h
    cases fwd
    · refine ⟨1 / fx, 0, 0, 0, 1 / fy, 0, fun p => ?_⟩
      simp only [Tx.dir, VW.Warp.resample, Bool.false_eq_true, if_false, Pt.mk.injEq]
      constructor <;> ring
    · refine ⟨fx, 0, 0, 0, fy, 0, fun p => ?_⟩
      simp only [Tx.dir, VW.Warp.resample, if_true, Pt.mk.injEq]
      constructor <;> ring
  | translate tx ty =>
    intro t fwd h _
    obtain rfl := Option.some.inj h
    cases fwd
    · refine ⟨1, 0, -tx, 0, 1, -ty, fun p => ?_⟩
      simp only [Tx.dir, VW.Warp.translate, Bool.false_eq_true, if_false, Pt.mk.injEq]
      constructor <;> ring
    · refine ⟨1, 0, tx, 0, 1, ty, fun p => ?_⟩
      simp only [Tx.dir, VW.Warp.translate, if_true, Pt.mk.injEq]
      constructor <;> ring
  | linear M =>
    intro t fwd h _
    simp only [Expr.build, VW.Warp.linear, Option.map_eq_some_iff] at h
    obtain ⟨I, _, rfl⟩ := h
    cases fwd
    · refine ⟨I 0 0, I 0 1, 0, I 1 0, I 1 1, 0, fun p => ?_⟩
      simp [Tx.dir, apply2]
    · refine ⟨M 0 0, M 0 1, 0, M 1 0, M 1 1, 0, fun p => ?_⟩
      simp [Tx.dir, apply2]
  | affine M o => intro t fwd h _; exact affine_fn h fwd
  | rotate c s o => intro t fwd h _; exact affine_fn h fwd
  | homography H => intro t fwd _ h; exact absurd h (by simp [Expr.Affine])
  | inverse e ih =>
    intro t fwd h ha
    simp only [Expr.build, Option.map_eq_some_iff] at h
    obtain ⟨u, hu, rfl⟩ := h
    obtain ⟨a1, a2, a3, c1, c2, c3, hh⟩ := ih u (!fwd) hu ha
    refine ⟨a1, a2, a3, c1, c2, c3, fun p => ?_⟩
    rw [← hh]
    cases fwd <;> rfl
  | compose a b iha ihb =>
    intro t fwd h ha
    simp only [Expr.build, Option.bind_eq_bind, Option.bind_eq_some_iff, Option.pure_def, Option.some.injEq] at h
    obtain ⟨t1, h1, t2, h2, rfl⟩ := h
    obtain ⟨ha, hb⟩ := ha
    obtain ⟨a1, a2, a3, c1, c2, c3, hA⟩ := iha t1 fwd h1 ha
    obtain ⟨d1, d2, d3, e1, e2, e3, hB⟩ := ihb t2 fwd h2 hb
    cases fwd
    · refine ⟨d1 * a1 + d2 * c1, d1 * a2 + d2 * c2, d1 * a3 + d2 * c3 + d3, e1 * a1 + e2 * c1, e1 * a2 + e2 * c2,
        e1 * a3 + e2 * c3 + e3, fun p => ?_⟩
      show t2.dir false (t1.dir false p) = _
      rw [hA, hB]
      simp only [Pt.mk.injEq]
      constructor <;> ring
    · refine ⟨a1 * d1 + a2 * e1, a1 * d2 + a2 * e2, a1 * d3 + a2 * e3 + a3, c1 * d1 + c2 * e1, c1 * d2 + c2 * e2,
        c1 * d3 + c2 * e3 + c3, fun p => ?_⟩
      show t1.dir true (t2.dir true p) = _
      rw [hB, hA]
      simp only [Pt.mk.injEq]
      constructor <;> ring

/-- Rasterizing an affine warp with a tolerance changes nothing. -/
theorem warp_tolerance_affine (ex : Expr K) (t : Tx K) (hb : ex.build = some t) (ha : ex.Affine) (m : Interp) (cast : K → K)
    (acc : Bool) (e : EView K) (tol : K) (b : Rect) (x y : Int) (hx : b.has x y = true)
    (hc : e.mode.minSize ≤ e.child.cols) (hr : e.mode.minSize ≤ e.child.rows) :
    warpRasterTol m cast acc e t tol b x y = warpEval m cast e.read t (pixel (x, y)) := by
  have key := warp_raster_affine ex t hb ha m cast acc e b x y hx hc hr
  obtain ⟨a1, a2, a3, c1, c2, c3, hf⟩ := affine_formula ex t false hb ha
  unfold warpRasterTol
  split
  · rw [← key]
    have : approxReverse t.reverse b (approxTable t.reverse b tol) = t.reverse := by
      funext p
      exact approx_affine t.reverse b tol a1 a2 a3 c1 c2 c3 hf p
    unfold approximate
    rw [this]
  · exact key

/-! ### What fails -/

/-- A function that a grid of 3 by 3 points takes for the identity. -/
def wave (p : Pt ℚ) : Pt ℚ := ⟨p.x + p.x * (p.x - 8) * (p.x - 16), p.y⟩

/-- The approximation can be off by far more than the tolerance: the refinement stops as soon as the points halfway
between those of the grid fit. -/
theorem approx_tolerance_wrong : ∃ (b : Rect) (tol : ℚ) (p : Pt ℚ), b = ⟨0, 0, 16, 16⟩ ∧ tol = 1 / 100 ∧ p = pixel (4, 0) ∧
    100 * tol < |(approxReverse wave b (approxTable wave b tol) p).x - (wave p).x| := by
  refine ⟨_, _, _, rfl, rfl, rfl, ?_⟩
  have hm : maxSqrErr wave ⟨0, 0, 16, 16⟩ (firstTable wave ⟨0, 0, 16, 16⟩) 3 = 0 := by decide +kernel
  have ht : approxTable wave ⟨0, 0, 16, 16⟩ (1 / 100) =
      some ⟨3, refined wave ⟨0, 0, 16, 16⟩ (firstTable wave ⟨0, 0, 16, 16⟩) 3⟩ := by
    unfold approxTable buildFrom
    rw [dif_neg (by simp [firstTable])]
    simp only
    rw [if_neg]
    · rfl
    · show ¬ (maxSqrErr wave ⟨0, 0, 16, 16⟩ (firstTable wave ⟨0, 0, 16, 16⟩) 3 > _)
      rw [hm]
      norm_num
  rw [ht]
  have c0 : cell 2 (((3 - 1 : Nat) : ℚ) * (4 - 0) / (16 - 0)) = 0 := by
    have : ⌊(((3 - 1 : Nat) : ℚ) * (4 - 0) / (16 - 0))⌋ = 0 := by rw [Int.floor_eq_iff]; norm_num
    unfold cell
    rw [this]
    decide
  have c1 : cell 2 (((3 - 1 : Nat) : ℚ) * (0 - 0) / (16 - 0)) = 0 := by
    have : ⌊(((3 - 1 : Nat) : ℚ) * (0 - 0) / (16 - 0))⌋ = 0 := by rw [Int.floor_eq_iff]; norm_num
    unfold cell
    rw [this]
    decide
  unfold approxReverse
  simp only [pixel, Int.cast_zero, Int.cast_ofNat]
  rw [show (3 - 1 : Nat) = 2 from rfl] at *
  rw [c0, c1]
  norm_num [refined, firstTable, wave]

/-- A functor marked continuous whose box, computed from the border, misses what its inside needs: rasterizing the warped
image reads a pixel that was not rasterized, although the image has it. -/
theorem warp_reads_outside : ∃ (e : EView ℚ) (t : Tx ℚ) (b : Rect) (x y : Int), t.reverseType = .continuous ∧ b.has x y = true ∧
    e.mode.minSize ≤ e.child.cols ∧ e.mode.minSize ≤ e.child.rows ∧
    (∃ v, warpEval .nearest id e.read t (pixel (x, y)) = some v) ∧
    warpRaster .nearest id true e t b x y = none := by
  refine ⟨⟨⟨200, 200, fun i j => if 0 ≤ i ∧ i < 200 ∧ 0 ≤ j ∧ j < 200 then some 7 else none⟩, 0, 0, .zero⟩,
    ⟨bulge, bulge, .continuous, .continuous⟩, ⟨0, 0, 5, 5⟩, 2, 2, rfl, by decide, by decide, by decide, ⟨7, ?_⟩, ?_⟩
  · have r1 : VW.Functions.round (162 : ℚ) = some 162 := by
      have := round_int (K := ℚ) 162 (by unfold In32; norm_num)
      exact_mod_cast this
    have r2 : VW.Functions.round (2 : ℚ) = some 2 := by
      have := round_int (K := ℚ) 2 (by unfold In32; norm_num)
      exact_mod_cast this
    have hb : bulge (pixel (2, 2)) = ⟨162, 2⟩ := by decide +kernel
    simp only [warpEval, hb, Interp.eval, nearestAt, r1, r2]
    decide
  · have r1 : VW.Functions.round (162 : ℚ) = some 162 := by
      have := round_int (K := ℚ) 162 (by unfold In32; norm_num)
      exact_mod_cast this
    have r2 : VW.Functions.round (2 : ℚ) = some 2 := by
      have := round_int (K := ℚ) 2 (by unfold In32; norm_num)
      exact_mod_cast this
    have hb : bulge (pixel (2, 2)) = ⟨162, 2⟩ := by decide +kernel
    have e1 : (⟨bulge, bulge, .continuous, .continuous⟩ : Tx ℚ).reverseBBox ⟨0, 0, 5, 5⟩ = ⟨0, 0, 5, 5⟩ := by
      have a1 : (growAll bulge (samples .continuous ⟨0, 0, 5, 5⟩)).min = fun _ => 0 := by
        funext i; revert i; decide +kernel
      have a2 : (growAll bulge (samples .continuous ⟨0, 0, 5, 5⟩)).max = fun _ => 4 := by
        funext i; revert i; decide +kernel
      unfold Tx.reverseBBox boxOf
      rw [if_neg (by decide)]
      show toRect (VW.BBox.growToInt (growAll bulge (samples .continuous ⟨0, 0, 5, 5⟩))) = _
      unfold VW.BBox.growToInt
      rw [a1, a2, if_neg (by rintro ⟨i, hi⟩; norm_num at hi)]
      simp [toRect]
    simp only [warpRaster, warpEval, e1, hb, Interp.eval, nearestAt, r1, r2]
    decide

/-! ### Examples -/

/-- A 4x3 image, extended by its border. -/
def exView : EView ℚ :=
  ⟨⟨4, 3, fun i j => if 0 ≤ i ∧ i < 4 ∧ 0 ≤ j ∧ j < 3 then some (10 * i + j) else none⟩, 0, 0, .constant⟩

example : IsImage exView.child (fun i j => 10 * (i : ℚ) + j) := fun _ _ => rfl
example : exView.mode.minSize ≤ exView.child.cols ∧ exView.mode.minSize ≤ exView.child.rows := by decide
example (acc : Bool) (m : Interp) : ∃ t, exExpr.build = some t ∧
    warpRaster m id acc exView t ⟨0, 0, 4, 4⟩ 1 2 = warpEval m id exView.read t (pixel (1, 2)) := by
  have h : exExpr.build.isSome = true := by decide +kernel
  obtain ⟨t, ht⟩ := Option.isSome_iff_exists.1 h
  exact ⟨t, ht, warp_raster_affine exExpr t ht (by simp [exExpr, Expr.Affine]) m id acc exView _ 1 2 (by decide) (by decide)
    (by decide)⟩

end VW.Warp
