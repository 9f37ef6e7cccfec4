import Verif.Orient.Model
import Mathlib.Tactic.Linarith
import Mathlib.Tactic.NormNum
import Mathlib.Tactic.Ring
import Mathlib.Tactic.FieldSimp
import Mathlib.Tactic.LinearCombination
import Mathlib.Tactic.SplitIfs
import Mathlib.Tactic.Push
import Mathlib.Algebra.BigOperators.Intervals
/-
Properties C162 (fit of peaks) and C163 (histograms of orientations).
-/
namespace VW.Orient

/-! ### C162: the fit in one dimension -/

/-- Specification: the parabola with coefficients a, b, c. -/
def parabola (a b c x : ℚ) : ℚ := a * x ^ 2 + b * x + c

/-- **C162 (fit)**: for the parabola through the samples at -1, 0, 1 the coefficient returned is its leading one, and if
that is not 0 the position returned is its vertex. -/
theorem fit_vertex (a b c : ℚ) :
    (fitPeak1D (parabola a b c (-1)) (parabola a b c 0) (parabola a b c 1)).2 = a ∧
    (a ≠ 0 → ∃ x, (fitPeak1D (parabola a b c (-1)) (parabola a b c 0) (parabola a b c 1)).1 = .fin x ∧
      ∀ t, parabola a b c t = parabola a b c x + a * (t - x) ^ 2) := by
  have ea : 1 / 2 * parabola a b c (-1) + (-1) * parabola a b c 0 + 1 / 2 * parabola a b c 1 = a := by
    unfold parabola; ring
  have eb : (-(1 / 2)) * parabola a b c (-1) + 0 * parabola a b c 0 + 1 / 2 * parabola a b c 1 = b := by
    unfold parabola; ring
  unfold fitPeak1D
  dsimp only
  rw [ea, eb]
  refine ⟨rfl, fun ha => ?_⟩
  unfold Fl.div
  rw [if_neg (by simpa using ha)]
  refine ⟨_, rfl, fun t => ?_⟩
  unfold parabola
  field_simp
  ring

/-- Any three samples lie on a parabola. -/
theorem parabola_exists (y0 y1 y2 : ℚ) : ∃ a b c, parabola a b c (-1) = y0 ∧ parabola a b c 0 = y1 ∧ parabola a b c 1 = y2 :=
  ⟨1 / 2 * y0 - y1 + 1 / 2 * y2, -(1 / 2) * y0 + 1 / 2 * y2, y1, by unfold parabola; ring, by unfold parabola; ring,
    by unfold parabola; ring⟩

/-- Greater or less than both neighbours. -/
def Strict3 (y0 y1 y2 : ℚ) : Prop := (y0 < y1 ∧ y2 < y1) ∨ (y1 < y0 ∧ y1 < y2)

/-- **C162 (strict extrema)**: the vertex is within half a pixel of a strict extremum. -/
theorem fit_strict {y0 y1 y2 : ℚ} (h : Strict3 y0 y1 y2) : ∃ x, (fitPeak1D y0 y1 y2).1 = .fin x ∧ |x| < 1 / 2 := by
  have ha : 2 * (1 / 2 * y0 + (-1) * y1 + 1 / 2 * y2) ≠ 0 := by
    rcases h with ⟨h1, h2⟩ | ⟨h1, h2⟩
    · intro e; linarith
    · intro e; linarith
  unfold fitPeak1D Fl.div
  dsimp only
  rw [if_neg ha]
  refine ⟨_, rfl, ?_⟩
  rw [abs_lt]
  rcases h with ⟨h1, h2⟩ | ⟨h1, h2⟩
  · have hn : 2 * (1 / 2 * y0 + (-1) * y1 + 1 / 2 * y2) < 0 := by linarith
    constructor
    · rw [lt_div_iff_of_neg hn]; linarith
    · rw [div_lt_iff_of_neg hn]; linarith
  · have hn : 0 < 2 * (1 / 2 * y0 + (-1) * y1 + 1 / 2 * y2) := by linarith
    constructor
    · rw [lt_div_iff₀ hn]; linarith
    · rw [div_lt_iff₀ hn]; linarith

/-! ### C162: the fit in the plane -/

/-- A pixel that is not at the border. -/
def Inner (m : Img) (i j : Int) : Prop := 1 ≤ i ∧ i + 1 < m.cols ∧ 1 ≤ j ∧ j + 1 < m.rows

theorem get_some {m : Img} {i j : Int} (h1 : 0 ≤ i) (h2 : i < m.cols) (h3 : 0 ≤ j) (h4 : j < m.rows) :
    m.get i j = some (m.px i j) := by
  unfold Img.get; rw [if_pos ⟨h1, h2, h3, h4⟩]

theorem fit3_some (a b c : ℚ) : fit3 (some a) (some b) (some c) = some (fitPeak1D a b c).1 := rfl

/-- The two fits at an inner pixel. -/
theorem fitPeak_inner {m : Img} {p : Point} (h : Inner m p.ix p.iy) :
    fitPeak m p = some (
      if ((fitPeak1D (m.px (p.ix - 1) p.iy) (m.px p.ix p.iy) (m.px (p.ix + 1) p.iy)).1.big ||
        (fitPeak1D (m.px p.ix (p.iy - 1)) (m.px p.ix p.iy) (m.px p.ix (p.iy + 1))).1.big) = true then (false, p)
      else (true, { p with
        x := (fitPeak1D (m.px (p.ix - 1) p.iy) (m.px p.ix p.iy) (m.px (p.ix + 1) p.iy)).1.shift p.ix
        y := (fitPeak1D (m.px p.ix (p.iy - 1)) (m.px p.ix p.iy) (m.px p.ix (p.iy + 1))).1.shift p.iy })) := by
  obtain ⟨h1, h2, h3, h4⟩ := h
  unfold fitPeak
  rw [get_some (by omega) (by omega) (by omega) (by omega), get_some (by omega) (by omega) (by omega) (by omega),
    get_some (by omega) (by omega) (by omega) (by omega), get_some (by omega) (by omega) (by omega) (by omega),
    get_some (by omega) (by omega) (by omega) (by omega), fit3_some, fit3_some]
  simp only [Option.bind_eq_bind, Option.bind_some, Option.pure_def]
  split_ifs <;> rfl

theorem big_small {x : ℚ} (h : |x| < 1 / 2) : (Fl.fin x).big = false := by
  unfold Fl.big
  simp only [gt_iff_lt, decide_eq_false_iff_not, not_lt]
  linarith

/-- **C162 (peaks are kept)**: a point that is a strict extremum of its row and of its column, off the border (as the ones
of `find_peaks`, C155), is accepted and gets a position within half a pixel, the vertex of each fit; nothing else of it is
changed. -/
theorem fitPeak_peak {m : Img} {p : Point} (h : Inner m p.ix p.iy)
    (hx : Strict3 (m.px (p.ix - 1) p.iy) (m.px p.ix p.iy) (m.px (p.ix + 1) p.iy))
    (hy : Strict3 (m.px p.ix (p.iy - 1)) (m.px p.ix p.iy) (m.px p.ix (p.iy + 1))) :
    ∃ dx dy, (fitPeak1D (m.px (p.ix - 1) p.iy) (m.px p.ix p.iy) (m.px (p.ix + 1) p.iy)).1 = .fin dx ∧
      (fitPeak1D (m.px p.ix (p.iy - 1)) (m.px p.ix p.iy) (m.px p.ix (p.iy + 1))).1 = .fin dy ∧
      |dx| < 1 / 2 ∧ |dy| < 1 / 2 ∧
      fitPeak m p = some (true, { p with x := .fin ((p.ix : ℚ) + dx), y := .fin ((p.iy : ℚ) + dy) }) := by
  obtain ⟨dx, ex, bx⟩ := fit_strict hx
  obtain ⟨dy, ey, by'⟩ := fit_strict hy
  refine ⟨dx, dy, ex, ey, bx, by', ?_⟩
  rw [fitPeak_inner h, ex, ey, big_small bx, big_small by']
  rfl

/-- **C162 (rejection)**: a point rejected is unchanged; one accepted keeps its pixel and scale. -/
theorem fitPeak_frame {m : Img} {p : Point} {r : Bool × Point} (h : fitPeak m p = some r) :
    (r.1 = false → r.2 = p) ∧ r.2.ix = p.ix ∧ r.2.iy = p.iy ∧ r.2.scale = p.scale := by
  unfold fitPeak at h
  simp only [Option.bind_eq_bind, Option.bind_eq_some_iff] at h
  obtain ⟨di, _, dj, _, h⟩ := h
  split at h
  · cases h; exact ⟨fun _ => rfl, rfl, rfl, rfl⟩
  · cases h; exact ⟨fun h => by simp at h, rfl, rfl, rfl⟩

/-- A shift by more than one pixel. -/
def TooFar (f : Fl) : Prop := f = .inf ∨ ∃ q, f = .fin q ∧ 1 < |q|

theorem big_iff (f : Fl) : f.big = true ↔ TooFar f := by
  unfold TooFar
  cases f with
  | fin q => simp [Fl.big]
  | inf => simp [Fl.big]
  | nan => simp [Fl.big]

/-- **C162 (when)**: an inner point is rejected exactly if one of the fits is more than one pixel away. -/
theorem fitPeak_rejected {m : Img} {p : Point} (h : Inner m p.ix p.iy) :
    (∃ q, fitPeak m p = some (false, q)) ↔
      TooFar (fitPeak1D (m.px (p.ix - 1) p.iy) (m.px p.ix p.iy) (m.px (p.ix + 1) p.iy)).1 ∨
      TooFar (fitPeak1D (m.px p.ix (p.iy - 1)) (m.px p.ix p.iy) (m.px p.ix (p.iy + 1))).1 := by
  rw [fitPeak_inner h, ← big_iff, ← big_iff, ← Bool.or_eq_true]
  split_ifs with c
  · exact ⟨fun _ => c, fun _ => ⟨p, rfl⟩⟩
  · exact ⟨fun ⟨q, e⟩ => by simp at e, fun h => absurd h c⟩

/-- **C162 (border)**: points at the border of a non-empty image make the fit read outside of it, and no others. -/
theorem fitPeak_outside {m : Img} {p : Point} (hi : 0 ≤ p.ix ∧ p.ix < m.cols ∧ 0 ≤ p.iy ∧ p.iy < m.rows) :
    fitPeak m p = none ↔ ¬ Inner m p.ix p.iy := by
  constructor
  · intro h hin
    rw [fitPeak_inner hin] at h
    cases h
  · intro h
    have hnone : m.get (p.ix - 1) p.iy = none ∨ m.get (p.ix + 1) p.iy = none ∨
        m.get p.ix (p.iy - 1) = none ∨ m.get p.ix (p.iy + 1) = none := by
      unfold Inner at h
      unfold Img.get
      by_cases h1 : 1 ≤ p.ix
      · by_cases h2 : p.ix + 1 < m.cols
        · by_cases h3 : 1 ≤ p.iy
          · right; right; right; rw [if_neg (by omega)]
          · right; right; left; rw [if_neg (by omega)]
        · right; left; rw [if_neg (by omega)]
      · left; rw [if_neg (by omega)]
    unfold fitPeak
    have f1 : ∀ b c, fit3 none b c = none := fun _ _ => rfl
    have f2 : ∀ a b, fit3 a b none = none := fun a b => by cases a <;> cases b <;> rfl
    rcases hnone with h | h | h | h
    · rw [h, f1]; rfl
    · rw [h, f2]; rfl
    · rw [h, f1]
      cases fit3 (m.get (p.ix - 1) p.iy) (m.get p.ix p.iy) (m.get (p.ix + 1) p.iy) <;> rfl
    · rw [h, f2]
      cases fit3 (m.get (p.ix - 1) p.iy) (m.get p.ix p.iy) (m.get (p.ix + 1) p.iy) <;> rfl

/-- **Discrepancy**: in a flat neighbourhood the point is accepted with NaN as its position. -/
theorem flat_nan (v : ℚ) (p : Point) (hp : p.ix = 1 ∧ p.iy = 1) :
    fitPeak ⟨3, 3, fun _ _ => v⟩ p = some (true, { p with x := .nan, y := .nan }) := by
  have e : (fitPeak1D v v v).1 = .nan := by
    unfold fitPeak1D Fl.div
    dsimp only
    rw [if_pos (by ring), if_pos (by ring)]
  rw [fitPeak_inner (by unfold Inner; simp only; omega), e]
  rfl

/-! ### C162: the fit in scale space -/

/-- **C162 (scale)**: a point that is a strict extremum along its row, its column and the planes is accepted; its new scale
is that of a plane index within half a plane. -/
theorem fitPeakScale_peak {toPlane : ℚ → Int} {toScale : ℚ → ℚ} {data : List Img} {p : Point} {k : Nat} {a m b : Img}
    (hk : toPlane p.scale = (k : Int) + 1) (ha : data[k]? = some a) (hm : data[k + 1]? = some m) (hb : data[k + 2]? = some b)
    (hs : a.cols = m.cols ∧ b.cols = m.cols ∧ a.rows = m.rows ∧ b.rows = m.rows)
    (h : Inner m p.ix p.iy)
    (hx : Strict3 (m.px (p.ix - 1) p.iy) (m.px p.ix p.iy) (m.px (p.ix + 1) p.iy))
    (hy : Strict3 (m.px p.ix (p.iy - 1)) (m.px p.ix p.iy) (m.px p.ix (p.iy + 1)))
    (hz : Strict3 (a.px p.ix p.iy) (m.px p.ix p.iy) (b.px p.ix p.iy)) :
    ∃ dx dy dp q, |dx| < 1 / 2 ∧ |dy| < 1 / 2 ∧ |dp| < 1 / 2 ∧
      (fitPeak1D (a.px p.ix p.iy) (m.px p.ix p.iy) (b.px p.ix p.iy)).1 = .fin dp ∧
      q = { p with x := .fin ((p.ix : ℚ) + dx), y := .fin ((p.iy : ℚ) + dy) } ∧
      fitPeak m p = some (true, q) ∧
      fitPeakScale toPlane toScale data p = some (true, q, some (toScale ((k : ℚ) + 1 + dp))) := by
  obtain ⟨dx, dy, _, _, bx, by', e⟩ := fitPeak_peak h hx hy
  obtain ⟨dp, ez, bz⟩ := fit_strict hz
  refine ⟨dx, dy, dp, _, bx, by', bz, ez, rfl, e, ?_⟩
  have pl : ∀ j : Nat, plane data (j : Int) = data[j]? := by
    intro j; unfold plane; rw [if_neg (by omega), Int.toNat_natCast]
  have e0 : plane data ((k : Int) + 1) = some m := by
    rw [← hm, ← pl (k + 1)]; norm_cast
  have e1 : plane data ((k : Int) + 1 - 1) = some a := by
    rw [← ha, ← pl k]; congr 1; ring
  have e2 : plane data ((k : Int) + 1 + 1) = some b := by
    rw [← hb, ← pl (k + 2)]; congr 1
  obtain ⟨h1, h2, h3, h4⟩ := h
  unfold fitPeakScale readPlane
  dsimp only
  rw [hk, e0, e1, e2]
  simp only [Option.bind_eq_bind, Option.bind_some, e]
  rw [get_some (by omega) (by omega) (by omega) (by omega), get_some (by omega) (by omega) (by omega) (by omega),
    get_some (by omega) (by omega) (by omega) (by omega), fit3_some, ez]
  simp only [Option.bind_some, big_small bz]
  simp

/-- Planes for the next theorem. -/
def samplePlane (v : ℚ) : Img :=
  ⟨3, 3, fun i j => if i = 1 ∧ j = 1 then v else if i = 2 ∧ j = 1 then 1 / 2 else 0⟩

/-- **Discrepancy**: a point rejected because of its scale has been moved already. -/
theorem rejected_but_moved : ∃ q,
    fitPeakScale (fun _ => 1) id [samplePlane 0, samplePlane 1, samplePlane (5 / 2)] ⟨.fin 1, .fin 1, 1, 1, 1⟩ =
      some (false, q, some 1) ∧ q.x = .fin (7 / 6) := by
  have e1 : (fitPeak1D 0 1 (1 / 2)).1 = .fin (1 / 6) := by
    unfold fitPeak1D Fl.div
    norm_num
  have e2 : (fitPeak1D 0 1 0).1 = .fin 0 := by
    unfold fitPeak1D Fl.div
    norm_num
  have e3 : (fitPeak1D 0 1 (5 / 2)).1 = .fin (-5 / 2) := by
    unfold fitPeak1D Fl.div
    norm_num
  have hp : fitPeak (samplePlane 1) ⟨.fin 1, .fin 1, 1, 1, 1⟩ =
      some (true, ⟨.fin (7 / 6), .fin 1, 1, 1, 1⟩) := by
    rw [fitPeak_inner (by unfold Inner samplePlane; decide)]
    simp only [samplePlane]
    norm_num [e1, e2, Fl.big, Fl.shift]
  refine ⟨⟨.fin (7 / 6), .fin 1, 1, 1, 1⟩, ?_, rfl⟩
  have g : ∀ v, (samplePlane v).get 1 1 = some v := fun v => by
    unfold Img.get samplePlane; norm_num
  have p0 : ∀ a b c : Img, plane [a, b, c] 0 = some a := fun _ _ _ => rfl
  have p1 : ∀ a b c : Img, plane [a, b, c] 1 = some b := fun _ _ _ => rfl
  have p2 : ∀ a b c : Img, plane [a, b, c] 2 = some c := fun _ _ _ => rfl
  unfold fitPeakScale readPlane
  norm_num [p0, p1, p2, hp, g, fit3_some, e3, Fl.big, Option.bind_some]

/-- The case is not vacuous: a strict peak in the middle of a 3x3 image. -/
example : Inner (samplePlane 1) 1 1 ∧
    Strict3 ((samplePlane 1).px 0 1) ((samplePlane 1).px 1 1) ((samplePlane 1).px 2 1) := by
  refine ⟨by unfold Inner samplePlane; decide, Or.inl ?_⟩
  simp only [samplePlane]
  norm_num

end VW.Orient
