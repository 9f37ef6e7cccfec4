import Verif.Georef.SampleProps

/-
C112: longitudes and pixels of a georeference.
-/

set_option linter.unusedSectionVars false

namespace Verif.Georef
open Verif.Camera VW.BBox

variable {K : Type} [Field K] [LinearOrder K] [IsStrictOrderedRing K] [FloorRing K]

/-- **C112.** What is done to a longitude: it is lowered by 360 if it is more than 180 above the middle of the image, raised by
360 if it is more than 180 below, and left alone otherwise, or if no box is known. -/
theorem wrap_spec (g : Ref K) (lon : K) :
    (g.llBox.empty = true → g.wrap lon = lon) ∧
    (g.llBox.empty = false → g.mid + 180 < lon → g.wrap lon = lon - 360) ∧
    (g.llBox.empty = false → lon < g.mid - 180 → g.wrap lon = lon + 360) ∧
    (g.llBox.empty = false → g.mid - 180 ≤ lon → lon ≤ g.mid + 180 → g.wrap lon = lon) := by
  refine ⟨fun h => ?_, fun h => (wrap_cases g h lon).1, fun h => (wrap_cases g h lon).2.1, fun h => (wrap_cases g h lon).2.2⟩
  unfold Ref.wrap; rw [h]; rfl

/-- **C112.** The result is the representative closest to the middle of the image (within 180 degrees) exactly if the longitude
was within 540 degrees of the middle: there is one correction only. -/
theorem wrap_within_iff (g : Ref K) (he : g.llBox.empty = false) (lon : K) :
    |g.wrap lon - g.mid| ≤ 180 ↔ |lon - g.mid| ≤ 540 := by
  obtain ⟨h1, h2, h3⟩ := wrap_cases g he lon
  rw [abs_le, abs_le]
  by_cases a : g.mid + 180 < lon
  · rw [h1 a]; constructor <;> rintro ⟨b, c⟩ <;> constructor <;> linarith
  · by_cases b : lon < g.mid - 180
    · rw [h2 b]; constructor <;> rintro ⟨b, c⟩ <;> constructor <;> linarith
    · rw [h3 (by linarith) (by linarith)]; constructor <;> rintro ⟨b, c⟩ <;> constructor <;> linarith

/-- **C112.** Two longitudes 360 degrees apart, both within 540 degrees of the middle, are given the same value, unless they are
exactly opposite to the middle. -/
theorem wrap_same (g : Ref K) (he : g.llBox.empty = false) (lon : K) (h1 : g.mid - 540 ≤ lon) (h2 : lon + 360 ≤ g.mid + 540)
    (ho : lon ≠ g.mid - 180) : g.wrap (lon + 360) = g.wrap lon := by
  obtain ⟨a1, a2, a3⟩ := wrap_cases g he lon
  obtain ⟨b1, b2, b3⟩ := wrap_cases g he (lon + 360)
  rcases lt_trichotomy lon (g.mid - 180) with h | h | h
  · rw [a2 h, b3 (by linarith) (by linarith)]
  · exact absurd h ho
  · rw [b1 (by linarith), a3 (by linarith) (by linarith)]; ring

/-! ### Round trips through longitude and latitude -/

theorem pixelToLonlat_geo (g : Ref K) (hp : g.projected = false) (p : K × K) : g.pixelToLonlat p = some (g.pixelToPoint p) := by
  unfold Ref.pixelToLonlat Ref.pointToLonlat; rw [hp]; rfl

theorem lonlatToPixel_geo (g : Ref K) (hp : g.projected = false) (p : K × K) :
    g.lonlatToPixel p = some (g.pointToPixel (g.wrap p.1, p.2)) := by
  unfold Ref.lonlatToPixel Ref.lonlatToPoint; rw [hp]; rfl

/-- **C112.** In geographic coordinates a pixel taken to longitude and latitude and back is the same pixel exactly if its
longitude is within 180 degrees of the middle of the stored box. -/
theorem geographic_round_trip_iff (g : Ref K) (h : Reach g) (ha : Affine g.tr) (hp : g.projected = false)
    (he : g.llBox.empty = false) (p : K × K) :
    (∃ ll, g.pixelToLonlat p = some ll ∧ (g.lonlatToPixel ll = some p ↔ |ll.1 - g.mid| ≤ 180)) := by
  refine ⟨_, pixelToLonlat_geo g hp p, ?_⟩
  rw [lonlatToPixel_geo g hp]
  obtain ⟨a1, a2, a3⟩ := wrap_cases g he (g.pixelToPoint p).1
  have back := (affine_round_trip g h ha p).1
  have inj : ∀ q, some (g.pointToPixel q) = some p → q = g.pixelToPoint p := by
    intro q hq
    have hq' : g.pointToPixel q = p := by simpa using hq
    rw [← hq', (affine_round_trip g h ha q).2]
  constructor
  · intro hq
    have e := congrArg Prod.fst (inj _ hq)
    dsimp only at e
    rw [abs_le]
    by_contra hc
    by_cases b : g.mid + 180 < (g.pixelToPoint p).1
    · rw [a1 b] at e; linarith
    · by_cases c : (g.pixelToPoint p).1 < g.mid - 180
      · rw [a2 c] at e; linarith
      · exact hc ⟨by linarith, by linarith⟩
  · intro hb
    rw [abs_le] at hb
    rw [a3 (by linarith) (by linarith)]
    show some (g.pointToPixel (g.pixelToPoint p)) = some p
    rw [back]

/-- **C112.** With a projection that inverts itself at this point, the pixel comes back if the longitude of the pixel is within
180 degrees of the middle of the stored box. -/
theorem projected_round_trip (g : Ref K) (h : Reach g) (ha : Affine g.tr) (hp : g.projected = true) (p ll : K × K)
    (h1 : g.toLL (g.pixelToPoint p) = some ll) (h2 : g.toProj ll = some (g.pixelToPoint p))
    (h3 : g.llBox.empty = true ∨ |ll.1 - g.mid| ≤ 180) :
    g.pixelToLonlat p = some ll ∧ g.lonlatToPixel ll = some p := by
  constructor
  · unfold Ref.pixelToLonlat Ref.pointToLonlat; rw [hp, if_neg (by simp), h1]
  · have hw : g.wrap ll.1 = ll.1 := by
      rcases h3 with h3 | h3
      · exact (wrap_spec g ll.1).1 h3
      · rw [abs_le] at h3
        exact wrap_near g ll.1 (by linarith) (by linarith)
    unfold Ref.lonlatToPixel Ref.lonlatToPoint
    dsimp only
    rw [hw, hp, if_neg (by simp), h2]
    show some (g.pointToPixel (g.pixelToPoint p)) = some p
    rw [(affine_round_trip g h ha p).1]

/-- **C112.** An image in geographic coordinates whose extent was given (as done on reading a file), covering at most 360 degrees
of longitude: every point of the image box comes back. -/
theorem image_round_trip (g g' : Ref K) (h : Reach g) (ha : Affine g.tr) (hp : g.projected = false) (b : Box K 2)
    (hb : b.empty = false) (hg : g.step (.llFromPix b) = (g', none))
    (hw : g'.llBox.max 0 - g'.llBox.min 0 ≤ 360) (p : K × K) (hin : In b p) :
    ∃ ll, g'.pixelToLonlat p = some ll ∧ In g'.llBox ll ∧ g'.lonlatToPixel ll = some p := by
  have hg' : g.llBoxFromPix b = (g', none) := hg
  have hr : Reach g' := .step g g' _ h hg
  have e : g' = { g with llBox := g.pixelToLonlatBox b } := by
    unfold Ref.llBoxFromPix at hg'
    rw [hb, if_neg (by simp)] at hg'
    simp only [Prod.mk.injEq, and_true] at hg'
    exact hg'.symm
  obtain ⟨ll, h1, h2⟩ := pixelToLonlatBox_geographic g h ha hp b hb p hin
  have hll : g'.pixelToLonlat p = some ll := by rw [e]; exact h1
  have hbx : In g'.llBox ll := by rw [e]; exact h2
  have hp' : g'.projected = false := by rw [e]; exact hp
  have ha' : Affine g'.tr := by rw [e]; exact ha
  refine ⟨ll, hll, hbx, ?_⟩
  have hpt : ll = g'.pixelToPoint p := by
    rw [pixelToLonlat_geo g' hp' p] at hll
    simpa using hll.symm
  obtain ⟨i1, i2, -, -⟩ := hbx
  rw [lonlatToPixel_geo g' hp', wrap_near g' ll.1 (by unfold Ref.mid; linarith) (by unfold Ref.mid; linarith)]
  show some (g'.pointToPixel ll) = some p
  rw [hpt, (affine_round_trip g' hr ha' p).1]

/-! ### When the extent is not given -/

theorem cround_near (x : K) : |x - (cround x : K)| ≤ 1 / 2 := by
  unfold cround
  by_cases h : x < 0
  · rw [if_pos h]
    have h1 := Int.floor_le (-x + 1 / 2)
    have h2 := Int.lt_floor_add_one (-x + 1 / 2)
    push_cast
    rw [abs_le]; constructor <;> linarith
  · rw [if_neg h]
    have h1 := Int.floor_le (x + 1 / 2)
    have h2 := Int.lt_floor_add_one (x + 1 / 2)
    rw [abs_le]; constructor <;> linarith

theorem around_spec (ll : K × K) : (aroundBox ll).empty = false ∧
    ((aroundBox ll).min 0 + (aroundBox ll).max 0) / 2 = 180 * (cround (ll.1 / 180) : K) := by
  constructor
  · rw [empty_iff]
    refine ⟨by norm_num, fun i => ?_⟩
    match i with
    | 0 => show 180 * (cround (ll.1 / 180) : K) - 1 / 4 < 180 * (cround (ll.1 / 180) : K) + 1 / 4; linarith
    | 1 => show 180 * (cround (ll.2 / 180) : K) - 1 / 4 < 180 * (cround (ll.2 / 180) : K) + 1 / 4; linarith
  · show (180 * (cround (ll.1 / 180) : K) - 1 / 4 + (180 * (cround (ll.1 / 180) : K) + 1 / 4)) / 2 = _
    ring

theorem zeroBox_empty : (boxXYWH 0 0 0 0 : Box K 2).empty = true := by
  unfold Box.empty boxXYWH vec; simp

/-- **C112.** When only the transform is set, the middle is the multiple of 180 degrees nearest to the longitude of the first
pixel: so this longitude is within 90 degrees of it, and the pixels that come back are those within 180 degrees of it. -/
theorem setTransform_mid (g g' : Ref K) (M : M3 K) (hg : g.step (.transform M) = (g', none)) :
    ∃ ll, g'.pixelToLonlat (0, 0) = some ll ∧ g'.llBox.empty = false ∧
      g'.mid = 180 * (cround (ll.1 / 180) : K) ∧ |ll.1 - g'.mid| ≤ 90 := by
  have hg' : g.setTransform M = (g', none) := hg
  unfold Ref.setTransform at hg'
  dsimp only at hg'
  cases hi : M.inverse with
  | none => rw [hi] at hg'; simp at hg'
  | some i =>
    cases hj : (shift M).inverse with
    | none => rw [hi, hj] at hg'; simp at hg'
    | some j =>
      rw [hi, hj] at hg'
      dsimp only at hg'
      unfold Ref.llBoxFromPix at hg'
      rw [if_pos zeroBox_empty] at hg'
      cases hl : Ref.pixelToLonlat { g with tr := M, sh := shift M, inv := i, invSh := j } (0, 0) with
      | none => rw [hl] at hg'; simp at hg'
      | some ll =>
        rw [hl] at hg'
        simp only [Prod.mk.injEq, and_true] at hg'
        have hb : g'.llBox = aroundBox ll := by rw [← hg']
        have hm : g'.mid = 180 * (cround (ll.1 / 180) : K) := by
          unfold Ref.mid; rw [hb]; exact (around_spec ll).2
        refine ⟨ll, ?_, by rw [hb]; exact (around_spec ll).1, hm, ?_⟩
        · rw [← hg']; exact hl
        · rw [hm]
          have h := abs_le.1 (cround_near (ll.1 / 180))
          rw [abs_le]
          constructor <;> linarith

/-- **C112 (refuted).** Not every pixel of an image comes back: an image in geographic coordinates, one pixel per degree, from
longitude −180 to 180, made in memory.  The pixel at column 300 comes back at column −60. -/
theorem global_image_lost : ∃ g : Ref ℚ, Reach g ∧ g.projected = false ∧ g.area = true ∧
    g.tr = ⟨⟨1, 0, -180⟩, ⟨0, -1, 90⟩, ⟨0, 0, 1⟩⟩ ∧
    ∃ ll, g.pixelToLonlat (300, 50) = some ll ∧ ll = (241 / 2 , 79 / 2) ∧ g.lonlatToPixel ll = some (-60, 50) := by
  obtain ⟨g0, -, h1, h2, h3, h4⟩ := make_exists (⟨⟨1, 0, 0⟩, ⟨0, 1, 0⟩, ⟨0, 0, 1⟩⟩ : M3 ℚ) rfl
    (by simp [M3.det, dot, cross]) true
  have hacc := (setTransform_accepts g0 (⟨⟨1, 0, -180⟩, ⟨0, -1, 90⟩, ⟨0, 0, 1⟩⟩ : M3 ℚ) rfl).2.1
    (by norm_num [M3.det, dot, cross]) h4
  obtain ⟨g, hg⟩ : ∃ g, g0.setTransform (⟨⟨1, 0, -180⟩, ⟨0, -1, 90⟩, ⟨0, 0, 1⟩⟩ : M3 ℚ) = (g, none) :=
    ⟨_, Prod.ext rfl hacc⟩
  obtain ⟨-, htr, har, hpr, -⟩ := setTransform_good g0 g _ hg
  have hr : Reach g := .step g0 g (.transform _) h1 hg
  have ha : Affine g.tr := by rw [htr]; rfl
  have hp : g.projected = false := by rw [hpr, h4]
  have hat : g.area = true := by rw [har, h3]
  have hpix : ∀ q : ℚ × ℚ, g.pixelToPoint q = (q.1 - 180 + 1 / 2, 90 - q.2 - 1 / 2) := by
    intro q
    rw [(pixel_position g hr ha q).2 hat, htr]
    simp only [affineAt, Prod.mk.injEq]
    constructor <;> ring
  obtain ⟨ll0, e0, he, hm, -⟩ := setTransform_mid g0 g _ hg
  rw [pixelToLonlat_geo g hp, hpix] at e0
  have e0' : ll0 = (-359 / 2, 179 / 2) := by
    simp only [Option.some.injEq] at e0
    rw [← e0]; norm_num
  have hc : cround ((-359 / 2 : ℚ) / 180) = -1 := by
    unfold cround
    rw [if_pos (by norm_num)]
    have : ⌊-((-359 / 2 : ℚ) / 180) + 1 / 2⌋ = 1 := by rw [Int.floor_eq_iff]; norm_num
    rw [this]
  rw [e0'] at hm
  dsimp only at hm
  rw [hc] at hm
  have hm' : g.mid = -180 := by rw [hm]; norm_num
  refine ⟨g, hr, hp, hat, htr, _, pixelToLonlat_geo g hp _, ?_, ?_⟩
  · rw [hpix]; norm_num
  · rw [lonlatToPixel_geo g hp, hpix]
    dsimp only
    rw [(wrap_cases g he _).1 (by rw [hm']; norm_num)]
    have e : (((300 : ℚ) - 180 + 1 / 2 - 360), ((90 : ℚ) - 50 - 1 / 2)) = g.pixelToPoint (-60, 50) := by
      rw [hpix]; norm_num
    rw [e, (affine_round_trip g hr ha _).1]

/-- **C112 (refuted).** Setting the projection (`set_wkt`) after the transform: the box is computed as if the map coordinates of the
first pixel were degrees.  For an image at 500000 m easting the middle becomes the multiple of 180 nearest to 500000, and the
projection is then asked for longitude 243 instead of −117, whatever the projection is. -/
theorem setWkt_wrong_mid (toLL toProj : ℚ × ℚ → Option (ℚ × ℚ)) : ∃ g g' : Ref ℚ, Reach g ∧ g.projected = false ∧
    g.tr = ⟨⟨1, 0, 500000⟩, ⟨0, -1, 4000000⟩, ⟨0, 0, 1⟩⟩ ∧ g.step (.wkt toLL toProj true) = (g', none) ∧ g'.projected = true ∧
    ∀ lat, g'.lonlatToPoint (-117, lat) = toProj (243, lat) := by
  obtain ⟨g, -, h1, h2, h3, h4⟩ := make_exists (⟨⟨1, 0, 500000⟩, ⟨0, -1, 4000000⟩, ⟨0, 0, 1⟩⟩ : M3 ℚ) rfl
    (by norm_num [M3.det, dot, cross]) false
  have ha : Affine g.tr := by rw [h2]; rfl
  obtain ⟨g', e, p1, p2, p3, p4, p5⟩ := setWkt_ok g toLL toProj h4 true
  refine ⟨g, g', h1, h4, h2, e, p1, ?_⟩
  have hb : g'.llBox = aroundBox (500000, 4000000) := by
    unfold Ref.setWkt Ref.llBoxFromPix at e
    rw [if_pos zeroBox_empty] at e
    have hl : Ref.pixelToLonlat { g with toLL := toLL, toProj := toProj } (0, 0) = some (500000, 4000000) := by
      have e1 : Ref.pixelToLonlat { g with toLL := toLL, toProj := toProj } (0, 0) = g.pixelToLonlat (0, 0) := by
        unfold Ref.pixelToLonlat Ref.pointToLonlat
        dsimp only
        rw [h4]; rfl
      rw [e1, pixelToLonlat_geo g h4, (pixel_position g h1 ha _).1 h3, h2]
      simp [affineAt]
    rw [hl] at e
    simp only [Prod.mk.injEq, and_true] at e
    rw [← e]
  have hm : g'.mid = 180 * (cround ((500000 : ℚ) / 180) : ℚ) := by
    unfold Ref.mid; rw [hb]; exact (around_spec _).2
  have hn := abs_le.1 (cround_near ((500000 : ℚ) / 180))
  intro lat
  unfold Ref.lonlatToPoint
  dsimp only
  rw [(wrap_cases g' (by rw [hb]; exact (around_spec _).1) (-117)).2.1 (by rw [hm]; linarith), p1, p3]
  norm_num

/-- Non-vacuity: an image of 360 columns with its extent given meets the hypotheses of `image_round_trip`. -/
example : ∃ g g' : Ref ℚ, Reach g ∧ Affine g.tr ∧ g.projected = false ∧
    g.step (.llFromPix (intBox 0 0 360 180)) = (g', none) ∧ (intBox 0 0 360 180 : Box ℚ 2).empty = false ∧
    g'.llBox.max 0 - g'.llBox.min 0 ≤ 360 := by
  obtain ⟨g, -, h1, h2, h3, h4⟩ := make_exists (⟨⟨1, 0, -180⟩, ⟨0, -1, 90⟩, ⟨0, 0, 1⟩⟩ : M3 ℚ) rfl
    (by norm_num [M3.det, dot, cross]) true
  have he := intBox_empty (K := ℚ) 0 0 360 180 (by norm_num) (by norm_num)
  have ha : Affine g.tr := by rw [h2]; rfl
  have hpix : ∀ q : ℚ × ℚ, g.pixelToPoint q = (q.1 - 180 + 1 / 2, 90 - q.2 - 1 / 2) := by
    intro q
    rw [(pixel_position g h1 ha q).2 h3, h2]
    simp only [affineAt, Prod.mk.injEq]
    constructor <;> ring
  refine ⟨g, { g with llBox := g.pixelToLonlatBox (intBox 0 0 360 180) }, h1, ha, h4, ?_, he, ?_⟩
  · show g.llBoxFromPix _ = _
    unfold Ref.llBoxFromPix
    rw [he, if_neg (by simp)]
  · have hs := (pixelToPointBox_covers g h1 ha _ he).2 (⟨vec (-359 / 2, -1000), vec (361 / 2, 1000)⟩ : Box ℚ 2) (by
      intro p hp
      rw [hpix]
      obtain ⟨i1, i2, i3, i4⟩ := hp
      have j1 : ((0 : Int) : ℚ) ≤ p.1 := i1
      have j2 : p.1 ≤ ((360 : Int) : ℚ) := i2
      have j3 : ((0 : Int) : ℚ) ≤ p.2 := i3
      have j4 : p.2 ≤ ((180 : Int) : ℚ) := i4
      push_cast at j1 j2 j3 j4
      refine ⟨?_, ?_, ?_, ?_⟩
      · show (-359 / 2 : ℚ) ≤ p.1 - 180 + 1 / 2; linarith
      · show p.1 - 180 + 1 / 2 ≤ (361 / 2 : ℚ); linarith
      · show (-1000 : ℚ) ≤ 90 - p.2 - 1 / 2; linarith
      · show 90 - p.2 - 1 / 2 ≤ (1000 : ℚ); linarith)
      ⟨(((0 : Int) : ℚ), ((0 : Int) : ℚ)), mem_corners _ _ _ (Or.inl rfl) (Or.inl rfl), by
        rw [hpix]; unfold Fits big32; norm_num [abs_of_nonneg, abs_of_nonpos]⟩
    have hif : g.pixelToLonlatBox (intBox 0 0 360 180) = g.pixelToPointBox (intBox 0 0 360 180) := by
      unfold Ref.pixelToLonlatBox; rw [he, h4]; rfl
    dsimp only
    rw [hif]
    obtain ⟨s1, s2, -, -⟩ := hs
    have t1 : (-359 / 2 : ℚ) ≤ _ := s1
    have t2 : _ ≤ (361 / 2 : ℚ) := s2
    linarith

end Verif.Georef
