import Verif.Datum.RadiusProps

/-
C115, continued: latitudes and radii.  C116: the axes north, east, down.  C117: intersection of a ray with the spheroid.
-/

set_option linter.unusedSectionVars false

namespace Verif.Datum
open Verif.Camera Real

/-- The position on the surface, with the cut-off of the latitude resolved. -/
theorem toCartesian_eq (d : Spheroid) (lon lat z : ℝ) (h1 : -90 ≤ lat) (h2 : lat ≤ 90) : d.toCartesian ⟨lon, lat, z⟩ =
    ⟨(curvature d lat + z) * cos (lat * (π / 180)) * cos ((lon + d.off) * (π / 180)),
      (curvature d lat + z) * cos (lat * (π / 180)) * sin ((lon + d.off) * (π / 180)),
      (curvature d lat * (1 - d.e2) + z) * sin (lat * (π / 180))⟩ := by
  unfold Spheroid.toCartesian curvature
  dsimp only
  rw [clamp_id lat h1 h2]

theorem curvature_pos (d : Spheroid) (h : Ok d) (lat : ℝ) : 0 < curvature d lat := div_pos h.apos (sqrt_pos.2 (w_pos d h _))

/-- **C115.** For a spheroid that is not a sphere, `geocentric_latitude` is the angle, in radians, of the direction from the
centre to the surface at the geodetic latitude. -/
theorem geocentricLatitude_spec (d : Spheroid) (h : Ok d) (hab : d.b < d.a) (lon lat : ℝ) (h1 : -90 < lat) (h2 : lat < 90) :
    |d.geocentricLatitude lat| < π / 2 ∧ ∃ r > 0, d.toCartesian ⟨lon, lat, 0⟩ =
      ⟨r * (cos (d.geocentricLatitude lat) * cos ((lon + d.off) * (π / 180))),
        r * (cos (d.geocentricLatitude lat) * sin ((lon + d.off) * (π / 180))), r * sin (d.geocentricLatitude lat)⟩ := by
  have hc : 0 < cos (lat * (π / 180)) := cos_pos_of_mem_Ioo (deg_lt lat h1 h2)
  have hN := curvature_pos d h lat
  unfold Spheroid.geocentricLatitude
  rw [if_neg hab.ne', show lat * π / 180 = lat * (π / 180) by ring]
  obtain ⟨s, s0, hs, e1, e2⟩ := arctan_cos_sin ((1 - d.e2) * tan (lat * (π / 180)))
  refine ⟨abs_lt.2 ⟨neg_pi_div_two_lt_arctan _, arctan_lt_pi_div_two _⟩, curvature d lat * cos (lat * (π / 180)) * s,
    by positivity, ?_⟩
  rw [toCartesian_eq d lon lat 0 h1.le h2.le, e1, e2, tan_eq_sin_div_cos]
  generalize sin (lat * (π / 180)) = si at *
  generalize cos (lat * (π / 180)) = c at *
  have := s0.ne'
  have := hc.ne'
  ext
  · dsimp only; field_simp; ring
  · dsimp only; field_simp; ring
  · dsimp only; field_simp; ring

/-- **C115 (refuted).** For a sphere it is the radius, whatever the latitude. -/
theorem geocentricLatitude_sphere (d : Spheroid) (hab : d.a = d.b) (lat : ℝ) : d.geocentricLatitude lat = d.a := by
  unfold Spheroid.geocentricLatitude; rw [if_pos hab]

theorem e2_sphere (d : Spheroid) (hab : d.a = d.b) : d.e2 = 0 := by
  unfold Spheroid.e2; rw [hab]; simp

/-- **C115.** `radius_of_curvature` is the distance from the surface to the axis along the normal. -/
theorem radiusOfCurvature_spec (d : Spheroid) (h : Ok d) (lon lat : ℝ) (h1 : -90 ≤ lat) (h2 : lat ≤ 90) :
    0 < d.radiusOfCurvature lat ∧ ∃ z, d.toCartesian ⟨lon, lat, 0⟩ =
      ⟨0, 0, z⟩ + d.radiusOfCurvature lat * direction (lon + d.off) lat := by
  have e : d.radiusOfCurvature lat = curvature d lat := by
    unfold Spheroid.radiusOfCurvature curvature
    by_cases hab : d.a = d.b
    · rw [if_pos hab, e2_sphere d hab]; simp
    · rw [if_neg hab, mul_comm (π / 180) lat]
  rw [e]
  refine ⟨curvature_pos d h lat, -(curvature d lat * d.e2 * sin (lat * (π / 180))), ?_⟩
  rw [toCartesian_eq d lon lat 0 h1 h2]
  unfold direction
  ext
  · simp only [add_x, smul_x]; ring
  · simp only [add_y, smul_y]; ring
  · simp only [add_z, smul_z]; ring

/-- **C115.** `geocentric_radius` on the surface, and for a sphere at every height, is the distance from the centre. -/
theorem geocentricRadius_spec (d : Spheroid) (h : Ok d) (lon lat alt : ℝ) (h1 : -90 ≤ lat) (h2 : lat ≤ 90)
    (hs : alt = 0 ∨ (d.a = d.b ∧ -d.a ≤ alt)) :
    d.geocentricRadius lat alt = norm Real.sqrt (d.toCartesian ⟨lon, lat, alt⟩) := by
  have ha := h.apos
  have hN := curvature_pos d h lat
  have hcs := sin_sq_add_cos_sq (lat * (π / 180))
  have hls := sin_sq_add_cos_sq ((lon + d.off) * (π / 180))
  unfold Spheroid.geocentricRadius
  rw [show norm Real.sqrt (d.toCartesian ⟨lon, lat, alt⟩) = √(Verif.Camera.sq (d.toCartesian ⟨lon, lat, alt⟩)) from rfl,
    toCartesian_eq d lon lat alt h1 h2]
  unfold Verif.Camera.sq dot
  dsimp only
  by_cases hab : d.a = d.b
  · rw [if_pos hab]
    have hc : curvature d lat = d.a := by unfold curvature; rw [e2_sphere d hab]; simp
    have hpos : 0 ≤ d.a + alt := by rcases hs with hs | hs <;> linarith
    rw [hc, e2_sphere d hab]
    rw [show (d.a + alt) * cos (lat * (π / 180)) * cos ((lon + d.off) * (π / 180)) *
        ((d.a + alt) * cos (lat * (π / 180)) * cos ((lon + d.off) * (π / 180))) +
        (d.a + alt) * cos (lat * (π / 180)) * sin ((lon + d.off) * (π / 180)) *
        ((d.a + alt) * cos (lat * (π / 180)) * sin ((lon + d.off) * (π / 180))) +
        (d.a * (1 - 0) + alt) * sin (lat * (π / 180)) * ((d.a * (1 - 0) + alt) * sin (lat * (π / 180))) = (d.a + alt) ^ 2 by
      linear_combination ((d.a + alt) ^ 2 * cos (lat * (π / 180)) ^ 2) * hls + (d.a + alt) ^ 2 * hcs]
    rw [sqrt_sq hpos]
  · rw [if_neg hab]
    have h0 : alt = 0 := by rcases hs with hs | hs
                            · exact hs
                            · exact absurd hs.1 hab
    subst h0
    show √((curvature d lat + 0) * (curvature d lat + 0) * _) = _
    congr 1
    linear_combination -((curvature d lat) ^ 2 * cos (lat * (π / 180)) ^ 2) * hls

/-- **C115 (refuted).** Above the pole of a spheroid that is not a sphere it is less than the distance from the centre. -/
theorem geocentricRadius_pole (d : Spheroid) (h : Ok d) (hab : d.b < d.a) (lon alt : ℝ) (hz : 0 < alt) :
    d.geocentricRadius 90 alt = d.b + alt * (d.b ^ 2 / d.a ^ 2) ∧
    norm Real.sqrt (d.toCartesian ⟨lon, 90, alt⟩) = d.b + alt ∧ d.geocentricRadius 90 alt < d.b + alt := by
  have ha := h.apos
  have hb := h.pos
  have he := e2_eq d h
  have hs : (90 : ℝ) * (π / 180) = π / 2 := by ring
  have hr : √(1 - d.e2 * 1 * 1) = d.b / d.a := by
    rw [mul_one, mul_one, he, ← div_pow, sqrt_sq (by positivity)]
  have e1 : d.geocentricRadius 90 alt = d.b + alt * (d.b ^ 2 / d.a ^ 2) := by
    unfold Spheroid.geocentricRadius
    rw [if_neg hab.ne', hs]
    dsimp only
    rw [sin_pi_div_two, cos_pi_div_two, hr, he]
    rw [show (d.a / (d.b / d.a) + alt) * (d.a / (d.b / d.a) + alt) * (0 * 0 + d.b ^ 2 / d.a ^ 2 * (d.b ^ 2 / d.a ^ 2) * 1 * 1) =
      (d.b + alt * (d.b ^ 2 / d.a ^ 2)) ^ 2 by field_simp; ring]
    rw [sqrt_sq (by positivity)]
  refine ⟨e1, ?_, ?_⟩
  · rw [show norm Real.sqrt (d.toCartesian ⟨lon, 90, alt⟩) = √(Verif.Camera.sq (d.toCartesian ⟨lon, 90, alt⟩)) from rfl,
      toCartesian_eq d lon 90 alt (by norm_num) (le_refl _)]
    unfold Verif.Camera.sq dot curvature
    dsimp only
    rw [hs, sin_pi_div_two, cos_pi_div_two, hr, he]
    rw [show ((d.a / (d.b / d.a) + alt) * 0 * cos ((lon + d.off) * (π / 180)) * ((d.a / (d.b / d.a) + alt) * 0 * cos ((lon + d.off) * (π / 180))) +
        (d.a / (d.b / d.a) + alt) * 0 * sin ((lon + d.off) * (π / 180)) * ((d.a / (d.b / d.a) + alt) * 0 * sin ((lon + d.off) * (π / 180))) +
        (d.a / (d.b / d.a) * (d.b ^ 2 / d.a ^ 2) + alt) * 1 * ((d.a / (d.b / d.a) * (d.b ^ 2 / d.a ^ 2) + alt) * 1)) = (d.b + alt) ^ 2 by
      field_simp; ring]
    rw [sqrt_sq (by positivity)]
  · rw [e1]
    have : d.b ^ 2 / d.a ^ 2 < 1 := by rw [div_lt_one (by positivity)]; nlinarith
    nlinarith

/-- **C115.** `inverse_flattening`: zero for a sphere, else the larger axis divided by the difference of the axes. -/
theorem inverseFlattening_spec (d : Spheroid) (h : Ok d) : (d.a = d.b → d.inverseFlattening = 0) ∧
    (d.b < d.a → d.inverseFlattening = d.a / (d.a - d.b)) := by
  have ha := h.apos
  unfold Spheroid.inverseFlattening
  constructor
  · intro hab; rw [if_pos hab]
  · intro hab
    rw [if_neg hab.ne']
    have : d.a - d.b ≠ 0 := by linarith
    have : 1 - d.b / d.a ≠ 0 := by
      intro hh; field_simp at hh; exact this (by simpa using hh)
    field_simp

/-! ### North, east, down -/

theorem normalize_scale (v : V3 ℝ) (s : ℝ) (hs : 0 < s) (hv : Verif.Camera.sq v = 1) : normalize Real.sqrt (s * v) = some v := by
  have e : Verif.Camera.sq (s * v) = s ^ 2 := by
    unfold Verif.Camera.sq dot at *
    simp only [smul_x, smul_y, smul_z]
    linear_combination (s ^ 2) * hv
  unfold Verif.Camera.normalize Verif.Camera.norm
  rw [e, if_neg (by positivity), sqrt_sq hs.le]
  congr 1
  have := hs.ne'
  ext
  · simp only [smul_x]; field_simp
  · simp only [smul_y]; field_simp
  · simp only [smul_z]; field_simp

/-- The unit vector to the east. -/
noncomputable def eastOf (lon : ℝ) : V3 ℝ := ⟨-sin (lon * (π / 180)), cos (lon * (π / 180)), 0⟩

/-- The unit vector to the north. -/
noncomputable def northOf (lon lat : ℝ) : V3 ℝ :=
  ⟨-(sin (lat * (π / 180)) * cos (lon * (π / 180))), -(sin (lat * (π / 180)) * sin (lon * (π / 180))), cos (lat * (π / 180))⟩

/-- **C116.** Away from the poles the axis to the east is exact, and everywhere the axis down is: it is opposite to the normal. -/
theorem ned_east_down (d : Spheroid) (h : Ok d) (lon lat z : ℝ) (h1 : -90 < lat) (h2 : lat < 90) :
    (d.ned ⟨lon, lat, z⟩).2.1 = some (eastOf (lon + d.off)) ∧
    (d.ned ⟨lon, lat, z⟩).2.2 = some (-direction (lon + d.off) lat) := by
  have hc : 0 < cos (lat * (π / 180)) := cos_pos_of_mem_Ioo (deg_lt lat h1 h2)
  have hN := curvature_pos d h lat
  have hpi := pi_pos
  have hcs := sin_sq_add_cos_sq (lat * (π / 180))
  have hls := sin_sq_add_cos_sq ((lon + d.off) * (π / 180))
  have hd : 0 < sin (1 / 10000 * (π / 180)) := sin_pos_of_pos_of_lt_pi (by positivity) (by nlinarith)
  unfold Spheroid.ned Spheroid.nedRaw
  dsimp only
  rw [clamp_id lat h1.le h2.le]
  constructor
  · rw [← normalize_scale (eastOf (lon + d.off)) (10000 * curvature d lat * cos (lat * (π / 180)) * sin (1 / 10000 * (π / 180)))
      (by positivity) (by unfold eastOf Verif.Camera.sq dot; dsimp only; linear_combination hls)]
    congr 1
    rw [toCartesian_eq d _ lat 0 h1.le h2.le, toCartesian_eq d _ lat 0 h1.le h2.le,
      show (lon + 1 / 10000 + d.off) * (π / 180) = (lon + d.off) * (π / 180) + 1 / 10000 * (π / 180) by ring,
      show (lon - 1 / 10000 + d.off) * (π / 180) = (lon + d.off) * (π / 180) - 1 / 10000 * (π / 180) by ring,
      cos_add, cos_sub, sin_add, sin_sub, show lon + 1 / 10000 - (lon - 1 / 10000) = (1 / 5000 : ℝ) by ring]
    unfold eastOf
    ext
    · simp only [smul_x, sub_x]; ring
    · simp only [smul_y, sub_y]; ring
    · simp only [smul_z, sub_z]; ring
  · rw [← normalize_scale (-direction (lon + d.off) lat) 1 one_pos (by
      unfold direction Verif.Camera.sq dot; simp only [neg_x, neg_y, neg_z]
      linear_combination (cos (lat * (π / 180)) ^ 2) * hls + hcs)]
    congr 1
    rw [toCartesian_eq d _ lat _ h1.le h2.le, toCartesian_eq d _ lat _ h1.le h2.le,
      show z + 1 / 10000 * 1000 - (z - 1 / 10000 * 1000) = (1 / 5 : ℝ) by ring]
    unfold direction
    ext
    · simp only [smul_x, sub_x, neg_x]; ring
    · simp only [smul_y, sub_y, neg_y]; ring
    · simp only [smul_z, sub_z, neg_z]; ring

theorem surface_z_mono (d : Spheroid) (h : Ok d) (x y : ℝ) (hx : -90 ≤ x) (hxy : x < y) (hy : y ≤ 90) :
    curvature d x * sin (x * (π / 180)) < curvature d y * sin (y * (π / 180)) := by
  have hpi := pi_pos
  have ha := h.apos
  have he := e2_nonneg d h
  have hs : sin (x * (π / 180)) < sin (y * (π / 180)) :=
    sin_lt_sin_of_lt_of_le_pi_div_two (deg_le x hx (by linarith)).1 (deg_le y (by linarith) hy).2 (by
      apply mul_lt_mul_of_pos_right hxy; positivity)
  have wx := w_pos d h (x * (π / 180))
  have wy := w_pos d h (y * (π / 180))
  unfold curvature
  generalize sin (x * (π / 180)) = s at *
  generalize sin (y * (π / 180)) = t at *
  have px := sqrt_pos.2 wx
  have py := sqrt_pos.2 wy
  have key : s * √(1 - d.e2 * t * t) < t * √(1 - d.e2 * s * s) := by
    rcases lt_or_ge s 0 with h0 | h0
    · rcases lt_or_ge t 0 with h1 | h1
      · have : √(1 - d.e2 * s * s) ≤ √(1 - d.e2 * t * t) := by
          apply sqrt_le_sqrt
          have := mul_nonneg he (mul_nonneg (by linarith : 0 ≤ t - s) (by linarith : 0 ≤ -(s + t)))
          nlinarith
        nlinarith
      · have h3 := mul_pos_of_neg_of_neg h0 (neg_lt_zero.2 py)
        have h4 := mul_nonneg h1 px.le
        linarith
    · have h1 : 0 < t := by linarith
      have : √(1 - d.e2 * t * t) ≤ √(1 - d.e2 * s * s) := by
        apply sqrt_le_sqrt
        have := mul_nonneg he (mul_nonneg (by linarith : 0 ≤ t - s) (by linarith : 0 ≤ (s + t)))
        nlinarith
      nlinarith
  rw [div_mul_eq_mul_div, div_mul_eq_mul_div, div_lt_div_iff₀ px py]
  nlinarith

/-- **C116.** The axis to the north is a unit vector perpendicular to the east, and it points to the north: up along the axis of
the planet. -/
theorem ned_north (d : Spheroid) (h : Ok d) (lon lat z : ℝ) :
    ∃ n, (d.ned ⟨lon, lat, z⟩).1 = some n ∧ Verif.Camera.sq n = 1 ∧ dot n (eastOf (lon + d.off)) = 0 ∧ 0 < n.z := by
  obtain ⟨c1, c2, -, -⟩ := clamp_le lat
  have hp1 : min (clampLat lat + 1 / 10000) 90 ≤ 90 := min_le_right _ _
  have hp2 : -90 ≤ min (clampLat lat + 1 / 10000) 90 := le_min (by linarith) (by norm_num)
  have hm1 : max (clampLat lat - 1 / 10000) (-90) ≤ 90 := max_le (by linarith) (by norm_num)
  have hm2 : -90 ≤ max (clampLat lat - 1 / 10000) (-90) := le_max_right _ _
  have hlt : max (clampLat lat - 1 / 10000) (-90) < min (clampLat lat + 1 / 10000) 90 := by
    rw [max_lt_iff, lt_min_iff, lt_min_iff]
    refine ⟨⟨by linarith, by linarith⟩, by linarith, by norm_num⟩
  have he := e2_lt d h
  unfold Spheroid.ned Spheroid.nedRaw
  dsimp only
  generalize min (clampLat lat + 1 / 10000) 90 = u at *
  generalize max (clampLat lat - 1 / 10000) (-90) = v at *
  have hz : 0 < ((1 / (u - v)) * (d.toCartesian ⟨lon, u, 0⟩ - d.toCartesian ⟨lon, v, 0⟩)).z := by
    have := surface_z_mono d h v u hm2 hlt hp1
    rw [toCartesian_eq d _ u 0 hp2 hp1, toCartesian_eq d _ v 0 hm2 hm1]
    simp only [smul_z, sub_z]
    apply mul_pos (by rw [one_div]; exact inv_pos.2 (by linarith))
    nlinarith
  have hE : dot ((1 / (u - v)) * (d.toCartesian ⟨lon, u, 0⟩ - d.toCartesian ⟨lon, v, 0⟩)) (eastOf (lon + d.off)) = 0 := by
    rw [toCartesian_eq d _ u 0 hp2 hp1, toCartesian_eq d _ v 0 hm2 hm1]
    unfold dot eastOf
    simp only [smul_x, sub_x, smul_y, sub_y, smul_z, sub_z]
    ring
  generalize (1 / (u - v)) * (d.toCartesian ⟨lon, u, 0⟩ - d.toCartesian ⟨lon, v, 0⟩) = w at *
  have hsq : 0 < Verif.Camera.sq w := by
    unfold Verif.Camera.sq dot
    have := mul_self_nonneg w.x
    have := mul_self_nonneg w.y
    have := mul_pos hz hz
    linarith
  have hn : 0 < √(Verif.Camera.sq w) := sqrt_pos.2 hsq
  have hn2 : √(Verif.Camera.sq w) * √(Verif.Camera.sq w) = Verif.Camera.sq w := mul_self_sqrt hsq.le
  refine ⟨(1 / √(Verif.Camera.sq w)) * w, by unfold Verif.Camera.normalize Verif.Camera.norm; rw [if_neg hsq.ne'], ?_, ?_, ?_⟩
  · unfold Verif.Camera.sq dot at *
    simp only [smul_x, smul_y, smul_z]
    generalize √(w.x * w.x + w.y * w.y + w.z * w.z) = q at *
    field_simp
    linear_combination -hn2
  · unfold dot at *
    simp only [smul_x, smul_y, smul_z]
    linear_combination (1 / √(Verif.Camera.sq w)) * hE
  · simp only [smul_z]
    positivity

/-- **C116.** For a sphere the three axes are exactly north, east and down, away from the poles. -/
theorem ned_sphere (d : Spheroid) (h : Ok d) (hab : d.a = d.b) (lon lat z : ℝ) (h1 : -90 ≤ lat - 1 / 10000) (h2 : lat + 1 / 10000 ≤ 90) :
    d.ned ⟨lon, lat, z⟩ = (some (northOf (lon + d.off) lat), some (eastOf (lon + d.off)), some (-direction (lon + d.off) lat)) := by
  obtain ⟨he, hd⟩ := ned_east_down d h lon lat z (by linarith) (by linarith)
  have ha := h.apos
  have hpi := pi_pos
  have hcs := sin_sq_add_cos_sq (lat * (π / 180))
  have hls := sin_sq_add_cos_sq ((lon + d.off) * (π / 180))
  have hs : 0 < sin (1 / 10000 * (π / 180)) := sin_pos_of_pos_of_lt_pi (by positivity) (by nlinarith)
  have hn : (d.ned ⟨lon, lat, z⟩).1 = some (northOf (lon + d.off) lat) := by
    unfold Spheroid.ned Spheroid.nedRaw
    dsimp only
    rw [clamp_id lat (by linarith) (by linarith), min_eq_left h2, max_eq_left h1]
    rw [← normalize_scale (northOf (lon + d.off) lat) (10000 * d.a * sin (1 / 10000 * (π / 180)))
      (by positivity) (by unfold northOf Verif.Camera.sq dot; dsimp only; linear_combination (sin (lat * (π / 180)) ^ 2) * hls + hcs)]
    congr 1
    have hcv : ∀ l, curvature d l = d.a := by intro l; unfold curvature; rw [e2_sphere d hab]; simp
    rw [toCartesian_eq d _ _ 0 (by linarith) (by linarith), toCartesian_eq d _ _ 0 (by linarith) (by linarith), hcv, hcv, e2_sphere d hab,
      show (lat + 1 / 10000) * (π / 180) = lat * (π / 180) + 1 / 10000 * (π / 180) by ring,
      show (lat - 1 / 10000) * (π / 180) = lat * (π / 180) - 1 / 10000 * (π / 180) by ring,
      cos_add, cos_sub, sin_add, sin_sub, show lat + 1 / 10000 - (lat - 1 / 10000) = (1 / 5000 : ℝ) by ring]
    unfold northOf
    ext
    · simp only [smul_x, sub_x]; ring
    · simp only [smul_y, sub_y]; ring
    · simp only [smul_z, sub_z]; ring
  exact Prod.ext hn (Prod.ext he hd)

end Verif.Datum
