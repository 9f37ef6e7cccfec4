import Verif.Datum.RoundProps

/-
C114 and C115: the singular disc; radii and latitudes; axes; intersection with a ray.
-/

set_option linter.unusedSectionVars false

namespace Verif.Datum
open Verif.Camera Real

/-- **C114.** In the singular disc (near the plane of the equator and the centre) the coordinates are those of the point moved to
the plane of the equator. -/
theorem disc_round_trip (eps : ℝ) (d : Spheroid) (h : Ok d) (heps : 0 < eps) (P : V3 ℝ) (h0 : evolute d P ≤ 0) (hz : eps ≤ |P.z|)
    (hq : qOf d P < eps) (hp : pOf d P ≤ d.e2 * d.e2) :
    d.toCartesian (d.toGeodetic eps P) = ⟨P.x, P.y, 0⟩ := by
  have ha := h.apos
  have hpi := pi_pos
  have he0 := e2_nonneg d h
  have he1 := e2_lt d h
  have hp0 := pOf_nonneg d P
  have hq0 := qOf_nonneg d h P
  have hc : geodeticCase eps d.a d.e2 (pOf d P) (qOf d P) (norm Real.sqrt P) P.z =
      .direct (2 * atan2 (√(d.e2 * d.e2 - pOf d P)) (√(d.e2 * (d.e2 - pOf d P)) + √(1 - d.e2) * √(pOf d P)))
        (-d.a * √(1 - d.e2) * √(d.e2 - pOf d P) / √d.e2) := by
    unfold geodeticCase
    dsimp only
    rw [evolute_eq, if_neg (not_lt.2 h0), if_neg (not_lt.2 hz), if_neg (fun hh => by
      have := hh.2; rw [abs_of_nonneg hq0] at this; linarith), if_pos ⟨by rw [abs_of_nonneg hq0]; exact hq, hp⟩]
  have he : 0 < d.e2 := by
    rcases eq_or_lt_of_le he0 with hh | hh
    · exfalso
      have hq1 : 0 < qOf d P := by
        unfold qOf
        have : P.z ≠ 0 := by intro e; rw [e] at hz; simp at hz; linarith
        have : 0 < P.z * P.z := mul_self_pos.2 this
        rw [mul_assoc]
        exact div_pos (mul_pos (by linarith) this) (by positivity)
      have : 0 < (pOf d P + qOf d P) / 6 := by linarith
      unfold evolute at h0
      rw [← hh] at h0
      simp only [mul_zero, zero_mul, sub_zero, add_zero] at h0
      have : 0 < ((pOf d P + qOf d P) / 6) ^ 3 := by positivity
      linarith
    · exact hh
  have hpe : pOf d P < d.e2 := by nlinarith
  have hxy : √(P.x * P.x + P.y * P.y) = d.a * √(pOf d P) := by
    unfold pOf
    rw [sqrt_div (add_nonneg (mul_self_nonneg _) (mul_self_nonneg _)), sqrt_mul_self ha.le]
    field_simp
  obtain ⟨l1, l2, -, -, -⟩ := longitude_spec P.x P.y
  rw [toGeodetic_eq, hc]
  generalize longitude P.x P.y (√(P.x * P.x + P.y * P.y)) = L at *
  rw [hxy] at l1 l2
  generalize pOf d P = p at *
  unfold latHeight Spheroid.toCartesian
  dsimp only
  have s1 : √(1 - d.e2) * √(1 - d.e2) = 1 - d.e2 := mul_self_sqrt (by linarith)
  have s2 : √p * √p = p := mul_self_sqrt hp0
  have s3 : √(d.e2 * d.e2 - p) * √(d.e2 * d.e2 - p) = d.e2 * d.e2 - p := mul_self_sqrt (by linarith)
  have hρ : √(d.e2 * (d.e2 - p)) = √(√(1 - d.e2) * √p * (√(1 - d.e2) * √p) + √(d.e2 * d.e2 - p) * √(d.e2 * d.e2 - p)) := by
    congr 1
    rw [s3]
    linear_combination (-p) * s1 - √(1 - d.e2) * √(1 - d.e2) * s2
  have hρ0 : 0 < √(d.e2 * (d.e2 - p)) := sqrt_pos.2 (mul_pos he (by linarith))
  have hsp : √(d.e2 * (d.e2 - p)) = √d.e2 * √(d.e2 - p) := sqrt_mul he.le _
  have hD0 : 0 ≤ √(1 - d.e2) * √p := by positivity
  rw [hρ] at hρ0 hsp ⊢
  obtain ⟨a1, a2, a3, a4, a5, -⟩ := half_angle (√(1 - d.e2) * √p) (√(d.e2 * d.e2 - p)) (by linarith)
  have a5 := a5 (sqrt_nonneg _)
  generalize hρe : √(√(1 - d.e2) * √p * (√(1 - d.e2) * √p) + √(d.e2 * d.e2 - p) * √(d.e2 * d.e2 - p)) = ρ at *
  generalize 2 * atan2 (√(d.e2 * d.e2 - p)) (ρ + √(1 - d.e2) * √p) = t at *
  have hc0 : 0 ≤ cos t := by
    by_contra hh; push Not at hh; nlinarith
  obtain ⟨-, b2⟩ := cos_nonneg_range t a3 a4 hc0
  have r1 : -90 ≤ t * (180 / π) := by
    have : 0 ≤ t * (180 / π) := mul_nonneg a5 (by positivity)
    linarith
  have r2 : t * (180 / π) ≤ 90 := by rw [mul_div_assoc', div_le_iff₀ hpi]; linarith
  rw [clamp_id _ r1 r2, show t * (180 / π) * (π / 180) = t by field_simp, sub_add_cancel]
  have e1 : √d.e2 * √d.e2 = d.e2 := mul_self_sqrt he.le
  have e2 : √(d.e2 - p) * √(d.e2 - p) = d.e2 - p := mul_self_sqrt (by linarith)
  have p1 : 0 < √(1 - d.e2) := sqrt_pos.2 (by linarith)
  have p2 : 0 < √d.e2 := sqrt_pos.2 he
  have p3 : 0 < √(d.e2 - p) := sqrt_pos.2 (by linarith)
  have hW : √(1 - d.e2 * sin t * sin t) = √d.e2 * √(1 - d.e2) / √(d.e2 - p) := by
    have : 1 - d.e2 * sin t * sin t = (√d.e2 * √(1 - d.e2) / √(d.e2 - p)) ^ 2 := by
      have hρ2 : ρ * ρ = d.e2 * (d.e2 - p) := by rw [hsp]; linear_combination (√(d.e2 - p) * √(d.e2 - p)) * e1 + d.e2 * e2
      have hst : d.e2 * (sin t * sin t) * (d.e2 - p) = d.e2 * d.e2 - p := by
        rw [← s3, ← a2]; linear_combination -(sin t * sin t) * hρ2
      have : (1 - d.e2 * sin t * sin t) * (d.e2 - p) = d.e2 * (1 - d.e2) := by linear_combination -hst
      rw [div_pow, pow_two, pow_two, show √d.e2 * √(1 - d.e2) * (√d.e2 * √(1 - d.e2)) = d.e2 * (1 - d.e2) by
        linear_combination (√(1 - d.e2) * √(1 - d.e2)) * e1 + d.e2 * s1, e2, ← this]
      have : d.e2 - p ≠ 0 := by linarith
      field_simp
    rw [this, sqrt_sq (by positivity)]
  rw [hW]
  have hh : d.a / (√d.e2 * √(1 - d.e2) / √(d.e2 - p)) * (1 - d.e2) + -d.a * √(1 - d.e2) * √(d.e2 - p) / √d.e2 = 0 := by
    rw [show d.a / (√d.e2 * √(1 - d.e2) / √(d.e2 - p)) * (1 - d.e2) =
      d.a / (√d.e2 * √(1 - d.e2) / √(d.e2 - p)) * (√(1 - d.e2) * √(1 - d.e2)) by rw [s1]]
    field_simp; ring
  have hg : (d.a / (√d.e2 * √(1 - d.e2) / √(d.e2 - p)) + -d.a * √(1 - d.e2) * √(d.e2 - p) / √d.e2) * cos t = d.a * √p := by
    have hk : d.a / (√d.e2 * √(1 - d.e2) / √(d.e2 - p)) + -d.a * √(1 - d.e2) * √(d.e2 - p) / √d.e2 =
        d.a / (√d.e2 * √(1 - d.e2) / √(d.e2 - p)) * (√d.e2 * √d.e2) := by
      rw [e1]; linear_combination hh
    rw [hk]
    have a1' : cos t * (√d.e2 * √(d.e2 - p)) = √(1 - d.e2) * √p := by rw [← hsp]; exact a1
    field_simp
    linear_combination a1'
  rw [hg, hh, zero_mul, mul_comm (d.a * √p), l1, mul_comm (d.a * √p), l2]

/-! ### Radii and latitudes -/

theorem arctan_cos_sin (T : ℝ) : ∃ s, 0 < s ∧ s ^ 2 = 1 + T ^ 2 ∧ cos (arctan T) = 1 / s ∧ sin (arctan T) = T / s := by
  have : 0 < 1 + T ^ 2 := by positivity
  exact ⟨√(1 + T ^ 2), sqrt_pos.2 this, sq_sqrt this.le, cos_arctan T, sin_arctan T⟩

/-- **C115.** `radius` is the distance of the surface from the centre in the direction with that (geocentric) latitude. -/
theorem radius_spec (d : Spheroid) (h : Ok d) (lon lat : ℝ) (h1 : -90 < lat) (h2 : lat < 90) :
    0 < d.radius lat ∧ OnSurface d (d.radius lat * direction lon lat) := by
  have ha := h.apos
  have hb := h.pos
  have hd := deg_lt lat h1 h2
  have hc : 0 < cos (lat * (π / 180)) := cos_pos_of_mem_Ioo hd
  have hcs := sin_sq_add_cos_sq (lat * (π / 180))
  have hls := sin_sq_add_cos_sq (lon * (π / 180))
  have on : ∀ r : ℝ, r ^ 2 * (d.b ^ 2 * cos (lat * (π / 180)) ^ 2 + d.a ^ 2 * sin (lat * (π / 180)) ^ 2) = d.a ^ 2 * d.b ^ 2 →
      OnSurface d (r * direction lon lat) := by
    intro r hr
    unfold OnSurface direction
    simp only [smul_x, smul_y, smul_z]
    have := ha.ne'
    have := hb.ne'
    generalize sin (lat * (π / 180)) = s at *
    generalize cos (lat * (π / 180)) = c at *
    generalize sin (lon * (π / 180)) = sl at *
    generalize cos (lon * (π / 180)) = cl at *
    field_simp
    linear_combination hr + (d.b ^ 2 * r ^ 2 * c ^ 2) * hls
  unfold Spheroid.radius
  by_cases hab : d.a = d.b
  · rw [if_pos hab]
    refine ⟨ha, on d.a ?_⟩
    rw [← hab]; linear_combination (d.a ^ 4) * hcs
  · rw [if_neg hab]
    dsimp only
    rw [show lat * π / 180 = lat * (π / 180) by ring]
    obtain ⟨s, s0, hs, e1, e2⟩ := arctan_cos_sin (d.a / d.b * tan (lat * (π / 180)))
    rw [e1, e2]
    have hx : 0 < d.a * (1 / s) := by positivity
    have hpos : 0 < d.a * (1 / s) * (d.a * (1 / s)) + d.b * (d.a / d.b * tan (lat * (π / 180)) / s) *
        (d.b * (d.a / d.b * tan (lat * (π / 180)) / s)) := by
      have := mul_self_nonneg (d.b * (d.a / d.b * tan (lat * (π / 180)) / s))
      have := mul_pos hx hx
      linarith
    refine ⟨sqrt_pos.2 hpos, on _ ?_⟩
    rw [sq_sqrt hpos.le]
    rw [tan_eq_sin_div_cos] at hs ⊢
    generalize sin (lat * (π / 180)) = si at *
    generalize cos (lat * (π / 180)) = c at *
    have hb0 := hb.ne'
    have hs0 := s0.ne'
    have hc0 := hc.ne'
    have hs' : s ^ 2 * (d.b ^ 2 * c ^ 2) = d.b ^ 2 * c ^ 2 + d.a ^ 2 * si ^ 2 := by rw [hs]; field_simp
    rw [← hs']
    field_simp
    linear_combination hcs

/-- **C115 (refuted).** It is not the radius at the geodetic latitude, unless the spheroid is a sphere, or at the equator. -/
theorem radius_not_geodetic (d : Spheroid) (h : Ok d) (hab : d.b < d.a) (lon lat : ℝ) (h1 : 0 < lat) (h2 : lat < 90) :
    d.radius lat < norm Real.sqrt (d.toCartesian ⟨lon, lat, 0⟩) := by
  have ha := h.apos
  have hb := h.pos
  obtain ⟨r0, hr⟩ := radius_spec d h 0 lat (by linarith) h2
  obtain ⟨hs, -, -, -, -⟩ := toCartesian_spec d h lon lat
  have hd := deg_lt lat (by linarith) h2
  have hc : 0 < cos (lat * (π / 180)) := cos_pos_of_mem_Ioo hd
  have hsi : 0 < sin (lat * (π / 180)) := sin_pos_of_pos_of_lt_pi (by have := pi_pos; positivity) (by have := pi_pos; linarith [hd.2])
  have hcs := sin_sq_add_cos_sq (lat * (π / 180))
  have hls := sin_sq_add_cos_sq ((lon + d.off) * (π / 180))
  have hr2 : d.radius lat ^ 2 * (d.b ^ 2 * cos (lat * (π / 180)) ^ 2 + d.a ^ 2 * sin (lat * (π / 180)) ^ 2) = d.a ^ 2 * d.b ^ 2 := by
    unfold OnSurface direction at hr
    simp only [smul_x, smul_y, smul_z, zero_mul, cos_zero, sin_zero, mul_one, mul_zero] at hr
    have := ha.ne'
    have := hb.ne'
    generalize sin (lat * (π / 180)) = s at *
    generalize cos (lat * (π / 180)) = c at *
    field_simp at hr
    linear_combination hr
  have hw := w_pos d h (lat * (π / 180))
  have he := e2_eq d h
  have hn : Verif.Camera.sq (d.toCartesian ⟨lon, lat, 0⟩) * (d.a ^ 2 * cos (lat * (π / 180)) ^ 2 + d.b ^ 2 * sin (lat * (π / 180)) ^ 2) =
      d.a ^ 4 * cos (lat * (π / 180)) ^ 2 + d.b ^ 4 * sin (lat * (π / 180)) ^ 2 := by
    have hN : (d.a / √(1 - d.e2 * sin (lat * (π / 180)) * sin (lat * (π / 180)))) ^ 2 *
        (1 - d.e2 * sin (lat * (π / 180)) * sin (lat * (π / 180))) = d.a ^ 2 := by
      rw [div_pow, sq_sqrt hw.le, div_mul_cancel₀ _ hw.ne']
    unfold Verif.Camera.sq dot Spheroid.toCartesian
    dsimp only
    rw [clamp_id lat (by linarith) (by linarith)]
    generalize d.a / √(1 - d.e2 * sin (lat * (π / 180)) * sin (lat * (π / 180))) = N at *
    rw [he]
    rw [show d.e2 = 1 - d.b ^ 2 / d.a ^ 2 by linarith] at hN
    generalize sin (lat * (π / 180)) = s at *
    generalize cos (lat * (π / 180)) = c at *
    generalize sin ((lon + d.off) * (π / 180)) = sl at *
    generalize cos ((lon + d.off) * (π / 180)) = cl at *
    have ha0 := ha.ne'
    have hN' : N ^ 2 * (d.a ^ 2 * c ^ 2 + d.b ^ 2 * s ^ 2) = d.a ^ 4 := by
      field_simp at hN
      linear_combination hN + (N ^ 2 * d.a ^ 2) * hcs
    have hx : (N + 0) * c * cl * ((N + 0) * c * cl) + (N + 0) * c * sl * ((N + 0) * c * sl) +
        (N * (d.b ^ 2 / d.a ^ 2) + 0) * s * ((N * (d.b ^ 2 / d.a ^ 2) + 0) * s) =
        N ^ 2 * (c ^ 2 + (d.b ^ 2 / d.a ^ 2) ^ 2 * s ^ 2) := by linear_combination (N ^ 2 * c ^ 2) * hls
    rw [hx]
    field_simp
    linear_combination hN'
  rw [show norm Real.sqrt (d.toCartesian ⟨lon, lat, 0⟩) = √(Verif.Camera.sq (d.toCartesian ⟨lon, lat, 0⟩)) from rfl]
  apply lt_sqrt_of_sq_lt
  generalize Verif.Camera.sq (d.toCartesian ⟨lon, lat, 0⟩) = n at *
  generalize d.radius lat = r at *
  generalize sin (lat * (π / 180)) = s at *
  generalize cos (lat * (π / 180)) = c at *
  have q1 : 0 < d.b ^ 2 * c ^ 2 + d.a ^ 2 * s ^ 2 := by positivity
  have q2 : 0 < d.a ^ 2 * c ^ 2 + d.b ^ 2 * s ^ 2 := by positivity
  have hlt : d.a ^ 2 * d.b ^ 2 * (d.a ^ 2 * c ^ 2 + d.b ^ 2 * s ^ 2) <
      (d.a ^ 4 * c ^ 2 + d.b ^ 4 * s ^ 2) * (d.b ^ 2 * c ^ 2 + d.a ^ 2 * s ^ 2) := by
    have hd2 : 0 < (d.a ^ 2 - d.b ^ 2) ^ 2 := by
      have : 0 < d.a ^ 2 - d.b ^ 2 := by nlinarith
      positivity
    have : 0 < c ^ 2 * s ^ 2 * ((d.a ^ 2 - d.b ^ 2) ^ 2 * (d.a ^ 2 + d.b ^ 2)) := by positivity
    have e : (d.a ^ 4 * c ^ 2 + d.b ^ 4 * s ^ 2) * (d.b ^ 2 * c ^ 2 + d.a ^ 2 * s ^ 2) -
        d.a ^ 2 * d.b ^ 2 * (d.a ^ 2 * c ^ 2 + d.b ^ 2 * s ^ 2) =
        c ^ 2 * s ^ 2 * ((d.a ^ 2 - d.b ^ 2) ^ 2 * (d.a ^ 2 + d.b ^ 2)) := by
      linear_combination (d.a ^ 2 * d.b ^ 2 * (d.a ^ 2 * c ^ 2 + d.b ^ 2 * s ^ 2)) * hcs
    linarith
  have e1 : r ^ 2 * ((d.b ^ 2 * c ^ 2 + d.a ^ 2 * s ^ 2) * (d.a ^ 2 * c ^ 2 + d.b ^ 2 * s ^ 2)) <
      n * ((d.b ^ 2 * c ^ 2 + d.a ^ 2 * s ^ 2) * (d.a ^ 2 * c ^ 2 + d.b ^ 2 * s ^ 2)) := by
    calc _ = d.a ^ 2 * d.b ^ 2 * (d.a ^ 2 * c ^ 2 + d.b ^ 2 * s ^ 2) := by rw [← hr2]; ring
      _ < _ := hlt
      _ = _ := by rw [← hn]; ring
  exact lt_of_mul_lt_mul_right e1 (by positivity)

end Verif.Datum
