import Verif.Datum.InverseProps

/-
C114, continued: the round trips.
-/

set_option linter.unusedSectionVars false

namespace Verif.Datum
open Verif.Camera Real

/-! ### Specification -/

/-- The point is outside a small spheroid around the centre (for the Earth: further than 43 km from the centre suffices). -/
def Far (d : Spheroid) (P : V3 ℝ) : Prop := (d.a ^ 2 - d.b ^ 2) ^ 2 < d.a ^ 2 * (P.x ^ 2 + P.y ^ 2) + d.b ^ 2 * P.z ^ 2

/-- Positive outside the evolute of the spheroid, negative inside. -/
noncomputable def evolute (d : Spheroid) (P : V3 ℝ) : ℝ :=
  8 * ((pOf d P + qOf d P - d.e2 * d.e2) / 6) ^ 3 + d.e2 * d.e2 * pOf d P * qOf d P

/-- The radius of curvature across the meridian. -/
noncomputable def curvature (d : Spheroid) (lat : ℝ) : ℝ := d.a / √(1 - d.e2 * sin (lat * (π / 180)) * sin (lat * (π / 180)))

/-! ### Cartesian to geodetic to cartesian -/

theorem toGeodetic_eq (eps : ℝ) (d : Spheroid) (P : V3 ℝ) : d.toGeodetic eps P =
    ⟨longitude P.x P.y (√(P.x * P.x + P.y * P.y)) - d.off,
      (latHeight (geodeticCase eps d.a d.e2 (pOf d P) (qOf d P) (norm Real.sqrt P) P.z) d.e2 (qOf d P)
        (√(P.x * P.x + P.y * P.y)) P.z).1 * (180 / π),
      (latHeight (geodeticCase eps d.a d.e2 (pOf d P) (qOf d P) (norm Real.sqrt P) P.z) d.e2 (qOf d P)
        (√(P.x * P.x + P.y * P.y)) P.z).2⟩ := rfl

theorem m_nonneg (d : Spheroid) (h : Ok d) (P : V3 ℝ) : 0 ≤ d.e2 * d.e2 * pOf d P * qOf d P :=
  mul_nonneg (mul_nonneg (mul_self_nonneg _) (pOf_nonneg d P)) (qOf_nonneg d h P)

theorem evolute_eq (d : Spheroid) (P : V3 ℝ) : 8 * ((pOf d P + qOf d P - d.e2 * d.e2) / 6 * ((pOf d P + qOf d P - d.e2 * d.e2) / 6) *
    ((pOf d P + qOf d P - d.e2 * d.e2) / 6)) + d.e2 * d.e2 * pOf d P * qOf d P = evolute d P := by
  unfold evolute; ring

/-- Where the code uses `u`, and `u` solves the cubic. -/
theorem case_u (eps : ℝ) (d : Spheroid) (h : Ok d) (P : V3 ℝ) (heps : 0 < eps)
    (hc : (0 < evolute d P ∧ d.e2 * d.e2 ≤ pOf d P + qOf d P) ∨
      (evolute d P ≤ 0 ∧ pOf d P + qOf d P < d.e2 * d.e2 ∧ eps ≤ |P.z| ∧ eps < qOf d P)) :
    ∃ u, geodeticCase eps d.a d.e2 (pOf d P) (qOf d P) (norm Real.sqrt P) P.z = .u u ∧
      Root d.e2 (pOf d P) (qOf d P) (kOf d.e2 (qOf d P) u) := by
  have hm := m_nonneg d h P
  have hq := qOf_nonneg d h P
  have hp := pOf_nonneg d P
  have hev := evolute_eq d P
  unfold geodeticCase
  dsimp only
  rw [hev]
  generalize pOf d P = p at *
  generalize qOf d P = q at *
  generalize evolute d P = ev at *
  rcases hc with ⟨h1, h2⟩ | ⟨h1, h2, h3, h4⟩
  · rw [if_pos h1]
    obtain ⟨u, e, u0, hu⟩ := caseOutside_spec (d.e2 * d.e2) p q ((p + q - d.e2 * d.e2) / 6) ev hm (by linarith) hev.symm h1
    refine ⟨u, e, kOf_root d.e2 p q u hq (by linear_combination hu) ?_⟩
    linarith [sqrt_nonneg (u * u + d.e2 * d.e2 * q)]
  · have he : 0 < d.e2 * d.e2 := by linarith
    rw [if_neg (not_lt.2 h1), if_neg (not_lt.2 h3)]
    have huv : ∀ u : ℝ, 0 < u + √(u * u + d.e2 * d.e2 * q) := by
      intro u
      have : |u| < √(u * u + d.e2 * d.e2 * q) := by
        rw [← sqrt_sq_eq_abs]
        apply sqrt_lt_sqrt (sq_nonneg _)
        have : 0 < d.e2 * d.e2 * q := mul_pos he (by linarith)
        nlinarith
      linarith [neg_abs_le u]
    rcases eq_or_lt_of_le h1 with h0 | h0
    · rw [if_neg (fun hh => absurd hh.1 (by rw [h0]; exact lt_irrefl _)), if_neg (fun hh => by
        have := hh.1; rw [abs_of_nonneg hq] at this; linarith)]
      obtain ⟨e, hu⟩ := caseCusp_spec (d.e2 * d.e2) p q ((p + q - d.e2 * d.e2) / 6) ev (by linarith) hev.symm h0
      exact ⟨_, e, kOf_root d.e2 p q _ hq (by linear_combination hu) (huv _)⟩
    · rw [if_pos ⟨h0, by rw [abs_of_nonneg hq]; exact h4⟩]
      have hu := inside_cubic (d.e2 * d.e2 * p * q) ((p + q - d.e2 * d.e2) / 6) ev hm hev.symm h0
      exact ⟨_, rfl, kOf_root d.e2 p q _ hq (by linear_combination hu) (huv _)⟩

theorem round_of_case (eps : ℝ) (d : Spheroid) (h : Ok d) (P : V3 ℝ)
    (hc : ∃ u, geodeticCase eps d.a d.e2 (pOf d P) (qOf d P) (norm Real.sqrt P) P.z = .u u ∧
      Root d.e2 (pOf d P) (qOf d P) (kOf d.e2 (qOf d P) u)) :
    d.toCartesian (d.toGeodetic eps P) = P ∧ -90 ≤ (d.toGeodetic eps P).y ∧ (d.toGeodetic eps P).y ≤ 90 ∧
    -180 < (d.toGeodetic eps P).x + d.off ∧ (d.toGeodetic eps P).x + d.off ≤ 180 := by
  obtain ⟨u, hu, hr⟩ := hc
  rw [toGeodetic_eq, hu]
  obtain ⟨h1, h2, h3⟩ := root_round_trip d h P _ hr
  obtain ⟨-, -, l1, l2, -⟩ := longitude_spec P.x P.y
  refine ⟨h1, h2, h3, ?_, ?_⟩
  · dsimp only; linarith
  · dsimp only; linarith

theorem far_iff (d : Spheroid) (h : Ok d) (P : V3 ℝ) : Far d P ↔ d.e2 * d.e2 < pOf d P + qOf d P := by
  have ha := h.apos
  have : (pOf d P + qOf d P - d.e2 * d.e2) * d.a ^ 4 = d.a ^ 2 * (P.x ^ 2 + P.y ^ 2) + d.b ^ 2 * P.z ^ 2 - (d.a ^ 2 - d.b ^ 2) ^ 2 := by
    unfold pOf qOf
    rw [e2_eq d h]
    unfold Spheroid.e2
    field_simp
  unfold Far
  constructor
  · intro hf
    by_contra hh
    push Not at hh
    have : (pOf d P + qOf d P - d.e2 * d.e2) * d.a ^ 4 ≤ 0 := mul_nonpos_of_nonpos_of_nonneg (by linarith) (by positivity)
    linarith
  · intro hf
    have : 0 < (pOf d P + qOf d P - d.e2 * d.e2) * d.a ^ 4 := mul_pos (by linarith) (by positivity)
    linarith

theorem far_evolute (d : Spheroid) (h : Ok d) (P : V3 ℝ) (hf : Far d P) : 0 < evolute d P := by
  have := (far_iff d h P).1 hf
  have hm := m_nonneg d h P
  unfold evolute
  have : 0 < ((pOf d P + qOf d P - d.e2 * d.e2) / 6) ^ 3 := by
    have : 0 < (pOf d P + qOf d P - d.e2 * d.e2) / 6 := by linarith
    positivity
  linarith

/-- **C114.** Away from the centre, the geodetic coordinates of a point give the point back, for every spheroid; the latitude is
at most 90 degrees in size, and the longitude at most 180. -/
theorem cartesian_round_trip (eps : ℝ) (d : Spheroid) (h : Ok d) (heps : 0 < eps) (P : V3 ℝ) (hf : Far d P) :
    d.toCartesian (d.toGeodetic eps P) = P ∧ -90 ≤ (d.toGeodetic eps P).y ∧ (d.toGeodetic eps P).y ≤ 90 ∧
    -180 < (d.toGeodetic eps P).x + d.off ∧ (d.toGeodetic eps P).x + d.off ≤ 180 :=
  round_of_case eps d h P (case_u eps d h P heps (Or.inl ⟨far_evolute d h P hf, ((far_iff d h P).1 hf).le⟩))

/-- **C114.** So it is near the centre, on and inside the evolute, away from the plane of the equator. -/
theorem inner_round_trip (eps : ℝ) (d : Spheroid) (h : Ok d) (heps : 0 < eps) (P : V3 ℝ) (h0 : evolute d P ≤ 0)
    (hr : pOf d P + qOf d P < d.e2 * d.e2) (hz : eps ≤ |P.z|) (hq : eps < qOf d P) :
    d.toCartesian (d.toGeodetic eps P) = P ∧ -90 ≤ (d.toGeodetic eps P).y ∧ (d.toGeodetic eps P).y ≤ 90 ∧
    -180 < (d.toGeodetic eps P).x + d.off ∧ (d.toGeodetic eps P).x + d.off ≤ 180 :=
  round_of_case eps d h P (case_u eps d h P heps (Or.inr ⟨h0, hr, hz, hq⟩))

/-- The point at latitude zero. -/
theorem equator_point (d : Spheroid) (h : Ok d) (lon z : ℝ) : d.toCartesian ⟨lon - d.off, 0 * (180 / π), z⟩ =
    ⟨(d.a + z) * cos (lon * (π / 180)), (d.a + z) * sin (lon * (π / 180)), 0⟩ := by
  have := h.apos
  unfold Spheroid.toCartesian
  dsimp only
  rw [zero_mul, clamp_id 0 (by norm_num) (by norm_num), zero_mul, sin_zero, cos_zero, sub_add_cancel]
  simp

/-- **C114.** In the plane of the equator inside the evolute the coordinates give the point
back. -/
theorem equator_round_trip (eps : ℝ) (d : Spheroid) (h : Ok d) (P : V3 ℝ) (h0 : evolute d P ≤ 0) (hz : |P.z| < eps)
    (hz0 : P.z = 0) : d.toCartesian (d.toGeodetic eps P) = P := by
  have hc : geodeticCase eps d.a d.e2 (pOf d P) (qOf d P) (norm Real.sqrt P) P.z = .direct 0 (norm Real.sqrt P - d.a) := by
    unfold geodeticCase
    dsimp only
    rw [evolute_eq, if_neg (not_lt.2 h0), if_pos hz]
  rw [toGeodetic_eq, hc]
  have hn : norm Real.sqrt P = √(P.x * P.x + P.y * P.y) := by
    unfold Verif.Camera.norm Verif.Camera.sq dot; rw [hz0]; simp
  obtain ⟨l1, l2, -, -, -⟩ := longitude_spec P.x P.y
  show d.toCartesian ⟨_ - d.off, 0 * (180 / π), norm Real.sqrt P - d.a⟩ = P
  rw [equator_point d h, add_sub_cancel, hn, mul_comm, l1, mul_comm, l2, ← hz0]

/-- **C114 (refuted).** Outside the evolute but near the centre the code takes a power of a negative number: it gives latitude
and height zero. -/
theorem near_centre (eps : ℝ) (d : Spheroid) (h : Ok d) (P : V3 ℝ) (h0 : 0 < evolute d P)
    (hr : pOf d P + qOf d P < d.e2 * d.e2) : (d.toGeodetic eps P).y = 0 ∧ (d.toGeodetic eps P).z = 0 := by
  have hm := m_nonneg d h P
  have hc : geodeticCase eps d.a d.e2 (pOf d P) (qOf d P) (norm Real.sqrt P) P.z = .nothing := by
    unfold geodeticCase
    dsimp only
    rw [evolute_eq, if_pos h0]
    unfold caseOutside
    have hlt : √(evolute d P) < √(d.e2 * d.e2 * pOf d P * qOf d P) := by
      apply sqrt_lt_sqrt h0.le
      unfold evolute
      have : ((pOf d P + qOf d P - d.e2 * d.e2) / 6) ^ 3 < 0 := Odd.pow_neg (by decide) (by linarith)
      linarith
    have c2 : cpow (√(evolute d P) - √(d.e2 * d.e2 * pOf d P * qOf d P)) (2 / 3) = none := by
      unfold cpow
      rw [if_neg]
      rintro (hh | ⟨hh, -⟩) <;> linarith
    rw [c2]
    cases cpow (√(evolute d P) + √(d.e2 * d.e2 * pOf d P * qOf d P)) (2 / 3) <;> rfl
  rw [toGeodetic_eq, hc]
  exact ⟨zero_mul _, rfl⟩

/-- **C114 (refuted).** Every spheroid that is not a sphere has such points: the coordinates found for them do not give them
back. -/
theorem centre_wrong (eps : ℝ) (d : Spheroid) (h : Ok d) (hab : d.b < d.a) :
    ∃ P, (d.toGeodetic eps P).y = 0 ∧ (d.toGeodetic eps P).z = 0 ∧ d.toCartesian (d.toGeodetic eps P) ≠ P := by
  have ha := h.apos
  have he1 := e2_lt d h
  have he : 0 < d.e2 := by
    unfold Spheroid.e2
    apply div_pos
    · nlinarith [h.pos]
    · positivity
  have hs : 0 < √(1 - d.e2) := sqrt_pos.2 (by linarith)
  have hs2 : √(1 - d.e2) ^ 2 = 1 - d.e2 := sq_sqrt (by linarith)
  have hp : pOf d ⟨d.a * d.e2 / 2, 0, d.a * d.e2 / (2 * √(1 - d.e2))⟩ = d.e2 ^ 2 / 4 := by
    unfold pOf; dsimp only; field_simp; ring
  have hq : qOf d ⟨d.a * d.e2 / 2, 0, d.a * d.e2 / (2 * √(1 - d.e2))⟩ = d.e2 ^ 2 / 4 := by
    unfold qOf; dsimp only
    have hz2 : d.a * d.e2 / (2 * √(1 - d.e2)) * (d.a * d.e2 / (2 * √(1 - d.e2))) = d.a ^ 2 * d.e2 ^ 2 / (4 * (1 - d.e2)) := by
      rw [div_mul_div_comm, show 2 * √(1 - d.e2) * (2 * √(1 - d.e2)) = 4 * √(1 - d.e2) ^ 2 by ring, hs2]; ring
    have h10 : 1 - d.e2 ≠ 0 := by linarith
    rw [mul_assoc, hz2]
    field_simp
  obtain ⟨h1, h2⟩ := near_centre eps d h ⟨d.a * d.e2 / 2, 0, d.a * d.e2 / (2 * √(1 - d.e2))⟩
    (by
      unfold evolute
      rw [hp, hq]
      have : 8 * ((d.e2 ^ 2 / 4 + d.e2 ^ 2 / 4 - d.e2 * d.e2) / 6) ^ 3 + d.e2 * d.e2 * (d.e2 ^ 2 / 4) * (d.e2 ^ 2 / 4) =
          (1 / 16 - 1 / 216) * d.e2 ^ 6 := by ring
      rw [this]; positivity)
    (by rw [hp, hq]; nlinarith)
  refine ⟨_, h1, h2, ?_⟩
  intro hh
  have hz := congrArg V3.z hh
  unfold Spheroid.toCartesian at hz
  dsimp only at hz
  rw [h1, h2, clamp_id 0 (by norm_num) (by norm_num), zero_mul, sin_zero, mul_zero] at hz
  have : 0 < d.a * d.e2 / (2 * √(1 - d.e2)) := by positivity
  linarith

/-! ### Geodetic to cartesian to geodetic -/

theorem deg_le (x : ℝ) (h1 : -90 ≤ x) (h2 : x ≤ 90) : -(π / 2) ≤ x * (π / 180) ∧ x * (π / 180) ≤ π / 2 := by
  have hpi := pi_pos
  constructor <;> nlinarith

theorem deg_lt (x : ℝ) (h1 : -90 < x) (h2 : x < 90) : -(π / 2) < x * (π / 180) ∧ x * (π / 180) < π / 2 := by
  have hpi := pi_pos
  constructor <;> nlinarith

theorem lat_unique (e2 N R z z' f t : ℝ) (hN : 0 < N) (hR0 : 0 < R) (he0 : 0 ≤ e2) (k0 : 0 < z / N + 1 - e2)
    (hk : z / N + 1 - e2 = z' / R + 1 - e2) (r3 : (R + z') * cos t = (N + z) * cos f)
    (r4 : (R * (1 - e2) + z') * sin t = (N * (1 - e2) + z) * sin f) (r1 : -(π / 2) ≤ t) (r2 : t ≤ π / 2)
    (f1 : -(π / 2) ≤ f) (f2 : f ≤ π / 2) : t = f ∧ z' = z := by
  have hpi := pi_pos
  have hlats := sin_sq_add_cos_sq t
  have hcs := sin_sq_add_cos_sq f
  have hN0 := hN.ne'
  have hz' : z = N * (z / N + 1 - e2) - N * (1 - e2) := by field_simp; ring
  have hl2 : z' = R * (z / N + 1 - e2 - 1 + e2) := by rw [hk]; field_simp; ring
  generalize z / N + 1 - e2 = k at *
  have c1 : R * cos t = N * cos f := by
    have : (k + e2) * (R * cos t) = (k + e2) * (N * cos f) := by
      rw [hl2] at r3; rw [hz'] at r3; linear_combination r3
    exact mul_left_cancel₀ (add_pos_of_pos_of_nonneg k0 he0).ne' this
  have s1 : R * sin t = N * sin f := by
    have : k * (R * sin t) = k * (N * sin f) := by
      rw [hl2] at r4; rw [hz'] at r4; linear_combination r4
    exact mul_left_cancel₀ k0.ne' this
  have hRN : R = N := by
    have : R ^ 2 = N ^ 2 := by
      have e1 : (R * cos t) ^ 2 + (R * sin t) ^ 2 = R ^ 2 := by linear_combination (R ^ 2) * hlats
      have e2 : (N * cos f) ^ 2 + (N * sin f) ^ 2 = N ^ 2 := by linear_combination (N ^ 2) * hcs
      rw [← e1, ← e2, c1, s1]
    exact (pow_left_inj₀ hR0.le hN.le (by norm_num)).1 this
  rw [hRN] at c1 s1 hl2
  exact ⟨angle_unique _ _ (by linarith) (by linarith) (by linarith) (by linarith) (mul_left_cancel₀ hN0 c1) (mul_left_cancel₀ hN0 s1),
    by rw [hl2]; linear_combination -hz'⟩

theorem lon_unique (L M r : ℝ) (hr : r ≠ 0) (l3 : -180 < L) (l4 : L ≤ 180) (h3 : -180 < M) (h4 : M ≤ 180)
    (l1 : cos (L * (π / 180)) * r = r * cos (M * (π / 180))) (l2 : sin (L * (π / 180)) * r = r * sin (M * (π / 180))) : L = M := by
  have hpi := pi_pos
  have : L * (π / 180) = M * (π / 180) := by
    refine angle_unique _ _ (by nlinarith) (by nlinarith) (by nlinarith) (by nlinarith) ?_ ?_
    · rw [mul_comm] at l1; exact mul_left_cancel₀ hr l1
    · rw [mul_comm] at l2; exact mul_left_cancel₀ hr l2
  exact mul_right_cancel₀ (by positivity) this

/-- **C114.** Coordinates with a latitude up to 90 degrees and a longitude in the range are found again from the point (at the
poles the longitude is not), if the point is away from the centre and not below the centre of curvature of the meridian. -/
theorem geodetic_round_trip (eps : ℝ) (d : Spheroid) (h : Ok d) (heps : 0 < eps) (lon lat z : ℝ) (h1 : -90 ≤ lat) (h2 : lat ≤ 90)
    (h3 : -180 < lon + d.off) (h4 : lon + d.off ≤ 180) (hz : -(1 - d.e2) * curvature d lat < z)
    (hf : Far d (d.toCartesian ⟨lon, lat, z⟩)) :
    (d.toGeodetic eps (d.toCartesian ⟨lon, lat, z⟩)).y = lat ∧ (d.toGeodetic eps (d.toCartesian ⟨lon, lat, z⟩)).z = z ∧
    (|lat| < 90 → d.toGeodetic eps (d.toCartesian ⟨lon, lat, z⟩) = ⟨lon, lat, z⟩) := by
  have ha := h.apos
  have hpi := pi_pos
  have he0 := e2_nonneg d h
  have he1 := e2_lt d h
  obtain ⟨u, hu, hr⟩ := case_u eps d h (d.toCartesian ⟨lon, lat, z⟩) heps
    (Or.inl ⟨far_evolute d h _ hf, ((far_iff d h _).1 hf).le⟩)
  -- the height and latitude give a root
  have hw := w_pos d h (lat * (π / 180))
  have hN : 0 < curvature d lat := div_pos ha (sqrt_pos.2 hw)
  have hN2 : (curvature d lat) ^ 2 * (1 - d.e2 * sin (lat * (π / 180)) ^ 2) = d.a ^ 2 := by
    unfold curvature
    rw [div_pow, sq_sqrt hw.le]
    have : 1 - d.e2 * sin (lat * (π / 180)) ^ 2 ≠ 0 := by rw [pow_two, ← mul_assoc]; exact hw.ne'
    rw [mul_assoc d.e2, ← pow_two, div_mul_cancel₀ _ this]
  have hP : d.toCartesian ⟨lon, lat, z⟩ = ⟨(curvature d lat + z) * cos (lat * (π / 180)) * cos ((lon + d.off) * (π / 180)),
      (curvature d lat + z) * cos (lat * (π / 180)) * sin ((lon + d.off) * (π / 180)),
      (curvature d lat * (1 - d.e2) + z) * sin (lat * (π / 180))⟩ := by
    unfold Spheroid.toCartesian curvature
    dsimp only
    rw [clamp_id lat h1 h2]
  have hc0 : 0 ≤ cos (lat * (π / 180)) := by
    exact cos_nonneg_of_mem_Icc (deg_le lat h1 h2)
  have hcs := sin_sq_add_cos_sq (lat * (π / 180))
  have hls := sin_sq_add_cos_sq ((lon + d.off) * (π / 180))
  have hNz : 0 < curvature d lat + z := by nlinarith
  have hxy : √((d.toCartesian ⟨lon, lat, z⟩).x * (d.toCartesian ⟨lon, lat, z⟩).x +
      (d.toCartesian ⟨lon, lat, z⟩).y * (d.toCartesian ⟨lon, lat, z⟩).y) = (curvature d lat + z) * cos (lat * (π / 180)) := by
    rw [hP]
    dsimp only
    have : (curvature d lat + z) * cos (lat * (π / 180)) * cos ((lon + d.off) * (π / 180)) *
        ((curvature d lat + z) * cos (lat * (π / 180)) * cos ((lon + d.off) * (π / 180))) +
        (curvature d lat + z) * cos (lat * (π / 180)) * sin ((lon + d.off) * (π / 180)) *
        ((curvature d lat + z) * cos (lat * (π / 180)) * sin ((lon + d.off) * (π / 180))) =
        ((curvature d lat + z) * cos (lat * (π / 180))) ^ 2 := by
      linear_combination (((curvature d lat + z) * cos (lat * (π / 180))) ^ 2) * hls
    rw [this, sqrt_sq (mul_nonneg hNz.le hc0)]
  have hroot : Root d.e2 (pOf d (d.toCartesian ⟨lon, lat, z⟩)) (qOf d (d.toCartesian ⟨lon, lat, z⟩))
      (z / curvature d lat + 1 - d.e2) := by
    constructor
    · have : -(1 - d.e2) < z / curvature d lat := by rw [lt_div_iff₀ hN]; exact hz
      linarith
    · unfold pOf qOf
      rw [← mul_self_sqrt (add_nonneg (mul_self_nonneg _) (mul_self_nonneg _) :
        0 ≤ (d.toCartesian ⟨lon, lat, z⟩).x * (d.toCartesian ⟨lon, lat, z⟩).x +
        (d.toCartesian ⟨lon, lat, z⟩).y * (d.toCartesian ⟨lon, lat, z⟩).y), hxy, hP]
      dsimp only
      generalize curvature d lat = N at *
      generalize sin (lat * (π / 180)) = s at *
      generalize cos (lat * (π / 180)) = c at *
      have k1 : N * (1 - d.e2) + z = N * (z / N + 1 - d.e2) := by field_simp; ring
      have k2 : N + z = N * (z / N + 1 - d.e2 + d.e2) := by field_simp; ring
      rw [k1, k2]
      generalize z / N + 1 - d.e2 = k at *
      have ha0 := ha.ne'
      field_simp
      linear_combination (k ^ 2 * (k + d.e2) ^ 2) * (N ^ 2 * hcs + hN2)
  have hku := root_unique d.e2 _ _ _ _ he0 (pOf_nonneg _ _) (qOf_nonneg d h _) hr hroot
  obtain ⟨R, hR0, hR, r1, r2, r3, r4, r5⟩ := latH_spec d h _ _ hr
  have e : d.toGeodetic eps (d.toCartesian ⟨lon, lat, z⟩) = ⟨longitude (d.toCartesian ⟨lon, lat, z⟩).x (d.toCartesian ⟨lon, lat, z⟩).y
      (√((d.toCartesian ⟨lon, lat, z⟩).x * (d.toCartesian ⟨lon, lat, z⟩).x +
      (d.toCartesian ⟨lon, lat, z⟩).y * (d.toCartesian ⟨lon, lat, z⟩).y)) - d.off,
      (latH d.e2 (√((d.toCartesian ⟨lon, lat, z⟩).x * (d.toCartesian ⟨lon, lat, z⟩).x +
      (d.toCartesian ⟨lon, lat, z⟩).y * (d.toCartesian ⟨lon, lat, z⟩).y)) (d.toCartesian ⟨lon, lat, z⟩).z
      (kOf d.e2 (qOf d (d.toCartesian ⟨lon, lat, z⟩)) u)).1 * (180 / π),
      (latH d.e2 (√((d.toCartesian ⟨lon, lat, z⟩).x * (d.toCartesian ⟨lon, lat, z⟩).x +
      (d.toCartesian ⟨lon, lat, z⟩).y * (d.toCartesian ⟨lon, lat, z⟩).y)) (d.toCartesian ⟨lon, lat, z⟩).z
      (kOf d.e2 (qOf d (d.toCartesian ⟨lon, lat, z⟩)) u)).2⟩ := by
    rw [toGeodetic_eq, hu]; rfl
  rw [e]
  replace r5 := hku.symm.trans r5
  have k0 : 0 < z / curvature d lat + 1 - d.e2 := hroot.1
  have l := longitude_spec (d.toCartesian ⟨lon, lat, z⟩).x (d.toCartesian ⟨lon, lat, z⟩).y
  generalize latH d.e2 (√((d.toCartesian ⟨lon, lat, z⟩).x * (d.toCartesian ⟨lon, lat, z⟩).x +
      (d.toCartesian ⟨lon, lat, z⟩).y * (d.toCartesian ⟨lon, lat, z⟩).y)) (d.toCartesian ⟨lon, lat, z⟩).z
      (kOf d.e2 (qOf d (d.toCartesian ⟨lon, lat, z⟩)) u) = lh at *
  rw [hxy] at r3 l
  rw [hxy]
  have hPz : (d.toCartesian ⟨lon, lat, z⟩).z = (curvature d lat * (1 - d.e2) + z) * sin (lat * (π / 180)) := by rw [hP]
  have hPx : (d.toCartesian ⟨lon, lat, z⟩).x = _ := congrArg V3.x hP
  have hPy : (d.toCartesian ⟨lon, lat, z⟩).y = _ := congrArg V3.y hP
  dsimp only at hPx hPy
  rw [hPz] at r4
  clear hR e hPz
  have hlat : lh.1 = lat * (π / 180) ∧ lh.2 = z :=
    lat_unique d.e2 (curvature d lat) R z lh.2 (lat * (π / 180)) lh.1 hN hR0 he0 k0 r5 r3 r4 r1 r2
      (deg_le lat h1 h2).1 (deg_le lat h1 h2).2
  have hy : lh.1 * (180 / π) = lat := by rw [hlat.1]; field_simp
  refine ⟨hy, hlat.2, fun hlt => ?_⟩
  rw [abs_lt] at hlt
  have hcp : 0 < cos (lat * (π / 180)) := by
    apply cos_pos_of_mem_Ioo
    exact deg_lt lat hlt.1 hlt.2
  have hxp : (curvature d lat + z) * cos (lat * (π / 180)) ≠ 0 := (mul_pos hNz hcp).ne'
  rw [hPx, hPy] at l
  have hl : longitude (d.toCartesian ⟨lon, lat, z⟩).x (d.toCartesian ⟨lon, lat, z⟩).y
      ((curvature d lat + z) * cos (lat * (π / 180))) = lon + d.off := by
    rw [hPx, hPy]
    exact lon_unique _ _ _ hxp l.2.2.1 l.2.2.2.1 h3 h4 l.1 l.2.1
  rw [hl, hy, hlat.2, add_sub_cancel_right]

/-- **C114.** The conditions of the round trips hold on and above the surface of a spheroid that is not very flat. -/
theorem above_surface (d : Spheroid) (h : Ok d) (hflat : d.a ^ 2 < 2 * d.b ^ 2) (lon lat z : ℝ) (hz : 0 ≤ z) :
    -(1 - d.e2) * curvature d lat < z ∧ Far d (d.toCartesian ⟨lon, lat, z⟩) := by
  have ha := h.apos
  have hb := h.pos
  have he0 := e2_nonneg d h
  have he1 := e2_lt d h
  constructor
  · have : 0 < curvature d lat := div_pos ha (sqrt_pos.2 (w_pos d h _))
    nlinarith
  · rw [far_iff d h]
    have he : d.e2 < 1 / 2 := by
      unfold Spheroid.e2
      rw [div_lt_iff₀ (by positivity)]; nlinarith
    have hw := w_pos d h (clampLat lat * (π / 180))
    have hN : 0 < d.a / √(1 - d.e2 * sin (clampLat lat * (π / 180)) * sin (clampLat lat * (π / 180))) := div_pos ha (sqrt_pos.2 hw)
    have hN2 : (d.a / √(1 - d.e2 * sin (clampLat lat * (π / 180)) * sin (clampLat lat * (π / 180)))) ^ 2 *
        (1 - d.e2 * sin (clampLat lat * (π / 180)) * sin (clampLat lat * (π / 180))) = d.a ^ 2 := by
      rw [div_pow, sq_sqrt hw.le, div_mul_cancel₀ _ hw.ne']
    have hcs := sin_sq_add_cos_sq (clampLat lat * (π / 180))
    have hls := sin_sq_add_cos_sq ((lon + d.off) * (π / 180))
    unfold pOf qOf Spheroid.toCartesian
    dsimp only
    generalize d.a / √(1 - d.e2 * sin (clampLat lat * (π / 180)) * sin (clampLat lat * (π / 180))) = N at *
    generalize sin (clampLat lat * (π / 180)) = s at *
    generalize cos (clampLat lat * (π / 180)) = c at *
    generalize sin ((lon + d.off) * (π / 180)) = sl at *
    generalize cos ((lon + d.off) * (π / 180)) = cl at *
    rw [← add_div, lt_div_iff₀ (by positivity)]
    have e1 : (N + z) * c * cl * ((N + z) * c * cl) + (N + z) * c * sl * ((N + z) * c * sl) +
        (1 - d.e2) * ((N * (1 - d.e2) + z) * s) * ((N * (1 - d.e2) + z) * s) =
        (N + z) ^ 2 * c ^ 2 + (1 - d.e2) * (N * (1 - d.e2) + z) ^ 2 * s ^ 2 := by
      linear_combination ((N + z) ^ 2 * c ^ 2) * hls
    rw [e1]
    have g1 : N ^ 2 ≤ (N + z) ^ 2 := pow_le_pow_left₀ hN.le (by linarith) 2
    have g2 : (N * (1 - d.e2)) ^ 2 ≤ (N * (1 - d.e2) + z) ^ 2 := pow_le_pow_left₀ (mul_nonneg hN.le (by linarith)) (by linarith) 2
    have g3 : d.e2 * d.e2 * (d.a * d.a) < N ^ 2 * c ^ 2 + (1 - d.e2) * (N * (1 - d.e2)) ^ 2 * s ^ 2 := by
      have : N ^ 2 * c ^ 2 + (1 - d.e2) * (N * (1 - d.e2)) ^ 2 * s ^ 2 - d.e2 * d.e2 * (d.a * d.a) =
          N ^ 2 * (c ^ 2 * (1 - d.e2 ^ 2) + s ^ 2 * ((1 - d.e2) * (1 - 2 * d.e2))) := by
        rw [show d.a * d.a = d.a ^ 2 by ring, ← hN2]
        linear_combination (N ^ 2 * d.e2 ^ 2) * hcs
      have p1 : 0 < 1 - d.e2 ^ 2 := by nlinarith
      have p2 : 0 < (1 - d.e2) * (1 - 2 * d.e2) := mul_pos (by linarith) (by linarith)
      have p3 : 0 < c ^ 2 * (1 - d.e2 ^ 2) + s ^ 2 * ((1 - d.e2) * (1 - 2 * d.e2)) := by
        rcases eq_or_ne c 0 with hc | hc
        · have : s ^ 2 = 1 := by rw [hc] at hcs; linarith
          rw [hc, this]; linarith
        · have : 0 < c ^ 2 := by positivity
          have := mul_pos this p1
          have := mul_nonneg (sq_nonneg s) p2.le
          linarith
      have : 0 < N ^ 2 * (c ^ 2 * (1 - d.e2 ^ 2) + s ^ 2 * ((1 - d.e2) * (1 - 2 * d.e2))) := mul_pos (by positivity) p3
      linarith
    have g4 : N ^ 2 * c ^ 2 ≤ (N + z) ^ 2 * c ^ 2 := mul_le_mul_of_nonneg_right g1 (sq_nonneg _)
    have g5 : (1 - d.e2) * (N * (1 - d.e2)) ^ 2 * s ^ 2 ≤ (1 - d.e2) * (N * (1 - d.e2) + z) ^ 2 * s ^ 2 :=
      mul_le_mul_of_nonneg_right (mul_le_mul_of_nonneg_left g2 (by linarith)) (sq_nonneg _)
    linarith

end Verif.Datum
