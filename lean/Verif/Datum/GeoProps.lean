import Verif.Datum.Model
import Mathlib.Analysis.SpecialFunctions.Trigonometric.Angle
import Mathlib.Tactic.Linarith
import Mathlib.Tactic.FieldSimp
import Mathlib.Tactic.LinearCombination
import Mathlib.Tactic.Positivity

/-
C114: geodetic and cartesian coordinates.
-/

set_option linter.unusedSectionVars false

namespace Verif.Datum
open Verif.Camera Real

/-! ### Specification -/

/-- An oblate spheroid or a sphere. -/
structure Ok (d : Spheroid) : Prop where
  pos : 0 < d.b
  le : d.b ≤ d.a

/-- The point is on the spheroid. -/
def OnSurface (d : Spheroid) (P : V3 ℝ) : Prop := (P.x ^ 2 + P.y ^ 2) / d.a ^ 2 + P.z ^ 2 / d.b ^ 2 = 1

/-- The unit vector with the given longitude (from the zero meridian of the axes) and latitude, in degrees. -/
noncomputable def direction (lon lat : ℝ) : V3 ℝ :=
  ⟨cos (lat * (π / 180)) * cos (lon * (π / 180)), cos (lat * (π / 180)) * sin (lon * (π / 180)), sin (lat * (π / 180))⟩

/-- The vector is perpendicular to the spheroid at the point, and points outwards. -/
def Outward (d : Spheroid) (P n : V3 ℝ) : Prop :=
  ∃ c > 0, n.x = c * (P.x / d.a ^ 2) ∧ n.y = c * (P.y / d.a ^ 2) ∧ n.z = c * (P.z / d.b ^ 2)

/-! ### Geodetic to cartesian -/

theorem Ok.apos {d : Spheroid} (h : Ok d) : 0 < d.a := lt_of_lt_of_le h.pos h.le

theorem e2_eq (d : Spheroid) (h : Ok d) : 1 - d.e2 = d.b ^ 2 / d.a ^ 2 := by
  have := h.apos
  unfold Spheroid.e2
  field_simp
  ring

theorem e2_nonneg (d : Spheroid) (h : Ok d) : 0 ≤ d.e2 := by
  have := h.apos
  unfold Spheroid.e2
  apply div_nonneg
  · nlinarith [h.pos, h.le]
  · positivity

theorem e2_lt (d : Spheroid) (h : Ok d) : d.e2 < 1 := by
  have h1 := e2_eq d h
  have : 0 < d.b ^ 2 / d.a ^ 2 := by have := h.apos; have := h.pos; positivity
  linarith

theorem w_pos (d : Spheroid) (h : Ok d) (t : ℝ) : 0 < 1 - d.e2 * sin t * sin t := by
  have h0 := e2_nonneg d h
  have h1 := e2_lt d h
  have h2 := sin_sq_add_cos_sq t
  have h3 : sin t * sin t ≤ 1 := by nlinarith [sq_nonneg (cos t)]
  nlinarith [mul_nonneg h0 (mul_self_nonneg (sin t))]

theorem clamp_id (x : ℝ) (h1 : -90 ≤ x) (h2 : x ≤ 90) : clampLat x = x := by
  unfold clampLat
  dsimp only
  rw [if_neg (not_lt.2 h1), if_neg (not_lt.2 h2)]

theorem clamp_le (x : ℝ) : -90 ≤ clampLat x ∧ clampLat x ≤ 90 ∧ (x < -90 → clampLat x = -90) ∧ (90 < x → clampLat x = 90) := by
  unfold clampLat
  dsimp only
  by_cases h1 : x < -90
  · rw [if_pos h1, if_neg (by norm_num)]
    exact ⟨le_refl _, by norm_num, fun _ => rfl, fun h => by linarith⟩
  · rw [if_neg h1]
    by_cases h2 : 90 < x
    · rw [if_pos h2]; exact ⟨by norm_num, le_refl _, fun h => absurd h h1, fun _ => rfl⟩
    · rw [if_neg h2]; exact ⟨not_lt.1 h1, not_lt.1 h2, fun h => absurd h h1, fun h => absurd h h2⟩

/-- **C114.** A position with height zero is on the spheroid; the height is measured along the normal there, whose direction has
the given longitude and latitude.  Latitudes are cut off at the poles. -/
theorem toCartesian_spec (d : Spheroid) (h : Ok d) (lon lat : ℝ) :
    OnSurface d (d.toCartesian ⟨lon, lat, 0⟩) ∧
    Outward d (d.toCartesian ⟨lon, lat, 0⟩) (direction (lon + d.off) (clampLat lat)) ∧
    (∀ z, d.toCartesian ⟨lon, lat, z⟩ = d.toCartesian ⟨lon, lat, 0⟩ + z * direction (lon + d.off) (clampLat lat)) ∧
    (∀ z, d.toCartesian ⟨lon + 360, lat, z⟩ = d.toCartesian ⟨lon, lat, z⟩) ∧
    (-90 ≤ lat → lat ≤ 90 → clampLat lat = lat) ∧ (lat < -90 → clampLat lat = -90) ∧ (90 < lat → clampLat lat = 90) := by
  have ha := h.apos
  have hb := h.pos
  have hw := w_pos d h (clampLat lat * (π / 180))
  have he := e2_eq d h
  have hs := sqrt_pos.2 hw
  have hsq : √(1 - d.e2 * sin (clampLat lat * (π / 180)) * sin (clampLat lat * (π / 180))) ^ 2 = _ := sq_sqrt hw.le
  have c1 := sin_sq_add_cos_sq (clampLat lat * (π / 180))
  have c2 := sin_sq_add_cos_sq ((lon + d.off) * (π / 180))
  refine ⟨?_, ?_, ?_, ?_, clamp_id lat, (clamp_le lat).2.2.1, (clamp_le lat).2.2.2⟩
  · unfold OnSurface Spheroid.toCartesian
    dsimp only
    rw [he]
    rw [show d.e2 = 1 - d.b ^ 2 / d.a ^ 2 by linarith] at hsq hs ⊢
    generalize hS : √(1 - (1 - d.b ^ 2 / d.a ^ 2) * sin (clampLat lat * (π / 180)) * sin (clampLat lat * (π / 180))) = S at *
    generalize sin (clampLat lat * (π / 180)) = s at *
    generalize cos (clampLat lat * (π / 180)) = c at *
    generalize sin ((lon + d.off) * (π / 180)) = sl at *
    generalize cos ((lon + d.off) * (π / 180)) = cl at *
    have hs0 : S ≠ 0 := hs.ne'
    have ha0 := ha.ne'
    have hb0 := hb.ne'
    have : (d.a * S) ^ 2 = d.a ^ 2 * c ^ 2 + d.b ^ 2 * s ^ 2 := by
      rw [mul_pow, hsq]
      field_simp
      linear_combination (-d.a ^ 2) * c1
    field_simp
    linear_combination (d.b ^ 2 * d.a ^ 2 * c ^ 2) * c2 - d.b ^ 2 * this
  · refine ⟨d.a ^ 2 / (d.a / √(1 - d.e2 * sin (clampLat lat * (π / 180)) * sin (clampLat lat * (π / 180)))), by positivity, ?_⟩
    unfold direction Spheroid.toCartesian
    dsimp only
    rw [he]
    generalize √(1 - d.e2 * sin (clampLat lat * (π / 180)) * sin (clampLat lat * (π / 180))) = S at *
    have hs0 : S ≠ 0 := hs.ne'
    have ha0 := ha.ne'
    have hb0 := hb.ne'
    refine ⟨?_, ?_, ?_⟩
    · field_simp; ring
    · field_simp; ring
    · field_simp; ring
  · intro z
    unfold direction Spheroid.toCartesian
    ext
    · simp only [add_x, smul_x]; ring
    · simp only [add_y, smul_y]; ring
    · simp only [add_z, smul_z]; ring
  · intro z
    unfold Spheroid.toCartesian
    dsimp only
    rw [show (lon + 360 + d.off) * (π / 180) = (lon + d.off) * (π / 180) + 2 * π by ring, cos_add_two_pi, sin_add_two_pi]

/-! ### Angles -/

/-- The half-angle form of the angle of a point. -/
theorem half_angle (D z : ℝ) (hp : 0 < √(D * D + z * z) + D) :
    cos (2 * atan2 z (√(D * D + z * z) + D)) * √(D * D + z * z) = D ∧
    sin (2 * atan2 z (√(D * D + z * z) + D)) * √(D * D + z * z) = z ∧
    -π < 2 * atan2 z (√(D * D + z * z) + D) ∧ 2 * atan2 z (√(D * D + z * z) + D) < π ∧
    (0 ≤ z → 0 ≤ 2 * atan2 z (√(D * D + z * z) + D)) ∧ (z ≤ 0 → 2 * atan2 z (√(D * D + z * z) + D) ≤ 0) := by
  have hn : 0 ≤ D * D + z * z := add_nonneg (mul_self_nonneg _) (mul_self_nonneg _)
  have hR : √(D * D + z * z) * √(D * D + z * z) = D * D + z * z := mul_self_sqrt hn
  generalize √(D * D + z * z) = R at *
  have hR0 : 0 < R := by
    by_contra hc
    have : R ≤ 0 := not_lt.1 hc
    nlinarith
  have hrr : 0 < 2 * R * (R + D) := by positivity
  have hr := sqrt_pos.2 hrr
  have hr2 : √(2 * R * (R + D)) * √(2 * R * (R + D)) = 2 * R * (R + D) := mul_self_sqrt hrr.le
  obtain ⟨h1, h2, h3, h4, h5⟩ := atan2_spec z (R + D) (√(2 * R * (R + D))) hr (by rw [hr2]; linear_combination -hR)
  have h6 : |atan2 z (R + D)| < π / 2 := by
    have := Complex.abs_arg_lt_pi_div_two_iff (z := (⟨R + D, z⟩ : ℂ))
    exact this.2 (Or.inl hp)
  rw [abs_lt] at h6
  generalize √(2 * R * (R + D)) = r at *
  have hsq := sin_sq_add_cos_sq (atan2 z (R + D))
  refine ⟨?_, ?_, by linarith [h6.1], by linarith [h6.2], fun hz => by linarith [h3 hz], fun hz => ?_⟩
  · rw [cos_two_mul, h1]
    field_simp
    have : r ^ 2 = 2 * R * (R + D) := by rw [← hr2]; ring
    rw [this]; ring
  · rw [sin_two_mul, h1, h2]
    field_simp
    have : r ^ 2 = 2 * R * (R + D) := by rw [← hr2]; ring
    rw [this]; ring
  · rcases eq_or_lt_of_le hz with hz | hz
    · subst hz
      have : atan2 0 (R + D) = 0 := by
        unfold atan2; exact Complex.arg_ofReal_of_nonneg hp.le
      rw [this]; simp
    · have := Complex.arg_neg_iff.2 (show (⟨R + D, z⟩ : ℂ).im < 0 from hz)
      unfold atan2; linarith

/-- An angle in the half-open turn is determined by its cosine and sine. -/
theorem angle_unique (x y : ℝ) (hx1 : -π < x) (hx2 : x ≤ π) (hy1 : -π < y) (hy2 : y ≤ π) (hc : cos x = cos y)
    (hs : sin x = sin y) : x = y := by
  have h : (x : Angle) = (y : Angle) := Angle.cos_sin_inj hc hs
  have hx : (x : Angle).toReal = x := Angle.toReal_coe_eq_self_iff.2 ⟨hx1, hx2⟩
  have hy : (y : Angle).toReal = y := Angle.toReal_coe_eq_self_iff.2 ⟨hy1, hy2⟩
  rw [← hx, ← hy, h]

theorem cos_nonneg_range (t : ℝ) (h1 : -π < t) (h2 : t < π) (hc : 0 ≤ cos t) : -(π / 2) ≤ t ∧ t ≤ π / 2 := by
  constructor
  · by_contra h
    push Not at h
    have := cos_neg_of_pi_div_two_lt_of_lt (x := -t) (by linarith) (by linarith)
    rw [cos_neg] at this; linarith
  · by_contra h
    push Not at h
    have := cos_neg_of_pi_div_two_lt_of_lt (x := t) (by linarith) (by linarith)
    linarith

/-- **C114.** The longitude is that of the point, between -180 (exclusive) and 180 degrees; the branch for longitudes from -225
to 45 degrees is never taken. -/
theorem longitude_spec (x y : ℝ) :
    cos (longitude x y (√(x * x + y * y)) * (π / 180)) * √(x * x + y * y) = x ∧
    sin (longitude x y (√(x * x + y * y)) * (π / 180)) * √(x * x + y * y) = y ∧
    -180 < longitude x y (√(x * x + y * y)) ∧ longitude x y (√(x * x + y * y)) ≤ 180 ∧
    ¬(¬((√2 - 1) * y < √(x * x + y * y) + x) ∧ √(x * x + y * y) + y < (√2 + 1) * x) := by
  have hpi := pi_pos
  have h2 : (1 : ℝ) < √2 := by
    rw [lt_sqrt (by norm_num)]; norm_num
  have h2' : √2 * √2 = 2 := mul_self_sqrt (by norm_num)
  have h2'' : √2 < 2 := by nlinarith
  have hn : 0 ≤ x * x + y * y := add_nonneg (mul_self_nonneg _) (mul_self_nonneg _)
  have hR : √(x * x + y * y) * √(x * x + y * y) = x * x + y * y := mul_self_sqrt hn
  have hR0 : 0 ≤ √(x * x + y * y) := sqrt_nonneg _
  have e1 : √(x * x + y * y) = √(y * y + x * x) := by rw [add_comm]
  have hge : ∀ R : ℝ, 0 ≤ R → R * R = x * x + y * y → 0 ≤ R + x ∧ y ≤ R ∧ -y ≤ R := by
    intro R h0 h; refine ⟨?_, ?_, ?_⟩ <;> nlinarith
  obtain ⟨hge1, hge2, hge3⟩ := hge _ hR0 hR
  have dead : ¬(¬((√2 - 1) * y < √(x * x + y * y) + x) ∧ √(x * x + y * y) + y < (√2 + 1) * x) := by
    rintro ⟨h, h'⟩
    have hy : 0 ≤ y := by nlinarith
    have hx : 0 < x := by nlinarith
    nlinarith
  unfold longitude
  by_cases c1 : (√2 - 1) * y < √(x * x + y * y) + x
  · rw [if_pos c1]
    have hp : 0 < √(x * x + y * y) + x := by
      rcases eq_or_lt_of_le hge1 with h | h
      · exfalso
        have : y * y = 0 := by nlinarith
        have : y = 0 := by simpa using this
        rw [this] at c1 h; rw [← h] at c1; simp at c1
      · exact h
    obtain ⟨a1, a2, a3, a4, -, -⟩ := half_angle x y hp
    have e : 360 * atan2 y (√(x * x + y * y) + x) / π * (π / 180) = 2 * atan2 y (√(x * x + y * y) + x) := by
      field_simp; ring
    rw [e]
    refine ⟨a1, a2, ?_, ?_, dead⟩
    · rw [lt_div_iff₀ hpi]; linarith
    · rw [div_le_iff₀ hpi]; linarith
  · rw [if_neg c1, if_neg (fun h => dead ⟨c1, h⟩)]
    have hy : 0 ≤ y := by nlinarith
    have hx : x ≤ 0 := by nlinarith
    have e : (90 - 360 * atan2 x (√(x * x + y * y) + y) / π) * (π / 180) = π / 2 - 2 * atan2 x (√(x * x + y * y) + y) := by
      field_simp; ring
    rw [e, cos_pi_div_two_sub, sin_pi_div_two_sub]
    rcases eq_or_lt_of_le (add_nonneg hR0 hy) with h | hp
    · have hy0 : y = 0 := by linarith
      have hx0 : x = 0 := by
        have : √(x * x + y * y) = 0 := by linarith
        rw [this, hy0] at hR; nlinarith
      subst hx0 hy0
      have : atan2 0 0 = 0 := by unfold atan2; exact Complex.arg_zero
      simp [this]
      norm_num
    · rw [e1] at hp ⊢
      obtain ⟨a1, a2, a3, a4, -, a6⟩ := half_angle y x hp
      have a6 := a6 hx
      have hpos : 0 < √(y * y + x * x) := by
        rcases eq_or_lt_of_le (sqrt_nonneg (y * y + x * x)) with h | h
        · exfalso; rw [← h] at hp; rw [e1, ← h] at hge2; linarith
        · exact h
      have hc : 0 ≤ cos (2 * atan2 x (√(y * y + x * x) + y)) := by
        by_contra hc; push Not at hc
        nlinarith
      obtain ⟨b1, -⟩ := cos_nonneg_range _ a3 a4 hc
      refine ⟨a2, a1, ?_, ?_, ?_⟩
      · have : 360 * atan2 x (√(y * y + x * x) + y) / π ≤ 0 := by
          rw [div_le_iff₀ hpi]; linarith
        linarith
      · have : -90 ≤ 360 * atan2 x (√(y * y + x * x) + y) / π := by
          rw [le_div_iff₀ hpi]; linarith
        linarith
      · rw [← e1]; exact dead

end Verif.Datum
