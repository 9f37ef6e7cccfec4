import Verif.Datum.GeoProps

/-
C114, continued: from cartesian to geodetic coordinates.
-/

set_option linter.unusedSectionVars false

namespace Verif.Datum
open Verif.Camera Real

/-! ### The quartic -/

/-- The equation of which the code finds a root. -/
def Root (e2 p q k : ℝ) : Prop := 0 < k ∧ p * k ^ 2 + q * (k + e2) ^ 2 = k ^ 2 * (k + e2) ^ 2

theorem root_unique (e2 p q k l : ℝ) (he : 0 ≤ e2) (hp : 0 ≤ p) (hq : 0 ≤ q) (hk : Root e2 p q k) (hl : Root e2 p q l) : k = l := by
  have key : ∀ k l, Root e2 p q k → Root e2 p q l → ¬ k < l := by
    intro k l ⟨k0, hk⟩ ⟨l0, hl⟩ hlt
    have e1 : p / (k + e2) ^ 2 + q / k ^ 2 = 1 := by
      have : 0 < k + e2 := by linarith
      field_simp; linarith
    have e2' : p / (l + e2) ^ 2 + q / l ^ 2 = 1 := by
      have : 0 < l + e2 := by linarith
      field_simp; linarith
    have hkk : 0 < (k + e2) ^ 2 := by have : 0 < k + e2 := by linarith
                                      positivity
    have l1 : p / (l + e2) ^ 2 ≤ p / (k + e2) ^ 2 :=
      div_le_div_of_nonneg_left hp hkk (pow_le_pow_left₀ (by linarith) (by linarith) 2)
    have l2 : q / l ^ 2 ≤ q / k ^ 2 := div_le_div_of_nonneg_left hq (by positivity) (pow_le_pow_left₀ k0.le hlt.le 2)
    rcases eq_or_lt_of_le hq with hq0 | hq0
    · rcases eq_or_lt_of_le hp with hp0 | hp0
      · rw [← hq0, ← hp0] at e1; simp at e1
      · have : p / (l + e2) ^ 2 < p / (k + e2) ^ 2 :=
          div_lt_div_of_pos_left hp0 hkk (pow_lt_pow_left₀ (by linarith) (by linarith) (by norm_num))
        linarith
    · have : q / l ^ 2 < q / k ^ 2 := div_lt_div_of_pos_left hq0 (by positivity) (pow_lt_pow_left₀ hlt k0.le (by norm_num))
      linarith
  rcases lt_trichotomy k l with h | h | h
  · exact absurd h (key k l hk hl)
  · exact h
  · exact absurd h (key l k hl hk)

/-- The number `k` of the code. -/
noncomputable def kOf (e2 q u : ℝ) : ℝ :=
  let v := √(u * u + e2 * e2 * q)
  let uv := u + v
  let w := e2 * (uv - q) / (2 * v)
  uv / (w + √(w * w + uv))

theorem kOf_root (e2 p q u : ℝ) (hq : 0 ≤ q) (hc : 2 * u ^ 3 - (p + q - e2 * e2) * u ^ 2 = e2 * e2 * p * q)
    (huv : 0 < u + √(u * u + e2 * e2 * q)) : Root e2 p q (kOf e2 q u) := by
  have hv2 : √(u * u + e2 * e2 * q) * √(u * u + e2 * e2 * q) = u * u + e2 * e2 * q :=
    mul_self_sqrt (add_nonneg (mul_self_nonneg _) (mul_nonneg (mul_self_nonneg _) hq))
  have hv0 : 0 ≤ √(u * u + e2 * e2 * q) := sqrt_nonneg _
  unfold kOf
  dsimp only
  generalize √(u * u + e2 * e2 * q) = v at *
  have hv : 0 < v := by
    rcases eq_or_lt_of_le hv0 with h | h
    · exfalso
      rw [← h] at hv2 huv
      have : 0 ≤ e2 * e2 * q := mul_nonneg (mul_self_nonneg _) hq
      nlinarith
    · exact h
  have hw : 2 * v * (e2 * (u + v - q) / (2 * v)) = e2 * (u + v - q) := by field_simp
  generalize e2 * (u + v - q) / (2 * v) = w at *
  have hs2 : √(w * w + (u + v)) * √(w * w + (u + v)) = w * w + (u + v) := mul_self_sqrt (by nlinarith [mul_self_nonneg w])
  have hs0 := sqrt_nonneg (w * w + (u + v))
  generalize √(w * w + (u + v)) = s at *
  have hsw : 0 < w + s := by
    by_contra h
    push Not at h
    have : s ≤ -w := by linarith
    nlinarith
  have hk : (u + v) / (w + s) = s - w := by
    rw [div_eq_iff hsw.ne']; linear_combination -hs2
  refine ⟨div_pos huv hsw, ?_⟩
  rw [hk]
  have hq1 : (s - w) ^ 2 + 2 * w * (s - w) - (u + v) = 0 := by linear_combination hs2
  generalize s - w = k at *
  -- the quartic is the product of two quadratics
  have hww : (2 * u - (p + q - e2 * e2)) = 4 * w * (e2 - w) := by
    have hv' : (4 * v ^ 2) * (2 * u - (p + q - e2 * e2)) = (4 * v ^ 2) * (4 * w * (e2 - w)) := by
      have e1 : (4 * v ^ 2) * (4 * w * (e2 - w)) = 4 * (e2 * (u + v - q)) * (2 * v * e2 - e2 * (u + v - q)) := by
        rw [← hw]; ring
      rw [e1]
      linear_combination (4 * (2 * u - (p + q - e2 * e2)) - 4 * e2 * e2) * hv2 + 4 * hc
    exact mul_left_cancel₀ (by positivity) hv'
  linear_combination (-(k ^ 2 + 2 * (e2 - w) * k + (v - u))) * hq1 - k ^ 2 * hww + 2 * k * hw - hv2

/-- The solution of the cubic outside the evolute, when the point is not too near the centre. -/
theorem caseOutside_spec (e4 p q r ev : ℝ) (hm : 0 ≤ e4 * p * q) (hr : 0 ≤ r) (hev : ev = 8 * (r * r * r) + e4 * p * q)
    (h0 : 0 < ev) : ∃ u, caseOutside e4 p q r ev = .u u ∧ 0 < u ∧ 2 * u ^ 3 - 6 * r * u ^ 2 = e4 * p * q := by
  have hm2 : √(e4 * p * q) * √(e4 * p * q) = e4 * p * q := mul_self_sqrt hm
  have hm0 := sqrt_nonneg (e4 * p * q)
  have hs2 : √ev * √ev = ev := mul_self_sqrt h0.le
  have hs0 := sqrt_pos.2 h0
  have hle : √(e4 * p * q) ≤ √ev := sqrt_le_sqrt (by rw [hev]; have : 0 ≤ r * r * r := by positivity
                                                     linarith)
  unfold caseOutside
  generalize e4 * p * q = m at *
  generalize √m = sm at *
  generalize √ev = se at *
  have ha : 0 < se + sm := by linarith
  have hb : 0 ≤ se - sm := by linarith
  have c1 : cpow (se + sm) (2 / 3) = some ((se + sm) ^ (2 / 3 : ℝ)) := by unfold cpow; rw [if_pos (Or.inl ha)]
  have c2 : cpow (se - sm) (2 / 3) = some ((se - sm) ^ (2 / 3 : ℝ)) := by
    unfold cpow; rw [if_pos]
    rcases eq_or_lt_of_le hb with h | h
    · exact Or.inr ⟨h.symm, by norm_num⟩
    · exact Or.inl h
  rw [c1, c2]
  refine ⟨_, rfl, ?_⟩
  have x3 : ((se + sm) ^ (2 / 3 : ℝ)) ^ 3 = (se + sm) ^ 2 := by
    rw [← rpow_natCast, ← rpow_mul ha.le, ← rpow_natCast]; norm_num
  have y3 : ((se - sm) ^ (2 / 3 : ℝ)) ^ 3 = (se - sm) ^ 2 := by
    rw [← rpow_natCast, ← rpow_mul hb, ← rpow_natCast]; norm_num
  have xy : (se + sm) ^ (2 / 3 : ℝ) * (se - sm) ^ (2 / 3 : ℝ) = 4 * r ^ 2 := by
    rw [← mul_rpow ha.le hb, show (se + sm) * (se - sm) = (2 * r) ^ 3 by linear_combination hs2 - hm2 + hev,
      ← rpow_natCast, ← rpow_mul (by linarith)]
    norm_num
    ring
  have x0 : 0 < (se + sm) ^ (2 / 3 : ℝ) := rpow_pos_of_pos ha _
  have y0 : 0 ≤ (se - sm) ^ (2 / 3 : ℝ) := rpow_nonneg hb _
  generalize (se + sm) ^ (2 / 3 : ℝ) = X at *
  generalize (se - sm) ^ (2 / 3 : ℝ) = Y at *
  refine ⟨by linarith, ?_⟩
  linear_combination (1 / 4) * x3 + (1 / 4) * y3 + (3 / 4) * (X + Y) * xy + (1 / 2) * hs2 + (1 / 2) * hm2 + (1 / 2) * hev

/-- The solution of the cubic inside the evolute. -/
theorem inside_cubic (m r ev : ℝ) (hm : 0 ≤ m) (hev : ev = 8 * (r * r * r) + m) (h0 : ev < 0) :
    2 * (-4 * r * sin (2 / 3 * atan2 (√m) (√(-ev) + √(-8 * (r * r * r)))) *
        cos (π / 6 + 2 / 3 * atan2 (√m) (√(-ev) + √(-8 * (r * r * r))))) ^ 3 -
      6 * r * (-4 * r * sin (2 / 3 * atan2 (√m) (√(-ev) + √(-8 * (r * r * r)))) *
        cos (π / 6 + 2 / 3 * atan2 (√m) (√(-ev) + √(-8 * (r * r * r))))) ^ 2 = m := by
  have hr8 : 0 < -8 * (r * r * r) := by linarith
  have hm2 : √m * √m = m := mul_self_sqrt hm
  have hs2 : √(-ev) * √(-ev) = -ev := mul_self_sqrt (by linarith)
  have hS : √(-8 * (r * r * r)) = √(√(-ev) * √(-ev) + √m * √m) := by
    rw [hs2, hm2, hev]; congr 1; ring
  have hpos : 0 < √(√(-ev) * √(-ev) + √m * √m) + √(-ev) := by
    have : 0 < √(√(-ev) * √(-ev) + √m * √m) := by rw [← hS]; exact sqrt_pos.2 hr8
    linarith [sqrt_nonneg (-ev)]
  have hS2 : √(-8 * (r * r * r)) * √(-8 * (r * r * r)) = -8 * (r * r * r) := mul_self_sqrt hr8.le
  obtain ⟨a1, a2, -, -, -, -⟩ := half_angle (√(-ev)) (√m) hpos
  rw [add_comm (√(-ev))]
  rw [hS] at hS2 ⊢
  generalize √(√(-ev) * √(-ev) + √m * √m) = S at *
  generalize atan2 (√m) (S + √(-ev)) = t at *
  have e1 : sin (2 / 3 * t) * cos (π / 6 + 2 / 3 * t) = (1 / 2) * sin (4 / 3 * t + π / 6) - 1 / 4 := by
    have h1 := sin_add (2 / 3 * t) (π / 6 + 2 / 3 * t)
    have h2 := sin_sub (2 / 3 * t) (π / 6 + 2 / 3 * t)
    rw [show 2 / 3 * t + (π / 6 + 2 / 3 * t) = 4 / 3 * t + π / 6 by ring] at h1
    rw [show 2 / 3 * t - (π / 6 + 2 / 3 * t) = -(π / 6) by ring, sin_neg, sin_pi_div_six] at h2
    linarith
  have e2 : sin (3 * (4 / 3 * t + π / 6)) = 1 - 2 * sin (2 * t) ^ 2 := by
    rw [show 3 * (4 / 3 * t + π / 6) = 2 * (2 * t) + π / 2 by ring, sin_add_pi_div_two, cos_two_mul]
    have := sin_sq_add_cos_sq (2 * t)
    linarith
  rw [sin_three_mul] at e2
  rw [show -4 * r * sin (2 / 3 * t) * cos (π / 6 + 2 / 3 * t) = r - 2 * r * sin (4 / 3 * t + π / 6) by
    linear_combination (-4 * r) * e1]
  have hmm : m = -8 * (r * r * r) * sin (2 * t) ^ 2 := by
    rw [← hm2, ← a2, ← hS2]; ring
  rw [hmm]
  linear_combination (4 * r ^ 3) * e2

/-- The solution of the cubic on the evolute, away from its cusps on the axis. -/
theorem caseCusp_spec (e4 p q r ev : ℝ) (hr : r < 0) (hev : ev = 8 * (r * r * r) + e4 * p * q)
    (h0 : ev = 0) : caseCusp e4 p q r ev = .u (-r) ∧ 2 * (-r) ^ 3 - 6 * r * (-r) ^ 2 = e4 * p * q := by
  have hme : e4 * p * q = (-2 * r) ^ 3 := by linear_combination h0 - hev
  refine ⟨?_, by rw [hme]; ring⟩
  unfold caseCusp
  rw [if_neg (by rw [h0]; exact lt_irrefl _), h0, sqrt_zero, zero_add, hme]
  have hp : 0 < -2 * r := by linarith
  have hsp : 0 < √((-2 * r) ^ 3) := sqrt_pos.2 (by positivity)
  have c1 : cpow (√((-2 * r) ^ 3)) (2 / 3) = some (-2 * r) := by
    unfold cpow; rw [if_pos (Or.inl hsp), sqrt_eq_rpow, ← rpow_natCast, ← rpow_mul hp.le, ← rpow_mul hp.le]; norm_num
  have c2 : cpow (√((-2 * r) ^ 3)) (-(2 / 3)) = some ((-2 * r)⁻¹) := by
    unfold cpow; rw [if_pos (Or.inl hsp), sqrt_eq_rpow, ← rpow_natCast, ← rpow_mul hp.le, ← rpow_mul hp.le]
    norm_num
    rw [rpow_neg_one]
    field_simp
  rw [c1, c2]
  dsimp only
  congr 1
  field_simp
  ring

/-! ### The round trip -/

/-- `p` of the code. -/
noncomputable def pOf (d : Spheroid) (P : V3 ℝ) : ℝ := (P.x * P.x + P.y * P.y) / (d.a * d.a)

/-- `q` of the code. -/
noncomputable def qOf (d : Spheroid) (P : V3 ℝ) : ℝ := (1 - d.e2) * P.z * P.z / (d.a * d.a)

theorem pOf_nonneg (d : Spheroid) (P : V3 ℝ) : 0 ≤ pOf d P :=
  div_nonneg (add_nonneg (mul_self_nonneg _) (mul_self_nonneg _)) (mul_self_nonneg _)

theorem qOf_nonneg (d : Spheroid) (h : Ok d) (P : V3 ℝ) : 0 ≤ qOf d P := by
  have := e2_lt d h
  unfold qOf
  apply div_nonneg _ (mul_self_nonneg _)
  rw [mul_assoc]
  exact mul_nonneg (by linarith) (mul_self_nonneg _)

/-- The latitude (radians) and the height for a root of the quartic. -/
noncomputable def latH (e2 xy z k : ℝ) : ℝ × ℝ :=
  (2 * atan2 z (√(k * xy / (k + e2) * (k * xy / (k + e2)) + z * z) + k * xy / (k + e2)),
    (k + e2 - 1) * √(k * xy / (k + e2) * (k * xy / (k + e2)) + z * z) / k)

theorem fromU_eq (e2 q xy z u : ℝ) : fromU e2 q xy z u = latH e2 xy z (kOf e2 q u) := rfl

/-- What is known about the latitude and the height for a root. -/
theorem latH_spec (d : Spheroid) (h : Ok d) (P : V3 ℝ) (k : ℝ) (hk : Root d.e2 (pOf d P) (qOf d P) k) :
    ∃ R, 0 < R ∧ R = d.a / √(1 - d.e2 * sin (latH d.e2 (√(P.x * P.x + P.y * P.y)) P.z k).1 * sin (latH d.e2 (√(P.x * P.x + P.y * P.y)) P.z k).1) ∧
      -(π / 2) ≤ (latH d.e2 (√(P.x * P.x + P.y * P.y)) P.z k).1 ∧ (latH d.e2 (√(P.x * P.x + P.y * P.y)) P.z k).1 ≤ π / 2 ∧
      (R + (latH d.e2 (√(P.x * P.x + P.y * P.y)) P.z k).2) * cos (latH d.e2 (√(P.x * P.x + P.y * P.y)) P.z k).1 = √(P.x * P.x + P.y * P.y) ∧
      (R * (1 - d.e2) + (latH d.e2 (√(P.x * P.x + P.y * P.y)) P.z k).2) * sin (latH d.e2 (√(P.x * P.x + P.y * P.y)) P.z k).1 = P.z ∧
      k = (latH d.e2 (√(P.x * P.x + P.y * P.y)) P.z k).2 / R + 1 - d.e2 := by
  have ha := h.apos
  have he0 := e2_nonneg d h
  obtain ⟨k0, hk⟩ := hk
  have hke : 0 < k + d.e2 := by linarith
  have hxy2 : √(P.x * P.x + P.y * P.y) * √(P.x * P.x + P.y * P.y) = P.x * P.x + P.y * P.y :=
    mul_self_sqrt (add_nonneg (mul_self_nonneg _) (mul_self_nonneg _))
  have hxy0 := sqrt_nonneg (P.x * P.x + P.y * P.y)
  unfold pOf qOf at hk
  rw [← hxy2] at hk
  generalize √(P.x * P.x + P.y * P.y) = xy at *
  generalize P.z = z at *
  unfold latH
  dsimp only
  have hD0 : 0 ≤ k * xy / (k + d.e2) := by positivity
  have hDx : k * xy / (k + d.e2) * (k + d.e2) = k * xy := by field_simp
  generalize k * xy / (k + d.e2) = D at *
  have hq : k ^ 2 * d.a ^ 2 = D ^ 2 + (1 - d.e2) * z ^ 2 := by
    have hk' : (k * xy) ^ 2 + (1 - d.e2) * z ^ 2 * (k + d.e2) ^ 2 = d.a ^ 2 * k ^ 2 * (k + d.e2) ^ 2 := by
      field_simp at hk
      linear_combination hk
    rw [← hDx] at hk'
    have : ((k + d.e2) ^ 2) * (k ^ 2 * d.a ^ 2) = ((k + d.e2) ^ 2) * (D ^ 2 + (1 - d.e2) * z ^ 2) := by
      linear_combination -hk'
    exact mul_left_cancel₀ (by positivity) this
  have hρ2 : √(D * D + z * z) * √(D * D + z * z) = D * D + z * z := mul_self_sqrt (add_nonneg (mul_self_nonneg _) (mul_self_nonneg _))
  have hρ0 : 0 < √(D * D + z * z) := by
    rcases eq_or_lt_of_le (sqrt_nonneg (D * D + z * z)) with hh | hh
    · exfalso
      rw [← hh] at hρ2
      have h1 : D = 0 := by nlinarith [mul_self_nonneg D, mul_self_nonneg z]
      have h2 : z = 0 := by nlinarith [mul_self_nonneg D, mul_self_nonneg z]
      rw [h1, h2] at hq
      have : 0 < k ^ 2 * d.a ^ 2 := by positivity
      rw [hq] at this; simp at this
    · exact hh
  obtain ⟨a1, a2, a3, a4, -, -⟩ := half_angle D z (by linarith)
  generalize 2 * atan2 z (√(D * D + z * z) + D) = t at *
  generalize √(D * D + z * z) = ρ at *
  have hc : 0 ≤ cos t := by
    by_contra hc; push Not at hc; nlinarith
  obtain ⟨b1, b2⟩ := cos_nonneg_range t a3 a4 hc
  have hR : ρ / k = d.a / √(1 - d.e2 * sin t * sin t) := by
    have hw := w_pos d h t
    have : √(1 - d.e2 * sin t * sin t) = d.a * k / ρ := by
      have e : 1 - d.e2 * sin t * sin t = (d.a * k / ρ) ^ 2 := by
        field_simp
        linear_combination hρ2 - hq - d.e2 * (sin t * ρ + z) * a2
      rw [e, sqrt_sq (by positivity)]
    rw [this]
    field_simp
  refine ⟨ρ / k, by positivity, hR, b1, b2, ?_, ?_, ?_⟩
  · have : (ρ / k + (k + d.e2 - 1) * ρ / k) * cos t = (k + d.e2) / k * (cos t * ρ) := by field_simp; ring
    rw [this, a1]
    field_simp
    linarith
  · have : (ρ / k * (1 - d.e2) + (k + d.e2 - 1) * ρ / k) * sin t = sin t * ρ := by field_simp; ring
    rw [this, a2]
  · field_simp; ring

/-- Any root gives the point back. -/
theorem root_round_trip (d : Spheroid) (h : Ok d) (P : V3 ℝ) (k : ℝ) (hk : Root d.e2 (pOf d P) (qOf d P) k) :
    d.toCartesian ⟨longitude P.x P.y (√(P.x * P.x + P.y * P.y)) - d.off,
      (latH d.e2 (√(P.x * P.x + P.y * P.y)) P.z k).1 * (180 / π), (latH d.e2 (√(P.x * P.x + P.y * P.y)) P.z k).2⟩ = P ∧
    -90 ≤ (latH d.e2 (√(P.x * P.x + P.y * P.y)) P.z k).1 * (180 / π) ∧
    (latH d.e2 (√(P.x * P.x + P.y * P.y)) P.z k).1 * (180 / π) ≤ 90 := by
  obtain ⟨R, hR0, hR, h1, h2, h3, h4, -⟩ := latH_spec d h P k hk
  obtain ⟨l1, l2, -, -, -⟩ := longitude_spec P.x P.y
  generalize latH d.e2 (√(P.x * P.x + P.y * P.y)) P.z k = lh at *
  have hpi := pi_pos
  have r1 : -90 ≤ lh.1 * (180 / π) := by
    rw [mul_div_assoc', le_div_iff₀ hpi]; linarith
  have r2 : lh.1 * (180 / π) ≤ 90 := by
    rw [mul_div_assoc', div_le_iff₀ hpi]; linarith
  refine ⟨?_, r1, r2⟩
  unfold Spheroid.toCartesian
  dsimp only
  rw [clamp_id _ r1 r2, sub_add_cancel, show lh.1 * (180 / π) * (π / 180) = lh.1 by field_simp, ← hR, h3, h4,
    mul_comm (√_), l1, mul_comm (√_), l2]

end Verif.Datum
