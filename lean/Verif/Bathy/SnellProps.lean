import Verif.Bathy.Model
import Verif.Camera.CahvProps
import Mathlib.Tactic.FieldSimp

/-
C102: refraction at a plane.
-/

namespace Verif.Camera.Bathy


set_option linter.unusedSectionVars false

variable {K : Type} [Field K] [LinearOrder K] [IsStrictOrderedRing K]

/-- **C102.** The intersection of a ray with a plane: there is a result exactly if the ray descends, and it is the one point
of the line on the plane.  It is ahead of the start exactly if the start is not below the plane. -/
theorem rayPlane_spec (pl : Plane K) (c v : V3 K) :
    (rayPlane pl c v = none ↔ 0 ≤ dot pl.n v) ∧
    (∀ p, rayPlane pl c v = some p → signedDist pl p = 0 ∧ (∃ a : K, p = c + a * v ∧ (0 ≤ a ↔ 0 ≤ signedDist pl c)) ∧
      (∀ a : K, signedDist pl (c + a * v) = 0 → c + a * v = p)) := by
  unfold rayPlane
  simp only
  by_cases h : 0 ≤ dot pl.n v
  · rw [if_pos h]
    exact ⟨⟨fun _ => h, fun _ => rfl⟩, fun p hp => (by cases hp)⟩
  · rw [if_neg h]
    refine ⟨⟨fun h' => (by cases h'), fun h' => absurd h' h⟩, fun p hp => ?_⟩
    cases hp
    push Not at h
    have hlin : ∀ a : K, signedDist pl (c + a * v) = signedDist pl c + a * dot pl.n v := by
      intro a; unfold signedDist dot; simp only [add_x, add_y, add_z, smul_x, smul_y, smul_z]; ring
    have hc : pl.d + dot pl.n c = signedDist pl c := by unfold signedDist dot; ring
    have hne := h.ne
    refine ⟨?_, ⟨_, rfl, ?_⟩, ?_⟩
    · rw [hlin, hc]; field_simp; ring
    · rw [hc, neg_div, ← div_neg]
      constructor
      · intro ha
        have := mul_nonneg ha (neg_pos.2 h).le
        rwa [div_mul_cancel₀ _ (neg_pos.2 h).ne'] at this
      · intro ha; exact div_nonneg ha (neg_pos.2 h).le
    · intro a ha
      rw [hlin] at ha
      have : a = -(pl.d + dot pl.n c) / dot pl.n v := by rw [hc, eq_div_iff hne]; linarith
      rw [this]

/-- Non-vacuity. -/
example : rayPlane (⟨⟨0, 0, 1⟩, 0⟩ : Plane ℚ) ⟨0, 0, 4⟩ ⟨3 / 5, 0, -(4 / 5)⟩ = some ⟨3, 0, 0⟩ := by decide +kernel

/-- **C102, refuted part.** A ray that starts under water and goes down: the intersection reported is behind its start. -/
theorem rayPlane_behind : ∃ (pl : Plane ℚ) (c v p : V3 ℚ) (a : ℚ), signedDist pl c < 0 ∧ rayPlane pl c v = some p ∧ p = c + a * v ∧ a < 0 :=
  ⟨⟨⟨0, 0, 1⟩, 0⟩, ⟨0, 0, -4⟩, ⟨0, 0, -1⟩, ⟨0, 0, 0⟩, -4, by decide +kernel⟩

/-- The result of the intersection is the same from any point of the line. -/
theorem rayPlane_line (pl : Plane K) (c v : V3 K) (s : K) : rayPlane pl (c + s * v) v = rayPlane pl c v := by
  by_cases h : 0 ≤ dot pl.n v
  · rw [(rayPlane_spec pl _ v).1.2 h, (rayPlane_spec pl _ v).1.2 h]
  · cases h1 : rayPlane pl (c + s * v) v with
    | none => exact absurd ((rayPlane_spec pl _ v).1.1 h1) h
    | some p =>
      cases h2 : rayPlane pl c v with
      | none => exact absurd ((rayPlane_spec pl _ v).1.1 h2) h
      | some q =>
        obtain ⟨hp, ⟨a, rfl, _⟩, _⟩ := (rayPlane_spec pl _ v).2 p h1
        have e : c + s * v + a * v = c + (s + a) * v := by ext <;> simp <;> ring
        rw [e] at hp ⊢
        rw [((rayPlane_spec pl _ v).2 q h2).2.2 _ hp]

/-- Lagrange. -/
theorem sq_cross (a b : V3 K) : sq (cross a b) = sq a * sq b - dot a b * dot a b := by
  unfold sq cross dot; ring

/-- A direction in the water that obeys the law of refraction: of unit length, going down, in the plane of the ray and the
normal on the same side, with sines of the angles to the normal in the ratio of the index. -/
def Refracted (n : V3 K) (r : K) (v o : V3 K) : Prop :=
  sq o = 1 ∧ dot n o < 0 ∧ cross n v = r * cross n o

/-- There is at most one refracted direction. -/
theorem refracted_unique (n : V3 K) (r : K) (hn : sq n = 1) (hr : r ≠ 0) (v o o' : V3 K) (h : Refracted n r v o) (h' : Refracted n r v o') :
    o = o' := by
  obtain ⟨h1, h2, h3⟩ := h
  obtain ⟨h1', h2', h3'⟩ := h'
  have hc : cross n o = cross n o' := by
    have := h3.symm.trans h3'
    have hx := congrArg V3.x this
    have hy := congrArg V3.y this
    have hz := congrArg V3.z this
    simp only [smul_x, smul_y, smul_z] at hx hy hz
    ext
    · exact mul_left_cancel₀ hr hx
    · exact mul_left_cancel₀ hr hy
    · exact mul_left_cancel₀ hr hz
  have e1 := sq_cross n o
  have e2 := sq_cross n o'
  rw [hc, e2, h1, h1', hn] at e1
  have e3 : dot n o = dot n o' := by
    have : (dot n o - dot n o') * (dot n o + dot n o') = 0 := by linarith
    rcases mul_eq_zero.1 this with h | h
    · linarith
    · linarith
  have hx := congrArg V3.x hc
  have hy := congrArg V3.y hc
  have hz := congrArg V3.z hc
  unfold sq dot cross at *
  simp only at hx hy hz
  ext
  · linear_combination (o'.x - o.x) * hn + n.x * e3 + n.y * hz * (-1) * (-1) * (-1) + n.z * hy
  · linear_combination (o'.y - o.y) * hn + n.y * e3 + n.x * hz - n.z * hx
  · linear_combination (o'.z - o.z) * hn + n.z * e3 + n.y * hx - n.x * hy

/-- The cosine of two unit vectors that do not point against each other. -/
theorem cos_lt (n v : V3 K) (hn : sq n = 1) (hv : sq v = 1) (hd : dot n v < 0) (hne : dot n v ≠ -1) : dot n v * dot n v < 1 := by
  have h := sq_nonneg' (cross n v)
  rw [sq_cross, hn, hv] at h
  rcases lt_or_eq_of_le (show dot n v * dot n v ≤ 1 by linarith) with h' | h'
  · exact h'
  · have : (dot n v + 1) * (dot n v - 1) = 0 := by linarith
    rcases mul_eq_zero.1 this with h'' | h''
    · exact absurd (by linarith) hne
    · linarith

set_option maxHeartbeats 1000000 in
/-- **C102.** The law of refraction at a plane with unit normal, for rays of unit direction: there is a result exactly if the
ray descends, is not perpendicular to the plane, and the index is more than one; the result is the point where the line meets
the plane and the one direction that obeys the law of refraction. -/
theorem snell_spec (sqrt : K → K) (hs : IsSqrt sqrt) (pl : Plane K) (r : K) (c v : V3 K) (hn : sq pl.n = 1) (hv : sq v = 1) (hr : 0 < r) :
    (snell sqrt pl r c v ≠ none ↔ dot pl.n v < 0 ∧ dot pl.n v ≠ -1 ∧ 1 < r) ∧
    (∀ p o, snell sqrt pl r c v = some (p, o) → rayPlane pl c v = some p ∧ Refracted pl.n r v o) := by
  have hr0 := hr.ne'
  by_cases hd : 0 ≤ dot pl.n v
  · have h0 : snell sqrt pl r c v = none := by unfold snell; rw [(rayPlane_spec pl c v).1.2 hd]
    rw [h0]
    exact ⟨⟨fun h => absurd rfl h, fun h => absurd h.1 (not_lt.2 hd)⟩, fun p o h => (by cases h)⟩
  push Not at hd
  obtain ⟨p, hp⟩ : ∃ p, rayPlane pl c v = some p := by
    cases h : rayPlane pl c v with
    | none => exact absurd ((rayPlane_spec pl c v).1.1 h) (not_le.2 hd)
    | some p => exact ⟨p, rfl⟩
  unfold snell
  rw [hp]
  simp only
  set D := dot pl.n v with hD
  have hDle : D * D ≤ 1 := by
    have h := sq_nonneg' (cross pl.n v)
    rw [sq_cross, hn, hv, ← hD] at h; linarith
  have hu : 1 - (1 - D * D) / r / r - D * D = (1 - D * D) * (r * r - 1) / (r * r) := by field_simp; ring
  have hw : 1 - (1 - D * D) / r / r - 1 = -((1 - D * D) / (r * r)) := by field_simp; ring
  have hrr : 0 < r * r := mul_pos hr hr
  by_cases hg : D ≠ -1 ∧ 1 < r
  · have hD1 : D * D < 1 := cos_lt pl.n v hn hv hd hg.1
    have hupos : 0 < 1 - (1 - D * D) / r / r - D * D := by
      rw [hu]; exact div_pos (mul_pos (by linarith) (by nlinarith [hg.2])) hrr
    have hwle : 1 - (1 - D * D) / r / r - 1 < 0 := by
      rw [hw]; exact neg_neg_of_pos (div_pos (by linarith) hrr)
    set cs := 1 - (1 - D * D) / r / r with hcs
    clear_value cs
    set qv := -2 * D * cs + 2 * D with hqv
    set qu := cs - D * D with hqu
    set qw := cs - 1 with hqw
    have hdel : 0 < qv * qv - 4 * qu * qw := by nlinarith [mul_self_nonneg qv, mul_pos hupos (neg_pos.2 hwle)]
    rw [if_neg (by push Not; exact ⟨hupos, hdel.le⟩)]
    obtain ⟨hs0, hss⟩ := hs _ hdel.le
    set sd := sqrt (qv * qv - 4 * qu * qw) with hsd
    clear_value sd
    have hsge : qv < sd := by
      by_contra hlt
      push Not at hlt
      have : sd * sd ≤ qv * qv := by nlinarith
      nlinarith [mul_pos hupos (neg_pos.2 hwle)]
    set al := (-qv + sd) / (2 * qu) with hal
    have halpos : 0 < al := div_pos (by linarith) (by linarith)
    have hal2 : 2 * qu * al = -qv + sd := by rw [hal]; field_simp
    have hroot : qu * al * al + qv * al + qw = 0 := by
      have h4 : 4 * qu * (qu * al * al + qv * al + qw) = 0 := by
        have e : 4 * qu * (qu * al * al + qv * al + qw) = (2 * qu * al + qv) * (2 * qu * al + qv) - (qv * qv - 4 * qu * qw) := by ring
        rw [e, hal2, ← hss]; ring
      rcases mul_eq_zero.1 h4 with h | h
      · exact absurd h (by linarith)
      · exact h
    clear_value al
    rw [if_neg (not_lt.2 halpos.le)]
    refine ⟨⟨fun _ => ⟨hd, hg⟩, fun _ h => (by cases h)⟩, fun p' o h => ?_⟩
    cases h
    refine ⟨rfl, ?_⟩
    set w := -pl.n + al * v with hwdef
    have hnw : dot pl.n w = -1 + al * D := by
      have : dot pl.n w = -sq pl.n + al * dot pl.n v := by rw [hwdef]; unfold sq dot; simp only [add_x, add_y, add_z, neg_x, neg_y, neg_z, smul_x, smul_y, smul_z]; ring
      rw [this, hn]
    have hN2 : sq w = 1 - 2 * al * D + al * al := by
      have : sq w = sq pl.n - 2 * al * dot pl.n v + al * al * sq v := by rw [hwdef]; unfold sq dot; simp only [add_x, add_y, add_z, neg_x, neg_y, neg_z, smul_x, smul_y, smul_z]; ring
      rw [this, hn, hv, mul_one]
    have hw0 : w ≠ 0 := by
      intro h0
      rw [h0] at hnw
      have : dot pl.n (0 : V3 K) = 0 := by unfold dot; simp
      have := mul_neg_of_pos_of_neg halpos hd
      linarith
    have hNp := norm_pos hs w hw0
    have hNN := norm_mul_self hs w
    set N := norm sqrt w with hNdef
    clear_value N
    have hNne := hNp.ne'
    -- r * alpha = N
    have hcs' : cs * (r * r) = r * r - (1 - D * D) := by rw [hcs]; field_simp
    have hra : (r * al) * (r * al) = N * N := by
      rw [hNN, hN2]
      have h1 : (1 - D * D) * ((r * al) * (r * al) - (1 - 2 * al * D + al * al)) = 0 := by
        rw [hqu, hqv, hqw] at hroot
        linear_combination (r * r) * hroot - (1 - 2 * al * D + al * al) * hcs'
      rcases mul_eq_zero.1 h1 with h | h
      · linarith
      · linarith
    have hraN : r * al = N := by
      have : (r * al - N) * (r * al + N) = 0 := by linarith
      rcases mul_eq_zero.1 this with h | h
      · linarith
      · have := mul_pos hr halpos; linarith
    refine ⟨?_, ?_, ?_⟩
    · have : sq ((1 / N) * w) = sq w / (N * N) := by unfold sq dot; simp only [smul_x, smul_y, smul_z]; field_simp
      rw [this, hNN]
      exact div_self (by rw [← hNN]; exact mul_ne_zero hNne hNne)
    · have : dot pl.n ((1 / N) * w) = dot pl.n w / N := by unfold dot; simp only [smul_x, smul_y, smul_z]; field_simp
      rw [this, hnw]
      exact div_neg_of_neg_of_pos (by have := mul_neg_of_pos_of_neg halpos hd; linarith) hNp
    · have hcr : cross pl.n ((1 / N) * w) = (al / N) * cross pl.n v := by
        rw [hwdef]; unfold cross; ext <;> simp only [add_x, add_y, add_z, neg_x, neg_y, neg_z, smul_x, smul_y, smul_z] <;> field_simp <;> ring
      rw [hcr]
      have h1 : r * (al / N) = 1 := by rw [← mul_div_assoc, hraN]; exact div_self hNne
      ext <;> simp only [smul_x, smul_y, smul_z] <;> rw [← mul_assoc, h1, one_mul]
  · have hule : 1 - (1 - D * D) / r / r - D * D ≤ 0 := by
      rw [hu]
      refine div_nonpos_of_nonpos_of_nonneg ?_ hrr.le
      by_cases h1 : D = -1
      · rw [h1]; norm_num
      · have h2 : r ≤ 1 := by by_contra h; exact hg ⟨h1, not_le.1 h⟩
        exact mul_nonpos_of_nonneg_of_nonpos (by linarith) (by nlinarith)
    rw [if_pos (Or.inl hule)]
    exact ⟨⟨fun h => absurd rfl h, fun h => absurd h.2 hg⟩, fun p o h => (by cases h)⟩

/-- **C102.** A direction that obeys the law of refraction is the one computed. -/
theorem snell_complete (sqrt : K → K) (hs : IsSqrt sqrt) (pl : Plane K) (r : K) (c v q o : V3 K) (hn : sq pl.n = 1) (hv : sq v = 1) (hr : 1 < r)
    (hd : dot pl.n v < 0) (hne : dot pl.n v ≠ -1) (hq : signedDist pl q = 0) (a : K) (ha : q = c + a * v) (ho : Refracted pl.n r v o) :
    snell sqrt pl r c v = some (q, o) := by
  obtain ⟨h1, h2⟩ := snell_spec sqrt hs pl r c v hn hv (by linarith)
  cases h : snell sqrt pl r c v with
  | none => exact absurd h (h1.2 ⟨hd, hne, hr⟩)
  | some z =>
    obtain ⟨p, o'⟩ := z
    obtain ⟨hp, hR⟩ := h2 p o' h
    rw [refracted_unique pl.n r hn (by linarith) v o o' ho hR]
    rw [ha] at hq ⊢
    rw [((rayPlane_spec pl c v).2 p hp).2.2 a hq]

/-- Non-vacuity: sines 4/5 and 3/5, index 4/3, with the square root of the reals. -/
example (sqrt : ℚ → ℚ) (hs : IsSqrt sqrt) :
    snell sqrt (⟨⟨0, 0, 1⟩, -10⟩ : Plane ℚ) (4 / 3) ⟨0, 0, 13⟩ ⟨4 / 5, 0, -(3 / 5)⟩ = some (⟨4, 0, 10⟩, ⟨3 / 5, 0, -(4 / 5)⟩) := by
  refine snell_complete sqrt hs _ _ _ _ _ _ (by norm_num [sq, dot]) (by norm_num [sq, dot]) (by norm_num) (by norm_num [dot]) (by norm_num [dot])
    (by norm_num [signedDist]) 5 (by ext <;> norm_num) ⟨by norm_num [sq, dot], by norm_num [dot], ?_⟩
  ext <;> norm_num [cross]

/-- The result of the refraction is the same from any point of the line. -/
theorem snell_line (sqrt : K → K) (pl : Plane K) (r : K) (c v : V3 K) (s : K) : snell sqrt pl r (c + s * v) v = snell sqrt pl r c v := by
  unfold snell; rw [rayPlane_line]


/-- **C102, refuted part.** A ray perpendicular to the water is not bent but refused, for every index. -/
theorem snell_perpendicular (sqrt : K → K) (pl : Plane K) (r : K) (c v : V3 K) (h : dot pl.n v = -1) : snell sqrt pl r c v = none := by
  unfold snell
  cases hp : rayPlane pl c v with
  | none => rfl
  | some p =>
    simp only
    rw [h, if_pos (Or.inl (by norm_num))]

end Verif.Camera.Bathy
