import Verif.Camera.QuatProps

/-
C97, continued.  Axis and angle; interpolation of quaternions.
-/

namespace Verif.Camera

open Real

/-- The angle of a point that is not the origin. -/
theorem atan2_spec (y x : ℝ) (r : ℝ) (hr : 0 < r) (h : x * x + y * y = r * r) :
    Real.cos (atan2 y x) = x / r ∧ Real.sin (atan2 y x) = y / r ∧ (0 ≤ y → 0 ≤ atan2 y x) ∧ atan2 y x ≤ π ∧ -π < atan2 y x := by
  have hn : ‖(⟨x, y⟩ : ℂ)‖ = r := by
    have : ‖(⟨x, y⟩ : ℂ)‖ * ‖(⟨x, y⟩ : ℂ)‖ = r * r := by
      have := Complex.normSq_eq_norm_sq (⟨x, y⟩ : ℂ)
      rw [Complex.normSq_mk] at this
      rw [← h, this]; ring
    nlinarith [norm_nonneg (⟨x, y⟩ : ℂ), mul_self_eq_mul_self_iff.1 this |>.elim id (fun h => by nlinarith [norm_nonneg (⟨x, y⟩ : ℂ)] : ‖(⟨x, y⟩ : ℂ)‖ = -r → ‖(⟨x, y⟩ : ℂ)‖ = r)]
  have hne : (⟨x, y⟩ : ℂ) ≠ 0 := by
    intro e; rw [e, norm_zero] at hn; linarith
  unfold atan2
  refine ⟨?_, ?_, fun hy => ?_, Complex.arg_le_pi _, Complex.neg_pi_lt_arg _⟩
  · rw [Complex.cos_arg hne, hn]
  · rw [Complex.sin_arg, hn]
  · exact Complex.arg_nonneg_iff.2 hy

/-- **C97.** Axis and angle give a unit quaternion, and its matrix is Rodrigues' formula. -/
theorem axis_matrix (v : V3 ℝ) : (axisAngleToQuat v).toM = axisAngleToM v ∧ (axisAngleToQuat v).sq = 1 := by
  unfold axisAngleToQuat axisAngleToM
  simp only
  by_cases h : norm Real.sqrt v = 0
  · rw [if_neg (not_not.2 h), if_neg (not_not.2 h)]
    constructor
    · ext <;> norm_num [Quat.toM, M3.one]
    · norm_num [Quat.sq]
  · rw [if_pos h, if_pos h]
    have hu : sq ((1 / norm Real.sqrt v) * v) = 1 := by
      rw [sq_smul, ← norm_mul_self isSqrt_real v]; field_simp
    generalize (1 / norm Real.sqrt v) * v = r at *
    generalize norm Real.sqrt v = θ at *
    have h1 := Real.sin_sq_add_cos_sq (θ * (1 / 2))
    have h2 : Real.cos θ = 2 * Real.cos (θ * (1 / 2)) ^ 2 - 1 := by
      rw [← Real.cos_two_mul]; congr 1; ring
    have h3 : Real.sin θ = 2 * Real.sin (θ * (1 / 2)) * Real.cos (θ * (1 / 2)) := by
      rw [← Real.sin_two_mul]; congr 1; ring
    unfold Quat.ofAxis
    simp only
    rw [h2, h3]
    generalize Real.sin (θ * (1 / 2)) = s at *
    generalize Real.cos (θ * (1 / 2)) = c at *
    simp only [sq, dot] at hu
    obtain ⟨x, y, z⟩ := r
    simp only at hu
    constructor
    · ext <;> simp only [Quat.toM, M3.add, M3.smul, M3.one, add_x, add_y, add_z, smul_x, smul_y, smul_z] <;> grind
    · simp only [Quat.sq]; grind

/-- The quaternion of a unit vector times an angle. -/
theorem axis_quat (u : V3 ℝ) (hu : sq u = 1) (t : ℝ) (ht : 0 ≤ t) : axisAngleToQuat (t * u) = Quat.ofAxis u t := by
  rcases ht.lt_or_eq with h | h
  · obtain ⟨h1, h2⟩ := normalize_mul isSqrt_real t h u hu
    unfold axisAngleToQuat
    simp only [h2]
    rw [if_pos h.ne']
    congr 1
    ext <;> simp <;> field_simp
  · subst h
    have e : (0 : ℝ) * u = 0 := by ext <;> simp
    have hn : norm Real.sqrt (0 : V3 ℝ) = 0 := by simp [norm, sq, dot]
    unfold axisAngleToQuat
    simp only [e, hn]
    rw [if_neg (not_not.2 rfl)]
    unfold Quat.ofAxis
    ext <;> simp

/-- The angle and the quaternion it gives back. -/
theorem axisAngle_form (eps : ℝ) (heps : 0 < eps) (q : Quat ℝ) (hq : q.sq = 1) : ∃ (u : V3 ℝ) (t : ℝ), sq u = 1 ∧ 0 ≤ t ∧ t ≤ 2 * π ∧
    q.axisAngle eps = t * u ∧ Quat.ofAxis u t =
      (if |norm Real.sqrt q.imag| < eps then ⟨q.w, norm Real.sqrt q.imag, 0, 0⟩ else q) := by
  have hn := norm_nonneg' isSqrt_real q.imag
  have hnn := norm_mul_self isSqrt_real q.imag
  have hr : q.w * q.w + norm Real.sqrt q.imag * norm Real.sqrt q.imag = 1 * 1 := by
    rw [hnn]; simp only [sq, dot, Quat.imag, Quat.sq] at *; linarith
  obtain ⟨a1, a2, a3, a4, -⟩ := atan2_spec (norm Real.sqrt q.imag) q.w 1 one_pos hr
  rw [div_one] at a1 a2
  unfold Quat.axisAngle
  simp only
  by_cases h : |norm Real.sqrt q.imag| < eps
  · simp only [if_pos h]
    refine ⟨⟨1, 0, 0⟩, 2 * atan2 (norm Real.sqrt q.imag) q.w, by norm_num [sq, dot], by linarith [a3 hn], by linarith, rfl, ?_⟩
    unfold Quat.ofAxis
    have : 2 * atan2 (norm Real.sqrt q.imag) q.w * (1 / 2) = atan2 (norm Real.sqrt q.imag) q.w := by ring
    simp only [this, a1, a2]
    ext <;> simp
  · simp only [if_neg h]
    have hpos : norm Real.sqrt q.imag ≠ 0 := by
      intro e; rw [e, abs_zero] at h; exact h heps
    refine ⟨(1 / norm Real.sqrt q.imag) * q.imag, 2 * atan2 (norm Real.sqrt q.imag) q.w, ?_, by linarith [a3 hn], by linarith, rfl, ?_⟩
    · rw [sq_smul, ← hnn]; field_simp
    unfold Quat.ofAxis
    have : 2 * atan2 (norm Real.sqrt q.imag) q.w * (1 / 2) = atan2 (norm Real.sqrt q.imag) q.w := by ring
    simp only [this, a1, a2]
    ext
    · rfl
    · show norm Real.sqrt q.imag * (1 / norm Real.sqrt q.imag * q.x) = q.x; field_simp
    · show norm Real.sqrt q.imag * (1 / norm Real.sqrt q.imag * q.y) = q.y; field_simp
    · show norm Real.sqrt q.imag * (1 / norm Real.sqrt q.imag * q.z) = q.z; field_simp

/-- **C97.** From a unit quaternion to axis and angle and back gives the quaternion, unless the vector part is shorter than
the tolerance (and not zero); then it is replaced by a vector of the same length along x, which is off by at most twice the tolerance. -/
theorem axis_round (eps : ℝ) (heps : 0 < eps) (q : Quat ℝ) (hq : q.sq = 1) :
    (eps ≤ norm Real.sqrt q.imag ∨ q.imag = 0 → axisAngleToQuat (q.axisAngle eps) = q) ∧
    (∃ q', axisAngleToQuat (q.axisAngle eps) = q' ∧
      (q'.w - q.w) * (q'.w - q.w) + sq (q'.imag - q.imag) ≤ (2 * eps) * (2 * eps)) := by
  obtain ⟨u, t, hu, h0, -, he, hq'⟩ := axisAngle_form eps heps q hq
  rw [he, axis_quat u hu t h0, hq']
  have hn := norm_nonneg' isSqrt_real q.imag
  have hnn := norm_mul_self isSqrt_real q.imag
  constructor
  · rintro (h | h)
    · rw [if_neg (by rw [abs_of_nonneg hn]; linarith)]
    · have hz : norm Real.sqrt q.imag = 0 := by rw [h]; simp [norm, sq, dot]
      rw [hz]
      have hx := congrArg V3.x h; have hy := congrArg V3.y h; have hz' := congrArg V3.z h
      simp only [Quat.imag, zero_x, zero_y, zero_z] at hx hy hz'
      split
      · ext
        · rfl
        · exact hx.symm
        · exact hy.symm
        · exact hz'.symm
      · rfl
  · refine ⟨_, rfl, ?_⟩
    by_cases h : |norm Real.sqrt q.imag| < eps
    · rw [if_pos h]
      rw [abs_of_nonneg hn] at h
      clear hq' he
      generalize norm Real.sqrt q.imag = n at *
      simp only [sq, dot, sub_x, sub_y, sub_z, Quat.imag] at *
      have hx : q.x * q.x ≤ n * n := by nlinarith [mul_self_nonneg q.y, mul_self_nonneg q.z]
      have hxn : -n ≤ q.x := by by_contra hc; push Not at hc; nlinarith
      nlinarith
    · rw [if_neg h]
      have : (q.w - q.w) * (q.w - q.w) + sq (q.imag - q.imag) = 0 := by simp [sq, dot]
      rw [this]; positivity

/-- **C97.** From a rotation matrix to the rotation vector and back gives the matrix (unless the rotation is smaller than the
tolerance and not zero). -/
theorem matrix_axis_round (eps : ℝ) (heps : 0 < eps) (m : M3 ℝ) (h : IsRot m)
    (hn : eps ≤ norm Real.sqrt (Quat.ofM Real.sqrt m).imag ∨ (Quat.ofM Real.sqrt m).imag = 0) :
    axisAngleToM (mToAxisAngle eps m) = m := by
  obtain ⟨h1, h2⟩ := ofM_toM Real.sqrt isSqrt_real m h
  obtain ⟨u, t, hu, h0, ht, he, -⟩ := axisAngle_form eps heps _ h2
  have hr := (axis_round eps heps _ h2).1 hn
  rw [← (axis_matrix _).1]
  unfold mToAxisAngle
  simp only
  by_cases hneg : ((Quat.ofM Real.sqrt m).axisAngle eps).x < 0 ∧ ((Quat.ofM Real.sqrt m).axisAngle eps).y < 0 ∧
      ((Quat.ofM Real.sqrt m).axisAngle eps).z < 0
  · rw [if_pos hneg]
    rw [he] at hneg hr ⊢
    have htp : 0 < t := by
      rcases h0.lt_or_eq with h | h
      · exact h
      · rw [← h] at hneg; simp at hneg
    have e1 : t * u - (2 * π) * ((1 / norm Real.sqrt (t * u)) * (t * u)) = (2 * π - t) * (-u) := by
      rw [(normalize_mul isSqrt_real t htp u hu).2]
      ext <;> simp <;> field_simp <;> ring
    have hu' : sq (-u) = 1 := by rw [← hu]; simp [sq, dot]
    rw [axis_quat u hu t h0] at hr
    rw [e1, axis_quat (-u) hu' (2 * π - t) (by linarith)]
    have e2 : Quat.ofAxis (-u) (2 * π - t) = (Quat.ofAxis u t).neg := by
      unfold Quat.ofAxis Quat.neg
      have : (2 * π - t) * (1 / 2) = π - t * (1 / 2) := by ring
      simp only [this, Real.cos_pi_sub, Real.sin_pi_sub]
      ext <;> simp
    rw [e2, hr]
    have : ∀ q : Quat ℝ, q.neg.toM = q.toM := by intro q; ext <;> simp only [Quat.neg, Quat.toM] <;> ring
    rw [this, h1]
  · rw [if_neg hneg, hr, h1]

/-! ## Interpolation -/

/-- The product of two quaternions as vectors. -/
def qdot (a b : Quat ℝ) : ℝ := a.w * b.w + a.x * b.x + a.y * b.y + a.z * b.z

/-- The cosine of the angle between the two rotations' quaternions, the nearer of the two signs. -/
theorem qdot_le (a b : Quat ℝ) (ha : a.sq = 1) (hb : b.sq = 1) : |qdot a b| ≤ 1 := by
  unfold Quat.sq at *
  unfold qdot
  rw [abs_le]
  constructor <;>
    nlinarith [mul_self_nonneg (a.w - b.w), mul_self_nonneg (a.x - b.x), mul_self_nonneg (a.y - b.y), mul_self_nonneg (a.z - b.z),
      mul_self_nonneg (a.w + b.w), mul_self_nonneg (a.x + b.x), mul_self_nonneg (a.y + b.y), mul_self_nonneg (a.z + b.z)]

/-- The combination that is computed. -/
def comb (β α : ℝ) (a b : Quat ℝ) : Quat ℝ := ⟨β * a.w + α * b.w, β * a.x + α * b.x, β * a.y + α * b.y, β * a.z + α * b.z⟩

/-- The second quaternion with the sign that is nearer to the first. -/
noncomputable def near (a b : Quat ℝ) : Quat ℝ := if qdot a b < 0 then b.neg else b

theorem near_dot (a b : Quat ℝ) : qdot a (near a b) = |qdot a b| := by
  unfold near
  by_cases h : qdot a b < 0
  · rw [if_pos h, abs_of_neg h]; simp only [qdot, Quat.neg]; ring
  · rw [if_neg h, abs_of_nonneg (not_lt.1 h)]

theorem near_sq (a b : Quat ℝ) : (near a b).sq = b.sq := by
  unfold near; split
  · simp [Quat.sq, Quat.neg]
  · rfl

theorem slerp_form (eps alpha : ℝ) (a b : Quat ℝ) (spin : ℤ) :
    slerp eps alpha a b spin =
      if 1 - |qdot a b| < eps then comb (1 - alpha) alpha a (near a b)
      else comb (Real.sin (Real.arccos |qdot a b| - alpha * (Real.arccos |qdot a b| + spin * π)) / Real.sin (Real.arccos |qdot a b|))
        (Real.sin (alpha * (Real.arccos |qdot a b| + spin * π)) / Real.sin (Real.arccos |qdot a b|)) a (near a b) := by
  have hq : a.x * b.x + a.y * b.y + a.z * b.z + a.w * b.w = qdot a b := by unfold qdot; ring
  unfold slerp near
  simp only [hq]
  by_cases h : qdot a b < 0
  · simp only [h, decide_true, if_true, abs_of_neg h]
    split <;> (unfold comb; ext <;> simp [Quat.neg])
  · simp only [h, decide_false, Bool.false_eq_true, if_false, abs_of_nonneg (not_lt.1 h)]
    split <;> rfl

/-- In the normal case the sine is positive. -/
theorem sin_arccos_pos (c : ℝ) (h0 : 0 ≤ c) (h1 : c < 1) : 0 < Real.sin (Real.arccos c) := by
  apply Real.sin_pos_of_pos_of_lt_pi
  · exact Real.arccos_pos.2 h1
  · have := Real.arccos_le_pi_div_two.2 h0
    linarith [Real.pi_pos]

/-- **C97.** Interpolation starts at the first quaternion, and ends at the second or its opposite: the same rotation. -/
theorem slerp_ends (eps : ℝ) (heps : 0 < eps) (a b : Quat ℝ) (spin : ℤ) :
    slerp eps 0 a b spin = a ∧ (slerp eps 1 a b spin = b ∨ slerp eps 1 a b spin = b.neg) ∧ (slerp eps 1 a b spin).toM = b.toM := by
  have hneg : ∀ q : Quat ℝ, q.neg.toM = q.toM := by intro q; ext <;> simp only [Quat.neg, Quat.toM] <;> ring
  have key : slerp eps 1 a b spin = b ∨ slerp eps 1 a b spin = b.neg := by
    have hn : near a b = b ∨ near a b = b.neg := by unfold near; split <;> simp
    have hnn : ∀ q : Quat ℝ, q.neg.neg = q := by intro q; ext <;> simp [Quat.neg]
    rw [slerp_form]
    by_cases h : 1 - |qdot a b| < eps
    · rw [if_pos h]
      have : comb (1 - 1) 1 a (near a b) = near a b := by ext <;> simp [comb]
      rw [this]; exact hn
    · rw [if_neg h]
      have hs := sin_arccos_pos |qdot a b| (abs_nonneg _) (by linarith)
      set θ := Real.arccos |qdot a b| with hθ
      have e1 : Real.sin (θ - 1 * (θ + spin * π)) = 0 := by
        have : θ - 1 * (θ + spin * π) = -(spin * π) := by ring
        rw [this, Real.sin_neg, Real.sin_int_mul_pi, neg_zero]
      have e2 : Real.sin (1 * (θ + spin * π)) = (-1) ^ spin * Real.sin θ := by
        rw [one_mul, Real.sin_add_int_mul_pi]
      rw [e1, e2, zero_div, mul_div_assoc, div_self hs.ne', mul_one]
      have e3 : comb 0 ((-1) ^ spin) a (near a b) = near a b ∨ comb 0 ((-1) ^ spin) a (near a b) = (near a b).neg := by
        rcases Int.even_or_odd spin with h | h
        · left; rw [h.neg_one_zpow]; ext <;> simp [comb]
        · right; rw [h.neg_one_zpow]; ext <;> simp [comb, Quat.neg]
      rcases e3 with e3 | e3 <;> rw [e3] <;> rcases hn with hn | hn <;> rw [hn]
      · exact Or.inl rfl
      · exact Or.inr rfl
      · exact Or.inr rfl
      · exact Or.inl (hnn b)
  refine ⟨?_, key, ?_⟩
  · rw [slerp_form]
    by_cases h : 1 - |qdot a b| < eps
    · rw [if_pos h]; ext <;> simp [comb]
    · rw [if_neg h]
      have hs := sin_arccos_pos |qdot a b| (abs_nonneg _) (by linarith)
      rw [zero_mul, sub_zero, Real.sin_zero, zero_div, div_self hs.ne']
      ext <;> simp [comb]
  · rcases key with h | h
    · rw [h]
    · rw [h, hneg]

theorem comb_sq (β α : ℝ) (a b : Quat ℝ) : (comb β α a b).sq = β * β * a.sq + α * α * b.sq + 2 * (α * β) * qdot a b := by
  simp only [comb, Quat.sq, qdot]; ring

/-- **C97.** Between unit quaternions that are not almost equal, interpolation gives unit quaternions, turned away from the
first by the fraction of the angle; between almost equal ones the length is between √(1 − tolerance/2) and 1 for fractions
between 0 and 1. -/
theorem slerp_unit (eps alpha : ℝ) (heps : 0 < eps) (a b : Quat ℝ) (ha : a.sq = 1) (hb : b.sq = 1) (spin : ℤ) :
    (eps ≤ 1 - |qdot a b| → (slerp eps alpha a b spin).sq = 1 ∧
      qdot a (slerp eps alpha a b spin) = Real.cos (alpha * (Real.arccos |qdot a b| + spin * π))) ∧
    (1 - |qdot a b| < eps → 0 ≤ alpha → alpha ≤ 1 →
      1 - eps / 2 ≤ (slerp eps alpha a b spin).sq ∧ (slerp eps alpha a b spin).sq ≤ 1) := by
  have hd := near_dot a b
  have hns := near_sq a b
  have hle := qdot_le a b ha hb
  constructor
  · intro h
    have hs := sin_arccos_pos |qdot a b| (abs_nonneg _) (by linarith)
    have hc : Real.cos (Real.arccos |qdot a b|) = |qdot a b| := Real.cos_arccos (by linarith [abs_nonneg (qdot a b)]) hle
    have h1 := Real.sin_sq_add_cos_sq (Real.arccos |qdot a b|)
    rw [slerp_form, if_neg (by linarith)]
    rw [Real.sin_sub]
    have h2 := Real.sin_sq_add_cos_sq (alpha * (Real.arccos |qdot a b| + spin * π))
    rw [hc] at h1 ⊢
    generalize Real.sin (Real.arccos |qdot a b|) = S at *
    generalize Real.sin (alpha * (Real.arccos |qdot a b| + spin * π)) = s at *
    generalize Real.cos (alpha * (Real.arccos |qdot a b| + spin * π)) = c at *
    constructor
    · rw [comb_sq, ha, hns, hb, hd]
      generalize |qdot a b| = C at *
      have hS := hs.ne'
      field_simp
      grind
    · have : ∀ β α : ℝ, qdot a (comb β α a (near a b)) = β * a.sq + α * qdot a (near a b) := by
        intro β α; simp only [qdot, comb, Quat.sq]; ring
      rw [this, ha, hd]
      field_simp
      ring
  · intro h h0 h1
    rw [slerp_form, if_pos h, comb_sq, ha, hns, hb, hd]
    have e : (1 - alpha) * (1 - alpha) * 1 + alpha * alpha * 1 + 2 * (alpha * (1 - alpha)) * |qdot a b| =
        1 - 2 * (alpha * (1 - alpha)) * (1 - |qdot a b|) := by ring
    rw [e]
    have hp : 0 ≤ alpha * (1 - alpha) := mul_nonneg h0 (by linarith)
    have hq : alpha * (1 - alpha) ≤ 1 / 4 := by nlinarith [mul_self_nonneg (alpha - 1 / 2)]
    constructor <;> nlinarith

/-- The sum of the weights. -/
def wsum (l : List (ℝ × Quat ℝ)) : ℝ := (l.map (·.1)).sum

/-- **C97.** Weighted interpolation of at least two quaternions with weights that are not negative, the first two not both
zero: there is a result exactly if the sum of the weights is 1 up to the tolerance. -/
theorem slerpN_some (eps tol : ℝ) (spin : ℤ) (n : ℕ) (w0 w1 : ℝ) (q0 q1 : Quat ℝ) (l : List (ℝ × Quat ℝ)) (hl : l.length = n)
    (h0 : 0 ≤ w0) (h1 : 0 ≤ w1) (hsum : 0 < w0 + w1) (hw : ∀ p ∈ l, 0 ≤ p.1) :
    (slerpN eps tol spin ((w0, q0) :: (w1, q1) :: l) ≠ none ↔ |wsum ((w0, q0) :: (w1, q1) :: l) - 1| < tol) := by
  induction n generalizing w0 w1 q0 q1 l with
  | zero =>
    have : l = [] := List.length_eq_zero_iff.1 hl
    subst this
    have e : wsum [(w0, q0), (w1, q1)] = w0 + w1 := by simp [wsum]
    rw [slerpN, e]
    by_cases h : |w0 + w1 - 1| < tol
    · rw [if_pos ⟨h, h0, h1⟩]; simp [h]
    · rw [if_neg (fun hh => h hh.1)]; simp [h]
  | succ n ih =>
    match l, hl, hw with
    | (w2, q2) :: l, hl, hw =>
      rw [slerpN]
      rw [if_neg hsum.ne']
      have h2 : 0 ≤ w2 := hw (w2, q2) (List.mem_cons_self)
      rw [ih (w0 + w1) w2 _ q2 l (by simpa using hl) hsum.le h2 (by linarith) (fun p hp => hw p (List.mem_cons_of_mem _ hp))]
      have e : wsum ((w0 + w1, slerp eps (w1 / (w0 + w1)) q0 q1 spin) :: (w2, q2) :: l) =
          wsum ((w0, q0) :: (w1, q1) :: (w2, q2) :: l) := by simp [wsum]; ring
      rw [e]

/-- **C97.** If the first two of at least three weights are zero, the weights are refused even though they are correct: all
weight on later quaternions cannot be interpolated. -/
theorem slerpN_zero (eps tol : ℝ) (ht : tol ≤ 1 / 2) (spin : ℤ) (q0 q1 q2 : Quat ℝ) (w2 : ℝ) (l : List (ℝ × Quat ℝ))
    (h2 : 0 ≤ w2) (hw : ∀ p ∈ l, 0 ≤ p.1) (hsum : |wsum ((0, q0) :: (0, q1) :: (w2, q2) :: l) - 1| < tol) :
    slerpN eps tol spin ((0, q0) :: (0, q1) :: (w2, q2) :: l) = none := by
  by_contra h
  rw [slerpN] at h
  simp only [add_zero, if_true] at h
  rw [← ne_eq, slerpN_some eps tol spin l.length 1 w2 _ q2 l rfl (by norm_num) h2 (by linarith) hw] at h
  have e : wsum ((1, slerp eps (0 / 1) q0 q1 spin) :: (w2, q2) :: l) = wsum ((0, q0) :: (0, q1) :: (w2, q2) :: l) + 1 := by
    simp [wsum]; ring
  rw [e, abs_lt] at h
  rw [abs_lt] at hsum
  linarith

/-! ## Concrete cases -/

/-- A rotation of 120 degrees about the diagonal: the axes are exchanged. -/
def exRot : M3 ℝ := ⟨⟨0, 0, 1⟩, ⟨1, 0, 0⟩, ⟨0, 1, 0⟩⟩
example : IsRot exRot := by
  constructor
  · ext <;> norm_num [exRot, M3.mul, M3.mulVec, M3.transpose, M3.one, dot]
  · norm_num [exRot, M3.det, dot, cross]
/-- Rotations by 180 degrees, where the first number of the quaternion is zero. -/
example : IsRot (⟨⟨1, 0, 0⟩, ⟨0, -1, 0⟩, ⟨0, 0, -1⟩⟩ : M3 ℚ) ∧ IsRot (⟨⟨-1, 0, 0⟩, ⟨0, 1, 0⟩, ⟨0, 0, -1⟩⟩ : M3 ℚ) ∧
    IsRot (⟨⟨-1, 0, 0⟩, ⟨0, -1, 0⟩, ⟨0, 0, 1⟩⟩ : M3 ℚ) ∧ IsRot (⟨⟨3/5, -4/5, 0⟩, ⟨4/5, 3/5, 0⟩, ⟨0, 0, 1⟩⟩ : M3 ℚ) := by
  unfold IsRot; decide +kernel
example : (⟨3/5, 0, 4/5, 0⟩ : Quat ℚ).sq = 1 ∧ (⟨3/5, 0, 4/5, 0⟩ : Quat ℚ).rotate ⟨1, 0, 0⟩ = some ⟨-7/25, 0, -24/25⟩ ∧
    (⟨3, 0, 4, 0⟩ : Quat ℚ).rotate ⟨1, 0, 0⟩ = some ⟨-7/25, 0, -24/25⟩ ∧
    (⟨3, 0, 4, 0⟩ : Quat ℚ).toM.mulVec ⟨1, 0, 0⟩ = ⟨-7, 0, -24⟩ := by decide +kernel
/-- Quaternions far apart for the interpolation. -/
example : (1 / 1000000 : ℝ) ≤ 1 - |qdot ⟨1, 0, 0, 0⟩ ⟨3/5, 4/5, 0, 0⟩| ∧ (⟨3/5, 4/5, 0, 0⟩ : Quat ℝ).sq = 1 := by
  norm_num [qdot, Quat.sq, abs_of_pos]
example : |wsum [(0, (⟨1, 0, 0, 0⟩ : Quat ℝ)), (0, ⟨0, 1, 0, 0⟩), (1, ⟨0, 0, 1, 0⟩)] - 1| < 1 / 1000000 := by
  norm_num [wsum]

/-- **C97.** For two quaternions the interpolation goes from the first to the second by the weight of the second; with the
whole weight on the first or second of several, the result is that one (as a rotation), whatever the others. -/
theorem slerpN_value (eps tol : ℝ) (heps : 0 < eps) (ht : 0 < tol) (spin : ℤ) (q0 q1 : Quat ℝ) :
    (∀ w, 0 ≤ w → w ≤ 1 → slerpN eps tol spin [(1 - w, q0), (w, q1)] = some (slerp eps w q0 q1 spin)) ∧
    (∀ l : List (Quat ℝ), slerpN eps tol spin ((1, q0) :: (0, q1) :: l.map (fun q => (0, q))) = some q0 ∧
      ∃ q, slerpN eps tol spin ((0, q0) :: (1, q1) :: l.map (fun q => (0, q))) = some q ∧ q.toM = q1.toM) := by
  have h1 : ∀ (l : List (Quat ℝ)) (a b : Quat ℝ), slerpN eps tol spin ((1, a) :: (0, b) :: l.map (fun q => (0, q))) = some a := by
    intro l
    induction l with
    | nil =>
      intro a b
      simp only [List.map_nil]
      rw [slerpN, if_pos (by norm_num; exact ht), (slerp_ends eps heps a b spin).1]
    | cons c l ih =>
      intro a b
      simp only [List.map_cons]
      rw [slerpN]
      simp only [add_zero, if_neg one_ne_zero, zero_div]
      rw [(slerp_ends eps heps a b spin).1]
      exact ih a c
  refine ⟨fun w h0 hw => ?_, fun l => ⟨h1 l q0 q1, ?_⟩⟩
  · rw [slerpN, if_pos ⟨by simpa using ht, by linarith, h0⟩]
  · refine ⟨slerp eps 1 q0 q1 spin, ?_, (slerp_ends eps heps q0 q1 spin).2.2⟩
    cases l with
    | nil =>
      simp only [List.map_nil]
      rw [slerpN, if_pos (by norm_num; exact ht)]
    | cons c l =>
      simp only [List.map_cons]
      rw [slerpN]
      simp only [zero_add, if_neg one_ne_zero, div_one]
      exact h1 l _ c

end Verif.Camera
