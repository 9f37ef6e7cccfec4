import Verif.Camera.Euler
import Verif.Camera.AxisProps
import Mathlib.Tactic.Tauto

/-
C100.  Euler angles.
-/

namespace Verif.Camera

set_option linter.unusedTactic false
set_option linter.unreachableTactic false
set_option linter.unnecessarySeqFocus false

open Real

/-! ## Specification -/

/-- The axis that a letter names. -/
def axisOf : Char → Option (V3 ℝ)
  | 'x' => some ⟨1, 0, 0⟩
  | 'X' => some ⟨1, 0, 0⟩
  | 'y' => some ⟨0, 1, 0⟩
  | 'Y' => some ⟨0, 1, 0⟩
  | 'z' => some ⟨0, 0, 1⟩
  | 'Z' => some ⟨0, 0, 1⟩
  | _ => none

/-- Rodrigues' formula: `v` turned by the angle `t` about the unit vector `u`, by the right hand rule. -/
noncomputable def turn (u : V3 ℝ) (t : ℝ) (v : V3 ℝ) : V3 ℝ :=
  (cos t * v + sin t * cross u v) + ((1 - cos t) * dot u v) * u

theorem sincos (t : ℝ) : sin t * sin t + cos t * cos t = 1 := by have := sin_sq_add_cos_sq t; nlinarith

theorem isRot_rotX (t : ℝ) : IsRot (rotX t) := by
  have := sincos t
  constructor
  · ext <;> simp only [rotX, M3.mul, M3.mulVec, M3.transpose, M3.one, dot] <;> grind
  · simp only [rotX, M3.det, dot, cross]; grind

theorem isRot_rotY (t : ℝ) : IsRot (rotY t) := by
  have := sincos t
  constructor
  · ext <;> simp only [rotY, M3.mul, M3.mulVec, M3.transpose, M3.one, dot] <;> grind
  · simp only [rotY, M3.det, dot, cross]; grind

theorem isRot_rotZ (t : ℝ) : IsRot (rotZ t) := by
  have := sincos t
  constructor
  · ext <;> simp only [rotZ, M3.mul, M3.mulVec, M3.transpose, M3.one, dot] <;> grind
  · simp only [rotZ, M3.det, dot, cross]; grind

theorem M3.mul_assoc' (a b c : M3 ℝ) : (a.mul b).mul c = a.mul (b.mul c) := by
  ext <;> simp only [M3.mul, M3.mulVec, M3.transpose, dot] <;> ring

theorem M3.mulVec_mul (a b : M3 ℝ) (v : V3 ℝ) : (a.mul b).mulVec v = a.mulVec (b.mulVec v) := by
  ext <;> simp only [M3.mul, M3.mulVec, M3.transpose, dot] <;> ring

theorem isRot_mul (a b : M3 ℝ) (ha : IsRot a) (hb : IsRot b) : IsRot (a.mul b) := by
  obtain ⟨ha, ha'⟩ := ha
  obtain ⟨hb, hb'⟩ := hb
  constructor
  · have e : (a.mul b).transpose = b.transpose.mul a.transpose := by
      ext <;> simp only [M3.mul, M3.mulVec, M3.transpose, dot] <;> ring
    have e1 : a.mul M3.one = a := by ext <;> simp [M3.mul, M3.mulVec, M3.transpose, M3.one, dot]
    rw [e, M3.mul_assoc', ← M3.mul_assoc' b, hb, ← M3.mul_assoc', e1, ha]
  · have e : (a.mul b).det = a.det * b.det := by
      simp only [M3.mul, M3.mulVec, M3.transpose, M3.det, dot, cross]; ring
    rw [e, ha', hb', one_mul]

theorem rotAxis_spec (t : ℝ) (c : Char) : (axisOf c = none → rotAxis t c = none) ∧
    ∀ u, axisOf c = some u → ∃ m, rotAxis t c = some m ∧ IsRot m ∧ ∀ v, m.mulVec v = turn u t v := by
  have hX : ∀ v, (rotX t).mulVec v = turn ⟨1, 0, 0⟩ t v := by
    intro v; ext <;> simp [rotX, M3.mulVec, turn, dot, cross] <;> ring
  have hY : ∀ v, (rotY t).mulVec v = turn ⟨0, 1, 0⟩ t v := by
    intro v; ext <;> simp [rotY, M3.mulVec, turn, dot, cross] <;> ring
  have hZ : ∀ v, (rotZ t).mulVec v = turn ⟨0, 0, 1⟩ t v := by
    intro v; ext <;> simp [rotZ, M3.mulVec, turn, dot, cross] <;> ring
  unfold rotAxis
  by_cases h1 : c = 'X' ∨ c = 'x'
  · rw [if_pos h1]
    have : axisOf c = some ⟨1, 0, 0⟩ := by rcases h1 with rfl | rfl <;> rfl
    rw [this]
    refine ⟨(fun h => by cases h), ?_⟩
    rintro u ⟨⟩
    exact ⟨_, rfl, isRot_rotX t, hX⟩
  rw [if_neg h1]
  by_cases h2 : c = 'Y' ∨ c = 'y'
  · rw [if_pos h2]
    have : axisOf c = some ⟨0, 1, 0⟩ := by rcases h2 with rfl | rfl <;> rfl
    rw [this]
    refine ⟨(fun h => by cases h), ?_⟩
    rintro u ⟨⟩
    exact ⟨_, rfl, isRot_rotY t, hY⟩
  rw [if_neg h2]
  by_cases h3 : c = 'Z' ∨ c = 'z'
  · rw [if_pos h3]
    have : axisOf c = some ⟨0, 0, 1⟩ := by rcases h3 with rfl | rfl <;> rfl
    rw [this]
    refine ⟨(fun h => by cases h), ?_⟩
    rintro u ⟨⟩
    exact ⟨_, rfl, isRot_rotZ t, hZ⟩
  rw [if_neg h3]
  have : axisOf c = none := by
    push Not at h1 h2 h3
    unfold axisOf
    split <;> simp_all
  rw [this]
  exact ⟨fun _ => rfl, (fun u h => by cases h)⟩

/-- **C100.** The matrix of three angles exists exactly for three letters that name axes; it is a rotation, the one that turns
by the first angle about the first axis, then by the second about the second and by the third about the third, all axes
fixed; the quaternion has the same matrix and length 1. -/
theorem euler_matrix (phi omega kappa : ℝ) (l : List Char) :
    (eulerM phi omega kappa l ≠ none ↔ ∃ a b c u v w, l = [a, b, c] ∧ axisOf a = some u ∧ axisOf b = some v ∧ axisOf c = some w) ∧
    ∀ m, eulerM phi omega kappa l = some m → IsRot m ∧
      (∀ a b c u v w, l = [a, b, c] → axisOf a = some u → axisOf b = some v → axisOf c = some w →
        ∀ x, m.mulVec x = turn w kappa (turn v omega (turn u phi x))) ∧
      ∃ q, eulerQ phi omega kappa l = some q ∧ q.toM = m ∧ q.sq = 1 := by
  have key : ∀ a b c u v w, l = [a, b, c] → axisOf a = some u → axisOf b = some v → axisOf c = some w →
      ∃ m, eulerM phi omega kappa l = some m ∧ IsRot m ∧ ∀ x, m.mulVec x = turn w kappa (turn v omega (turn u phi x)) := by
    rintro a b c u v w rfl ha hb hc
    obtain ⟨m1, e1, r1, s1⟩ := (rotAxis_spec phi a).2 u ha
    obtain ⟨m2, e2, r2, s2⟩ := (rotAxis_spec omega b).2 v hb
    obtain ⟨m3, e3, r3, s3⟩ := (rotAxis_spec kappa c).2 w hc
    refine ⟨(m3.mul m2).mul m1, by unfold eulerM; simp only [e1, e2, e3], isRot_mul _ _ (isRot_mul _ _ r3 r2) r1, ?_⟩
    intro x
    rw [M3.mulVec_mul, M3.mulVec_mul, s1, s2, s3]
  have ex : ∀ m, eulerM phi omega kappa l = some m →
      ∃ a b c u v w, l = [a, b, c] ∧ axisOf a = some u ∧ axisOf b = some v ∧ axisOf c = some w := by
    intro m h
    unfold eulerM at h
    match l, h with
    | [], h => cases h
    | [_], h => cases h
    | [_, _], h => cases h
    | _ :: _ :: _ :: _ :: _, h => cases h
    | [a, b, c], h =>
      simp only at h
      rcases ha : axisOf a with _ | u
      · rw [(rotAxis_spec phi a).1 ha] at h; simp at h
      rcases hb : axisOf b with _ | v
      · rw [(rotAxis_spec omega b).1 hb] at h; simp at h
      rcases hc : axisOf c with _ | w
      · rw [(rotAxis_spec kappa c).1 hc] at h; simp at h
      exact ⟨a, b, c, u, v, w, rfl, ha, hb, hc⟩
  refine ⟨⟨?_, ?_⟩, ?_⟩
  · intro h
    obtain ⟨m, hm⟩ := Option.ne_none_iff_exists'.1 h
    exact ex m hm
  · rintro ⟨a, b, c, u, v, w, h, ha, hb, hc⟩
    obtain ⟨m, hm, -⟩ := key a b c u v w h ha hb hc
    rw [hm]; simp
  · intro m hm
    obtain ⟨a, b, c, u, v, w, h, ha, hb, hc⟩ := ex m hm
    obtain ⟨m', hm', hr, -⟩ := key a b c u v w h ha hb hc
    rw [hm] at hm'; cases hm'
    obtain ⟨g1, g2⟩ := ofM_toM Real.sqrt isSqrt_real m hr
    refine ⟨hr, ?_, _, by unfold eulerQ; rw [hm]; rfl, g1, g2⟩
    intro a b c u v w h ha hb hc
    obtain ⟨m', hm', -, hx⟩ := key a b c u v w h ha hb hc
    rw [hm] at hm'; cases hm'
    exact hx

/-- The comment says that the second and third turn are about the new axes, those moved along by the turns before: for a
quarter turn about x and one about y that is not the matrix. -/
theorem euler_new_axes : ∃ m, eulerM (π / 2) (π / 2) 0 ['x', 'y', 'z'] = some m ∧
    m.mulVec ⟨0, 1, 0⟩ ≠ turn ((rotX (π / 2)).mulVec ⟨0, 1, 0⟩) (π / 2) (turn ⟨1, 0, 0⟩ (π / 2) ⟨0, 1, 0⟩) := by
  refine ⟨_, rfl, ?_⟩
  intro h
  have := congrArg V3.x h
  simp [rotX, rotY, rotZ, M3.mul, M3.mulVec, M3.transpose, turn, dot, cross] at this

/-! ## From the matrix -/

/-- `f` gives the angles of the rotations of the order `l`: in the ranges; the matrix comes back if the second angle is not a
right angle, and then the angles come back, too. -/
def Inverts (l : List Char) (f : M3 ℝ → Option (V3 ℝ)) : Prop :=
  (∀ m, IsRot m → ∃ v, f m = some v ∧ (-π < v.x ∧ v.x ≤ π) ∧ |v.y| ≤ π / 2 ∧ (-π < v.z ∧ v.z ≤ π) ∧
    (|v.y| < π / 2 → eulerM v.x v.y v.z l = some m) ∧ (|v.y| = π / 2 → v.x = 0 ∧ v.z = 0)) ∧
  ∀ v : V3 ℝ, (-π < v.x ∧ v.x ≤ π) → |v.y| < π / 2 → (-π < v.z ∧ v.z ≤ π) → ∃ m, eulerM v.x v.y v.z l = some m ∧ f m = some v

theorem atan2_range (y x : ℝ) : -π < atan2 y x ∧ atan2 y x ≤ π := ⟨Complex.neg_pi_lt_arg _, Complex.arg_le_pi _⟩

theorem atan2_zero : atan2 0 0 = 0 := by
  unfold atan2
  have : (⟨0, 0⟩ : ℂ) = 0 := rfl
  rw [this, Complex.arg_zero]

theorem atan2_polar (c t : ℝ) (hc : 0 < c) (h1 : -π < t) (h2 : t ≤ π) : atan2 (c * sin t) (c * cos t) = t := by
  unfold atan2
  have := Complex.arg_mul_cos_add_sin_mul_I hc ⟨h1, h2⟩
  refine Eq.trans ?_ this
  congr 1
  apply Complex.ext <;> simp [Complex.cos_ofReal_re, Complex.sin_ofReal_re, Complex.cos_ofReal_im, Complex.sin_ofReal_im]

theorem atan2_sqrt (s : ℝ) (h1 : -1 ≤ s) (h2 : s ≤ 1) : atan2 s (√(1 - s * s)) = arcsin s := by
  have h : s = sin (arcsin s) := (sin_arcsin h1 h2).symm
  have hc : √(1 - s * s) = cos (arcsin s) := by rw [cos_arcsin, pow_two]
  rcases (cos_arcsin_nonneg s).lt_or_eq with h0 | h0
  · have := atan2_polar 1 (arcsin s) one_pos (by linarith [neg_pi_div_two_le_arcsin s, pi_pos]) (by linarith [arcsin_le_pi_div_two s, pi_pos])
    rw [one_mul, one_mul] at this
    rw [← h] at this
    rw [hc]
    exact this
  · have hss : s * s = 1 := by
      have := sincos (arcsin s); rw [← h0, ← h] at this; linarith
    have : √(1 - s * s) = 0 := by rw [hss]; simp
    rw [this]
    rcases (show s = 1 ∨ s = -1 by
      have : (s - 1) * (s + 1) = 0 := by linarith
      rcases mul_eq_zero.1 this with h | h
      · left; linarith
      · right; linarith) with rfl | rfl
    · rw [arcsin_one]
      have := atan2_polar 1 (π / 2) one_pos (by linarith [pi_pos]) (by linarith [pi_pos])
      simpa using this
    · rw [arcsin_neg_one]
      have := atan2_polar 1 (-(π / 2)) one_pos (by linarith [pi_pos]) (by linarith [pi_pos])
      simpa using this

/-- What the four functions have in common. -/
theorem angles_core (s a b p q : ℝ) (h1 : s * s + a * a + b * b = 1) (h2 : s * s + p * p + q * q = 1) :
    (-1 ≤ s ∧ s ≤ 1) ∧ |arcsin s| ≤ π / 2 ∧ (|arcsin s| = π / 2 → atan2 a b = 0 ∧ atan2 p q = 0) ∧
    (|arcsin s| < π / 2 → ∃ c, 0 < c ∧ cos (arcsin s) = c ∧ sin (arcsin s) = s ∧ s * s + c * c = 1 ∧
      sin (atan2 a b) = a / c ∧ cos (atan2 a b) = b / c ∧ sin (atan2 p q) = p / c ∧ cos (atan2 p q) = q / c) := by
  have hs : -1 ≤ s ∧ s ≤ 1 := by constructor <;> nlinarith [mul_self_nonneg a, mul_self_nonneg b]
  have hle : |arcsin s| ≤ π / 2 := abs_le.2 ⟨by linarith [neg_pi_div_two_le_arcsin s], arcsin_le_pi_div_two s⟩
  have hsin := sin_arcsin hs.1 hs.2
  refine ⟨hs, hle, ?_, ?_⟩
  · intro h
    have hss : s * s = 1 := by
      rcases (abs_eq (by linarith [pi_pos])).1 h with h | h
      · rw [h, sin_pi_div_two] at hsin; rw [← hsin]; ring
      · rw [h, sin_neg, sin_pi_div_two] at hsin; rw [← hsin]; ring
    have z : ∀ x y : ℝ, x * x + y * y = 0 → x = 0 ∧ y = 0 := by
      intro x y h
      constructor <;> nlinarith [mul_self_nonneg x, mul_self_nonneg y]
    obtain ⟨rfl, rfl⟩ := z a b (by linarith)
    obtain ⟨rfl, rfl⟩ := z p q (by linarith)
    exact ⟨atan2_zero, atan2_zero⟩
  · intro h
    obtain ⟨g1, g2⟩ := abs_lt.1 h
    have hc := cos_pos_of_mem_Ioo ⟨g1, g2⟩
    have e := sincos (arcsin s)
    rw [hsin] at e
    obtain ⟨a1, a2, -⟩ := atan2_spec a b _ hc (by linarith)
    obtain ⟨b1, b2, -⟩ := atan2_spec p q _ hc (by linarith)
    exact ⟨_, hc, rfl, hsin, e, a2, a1, b2, b1⟩

theorem abs_lt_cos (y : ℝ) (h : |y| < π / 2) : 0 < cos y ∧ arcsin (sin y) = y := by
  obtain ⟨g1, g2⟩ := abs_lt.1 h
  exact ⟨cos_pos_of_mem_Ioo ⟨g1, g2⟩, arcsin_sin g1.le g2.le⟩


theorem asin?_some (s : ℝ) (h : -1 ≤ s ∧ s ≤ 1) : asin? s = some (arcsin s) := if_pos h

theorem sqrt?_some (s : ℝ) (h : -1 ≤ s ∧ s ≤ 1) : sqrt? (1 - s * s) = some (√(1 - s * s)) := if_pos (by nlinarith)

theorem toXYZ_inv : Inverts ['x', 'y', 'z'] toXYZ := by
  constructor
  · intro m hm
    obtain ⟨c0, c1, c2, c3, c4, c5, c6, c7, c8, n0, n1, n2, m0, m1, m2, o01, o02, o12, p01, p02, p12⟩ := rotIds m hm
    obtain ⟨⟨a, b, c⟩, ⟨d, e, f⟩, ⟨g, h, i⟩⟩ := m
    simp only at *
    obtain ⟨hs, hle, hlock, hfree⟩ := angles_core (-g) (h) (i) (d) (a) (by linarith) (by linarith)
    refine ⟨_, by unfold toXYZ; simp only [asin?_some _ hs]; rfl, atan2_range _ _, hle, atan2_range _ _, ?_, ?_⟩
    · intro hlt
      obtain ⟨k, hk, e1, e2, e3, e4, e5, e6, e7⟩ := hfree hlt
      have hk0 := hk.ne'
      have hkk : k * k ≠ 0 := mul_ne_zero hk0 hk0
      simp only [eulerM, rotAxis, if_true, or_true, or_self, if_false, Char.reduceEq]
      congr 1
      ext <;> simp only [rotX, rotY, rotZ, M3.mul, M3.mulVec, M3.transpose, dot, e1, e2, e4, e5, e6, e7] <;> field_simp <;> grind
    · intro hl
      exact ⟨(hlock hl).1, (hlock hl).2⟩
  · intro v hx hy hz
    obtain ⟨hc, ha⟩ := abs_lt_cos v.y hy
    obtain ⟨m, hm⟩ : ∃ m, m = ((rotZ v.z).mul (rotY v.y)).mul (rotX v.x) := ⟨_, rfl⟩
    refine ⟨m, by rw [hm]; rfl, ?_⟩
    have r1 := atan2_polar (cos v.y) v.x hc hx.1 hx.2
    have r2 := atan2_polar (cos v.y) v.z hc hz.1 hz.2
    have hs := And.intro (neg_one_le_sin v.y) (sin_le_one v.y)
    have f1 : -m.r2.x = sin v.y := by rw [hm]; simp [rotX, rotY, rotZ, M3.mul, M3.mulVec, M3.transpose, dot]
    have f2 : m.r2.y = cos v.y * sin v.x := by rw [hm]; simp [rotX, rotY, rotZ, M3.mul, M3.mulVec, M3.transpose, dot] <;> ring
    have f3 : m.r2.z = cos v.y * cos v.x := by rw [hm]; simp [rotX, rotY, rotZ, M3.mul, M3.mulVec, M3.transpose, dot] <;> ring
    have f4 : m.r1.x = cos v.y * sin v.z := by rw [hm]; simp [rotX, rotY, rotZ, M3.mul, M3.mulVec, M3.transpose, dot] <;> ring
    have f5 : m.r0.x = cos v.y * cos v.z := by rw [hm]; simp [rotX, rotY, rotZ, M3.mul, M3.mulVec, M3.transpose, dot] <;> ring
    unfold toXYZ
    simp only [f1, f2, f3, f4, f5]
    simp only [asin?_some _ hs, ha, r1, r2]

theorem toZYX_inv : Inverts ['z', 'y', 'x'] toZYX := by
  constructor
  · intro m hm
    obtain ⟨c0, c1, c2, c3, c4, c5, c6, c7, c8, n0, n1, n2, m0, m1, m2, o01, o02, o12, p01, p02, p12⟩ := rotIds m hm
    obtain ⟨⟨a, b, c⟩, ⟨d, e, f⟩, ⟨g, h, i⟩⟩ := m
    simp only at *
    obtain ⟨hs, hle, hlock, hfree⟩ := angles_core (c) (-b) (a) (-f) (i) (by linarith) (by linarith)
    refine ⟨_, by unfold toZYX; simp only [asin?_some _ hs]; rfl, atan2_range _ _, hle, atan2_range _ _, ?_, ?_⟩
    · intro hlt
      obtain ⟨k, hk, e1, e2, e3, e4, e5, e6, e7⟩ := hfree hlt
      have hk0 := hk.ne'
      have hkk : k * k ≠ 0 := mul_ne_zero hk0 hk0
      simp only [eulerM, rotAxis, if_true, or_true, or_self, if_false, Char.reduceEq]
      congr 1
      ext <;> simp only [rotX, rotY, rotZ, M3.mul, M3.mulVec, M3.transpose, dot, e1, e2, e4, e5, e6, e7] <;> field_simp <;> grind
    · intro hl
      exact ⟨(hlock hl).1, (hlock hl).2⟩
  · intro v hx hy hz
    obtain ⟨hc, ha⟩ := abs_lt_cos v.y hy
    obtain ⟨m, hm⟩ : ∃ m, m = ((rotX v.z).mul (rotY v.y)).mul (rotZ v.x) := ⟨_, rfl⟩
    refine ⟨m, by rw [hm]; rfl, ?_⟩
    have r1 := atan2_polar (cos v.y) v.x hc hx.1 hx.2
    have r2 := atan2_polar (cos v.y) v.z hc hz.1 hz.2
    have hs := And.intro (neg_one_le_sin v.y) (sin_le_one v.y)
    have f1 : m.r0.z = sin v.y := by rw [hm]; simp [rotX, rotY, rotZ, M3.mul, M3.mulVec, M3.transpose, dot]
    have f2 : -m.r0.y = cos v.y * sin v.x := by rw [hm]; simp [rotX, rotY, rotZ, M3.mul, M3.mulVec, M3.transpose, dot] <;> ring
    have f3 : m.r0.x = cos v.y * cos v.x := by rw [hm]; simp [rotX, rotY, rotZ, M3.mul, M3.mulVec, M3.transpose, dot] <;> ring
    have f4 : -m.r1.z = cos v.y * sin v.z := by rw [hm]; simp [rotX, rotY, rotZ, M3.mul, M3.mulVec, M3.transpose, dot] <;> ring
    have f5 : m.r2.z = cos v.y * cos v.z := by rw [hm]; simp [rotX, rotY, rotZ, M3.mul, M3.mulVec, M3.transpose, dot] <;> ring
    unfold toZYX
    simp only [f1, f2, f3, f4, f5]
    simp only [asin?_some _ hs, ha, r1, r2]

theorem toYXZ_inv : Inverts ['y', 'x', 'z'] toYXZ := by
  constructor
  · intro m hm
    obtain ⟨c0, c1, c2, c3, c4, c5, c6, c7, c8, n0, n1, n2, m0, m1, m2, o01, o02, o12, p01, p02, p12⟩ := rotIds m hm
    obtain ⟨⟨a, b, c⟩, ⟨d, e, f⟩, ⟨g, h, i⟩⟩ := m
    simp only at *
    obtain ⟨hs, hle, hlock, hfree⟩ := angles_core (h) (-g) (i) (-b) (e) (by linarith) (by linarith)
    refine ⟨_, by unfold toYXZ; simp only [sqrt?_some _ hs, atan2_sqrt _ hs.1 hs.2]; rfl, atan2_range _ _, hle, atan2_range _ _, ?_, ?_⟩
    · intro hlt
      obtain ⟨k, hk, e1, e2, e3, e4, e5, e6, e7⟩ := hfree hlt
      have hk0 := hk.ne'
      have hkk : k * k ≠ 0 := mul_ne_zero hk0 hk0
      simp only [eulerM, rotAxis, if_true, or_true, or_self, if_false, Char.reduceEq]
      congr 1
      ext <;> simp only [rotX, rotY, rotZ, M3.mul, M3.mulVec, M3.transpose, dot, e1, e2, e4, e5, e6, e7] <;> field_simp <;> grind
    · intro hl
      exact ⟨(hlock hl).1, (hlock hl).2⟩
  · intro v hx hy hz
    obtain ⟨hc, ha⟩ := abs_lt_cos v.y hy
    obtain ⟨m, hm⟩ : ∃ m, m = ((rotZ v.z).mul (rotX v.y)).mul (rotY v.x) := ⟨_, rfl⟩
    refine ⟨m, by rw [hm]; rfl, ?_⟩
    have r1 := atan2_polar (cos v.y) v.x hc hx.1 hx.2
    have r2 := atan2_polar (cos v.y) v.z hc hz.1 hz.2
    have hs := And.intro (neg_one_le_sin v.y) (sin_le_one v.y)
    have f1 : m.r2.y = sin v.y := by rw [hm]; simp [rotX, rotY, rotZ, M3.mul, M3.mulVec, M3.transpose, dot]
    have f2 : -m.r2.x = cos v.y * sin v.x := by rw [hm]; simp [rotX, rotY, rotZ, M3.mul, M3.mulVec, M3.transpose, dot] <;> ring
    have f3 : m.r2.z = cos v.y * cos v.x := by rw [hm]; simp [rotX, rotY, rotZ, M3.mul, M3.mulVec, M3.transpose, dot] <;> ring
    have f4 : -m.r0.y = cos v.y * sin v.z := by rw [hm]; simp [rotX, rotY, rotZ, M3.mul, M3.mulVec, M3.transpose, dot] <;> ring
    have f5 : m.r1.y = cos v.y * cos v.z := by rw [hm]; simp [rotX, rotY, rotZ, M3.mul, M3.mulVec, M3.transpose, dot] <;> ring
    unfold toYXZ
    simp only [f1, f2, f3, f4, f5]
    simp only [sqrt?_some _ hs, atan2_sqrt _ hs.1 hs.2, ha, r1, r2]

theorem toZXY_inv : Inverts ['z', 'x', 'y'] toZXY := by
  constructor
  · intro m hm
    obtain ⟨c0, c1, c2, c3, c4, c5, c6, c7, c8, n0, n1, n2, m0, m1, m2, o01, o02, o12, p01, p02, p12⟩ := rotIds m hm
    obtain ⟨⟨a, b, c⟩, ⟨d, e, f⟩, ⟨g, h, i⟩⟩ := m
    simp only at *
    obtain ⟨hs, hle, hlock, hfree⟩ := angles_core (-f) (d) (e) (c) (i) (by linarith) (by linarith)
    refine ⟨_, by unfold toZXY; simp only [sqrt?_some _ hs, atan2_sqrt _ hs.1 hs.2]; rfl, atan2_range _ _, hle, atan2_range _ _, ?_, ?_⟩
    · intro hlt
      obtain ⟨k, hk, e1, e2, e3, e4, e5, e6, e7⟩ := hfree hlt
      have hk0 := hk.ne'
      have hkk : k * k ≠ 0 := mul_ne_zero hk0 hk0
      simp only [eulerM, rotAxis, if_true, or_true, or_self, if_false, Char.reduceEq]
      congr 1
      ext <;> simp only [rotX, rotY, rotZ, M3.mul, M3.mulVec, M3.transpose, dot, e1, e2, e4, e5, e6, e7] <;> field_simp <;> grind
    · intro hl
      exact ⟨(hlock hl).1, (hlock hl).2⟩
  · intro v hx hy hz
    obtain ⟨hc, ha⟩ := abs_lt_cos v.y hy
    obtain ⟨m, hm⟩ : ∃ m, m = ((rotY v.z).mul (rotX v.y)).mul (rotZ v.x) := ⟨_, rfl⟩
    refine ⟨m, by rw [hm]; rfl, ?_⟩
    have r1 := atan2_polar (cos v.y) v.x hc hx.1 hx.2
    have r2 := atan2_polar (cos v.y) v.z hc hz.1 hz.2
    have hs := And.intro (neg_one_le_sin v.y) (sin_le_one v.y)
    have f1 : -m.r1.z = sin v.y := by rw [hm]; simp [rotX, rotY, rotZ, M3.mul, M3.mulVec, M3.transpose, dot]
    have f2 : m.r1.x = cos v.y * sin v.x := by rw [hm]; simp [rotX, rotY, rotZ, M3.mul, M3.mulVec, M3.transpose, dot] <;> ring
    have f3 : m.r1.y = cos v.y * cos v.x := by rw [hm]; simp [rotX, rotY, rotZ, M3.mul, M3.mulVec, M3.transpose, dot] <;> ring
    have f4 : m.r0.z = cos v.y * sin v.z := by rw [hm]; simp [rotX, rotY, rotZ, M3.mul, M3.mulVec, M3.transpose, dot] <;> ring
    have f5 : m.r2.z = cos v.y * cos v.z := by rw [hm]; simp [rotX, rotY, rotZ, M3.mul, M3.mulVec, M3.transpose, dot] <;> ring
    unfold toZXY
    simp only [f1, f2, f3, f4, f5]
    simp only [sqrt?_some _ hs, atan2_sqrt _ hs.1 hs.2, ha, r1, r2]

/-- **C100.** The four functions that take angles from a rotation matrix give angles in the ranges (-π, π], [-π/2, π/2],
(-π, π]; if the second is not a right angle, the matrix of the angles is the given one, and the angles of the matrix of such
angles are these angles. -/
theorem euler_round : Inverts ['x', 'y', 'z'] toXYZ ∧ Inverts ['z', 'y', 'x'] toZYX ∧ Inverts ['y', 'x', 'z'] toYXZ ∧
    Inverts ['z', 'x', 'y'] toZXY := ⟨toXYZ_inv, toZYX_inv, toYXZ_inv, toZXY_inv⟩

theorem euler_some (l : List Char) (h : l = ['x', 'y', 'z'] ∨ l = ['z', 'y', 'x'] ∨ l = ['y', 'x', 'z'] ∨ l = ['z', 'x', 'y'])
    (a b c : ℝ) : ∃ m, eulerM a b c l = some m := by
  rcases h with rfl | rfl | rfl | rfl <;> exact ⟨_, rfl⟩

/-- **C100**, refuted where the second angle is a right angle: of the rotations by `t`, a right angle and 0, which differ for
different `t`, all have the angles 0, a right angle and 0, whose matrix is another one unless `t` is a multiple of 2π. -/
theorem euler_lock (l : List Char) (f : M3 ℝ → Option (V3 ℝ)) (h : (l = ['x', 'y', 'z'] ∧ f = toXYZ) ∨
    (l = ['z', 'y', 'x'] ∧ f = toZYX) ∨ (l = ['y', 'x', 'z'] ∧ f = toYXZ) ∨ (l = ['z', 'x', 'y'] ∧ f = toZXY)) (t : ℝ) :
    ∃ m, eulerM t (π / 2) 0 l = some m ∧ IsRot m ∧ f m = some ⟨0, π / 2, 0⟩ ∧ (cos t ≠ 1 → eulerM 0 (π / 2) 0 l ≠ some m) := by
  have hl : l = ['x', 'y', 'z'] ∨ l = ['z', 'y', 'x'] ∨ l = ['y', 'x', 'z'] ∨ l = ['z', 'x', 'y'] := by tauto
  have hi : Inverts l f := by
    rcases h with ⟨rfl, rfl⟩ | ⟨rfl, rfl⟩ | ⟨rfl, rfl⟩ | ⟨rfl, rfl⟩
    · exact toXYZ_inv
    · exact toZYX_inv
    · exact toYXZ_inv
    · exact toZXY_inv
  obtain ⟨m, hm⟩ := euler_some l hl t (π / 2) 0
  have hr := ((euler_matrix t (π / 2) 0 l).2 m hm).1
  refine ⟨m, hm, hr, ?_, ?_⟩
  · obtain ⟨v, hv, -, hy, -, -, hk⟩ := hi.1 m hr
    have hvy : v.y = π / 2 := by
      have e1 : arcsin (sin (π / 2)) = π / 2 := by rw [sin_pi_div_two, arcsin_one]
      have e2 : atan2 1 0 = π / 2 := by
        have := atan2_polar 1 (π / 2) one_pos (by linarith [pi_pos]) (by linarith [pi_pos])
        simpa using this
      rcases h with ⟨rfl, rfl⟩ | ⟨rfl, rfl⟩ | ⟨rfl, rfl⟩ | ⟨rfl, rfl⟩
      all_goals
        simp only [eulerM, rotAxis, if_true, or_true, or_self, if_false, Char.reduceEq, Option.some.injEq] at hm
        subst hm
        simp [toXYZ, toZYX, toYXZ, toZXY, asin?, sqrt?, rotX, rotY, rotZ, M3.mul, M3.mulVec, M3.transpose, dot, e2] at hv
        rw [← hv]
    obtain ⟨a, b⟩ := hk (by rw [hvy, abs_of_pos (by linarith [pi_pos])])
    rw [hv]; congr 1; ext
    · exact a
    · exact hvy
    · exact b
  · intro hc he
    rcases hl with rfl | rfl | rfl | rfl
    all_goals
      simp only [eulerM, rotAxis, if_true, or_true, or_self, if_false, Char.reduceEq, Option.some.injEq] at hm he
      rw [← hm] at he
      simp [rotX, rotY, rotZ, M3.mul, M3.mulVec, M3.transpose, dot] at he
      grind

/-! ## Quaternions -/

/-- **C100.** The quaternion of xyz angles is a unit, its matrix the one of the angles. -/
theorem xyzQ_spec (v : V3 ℝ) : (xyzQ v).sq = 1 ∧ eulerM v.x v.y v.z ['x', 'y', 'z'] = some (xyzQ v).toM := by
  have d : ∀ t : ℝ, cos t = cos (t * (1 / 2)) * cos (t * (1 / 2)) - sin (t * (1 / 2)) * sin (t * (1 / 2)) ∧
      sin t = 2 * (sin (t * (1 / 2)) * cos (t * (1 / 2))) := by
    intro t
    have h : t = t * (1 / 2) + t * (1 / 2) := by ring
    constructor
    · conv_lhs => rw [h, cos_add]
    · conv_lhs => rw [h, sin_add]
      ring
  obtain ⟨x1, x2⟩ := d v.x
  obtain ⟨y1, y2⟩ := d v.y
  obtain ⟨z1, z2⟩ := d v.z
  have x3 := sincos (v.x * (1 / 2))
  have y3 := sincos (v.y * (1 / 2))
  have z3 := sincos (v.z * (1 / 2))
  have hm : eulerM v.x v.y v.z ['x', 'y', 'z'] = some (((rotZ v.z).mul (rotY v.y)).mul (rotX v.x)) := rfl
  rw [hm]
  simp only [rotX, rotY, rotZ, x1, x2, y1, y2, z1, z2]
  unfold xyzQ
  generalize sin (v.x * (1 / 2)) = a at *
  generalize cos (v.x * (1 / 2)) = b at *
  generalize sin (v.y * (1 / 2)) = c at *
  generalize cos (v.y * (1 / 2)) = e at *
  generalize sin (v.z * (1 / 2)) = f at *
  generalize cos (v.z * (1 / 2)) = g at *
  constructor
  · simp only [Quat.sq]
    linear_combination (e * e + c * c) * (f * f + g * g) * x3 + (f * f + g * g) * y3 + z3
  · congr 1
    ext <;> simp only [Quat.toM, M3.mul, M3.mulVec, M3.transpose, dot] <;> grind

/-- **C100.** The xyz angles of a unit quaternion, if it is not within the threshold of a right angle: in the ranges, and the
quaternion of the angles is the given one up to sign, which is to say the same rotation. -/
theorem qXYZ_round (thr : ℝ) (h1 : thr < 1 / 2) (q : Quat ℝ) (hq : q.sq = 1) (hl : |q.w * q.y - q.z * q.x| ≤ thr) :
    ∃ v, qXYZ thr q = some v ∧ toXYZ q.toM = some v ∧ |v.y| < π / 2 ∧ (xyzQ v).toM = q.toM ∧ (xyzQ v = q ∨ xyzQ v = q.neg) := by
  obtain ⟨v, hv, hx, hy, hz, hm, hk⟩ := toXYZ_inv.1 q.toM ((toM_rot q).2.2 hq)
  obtain ⟨g1, g2⟩ := abs_le.1 hl
  have e : qXYZ thr q = some v := by
    rw [← hv]
    unfold qXYZ toXYZ
    simp only
    rw [if_neg (not_lt.2 g2), if_neg (not_lt.2 g1)]
    simp only [Quat.toM]
    unfold Quat.sq at hq
    have a1 : 2 * (q.w * q.y - q.z * q.x) = -(2 * (q.z * q.x - q.w * q.y)) := by ring
    have a2 : 1 - 2 * (q.x * q.x + q.y * q.y) = q.w * q.w - q.x * q.x - q.y * q.y + q.z * q.z := by linarith
    have a3 : 1 - 2 * (q.y * q.y + q.z * q.z) = q.w * q.w + q.x * q.x - q.y * q.y - q.z * q.z := by linarith
    have a4 : q.w * q.x + q.y * q.z = q.y * q.z + q.w * q.x := by ring
    have a5 : q.w * q.z + q.x * q.y = q.x * q.y + q.w * q.z := by ring
    rw [a1, a2, a3, a4, a5]
  have hlt : |v.y| < π / 2 := by
    unfold toXYZ at hv
    rw [asin?_some _ (by simp only [Quat.toM]; constructor <;> linarith)] at hv
    simp only [Option.some.injEq] at hv
    rw [← hv]
    simp only [Quat.toM]
    rw [abs_lt]
    constructor
    · rw [neg_pi_div_two_lt_arcsin]; linarith
    · rw [arcsin_lt_pi_div_two]; linarith
  obtain ⟨s1, s2⟩ := xyzQ_spec v
  have hm' := hm hlt
  rw [s2] at hm'
  simp only [Option.some.injEq] at hm'
  exact ⟨v, e, hv, hlt, hm', toM_inj _ _ hm' (by rw [s1, hq])⟩

theorem lock_core (w z T : ℝ) (x y : ℝ) (hq : w * w + x * x + y * y + z * z = 1) (hT : 0 < T) (hd : T = w * y - z * x) :
    ∃ r, 0 < r ∧ cos (atan2 z w) = w / r ∧ sin (atan2 z w) = z / r ∧ r * r = w * w + z * z ∧
      √(2 * T) ≤ √2 / 2 * (r * r + T) / r ∧ (T = 1 / 2 → y = w ∧ x = -z ∧ √2 / 2 = r) := by
  have hpos : 0 < w * w + z * z := by
    by_contra h
    have hw : w = 0 := by nlinarith [mul_self_nonneg w, mul_self_nonneg z]
    have hz : z = 0 := by nlinarith [mul_self_nonneg w, mul_self_nonneg z]
    rw [hw, hz] at hd; linarith
  have hr := sqrt_pos.2 hpos
  have hrr := mul_self_sqrt hpos.le
  obtain ⟨a1, a2, -⟩ := atan2_spec z w _ hr hrr.symm
  have h2 : √2 * √2 = 2 := mul_self_sqrt (by norm_num)
  have h2p : 0 < √2 := sqrt_pos.2 (by norm_num)
  refine ⟨_, hr, a1, a2, hrr, ?_, ?_⟩
  · generalize √(w * w + z * z) = r at *
    rw [le_div_iff₀ hr]
    have hT2 := mul_self_sqrt (show 0 ≤ 2 * T by linarith)
    have hTn := sqrt_nonneg (2 * T)
    generalize √(2 * T) = u at *
    apply le_of_sq_le_sq (by
      have : (u * r) ^ 2 = 2 * T * (r * r) := by rw [← hT2]; ring
      rw [this]
      have : (√2 / 2 * (r * r + T)) ^ 2 = (√2 * √2) / 4 * (r * r + T) ^ 2 := by ring
      rw [this, h2]
      nlinarith [sq_nonneg (r * r - T)]) (by positivity)
  · intro h
    have e : (y - w) * (y - w) + (x + z) * (x + z) = 0 := by rw [h] at hd; linear_combination hq + 2 * hd
    have e1 : y - w = 0 := by nlinarith [mul_self_nonneg (y - w), mul_self_nonneg (x + z)]
    have e2 : x + z = 0 := by nlinarith [mul_self_nonneg (y - w), mul_self_nonneg (x + z)]
    have y' : y = w := by linarith
    have x' : x = -z := by linarith
    refine ⟨y', x', ?_⟩
    have : w * w + z * z = 1 / 2 := by rw [y', x'] at hq; linarith
    rw [this] at hrr ⊢
    have : (√2 / 2 - √(1 / 2)) * (√2 / 2 + √(1 / 2)) = 0 := by linear_combination h2 / 4 - hrr
    rcases mul_eq_zero.1 this with h | h
    · linarith
    · have := sqrt_nonneg (1 / 2 : ℝ); linarith

/-- **C100.** Within the threshold of a right angle: the second angle is the right angle, the third zero, and the
quaternion of the angles is near the given one: the cosine of the angle between the two is at least the square root of twice
the tested number, so 1 at the right angle itself, where the rotation comes back exactly. -/
theorem qXYZ_lock (thr : ℝ) (h0 : 0 < thr) (q : Quat ℝ) (hq : q.sq = 1) (hl : thr < |q.w * q.y - q.z * q.x|) :
    ∃ v, qXYZ thr q = some v ∧ (v.y = π / 2 ∨ v.y = -π / 2) ∧ (0 < v.y ↔ 0 < q.w * q.y - q.z * q.x) ∧ v.z = 0 ∧
      √(2 * |q.w * q.y - q.z * q.x|) ≤ qdot q (xyzQ v) ∧ (|q.w * q.y - q.z * q.x| = 1 / 2 → xyzQ v = q) := by
  have hq' : q.w * q.w + q.x * q.x + q.y * q.y + q.z * q.z = 1 := hq
  have a1 : π / 2 * (1 / 2) = π / 4 := by ring
  have a2 : -π / 2 * (1 / 2) = -(π / 4) := by ring
  rcases lt_or_ge 0 (q.w * q.y - q.z * q.x) with hp | hp
  · rw [abs_of_pos hp] at hl ⊢
    obtain ⟨r, r0, rc, rs, rr, rl, re⟩ := lock_core q.w q.z _ q.x q.y hq' hp rfl
    have r1 := r0.ne'
    refine ⟨⟨-2 * atan2 q.z q.w, π / 2, 0⟩, by unfold qXYZ; simp only; rw [if_pos hl], Or.inl rfl, ?_, rfl, ?_, ?_⟩
    · exact ⟨fun _ => hp, fun _ => by simp only; linarith [pi_pos]⟩
    all_goals
      have e : xyzQ ⟨-2 * atan2 q.z q.w, π / 2, 0⟩ =
          ⟨q.w / r * (√2 / 2), -(q.z / r) * (√2 / 2), q.w / r * (√2 / 2), q.z / r * (√2 / 2)⟩ := by
        have a3 : -2 * atan2 q.z q.w * (1 / 2) = -atan2 q.z q.w := by ring
        unfold xyzQ
        simp only [a1, a3, cos_neg, sin_neg, cos_pi_div_four, sin_pi_div_four, rc, rs, zero_mul, cos_zero, sin_zero]
        ext <;> ring
      rw [e]
    · refine rl.trans (le_of_eq ?_)
      rw [rr]
      simp only [qdot]
      field_simp
      ring
    · intro h
      obtain ⟨b1, b2, b3⟩ := re h
      rw [b3]
      ext <;> simp only <;> field_simp <;> linarith
  · have hn : q.w * q.y - q.z * q.x < 0 := by
      rcases hp.lt_or_eq with h | h
      · exact h
      · rw [h, abs_zero] at hl; linarith
    rw [abs_of_neg hn] at hl ⊢
    obtain ⟨r, r0, rc, rs, rr, rl, re⟩ := lock_core q.w q.z (-(q.w * q.y - q.z * q.x)) (-q.x) (-q.y) (by linarith) (by linarith) (by ring)
    have r1 := r0.ne'
    refine ⟨⟨2 * atan2 q.z q.w, -π / 2, 0⟩, by unfold qXYZ; simp only; rw [if_neg (by linarith), if_pos (by linarith)], Or.inr rfl, ?_, rfl, ?_, ?_⟩
    · exact ⟨fun h => absurd h (by simp only; linarith [pi_pos]), fun h => by linarith⟩
    all_goals
      have e : xyzQ ⟨2 * atan2 q.z q.w, -π / 2, 0⟩ =
          ⟨q.w / r * (√2 / 2), q.z / r * (√2 / 2), -(q.w / r) * (√2 / 2), q.z / r * (√2 / 2)⟩ := by
        have a3 : 2 * atan2 q.z q.w * (1 / 2) = atan2 q.z q.w := by ring
        unfold xyzQ
        simp only [a2, a3, cos_neg, sin_neg, cos_pi_div_four, sin_pi_div_four, rc, rs, zero_mul, cos_zero, sin_zero]
        ext <;> ring
      rw [e]
    · refine rl.trans (le_of_eq ?_)
      rw [rr]
      simp only [qdot]
      field_simp
      ring
    · intro h
      obtain ⟨b1, b2, b3⟩ := re h
      rw [b3]
      ext <;> simp only <;> field_simp <;> linarith

/-- **C100**, refuted within the threshold: for every threshold below one half, a rotation with second angle below a right
angle (and third angle zero) comes back with a right angle, as another rotation. -/
theorem qXYZ_lock_inexact (thr : ℝ) (h0 : 0 < thr) (h1 : thr < 1 / 2) : ∃ t, 0 < t ∧ t < π / 2 ∧ (xyzQ ⟨0, t, 0⟩).sq = 1 ∧
    qXYZ thr (xyzQ ⟨0, t, 0⟩) = some ⟨0, π / 2, 0⟩ ∧ (xyzQ ⟨0, π / 2, 0⟩).toM ≠ (xyzQ ⟨0, t, 0⟩).toM := by
  have hu : 2 * thr < (thr + 1 / 2) := by linarith
  have hs : sin (arcsin (thr + 1 / 2)) = thr + 1 / 2 := sin_arcsin (by linarith) (by linarith)
  have t0 : 0 < arcsin (thr + 1 / 2) := arcsin_pos.2 (by linarith)
  have t1 : arcsin (thr + 1 / 2) < π / 2 := arcsin_lt_pi_div_two.2 (by linarith)
  refine ⟨arcsin (thr + 1 / 2), t0, t1, (xyzQ_spec _).1, ?_, ?_⟩
  · generalize arcsin (thr + 1 / 2) = t at *
    have hd : sin t = 2 * (sin (t * (1 / 2)) * cos (t * (1 / 2))) := by
      have h : t = t * (1 / 2) + t * (1 / 2) := by ring
      conv_lhs => rw [h, sin_add]
      ring
    have hc : 0 < cos (t * (1 / 2)) := cos_pos_of_mem_Ioo ⟨by linarith [pi_pos], by linarith [pi_pos]⟩
    unfold qXYZ xyzQ
    simp only [zero_mul, cos_zero, sin_zero, mul_zero, zero_mul, add_zero, sub_zero, one_mul, mul_one]
    rw [if_pos (by linarith)]
    have : atan2 0 (cos (t * (1 / 2))) = 0 := by
      have := atan2_polar (cos (t * (1 / 2))) 0 hc (by linarith [pi_pos]) (by linarith [pi_pos])
      simpa using this
    rw [this, mul_zero]
  · intro h
    have a := (xyzQ_spec ⟨0, π / 2, 0⟩).2
    have b := (xyzQ_spec ⟨0, arcsin (thr + 1 / 2), 0⟩).2
    rw [h, ← b] at a
    have hm : ∀ y : ℝ, eulerM 0 y 0 ['x', 'y', 'z'] = some (((rotZ 0).mul (rotY y)).mul (rotX 0)) := fun _ => rfl
    simp only [hm, Option.some.injEq] at a
    have := congrArg (fun m : M3 ℝ => m.r2.x) a
    simp [rotX, rotY, rotZ, M3.mul, M3.mulVec, M3.transpose, dot] at this
    linarith

/-! ## Cases -/

/-- A rotation with a second angle that is not right, one that is right, and quaternions on the two sides of the threshold. -/
example : ∃ m, IsRot m ∧ toXYZ m = some ⟨π / 3, π / 4, -(π / 3)⟩ := by
  obtain ⟨m, h, h'⟩ := toXYZ_inv.2 ⟨π / 3, π / 4, -(π / 3)⟩ ⟨by simp only; linarith [pi_pos], by simp only; linarith [pi_pos]⟩
    (by simp only; rw [abs_of_pos (by linarith [pi_pos])]; linarith [pi_pos]) ⟨by simp only; linarith [pi_pos], by simp only; linarith [pi_pos]⟩
  exact ⟨m, ((euler_matrix _ _ _ _).2 m h).1, h'⟩

example : (⟨3 / 5, 0, 4 / 5, 0⟩ : Quat ℝ).sq = 1 ∧ |(3 / 5 : ℝ) * (4 / 5) - 0 * 0| ≤ 499999 / 1000000 := by
  refine ⟨by norm_num [Quat.sq], by norm_num [abs_of_pos]⟩

example : ∃ q : Quat ℝ, q.sq = 1 ∧ (499999 / 1000000 : ℝ) < |q.w * q.y - q.z * q.x| := by
  have h2 : √2 * √2 = 2 := mul_self_sqrt (by norm_num)
  refine ⟨⟨√2 / 2, 0, √2 / 2, 0⟩, by simp only [Quat.sq]; linarith, ?_⟩
  have : √2 / 2 * (√2 / 2) - 0 * 0 = (1 / 2 : ℝ) := by linarith
  simp only [this]
  rw [abs_of_pos] <;> norm_num

end Verif.Camera
