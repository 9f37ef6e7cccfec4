import Verif.Datum.GeoProps

/-
C117: the intersection of a ray with the datum.
-/

set_option linter.unusedSectionVars false

namespace Verif.Datum
open Verif.Camera Real

/-- The point at a parameter of the line. -/
def along (ctr dir : V3 ℝ) (t : ℝ) : V3 ℝ := ctr + t * dir

theorem normalize_pos (v : V3 ℝ) (hv : 0 < Verif.Camera.sq v) :
    Verif.Camera.normalize Real.sqrt v = some ((1 / √(Verif.Camera.sq v)) * v) := by
  unfold Verif.Camera.normalize Verif.Camera.norm
  rw [if_neg hv.ne']

/-- The quadratic of a line and a sphere. -/
theorem line_sphere (c e : V3 ℝ) (he : dot e e = 1) (τ : ℝ) :
    dot (c + τ * e) (c + τ * e) = dot (c + -dot c e * e) (c + -dot c e * e) + (τ + dot c e) ^ 2 := by
  unfold dot at *
  simp only [add_x, add_y, add_z, smul_x, smul_y, smul_z]
  generalize hk : c.x * e.x + c.y * e.y + c.z * e.z = k
  linear_combination (τ ^ 2 - k ^ 2) * he + (2 * τ + 2 * k) * hk

/-- **C117.**  The result is the zero vector if no point of the whole line is on the spheroid; otherwise it is the first point of
the line, in the sense of the direction, that is on the spheroid. -/
theorem intersect_spec (d : Spheroid) (ha : 0 < d.a) (hb : 0 < d.b) (ctr dir : V3 ℝ) (hd : dir ≠ 0) :
    ((∀ t, ¬ OnSurface d (along ctr dir t)) → intersect d.a d.b ctr dir = some 0) ∧
    ((∃ t, OnSurface d (along ctr dir t)) →
      ∃ t, intersect d.a d.b ctr dir = some (along ctr dir t) ∧ OnSurface d (along ctr dir t) ∧
        ∀ s, OnSurface d (along ctr dir s) → t ≤ s) := by
  have hzs : 0 < d.a / d.b := div_pos ha hb
  set zs := d.a / d.b with hzs'
  set c : V3 ℝ := ⟨ctr.x, ctr.y, ctr.z * zs⟩ with hc
  set v : V3 ℝ := ⟨dir.x, dir.y, dir.z * zs⟩ with hv
  have hsq : 0 < Verif.Camera.sq v := by
    have h0 : 0 ≤ Verif.Camera.sq v := by
      unfold Verif.Camera.sq dot
      exact add_nonneg (add_nonneg (mul_self_nonneg _) (mul_self_nonneg _)) (mul_self_nonneg _)
    refine lt_of_le_of_ne h0 ?_
    intro h
    apply hd
    unfold Verif.Camera.sq dot at h
    simp only [hv] at h
    have h1 := mul_self_nonneg dir.x
    have h2 := mul_self_nonneg dir.y
    have h3 := mul_self_nonneg (dir.z * zs)
    have e1 : dir.x = 0 := mul_self_eq_zero.1 (by linarith)
    have e2 : dir.y = 0 := mul_self_eq_zero.1 (by linarith)
    have e3 : dir.z * zs = 0 := mul_self_eq_zero.1 (by linarith)
    have e3 : dir.z = 0 := by rcases mul_eq_zero.1 e3 with h | h
                              · exact h
                              · exact absurd h hzs.ne'
    ext
    · exact e1
    · exact e2
    · exact e3
  have hn : 0 < √(Verif.Camera.sq v) := sqrt_pos.2 hsq
  have hn2 : √(Verif.Camera.sq v) * √(Verif.Camera.sq v) = Verif.Camera.sq v := mul_self_sqrt hsq.le
  set n := √(Verif.Camera.sq v) with hnd
  set e : V3 ℝ := (1 / n) * v with he
  have hee : dot e e = 1 := by
    unfold Verif.Camera.sq dot at *
    simp only [he, smul_x, smul_y, smul_z]
    field_simp
    linear_combination -hn2
  have hsurf : ∀ t, OnSurface d (along ctr dir t) ↔ dot (c + (t * n) * e) (c + (t * n) * e) = d.a * d.a := by
    intro t
    have : dot (c + (t * n) * e) (c + (t * n) * e)
        = (along ctr dir t).x ^ 2 + (along ctr dir t).y ^ 2 + ((along ctr dir t).z * zs) ^ 2 := by
      unfold dot along
      simp only [he, hc, hv, add_x, add_y, add_z, smul_x, smul_y, smul_z]
      field_simp
    rw [this]
    unfold OnSurface
    rw [hzs']
    constructor
    · intro h; field_simp at h ⊢; linarith
    · intro h; field_simp at h ⊢; linarith
  have hline := line_sphere c e hee
  have hres : intersect d.a d.b ctr dir = some (if d.a * d.a < dot (c + -dot c e * e) (c + -dot c e * e) then 0
      else ⟨(c + (-dot c e - √(d.a * d.a - dot (c + -dot c e * e) (c + -dot c e * e))) * e).x,
        (c + (-dot c e - √(d.a * d.a - dot (c + -dot c e * e) (c + -dot c e * e))) * e).y,
        (c + (-dot c e - √(d.a * d.a - dot (c + -dot c e * e) (c + -dot c e * e))) * e).z / zs⟩) := by
    unfold intersect
    simp only
    rw [← hzs', ← hv, ← hc, normalize_pos v hsq, ← hnd, ← he]
    rfl
  generalize dot (c + -dot c e * e) (c + -dot c e * e) = m at hline hres
  generalize dot c e = k at hline hres
  rw [hres]
  have key : m ≤ d.a * d.a → ∃ t, t * n = -k - √(d.a * d.a - m) ∧ OnSurface d (along ctr dir t) := by
    intro hm
    have ht : ((-k - √(d.a * d.a - m)) / n) * n = -k - √(d.a * d.a - m) := by field_simp
    refine ⟨(-k - √(d.a * d.a - m)) / n, ht, ?_⟩
    rw [hsurf, ht, hline]
    have := sq_sqrt (show 0 ≤ d.a * d.a - m by linarith)
    linear_combination this
  constructor
  · intro hno
    rw [if_pos]
    by_contra hm
    obtain ⟨t, -, h⟩ := key (not_lt.1 hm)
    exact hno t h
  · rintro ⟨s, hs⟩
    have hm : m ≤ d.a * d.a := by
      rw [hsurf, hline] at hs
      have := sq_nonneg (s * n + k)
      linarith
    rw [if_neg (not_lt.2 hm)]
    obtain ⟨t, ht, hon⟩ := key hm
    refine ⟨t, ?_, hon, ?_⟩
    · rw [← ht]
      congr 1
      unfold along
      ext
      · simp only [he, hc, hv, add_x, smul_x]; field_simp
      · simp only [he, hc, hv, add_y, smul_y]; field_simp
      · simp only [he, hc, hv, add_z, smul_z]; field_simp
    · intro s hs
      rw [hsurf, hline] at hs
      have h2 : (s * n + k) ^ 2 = d.a * d.a - m := by linarith
      have h3 : -√(d.a * d.a - m) ≤ s * n + k := by
        rw [← h2]; exact neg_le_of_abs_le (by rw [sqrt_sq_eq_abs])
      have : t * n ≤ s * n := by linarith
      exact le_of_mul_le_mul_right this hn

/-- **C117.**  A zero direction gives a result that is not a number. -/
theorem intersect_zero (a b : ℝ) (ctr : V3 ℝ) : intersect a b ctr 0 = none := by
  unfold intersect Verif.Camera.normalize Verif.Camera.sq dot
  simp

/-- **C117 (refuted: the ray).**  For a ray the first point of the *line* is not what is wanted: a camera outside the spheroid that
looks straight away from it gets a point behind it, on the far side of the spheroid. -/
theorem intersect_behind (d : Spheroid) (ha : 0 < d.a) (hb : 0 < d.b) :
    intersect d.a d.b ⟨2 * d.a, 0, 0⟩ ⟨1, 0, 0⟩ = some ⟨-d.a, 0, 0⟩ ∧
    ∀ t, 0 ≤ t → ¬ OnSurface d (along ⟨2 * d.a, 0, 0⟩ ⟨1, 0, 0⟩ t) := by
  have hon : ∀ t, OnSurface d (along ⟨2 * d.a, 0, 0⟩ ⟨1, 0, 0⟩ t) ↔ (2 * d.a + t) ^ 2 = d.a ^ 2 := by
    intro t
    unfold OnSurface along
    simp only [add_x, add_y, add_z, smul_x, smul_y, smul_z]
    have : ((2 * d.a + t * 1) ^ 2 + (0 + t * 0) ^ 2) / d.a ^ 2 + (0 + t * 0) ^ 2 / d.b ^ 2 = (2 * d.a + t) ^ 2 / d.a ^ 2 := by
      norm_num
    rw [this, div_eq_iff (by positivity), one_mul]
  constructor
  · obtain ⟨t, h1, h2, h3⟩ := (intersect_spec d ha hb ⟨2 * d.a, 0, 0⟩ ⟨1, 0, 0⟩
      (by intro h; have := congrArg V3.x h; norm_num at this)).2 ⟨-3 * d.a, by rw [hon]; ring⟩
    have h4 := h3 (-3 * d.a) (by rw [hon]; ring)
    rw [hon] at h2
    have ht : t = -3 * d.a := by
      have : (t + d.a) * (t + 3 * d.a) = 0 := by linear_combination h2
      rcases mul_eq_zero.1 this with h | h <;> linarith
    rw [h1, ht]
    congr 1
    unfold along
    ext
    · simp only [add_x, smul_x]; ring
    · simp only [add_y, smul_y]; ring
    · simp only [add_z, smul_z]; ring
  · intro t ht h
    rw [hon] at h
    nlinarith

/-- The hypotheses are met: a camera above the pole looking down, and one that misses. -/
example : ∃ t, intersect 3 2 ⟨0, 0, 10⟩ ⟨0, 0, -1⟩ = some (along ⟨0, 0, 10⟩ ⟨0, 0, -1⟩ t) ∧ t = 8 := by
  obtain ⟨t, h1, h2, h3⟩ := (intersect_spec ⟨3, 2, 0⟩ (by norm_num) (by norm_num) ⟨0, 0, 10⟩ ⟨0, 0, -1⟩
    (by intro h; have := congrArg V3.z h; norm_num at this)).2
    ⟨8, by unfold OnSurface along; norm_num⟩
  have a := h3 8 (by unfold OnSurface along; norm_num)
  refine ⟨t, h1, ?_⟩
  unfold OnSurface along at h2
  simp only [add_x, add_y, add_z, smul_x, smul_y, smul_z] at h2
  norm_num at h2
  nlinarith

example : intersect 3 2 ⟨5, 0, 10⟩ ⟨0, 0, -1⟩ = some 0 :=
  (intersect_spec ⟨3, 2, 0⟩ (by norm_num) (by norm_num) ⟨5, 0, 10⟩ ⟨0, 0, -1⟩
    (by intro h; have := congrArg V3.z h; norm_num at this)).1 (by
      intro t h
      unfold OnSurface along at h
      simp only [add_x, add_y, add_z, smul_x, smul_y, smul_z] at h
      nlinarith [sq_nonneg (10 + t * -1)])

end Verif.Datum
