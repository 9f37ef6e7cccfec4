import Verif.Bathy.Data
import Verif.Bathy.SnellProps

/-
C104: the fitted water plane, masks and the list of planes.
-/

namespace Verif.Camera.Bathy

set_option linter.unusedSectionVars false

variable {K : Type} [Field K] [LinearOrder K] [IsStrictOrderedRing K]

/-- The sum of the squares of the vertical distances of points to the surface `z = a x + b y + g`. -/
def vcost (pts : List (V3 K)) (a b g : K) : K := (pts.map (fun p => (p.z - (a * p.x + b * p.y + g)) * (p.z - (a * p.x + b * p.y + g)))).sum

/-- The horizontal positions are on one line. -/
def Collinear (pts : List (V3 K)) : Prop := ∃ a b g : K, ¬(a = 0 ∧ b = 0 ∧ g = 0) ∧ ∀ p ∈ pts, a * p.x + b * p.y + g = 0

/-- The quadratic form of the sums. -/
def Sums.form (s : Sums K) (a b g a' b' g' : K) : K :=
  a * (s.xx * a' + s.xy * b' + s.x * g') + b * (s.xy * a' + s.yy * b' + s.y * g') + g * (s.x * a' + s.y * b' + s.n * g')

theorem form_fold (pts : List (V3 K)) (s : Sums K) (a b g a' b' g' : K) :
    (pts.foldl sumStep s).form a b g a' b' g' = s.form a b g a' b' g' + (pts.map (fun p => (a * p.x + b * p.y + g) * (a' * p.x + b' * p.y + g'))).sum := by
  induction pts generalizing s with
  | nil => simp
  | cons p l ih =>
    rw [List.foldl_cons, ih, List.map_cons, List.sum_cons]
    have : (sumStep s p).form a b g a' b' g' = s.form a b g a' b' g' + (a * p.x + b * p.y + g) * (a' * p.x + b' * p.y + g') := by
      unfold sumStep Sums.form; ring
    rw [this]; ring

theorem rhs_fold (pts : List (V3 K)) (s : Sums K) (a b g : K) :
    a * (pts.foldl sumStep s).xz + b * (pts.foldl sumStep s).yz + g * (pts.foldl sumStep s).z
      = a * s.xz + b * s.yz + g * s.z + (pts.map (fun p => (a * p.x + b * p.y + g) * p.z)).sum := by
  induction pts generalizing s with
  | nil => simp
  | cons p l ih =>
    rw [List.foldl_cons, ih, List.map_cons, List.sum_cons]
    unfold sumStep; simp only; ring

theorem form_eq (pts : List (V3 K)) (a b g a' b' g' : K) :
    (sums pts).form a b g a' b' g' = (pts.map (fun p => (a * p.x + b * p.y + g) * (a' * p.x + b' * p.y + g'))).sum := by
  unfold sums; rw [form_fold]; simp [Sums.form]

theorem rhs_eq' (pts : List (V3 K)) (a b g : K) :
    a * (sums pts).xz + b * (sums pts).yz + g * (sums pts).z = (pts.map (fun p => (a * p.x + b * p.y + g) * p.z)).sum := by
  unfold sums; rw [rhs_fold]; simp

theorem sumsq_nonneg {α : Type} (l : List α) (f : α → K) : 0 ≤ (l.map (fun p => f p * f p)).sum := by
  induction l with
  | nil => simp
  | cons p l ih => rw [List.map_cons, List.sum_cons]; exact add_nonneg (mul_self_nonneg _) ih

theorem sumsq_zero {α : Type} (l : List α) (f : α → K) (h : (l.map (fun p => f p * f p)).sum = 0) : ∀ p ∈ l, f p = 0 := by
  induction l with
  | nil => simp
  | cons p l ih =>
    rw [List.map_cons, List.sum_cons] at h
    have h1 := mul_self_nonneg (f p)
    have h2 := sumsq_nonneg l f
    intro q hq
    rcases List.mem_cons.1 hq with rfl | hq
    · exact mul_self_eq_zero.1 (by linarith)
    · exact ih (by linarith) q hq

/-- What the solver does: it fails exactly if some vector that is not zero has a form of at most zero, else it gives the
solution. -/
theorem solveSym_spec (s : Sums K) (b0 b1 b2 : K) :
    (solveSym s.xx s.xy s.yy s.x s.y s.n b0 b1 b2 = none → ∃ a b g : K, ¬(a = 0 ∧ b = 0 ∧ g = 0) ∧ s.form a b g a b g ≤ 0) ∧
    (∀ a b g, solveSym s.xx s.xy s.yy s.x s.y s.n b0 b1 b2 = some (a, b, g) →
      (s.xx * a + s.xy * b + s.x * g = b0 ∧ s.xy * a + s.yy * b + s.y * g = b1 ∧ s.x * a + s.y * b + s.n * g = b2) ∧
      ∀ a' b' g' : K, s.form a' b' g' a' b' g' ≤ 0 → a' = 0 ∧ b' = 0 ∧ g' = 0) := by
  unfold solveSym
  simp only
  by_cases h0 : s.xx ≤ 0
  · rw [if_pos h0]
    exact ⟨fun _ => ⟨1, 0, 0, by simp, by unfold Sums.form; linarith⟩, fun _ _ _ h => (by cases h)⟩
  rw [if_neg h0]
  push Not at h0
  have hx := h0.ne'
  set l10 := s.xy / s.xx with hl10
  set l20 := s.x / s.xx with hl20
  have e10 : l10 * s.xx = s.xy := div_mul_cancel₀ _ hx
  have e20 : l20 * s.xx = s.x := div_mul_cancel₀ _ hx
  clear_value l10 l20
  by_cases h1 : s.yy - l10 * l10 * s.xx ≤ 0
  · rw [if_pos h1]
    refine ⟨fun _ => ⟨-l10, 1, 0, by simp, ?_⟩, fun _ _ _ h => (by cases h)⟩
    unfold Sums.form
    rw [← e10]
    linarith
  rw [if_neg h1]
  push Not at h1
  set d1 := s.yy - l10 * l10 * s.xx with hd1
  set l21 := (s.y - l20 * l10 * s.xx) / d1 with hl21
  have e21 : l21 * d1 = s.y - l20 * l10 * s.xx := div_mul_cancel₀ _ h1.ne'
  clear_value l21
  have hform : ∀ a b g : K, s.form a b g a b g = s.xx * ((a + l10 * b + l20 * g) * (a + l10 * b + l20 * g))
      + d1 * ((b + l21 * g) * (b + l21 * g)) + (s.n - l20 * l20 * s.xx - l21 * l21 * d1) * (g * g) := by
    intro a b g
    unfold Sums.form
    have ey : s.yy = d1 + l10 * l10 * s.xx := by rw [hd1]; ring
    have ey2 : s.y = l21 * d1 + l20 * l10 * s.xx := by rw [e21]; ring
    rw [ey, ey2, ← e10, ← e20]
    ring
  by_cases h2 : s.n - l20 * l20 * s.xx - l21 * l21 * d1 ≤ 0
  · rw [if_pos h2]
    refine ⟨fun _ => ⟨l10 * l21 - l20, -l21, 1, by simp, ?_⟩, fun _ _ _ h => (by cases h)⟩
    rw [hform]
    have : l10 * l21 - l20 + l10 * -l21 + l20 * 1 = 0 := by ring
    rw [this]
    have : -l21 + l21 * 1 = 0 := by ring
    rw [this]
    linarith
  rw [if_neg h2]
  push Not at h2
  set d2 := s.n - l20 * l20 * s.xx - l21 * l21 * d1 with hd2
  refine ⟨fun h => (by cases h), fun a b g h => ?_⟩
  simp only [Option.some.injEq, Prod.mk.injEq] at h
  obtain ⟨ha, hb, hg⟩ := h
  rw [hg] at ha hb
  rw [hb] at ha
  have eg : g * d2 = b2 - l20 * b0 - l21 * (b1 - l10 * b0) := by rw [← hg]; exact div_mul_cancel₀ _ h2.ne'
  have eb : (b + l21 * g) * d1 = b1 - l10 * b0 := by
    rw [← hb]; have := div_mul_cancel₀ (b1 - l10 * b0) h1.ne'; linear_combination this
  have ea : (a + l10 * b + l20 * g) * s.xx = b0 := by
    rw [← ha]; have := div_mul_cancel₀ b0 hx; linear_combination this
  refine ⟨⟨?_, ?_, ?_⟩, fun a' b' g' hf => ?_⟩
  · rw [← e10, ← e20]; linear_combination ea
  · have ey : s.yy = d1 + l10 * l10 * s.xx := by rw [hd1]; ring
    have ey2 : s.y = l21 * d1 + l20 * l10 * s.xx := by rw [e21]; ring
    rw [ey, ey2, ← e10]; linear_combination eb + l10 * ea
  · have ey2 : s.y = l21 * d1 + l20 * l10 * s.xx := by rw [e21]; ring
    have en : s.n = d2 + l20 * l20 * s.xx + l21 * l21 * d1 := by rw [hd2]; ring
    rw [ey2, en, ← e20]; linear_combination eg + l21 * eb + l20 * ea
  · rw [hform] at hf
    have m1 := mul_nonneg h0.le (mul_self_nonneg (a' + l10 * b' + l20 * g'))
    have m2 := mul_nonneg h1.le (mul_self_nonneg (b' + l21 * g'))
    have m3 := mul_nonneg h2.le (mul_self_nonneg g')
    have hg0 : g' = 0 := mul_self_eq_zero.1 ((mul_eq_zero.1 (show d2 * (g' * g') = 0 by linarith)).resolve_left h2.ne')
    have hb0 : b' + l21 * g' = 0 := mul_self_eq_zero.1 ((mul_eq_zero.1 (show d1 * _ = 0 by linarith)).resolve_left h1.ne')
    have ha0 : a' + l10 * b' + l20 * g' = 0 := mul_self_eq_zero.1 ((mul_eq_zero.1 (show s.xx * _ = 0 by linarith)).resolve_left h0.ne')
    rw [hg0, mul_zero, add_zero] at hb0
    rw [hg0, hb0, mul_zero, mul_zero, add_zero, add_zero] at ha0
    exact ⟨ha0, hb0, hg0⟩

/-- How costs differ. -/
theorem vcost_diff (pts : List (V3 K)) (a b g a' b' g' : K)
    (h : (sums pts).xx * a + (sums pts).xy * b + (sums pts).x * g = (sums pts).xz ∧ (sums pts).xy * a + (sums pts).yy * b + (sums pts).y * g = (sums pts).yz ∧
      (sums pts).x * a + (sums pts).y * b + (sums pts).n * g = (sums pts).z) :
    vcost pts a' b' g' = vcost pts a b g + (sums pts).form (a' - a) (b' - b) (g' - g) (a' - a) (b' - b) (g' - g) := by
  have h1 := form_eq pts (a' - a) (b' - b) (g' - g) a b g
  have h2 := rhs_eq' pts (a' - a) (b' - b) (g' - g)
  have h3 : (sums pts).form (a' - a) (b' - b) (g' - g) a b g
      = (a' - a) * (sums pts).xz + (b' - b) * (sums pts).yz + (g' - g) * (sums pts).z := by
    unfold Sums.form; rw [h.1, h.2.1, h.2.2]
  rw [h1, h2] at h3
  rw [form_eq]
  unfold vcost
  have key : ∀ l : List (V3 K),
      (l.map (fun p => (p.z - (a' * p.x + b' * p.y + g')) * (p.z - (a' * p.x + b' * p.y + g')))).sum
        = (l.map (fun p => (p.z - (a * p.x + b * p.y + g)) * (p.z - (a * p.x + b * p.y + g)))).sum
        + (l.map (fun p => ((a' - a) * p.x + (b' - b) * p.y + (g' - g)) * ((a' - a) * p.x + (b' - b) * p.y + (g' - g)))).sum
        + 2 * ((l.map (fun p => ((a' - a) * p.x + (b' - b) * p.y + (g' - g)) * (a * p.x + b * p.y + g))).sum
          - (l.map (fun p => ((a' - a) * p.x + (b' - b) * p.y + (g' - g)) * p.z)).sum) := by
    intro l
    induction l with
    | nil => simp
    | cons p l ih => simp only [List.map_cons, List.sum_cons]; rw [ih]; ring
  rw [key, h3]; ring

/-- **C104.** The fitted plane: an error exactly for fewer than three points or points above one horizontal line; else the
normal is of unit length and points up, the plane is the one of least sum of squares of vertical distances, and no other
surface is as good.  Points of one plane that is not vertical give that plane. -/
theorem fit_spec (sqrt : K → K) (hs : IsSqrt sqrt) (pts : List (V3 K)) :
    (fitPlane sqrt pts = none ↔ pts.length < 3 ∨ Collinear pts) ∧
    (∀ pl, fitPlane sqrt pts = some pl → sq pl.n = 1 ∧ 0 < pl.n.z ∧
      ∃ a b g : K, (∀ p : V3 K, signedDist pl p = pl.n.z * (p.z - (a * p.x + b * p.y + g))) ∧
        (∀ a' b' g', vcost pts a b g ≤ vcost pts a' b' g') ∧
        (∀ a' b' g', vcost pts a' b' g' ≤ vcost pts a b g → a' = a ∧ b' = b ∧ g' = g) ∧
        (∀ a' b' g', (∀ p ∈ pts, p.z = a' * p.x + b' * p.y + g') → ∀ p ∈ pts, signedDist pl p = 0)) := by
  unfold fitPlane
  by_cases hl : pts.length < 3
  · rw [if_pos hl]
    exact ⟨⟨fun _ => Or.inl hl, fun _ => rfl⟩, fun _ h => (by cases h)⟩
  rw [if_neg hl]
  simp only
  obtain ⟨hn, hsome⟩ := solveSym_spec (sums pts) (sums pts).xz (sums pts).yz (sums pts).z
  cases hsol : solveSym (sums pts).xx (sums pts).xy (sums pts).yy (sums pts).x (sums pts).y (sums pts).n (sums pts).xz (sums pts).yz (sums pts).z with
  | none =>
    obtain ⟨a, b, g, h0, hf⟩ := hn hsol
    refine ⟨⟨fun _ => Or.inr ⟨a, b, g, h0, ?_⟩, fun _ => rfl⟩, fun _ h => (by cases h)⟩
    rw [form_eq] at hf
    exact sumsq_zero pts (fun p => a * p.x + b * p.y + g) (le_antisymm hf (sumsq_nonneg pts (fun p => a * p.x + b * p.y + g)))
  | some t =>
    obtain ⟨a, b, g⟩ := t
    obtain ⟨heq, hpos⟩ := hsome a b g hsol
    simp only
    refine ⟨⟨fun h => (by cases h), fun h => ?_⟩, fun pl hpl => ?_⟩
    · rcases h with h | ⟨a', b', g', h0, hz⟩
      · exact absurd h hl
      · exfalso
        refine h0 (hpos a' b' g' ?_)
        rw [form_eq]
        refine le_of_eq (List.sum_eq_zero ?_)
        intro x hx
        obtain ⟨p, hp, rfl⟩ := List.mem_map.1 hx
        simp only [hz p hp, mul_zero]
    · cases hpl
      have hp : 0 < -a * -a + -b * -b + 1 * 1 := by nlinarith [mul_self_nonneg a, mul_self_nonneg b]
      obtain ⟨hN0, hNN⟩ := hs _ hp.le
      set N := sqrt (-a * -a + -b * -b + 1 * 1) with hN
      have hNp : 0 < N := lt_of_le_of_ne hN0 (fun e => by rw [← e] at hNN; simp at hNN; nlinarith [mul_self_nonneg a, mul_self_nonneg b])
      clear_value N
      have hNne := hNp.ne'
      have hsd : ∀ p : V3 K, signedDist ⟨⟨-a / N, -b / N, 1 / N⟩, -g / N⟩ p = 1 / N * (p.z - (a * p.x + b * p.y + g)) := by
        intro p; unfold signedDist; field_simp; ring
      refine ⟨?_, div_pos one_pos hNp, a, b, g, hsd, ?_, ?_, ?_⟩
      · unfold sq dot
        simp only
        have : -a / N * (-a / N) + -b / N * (-b / N) + 1 / N * (1 / N) = (-a * -a + -b * -b + 1 * 1) / (N * N) := by field_simp
        rw [this, hNN, div_self hp.ne']
      · intro a' b' g'
        rw [vcost_diff pts a b g a' b' g' heq, form_eq]
        have := sumsq_nonneg pts (fun p => (a' - a) * p.x + (b' - b) * p.y + (g' - g))
        linarith
      · intro a' b' g' hle
        rw [vcost_diff pts a b g a' b' g' heq] at hle
        obtain ⟨h1, h2, h3⟩ := hpos (a' - a) (b' - b) (g' - g) (by linarith)
        exact ⟨by linarith, by linarith, by linarith⟩
      · intro a' b' g' hz p hp'
        have hc : vcost pts a' b' g' = 0 := by
          unfold vcost
          refine List.sum_eq_zero ?_
          intro x hx
          obtain ⟨q, hq, rfl⟩ := List.mem_map.1 hx
          simp only [hz q hq, sub_self, mul_zero]
        have hle : vcost pts a b g ≤ vcost pts a' b' g' := by
          rw [vcost_diff pts a b g a' b' g' heq, form_eq]
          have := sumsq_nonneg pts (fun p => (a' - a) * p.x + (b' - b) * p.y + (g' - g))
          linarith
        rw [hc] at hle
        have h0 := sumsq_zero pts (fun p => p.z - (a * p.x + b * p.y + g)) (le_antisymm hle (sumsq_nonneg pts _)) p hp'
        rw [hsd, h0, mul_zero]

/-- Non-vacuity: four points that are not on one plane. -/
example : ¬Collinear [(⟨0, 0, 1⟩ : V3 ℚ), ⟨1, 0, 0⟩, ⟨0, 1, 0⟩, ⟨1, 1, 0⟩] := by
  rintro ⟨a, b, g, h0, h⟩
  have h1 := h ⟨0, 0, 1⟩ (by simp)
  have h2 := h ⟨1, 0, 0⟩ (by simp)
  have h3 := h ⟨0, 1, 0⟩ (by simp)
  simp only at h1 h2 h3
  exact h0 ⟨by linarith, by linarith, by linarith⟩

/-- Non-vacuity: the solution of the normal equations for these points. -/
example : solveSym (2 : ℚ) 1 2 2 2 4 0 0 1 = some (-(1 / 2), -(1 / 2), 3 / 4) := by decide +kernel

/-- **C104.** Water is where the file has no data or a value of at most zero. -/
theorem land_spec (nodata : Option ℚ) (v : ℚ) : landPixel nodata v = true ↔ nodata ≠ some v ∧ 0 < v := by
  unfold landPixel
  cases nodata with
  | none =>
    by_cases h : v ≤ 0
    · simp [h]
    · simp [h, not_le.1 h]
  | some d =>
    by_cases h : v ≤ 0
    · by_cases h' : v = d
      · simp [h', h' ▸ h]
      · simp [h', h]
    · by_cases h' : v = d
      · simp [h']
      · simp [h', h, not_le.1 h, Ne.symm h']

/-- Rounding stays inside exactly within half a pixel of the image; a half at the left is outside. -/
theorem cround_inside (x : ℚ) (n : Int) : (0 ≤ VW.Integral.cround x ∧ VW.Integral.cround x < n) ↔ (-(1 / 2) < x ∧ x < n - 1 / 2 ∧ 0 < n) := by
  unfold VW.Integral.cround
  by_cases h : 0 ≤ x
  · rw [if_pos h, Int.floor_lt]
    have : 0 ≤ ⌊x + 1 / 2⌋ := Int.floor_nonneg.2 (by linarith)
    constructor
    · rintro ⟨_, h2⟩
      refine ⟨by linarith, by linarith, ?_⟩
      have : (0 : ℚ) < n := by linarith
      exact_mod_cast this
    · rintro ⟨_, h2, _⟩; exact ⟨this, by linarith⟩
  · rw [if_neg h]
    push Not at h
    constructor
    · rintro ⟨h1, h2⟩
      have h3 : ⌊-x + 1 / 2⌋ ≤ 0 := by omega
      have h4 : ⌊-x + 1 / 2⌋ < 1 := by omega
      rw [Int.floor_lt] at h4
      push_cast at h4
      have h5 : 0 ≤ ⌊-x + 1 / 2⌋ := Int.floor_nonneg.2 (by linarith)
      have h6 : 0 < n := by omega
      have h7 : (1 : ℚ) ≤ n := by exact_mod_cast h6
      exact ⟨by linarith, by linarith, h6⟩
    · rintro ⟨h1, h2, h3⟩
      have h5 : 0 ≤ ⌊-x + 1 / 2⌋ := Int.floor_nonneg.2 (by linarith)
      have h4 : ⌊-x + 1 / 2⌋ < 1 := by rw [Int.floor_lt]; push_cast; linarith
      omega

/-- The nearest pixel, of two the one away from zero. -/
theorem cround_near (x : ℚ) : |(VW.Integral.cround x : ℚ) - x| ≤ 1 / 2 := by
  unfold VW.Integral.cround
  by_cases h : 0 ≤ x
  · rw [if_pos h, abs_le]
    have h1 := Int.floor_le (x + 1 / 2)
    have h2 := Int.lt_floor_add_one (x + 1 / 2)
    constructor <;> linarith
  · rw [if_neg h, abs_le]
    have h1 := Int.floor_le (-x + 1 / 2)
    have h2 := Int.lt_floor_add_one (-x + 1 / 2)
    push_cast
    constructor <;> linarith

/-- **C104.** Correction is applied exactly if both pixels are within half a pixel of their masks and the nearest pixels of
both masks are water. -/
theorem areMasked_spec (lc lr : Int) (lm : Int → Int → Bool) (rc rr : Int) (rm : Int → Int → Bool) (lp rp : ℚ × ℚ) (hl : 0 < lc ∧ 0 < lr)
    (hr : 0 < rc ∧ 0 < rr) :
    areMasked lc lr lm rc rr rm lp rp = true ↔
      (-(1 / 2) < lp.1 ∧ lp.1 < lc - 1 / 2) ∧ (-(1 / 2) < lp.2 ∧ lp.2 < lr - 1 / 2) ∧
      (-(1 / 2) < rp.1 ∧ rp.1 < rc - 1 / 2) ∧ (-(1 / 2) < rp.2 ∧ rp.2 < rr - 1 / 2) ∧
      lm (VW.Integral.cround lp.1) (VW.Integral.cround lp.2) = false ∧ rm (VW.Integral.cround rp.1) (VW.Integral.cround rp.2) = false := by
  have key : ∀ (x y : ℚ) (c r : Int), 0 < c → 0 < r →
      (¬(VW.Integral.cround x < 0 ∨ c ≤ VW.Integral.cround x ∨ VW.Integral.cround y < 0 ∨ r ≤ VW.Integral.cround y) ↔
        (-(1 / 2) < x ∧ x < c - 1 / 2) ∧ (-(1 / 2) < y ∧ y < r - 1 / 2)) := by
    intro x y c r hc hr
    have h1 := cround_inside x c
    have h2 := cround_inside y r
    constructor
    · intro h
      push Not at h
      exact ⟨⟨(h1.1 ⟨h.1, h.2.1⟩).1, (h1.1 ⟨h.1, h.2.1⟩).2.1⟩, (h2.1 ⟨h.2.2.1, h.2.2.2⟩).1, (h2.1 ⟨h.2.2.1, h.2.2.2⟩).2.1⟩
    · rintro ⟨⟨a1, a2⟩, a3, a4⟩
      have b1 := h1.2 ⟨a1, a2, hc⟩
      have b2 := h2.2 ⟨a3, a4, hr⟩
      push Not
      exact ⟨b1.1, b1.2, b2.1, b2.2⟩
  unfold areMasked
  simp only
  have kl := key lp.1 lp.2 lc lr hl.1 hl.2
  have kr := key rp.1 rp.2 rc rr hr.1 hr.2
  by_cases h1 : VW.Integral.cround lp.1 < 0 ∨ lc ≤ VW.Integral.cround lp.1 ∨ VW.Integral.cround lp.2 < 0 ∨ lr ≤ VW.Integral.cround lp.2
  · rw [if_pos h1]
    exact ⟨fun h => (by cases h), fun h => absurd h1 (kl.2 ⟨h.1, h.2.1⟩)⟩
  rw [if_neg h1]
  by_cases h2 : VW.Integral.cround rp.1 < 0 ∨ rc ≤ VW.Integral.cround rp.1 ∨ VW.Integral.cround rp.2 < 0 ∨ rr ≤ VW.Integral.cround rp.2
  · rw [if_pos h2]
    exact ⟨fun h => (by cases h), fun h => absurd h2 (kr.2 ⟨h.2.2.1, h.2.2.2.1⟩)⟩
  rw [if_neg h2]
  have a := kl.1 h1
  have b := kr.1 h2
  constructor
  · intro h
    simp only [Bool.and_eq_true, Bool.not_eq_true'] at h
    exact ⟨a.1, a.2, b.1, b.2, h.1, h.2⟩
  · rintro ⟨_, _, _, _, h, h'⟩
    simp [h, h']

/-- **C104.** One plane is used for all images; otherwise each image has its own; other numbers are an error. -/
theorem clone_spec {α : Type} (read : List α) (num : Nat) :
    (clonePlanes read num = none ↔ read.length ≠ 1 ∧ read.length ≠ num) ∧
    (∀ l, clonePlanes read num = some l → (read.length = num → l = read) ∧ (∀ a, read = [a] → 1 ≤ num → l = List.replicate num a)) := by
  unfold clonePlanes
  by_cases h : read.length ≠ 1 ∧ read.length ≠ num
  · rw [if_pos h]; exact ⟨⟨fun _ => h, fun _ => rfl⟩, fun _ h => (by cases h)⟩
  · rw [if_neg h]
    cases read with
    | nil =>
      refine ⟨⟨fun h => (by cases h), fun h' => absurd h' h⟩, fun l hl => ?_⟩
      cases hl
      exact ⟨fun _ => rfl, fun a ha => (by cases ha)⟩
    | cons a t =>
      refine ⟨⟨fun h => (by cases h), fun h' => absurd h' h⟩, fun l hl => ?_⟩
      cases hl
      refine ⟨fun hn => ?_, fun b hb hn => ?_⟩
      · have : num - (t.length + 1) = 0 := by rw [List.length_cons] at hn; omega
        rw [this]; simp
      · cases hb
        obtain ⟨m, rfl⟩ : ∃ m, num = m + 1 := ⟨num - 1, by omega⟩
        simp [List.replicate_succ]

/-- Non-vacuity. -/
example : clonePlanes [7] 3 = some [7, 7, 7] ∧ clonePlanes [7, 8] 3 = none := by decide

/-- **C104, refuted part.** With no image at all a single plane is kept: there are more planes than images. -/
theorem clone_zero {α : Type} (a : α) : clonePlanes [a] 0 = some [a] := rfl

end Verif.Camera.Bathy
