import Verif.Spline.Model
import Mathlib.Analysis.Calculus.Deriv.Mul
import Mathlib.Analysis.Calculus.Deriv.Add
import Mathlib.Tactic.Linarith
import Mathlib.Tactic.NormNum
import Mathlib.Tactic.Ring
import Mathlib.Tactic.FieldSimp
import Mathlib.Tactic.Positivity
import Mathlib.Tactic.LinearCombination
import Mathlib.Data.List.Range
/-
Property C161: the Catmull-Rom curve.
-/
namespace VW.Spline

variable {d : Nat}

/-! ### The constructor -/

theorem alphaDistance_nonneg (p q : Pt d) (a : ℝ) : 0 ≤ alphaDistance p q a :=
  Real.rpow_nonneg (Finset.sum_nonneg fun i _ => mul_self_nonneg _) _

theorem alphaDistance_comm (p q : Pt d) (a : ℝ) : alphaDistance p q a = alphaDistance q p a := by
  unfold alphaDistance
  congr 1
  exact Finset.sum_congr rfl fun i _ => by ring

/-- Specification: the length of the chord. -/
noncomputable def chord (p q : Pt d) : ℝ := Real.sqrt (∑ i, (p i - q i) ^ 2)

theorem alphaDistance_eq (p q : Pt d) (a : ℝ) : alphaDistance p q a = chord p q ^ a := by
  have h : (0 : ℝ) ≤ ∑ i, (p i - q i) ^ 2 := Finset.sum_nonneg fun i _ => sq_nonneg _
  have e : (∑ i, (p i - q i) * (p i - q i)) = ∑ i, (p i - q i) ^ 2 :=
    Finset.sum_congr rfl fun i _ => by ring
  unfold alphaDistance chord
  rw [e, Real.sqrt_eq_rpow, ← Real.rpow_mul h]
  congr 1
  ring

/-- Neighbours in the closed polygon of the control points. -/
def NextTo (n i j : Nat) : Prop := i < n ∧ j < n ∧ (j = i + 1 ∨ i = n - 1 ∧ j = 0)

theorem extended_next (n : Nat) (hn : 4 ≤ n) (p : Nat → Pt d) (k : Nat) (hk : k + 1 < n + 3) :
    ∃ i j, NextTo n i j ∧ extended n p k = p i ∧ extended n p (k + 1) = p j := by
  unfold extended NextTo
  by_cases h0 : k = 0
  · exact ⟨n - 1, 0, by omega, by rw [if_pos h0], by rw [if_neg (by omega), if_pos (by omega), h0]⟩
  · by_cases h1 : k < n
    · exact ⟨k - 1, k, by omega, by rw [if_neg h0, if_pos (by omega)], by rw [if_neg (by omega), if_pos (by omega)]; congr 1⟩
    · by_cases h2 : k = n
      · exact ⟨n - 1, 0, by omega, by rw [if_neg h0, if_pos (by omega), h2],
          by rw [if_neg (by omega), if_neg (by omega), if_pos (by omega)]⟩
      · exact ⟨0, 1, by omega, by rw [if_neg h0, if_neg (by omega), if_pos (by omega)],
          by rw [if_neg (by omega), if_neg (by omega), if_neg (by omega)]⟩

theorem next_extended (n : Nat) (p : Nat → Pt d) {i j : Nat} (h : NextTo n i j) :
    ∃ k, k + 1 < n + 3 ∧ 1 ≤ k ∧ extended n p k = p i ∧ extended n p (k + 1) = p j := by
  obtain ⟨h1, h2, h3⟩ := h
  unfold extended
  refine ⟨i + 1, by omega, by omega, ?_, ?_⟩
  · rw [if_neg (by omega), if_pos (by omega)]; congr 1
  · rcases h3 with h3 | ⟨h3, h4⟩
    · rw [if_neg (by omega), if_pos (by omega)]; congr 1; omega
    · rw [if_neg (by omega), if_neg (by omega), if_pos (by omega), h4]

theorem knots_step (P : Nat → Pt d) (a : ℝ) (k : Nat) :
    knots P a (k + 1) = knots P a k + alphaDistance (P (k + 1)) (P k) a := by
  cases k with
  | zero => simp only [knots]; rw [alphaDistance_comm]; ring
  | succ k => rfl

/-- What the constructor leaves. -/
structure Good (c : Curve d) (n : Nat) (p : Nat → Pt d) : Prop where
  size : c.n = n ∧ 4 ≤ n
  pnt : c.pnt = extended n p
  zero : c.knot 1 = 0
  incr : ∀ k, k + 1 < n + 3 → c.knot k < c.knot (k + 1)

/-- `make_spec` with the distance of the code: it throws exactly for fewer than four points, alpha outside of [0, 1] or neighbours of the
closed polygon (also the last and the first point, for an open curve too) closer than epsilon; it never reads outside. Else
the parameters grow by the (power of the) distance from each point to the next and start with 0. -/
theorem make_spec_aux (eps : ℝ) (he : 0 < eps) (n : Nat) (p : Nat → Pt d) (closed : Bool) (alpha : ℝ) :
    (Curve.make eps n p closed alpha = .throw ↔ n < 4 ∨ alpha < 0 ∨ 1 < alpha ∨
      ∃ i j, NextTo n i j ∧ alphaDistance (p i) (p j) alpha < eps) ∧
    Curve.make eps n p closed alpha ≠ .undefined ∧
    ∀ c, Curve.make eps n p closed alpha = .ok c → Good c n p ∧
      c.maxS = (if closed then c.knot (n + 1) else c.knot n) ∧
      (∀ i, i + 1 < n → c.parameterAt (i + 1) = c.parameterAt i + alphaDistance (p i) (p (i + 1)) alpha) := by
  unfold Curve.make
  by_cases h1 : n < 4
  · rw [if_pos h1]; exact ⟨by simp [h1], by simp, fun c h => by cases h⟩
  rw [if_neg h1]
  by_cases h2 : alpha < 0 ∨ alpha > 1
  · rw [if_pos h2]
    refine ⟨?_, by simp, fun c h => by cases h⟩
    simp only [true_iff]
    rcases h2 with h | h
    · exact Or.inr (Or.inl h)
    · exact Or.inr (Or.inr (Or.inl h))
  rw [if_neg h2]
  dsimp only
  have hcl : (|knots (extended n p) alpha 0| < eps ∨ ((List.range (n + 3)).any (fun i => decide (2 ≤ i ∧
      |alphaDistance (extended n p i) (extended n p (i - 1)) alpha| < eps)) = true)) ↔
      ∃ i j, NextTo n i j ∧ alphaDistance (p i) (p j) alpha < eps := by
    constructor
    · rintro (h | h)
      · obtain ⟨i, j, hij, e1, e2⟩ := extended_next n (by omega) p 0 (by omega)
        refine ⟨i, j, hij, ?_⟩
        simp only [knots, abs_neg, abs_of_nonneg (alphaDistance_nonneg _ _ _)] at h
        rw [← e1, ← e2]
        exact h
      · rw [List.any_eq_true] at h
        obtain ⟨k, hk, h⟩ := h
        rw [List.mem_range] at hk
        rw [decide_eq_true_eq] at h
        obtain ⟨i, j, hij, e1, e2⟩ := extended_next n (by omega) p (k - 1) (by omega)
        refine ⟨i, j, hij, ?_⟩
        have h' := h.2
        rw [abs_of_nonneg (alphaDistance_nonneg _ _ _), alphaDistance_comm] at h'
        have : k - 1 + 1 = k := by omega
        rw [this] at e2
        rw [← e1, ← e2]
        exact h'
    · rintro ⟨i, j, hij, h⟩
      obtain ⟨k, hk, hk1, e1, e2⟩ := next_extended n p hij
      right
      rw [List.any_eq_true]
      refine ⟨k + 1, List.mem_range.2 (by omega), ?_⟩
      rw [decide_eq_true_eq]
      refine ⟨by omega, ?_⟩
      rw [abs_of_nonneg (alphaDistance_nonneg _ _ _), alphaDistance_comm, Nat.add_sub_cancel, e1, e2]
      exact h
  have hall : (n < 4 ∨ alpha < 0 ∨ 1 < alpha ∨ ∃ i j, NextTo n i j ∧ alphaDistance (p i) (p j) alpha < eps) ↔
      ∃ i j, NextTo n i j ∧ alphaDistance (p i) (p j) alpha < eps := by
    constructor
    · rintro (h | h | h | h)
      · exact absurd h h1
      · exact absurd (Or.inl h) h2
      · exact absurd (Or.inr h) h2
      · exact h
    · exact fun h => Or.inr (Or.inr (Or.inr h))
  rw [hall, ← hcl]
  by_cases h3 : |knots (extended n p) alpha 0| < eps
  · rw [if_pos h3]; exact ⟨⟨fun _ => Or.inl h3, fun _ => rfl⟩, by simp, fun c h => by cases h⟩
  rw [if_neg h3]
  by_cases h4 : ((List.range (n + 3)).any (fun i => decide (2 ≤ i ∧
      |alphaDistance (extended n p i) (extended n p (i - 1)) alpha| < eps)) = true)
  · rw [if_pos h4]; exact ⟨⟨fun _ => Or.inr h4, fun _ => rfl⟩, by simp, fun c h => by cases h⟩
  rw [if_neg h4]
  refine ⟨?_, by simp, ?_⟩
  · simp only [reduceCtorEq, false_iff]
    exact fun h => h.elim h3 h4
  · intro c hc
    have hc' : c = Curve.mk n (extended n p) (knots (extended n p) alpha)
        (if closed then knots (extended n p) alpha (n + 1) else knots (extended n p) alpha n) := by
      injection hc with hc; exact hc.symm
    have hno : ¬ ∃ i j, NextTo n i j ∧ alphaDistance (p i) (p j) alpha < eps := by
      rw [← hcl]; exact fun h => h.elim h3 h4
    rw [hc']
    refine ⟨⟨⟨rfl, by omega⟩, rfl, rfl, ?_⟩, rfl, ?_⟩
    · intro k hk
      dsimp only
      rw [knots_step]
      obtain ⟨i, j, hij, e1, e2⟩ := extended_next n (by omega) p k hk
      have : ¬ alphaDistance (p i) (p j) alpha < eps := fun h => hno ⟨i, j, hij, h⟩
      rw [e1, e2, alphaDistance_comm]
      linarith [not_lt.1 this]
    · intro i hi
      unfold Curve.parameterAt
      dsimp only
      rw [knots_step, alphaDistance_comm]
      unfold extended
      rw [if_neg (by omega), if_pos (by omega), if_neg (by omega), if_pos (by omega)]
      congr 2

theorem Curve.make_knot {eps : ℝ} {n : Nat} {p : Nat → Pt d} {closed : Bool} {alpha : ℝ} {c : Curve d}
    (h : Curve.make eps n p closed alpha = .ok c) (k : Nat) :
    c.knot (k + 1) = c.knot k + alphaDistance (extended n p (k + 1)) (extended n p k) alpha := by
  unfold Curve.make at h
  dsimp only at h
  split at h
  · cases h
  split at h
  · cases h
  split at h
  · cases h
  split at h
  · cases h
  · cases h
    exact knots_step _ _ _


/-- **C161 (constructor)**: it throws exactly for fewer than four points, alpha outside of [0, 1] or neighbours of the
closed polygon (also the last and the first point, for an open curve too) whose distance to the power alpha is below
epsilon; it never reads outside. Else the parameters start with 0 and grow by this power of the distance from each point to
the next. -/
theorem make_spec (eps : ℝ) (he : 0 < eps) (n : Nat) (p : Nat → Pt d) (closed : Bool) (alpha : ℝ) :
    (Curve.make eps n p closed alpha = .throw ↔ n < 4 ∨ alpha < 0 ∨ 1 < alpha ∨
      ∃ i j, NextTo n i j ∧ chord (p i) (p j) ^ alpha < eps) ∧
    Curve.make eps n p closed alpha ≠ .undefined ∧
    ∀ c, Curve.make eps n p closed alpha = .ok c →
      c.parameterAt 0 = 0 ∧
      (∀ i, i + 1 < n → c.parameterAt (i + 1) = c.parameterAt i + chord (p i) (p (i + 1)) ^ alpha) ∧
      c.maxS = (if closed then c.parameterAt (n - 1) + chord (p (n - 1)) (p 0) ^ alpha else c.parameterAt (n - 1)) := by
  obtain ⟨h1, h2, h3⟩ := make_spec_aux eps he n p closed alpha
  simp only [alphaDistance_eq] at h1 h3
  refine ⟨h1, h2, fun c h => ?_⟩
  obtain ⟨g, hm, hs⟩ := h3 c h
  refine ⟨g.zero, hs, ?_⟩
  have hn : n - 1 + 1 = n := by have := g.size.2; omega
  rw [hm]
  unfold Curve.parameterAt
  rw [hn]
  cases closed with
  | false => rfl
  | true =>
    rw [if_pos rfl, if_pos rfl]
    have hk := Curve.make_knot h n
    have e1 : extended n p (n + 1) = p 0 := by
      unfold extended; rw [if_neg (by omega), if_neg (by omega), if_pos rfl]
    have e2 : extended n p n = p (n - 1) := by
      have := g.size.2
      unfold extended; rw [if_neg (by omega), if_pos (by omega)]
    rw [hk, e1, e2, alphaDistance_comm, alphaDistance_eq]


/-! ### The search -/

theorem knot_mono {c : Curve d} {n : Nat} {p : Nat → Pt d} (g : Good c n p) {a b : Nat} (hab : a ≤ b) (hb : b < n + 3) :
    c.knot a ≤ c.knot b := by
  induction b with
  | zero => have : a = 0 := by omega
            rw [this]
  | succ b ih =>
    rcases Nat.lt_or_ge b a with h | h
    · have : a = b + 1 := by omega
      rw [this]
    · exact le_trans (ih h (by omega)) (le_of_lt (g.incr b hb))

theorem upper_eq {c : Curve d} {n : Nat} {p : Nat → Pt d} (g : Good c n p) {i : Nat} {s : ℝ} (hi : i + 1 < n + 3)
    (h1 : c.knot i ≤ s) (h2 : s < c.knot (i + 1)) : c.upper s = i + 1 := by
  unfold Curve.upper
  rw [g.size.1]
  have : (List.range (n + 3)).find? (fun k => decide (s < c.knot k)) = some (i + 1) := by
    rw [List.find?_range_eq_some]
    refine ⟨by simpa using h2, List.mem_range.2 hi, ?_⟩
    intro j hj
    have := knot_mono g (a := j) (b := i) (by omega) (by omega)
    simp only [Bool.not_eq_true', decide_eq_false_iff_not, not_lt]
    exact le_trans this h1
  rw [this]
  rfl

/-- The polynomial of segment i, coordinate j. -/
noncomputable def piece (c : Curve d) (i : Nat) (j : Fin d) (s : ℝ) : ℝ :=
  segment (c.knot (i - 1)) (c.knot i) (c.knot (i + 1)) (c.knot (i + 2))
    (c.pnt (i - 1) j) (c.pnt i j) (c.pnt (i + 1) j) (c.pnt (i + 2) j) s

theorem at_piece {c : Curve d} {n : Nat} {p : Nat → Pt d} (g : Good c n p)
    (f : ℝ → ℝ → ℝ → ℝ → ℝ → ℝ → ℝ → ℝ → ℝ → ℝ) {i : Nat} {s : ℝ} (hi : 1 ≤ i) (hi' : i ≤ n)
    (h1 : c.knot i ≤ s) (h2 : s < c.knot (i + 1)) (hs : s ≤ c.maxS) :
    c.at f s = .ok fun j => f (c.knot (i - 1)) (c.knot i) (c.knot (i + 1)) (c.knot (i + 2))
      (c.pnt (i - 1) j) (c.pnt i j) (c.pnt (i + 1) j) (c.pnt (i + 2) j) s := by
  have h0 : 0 ≤ s := by
    have := knot_mono g (a := 1) (b := i) hi (by omega)
    rw [g.zero] at this
    linarith
  unfold Curve.at
  rw [if_neg (by push Not; exact ⟨h0, hs⟩)]
  dsimp only
  rw [upper_eq g (by omega) h1 h2, g.size.1, if_neg (by omega)]
  have : (((i + 1 : Nat) : Int) - 1).toNat = i := by omega
  rw [this]

theorem max_le {c : Curve d} {n : Nat} {p : Nat → Pt d} (g : Good c n p) {closed : Bool}
    (hm : c.maxS = (if closed then c.knot (n + 1) else c.knot n)) : c.knot n ≤ c.maxS ∧ c.maxS ≤ c.knot (n + 1) := by
  rw [hm]
  have := g.incr n (by omega)
  cases closed
  · exact ⟨le_refl _, le_of_lt this⟩
  · exact ⟨le_of_lt this, le_refl _⟩

/-- Every parameter from 0 up to the last one lies in one segment. -/
theorem segment_exists {c : Curve d} {n : Nat} {p : Nat → Pt d} (g : Good c n p) (s : ℝ) (h0 : 0 ≤ s)
    (h1 : s < c.knot (n + 1)) : ∃ i, 1 ≤ i ∧ i ≤ n ∧ c.knot i ≤ s ∧ s < c.knot (i + 1) := by
  have key : ∀ m, 1 ≤ m → m ≤ n + 1 → s < c.knot m → ∃ i, 1 ≤ i ∧ i < m ∧ c.knot i ≤ s ∧ s < c.knot (i + 1) := by
    intro m
    induction m with
    | zero => intro h; omega
    | succ m ih =>
      intro _ hm hs
      by_cases hm0 : m = 0
      · subst hm0; rw [g.zero] at hs; linarith
      · by_cases hle : c.knot m ≤ s
        · exact ⟨m, by omega, by omega, hle, hs⟩
        · obtain ⟨i, a, b, e⟩ := ih (by omega) (by omega) (not_le.1 hle)
          exact ⟨i, a, by omega, e⟩
  obtain ⟨i, a, b, e⟩ := key (n + 1) (by omega) (le_refl _) h1
  exact ⟨i, a, by omega, e⟩

/-- **C161 (domain, proved part)**: outside of [0, max] the curve throws; inside, but for the end of a closed curve, it
reads nothing outside and gives the polynomial of the segment. -/
theorem eval_spec_partial (eps : ℝ) (he : 0 < eps) (n : Nat) (p : Nat → Pt d) (closed : Bool) (alpha : ℝ) (c : Curve d)
    (hc : Curve.make eps n p closed alpha = .ok c) (s : ℝ) :
    (c.eval s = .throw ↔ s < 0 ∨ s > c.maxS) ∧
    (0 ≤ s → s ≤ c.maxS → (closed = true → s ≠ c.maxS) →
      ∃ i, 1 ≤ i ∧ i ≤ n ∧ c.knot i ≤ s ∧ s < c.knot (i + 1) ∧ c.eval s = .ok fun j => piece c i j s) := by
  obtain ⟨g, hm, _⟩ := (make_spec_aux eps he n p closed alpha).2.2 c hc
  constructor
  · unfold Curve.eval Curve.at
    by_cases h : s < 0 ∨ s > c.maxS
    · rw [if_pos h]; simp [h]
    · rw [if_neg h]
      dsimp only
      constructor
      · intro h'
        split at h' <;> cases h'
      · intro h'; exact absurd h' h
  · intro h0 h1 h2
    have hlt : s < c.knot (n + 1) := by
      rw [hm] at h1 h2
      cases closed
      · exact lt_of_le_of_lt h1 (g.incr n (by omega))
      · exact lt_of_le_of_ne h1 (h2 rfl)
    obtain ⟨i, a, b, e1, e2⟩ := segment_exists g s h0 hlt
    exact ⟨i, a, b, e1, e2, at_piece g segment a b e1 e2 h1⟩

/-! ### The polynomials -/

section
variable {s0 s1 s2 s3 : ℝ} (h01 : s0 < s1) (h12 : s1 < s2) (h23 : s2 < s3) (p0 p1 p2 p3 : ℝ)
include h01 h12 h23

theorem segment_left : segment s0 s1 s2 s3 p0 p1 p2 p3 s1 = p1 := by
  have a : s1 - s0 ≠ 0 := by linarith
  have b : s2 - s1 ≠ 0 := by linarith
  have c : s2 - s0 ≠ 0 := by linarith
  unfold segment
  field_simp
  ring

theorem segment_right : segment s0 s1 s2 s3 p0 p1 p2 p3 s2 = p2 := by
  have a : s3 - s2 ≠ 0 := by linarith
  have b : s2 - s1 ≠ 0 := by linarith
  have c : s3 - s1 ≠ 0 := by linarith
  unfold segment
  field_simp
  ring

end

/-- Linear interpolation between two functions. -/
noncomputable def lerp (a b : ℝ) (f g : ℝ → ℝ) (s : ℝ) : ℝ := (1 / (b - a)) * ((b - s) * f s - (a - s) * g s)

theorem lerp_deriv (a b : ℝ) {f g : ℝ → ℝ} {f' g' s : ℝ} (hf : HasDerivAt f f' s) (hg : HasDerivAt g g' s) :
    HasDerivAt (lerp a b f g) ((1 / (b - a)) * (g s - f s + (b - s) * f' + (s - a) * g')) s := by
  have hb : HasDerivAt (fun s => b - s) (-1) s := by simpa using (hasDerivAt_id s).const_sub b
  have ha : HasDerivAt (fun s => a - s) (-1) s := by simpa using (hasDerivAt_id s).const_sub a
  have h := ((hb.mul hf).sub (ha.mul hg)).const_mul (1 / (b - a))
  refine h.congr_deriv ?_
  ring

theorem segment_lerp (s0 s1 s2 s3 p0 p1 p2 p3 : ℝ) :
    segment s0 s1 s2 s3 p0 p1 p2 p3 =
      lerp s1 s2 (lerp s0 s2 (lerp s0 s1 (fun _ => p0) (fun _ => p1)) (lerp s1 s2 (fun _ => p1) (fun _ => p2)))
        (lerp s1 s3 (lerp s1 s2 (fun _ => p1) (fun _ => p2)) (lerp s2 s3 (fun _ => p2) (fun _ => p3))) := rfl

/-- The derivative of the polynomial. -/
noncomputable def slope (s0 s1 s2 s3 p0 p1 p2 p3 s : ℝ) : ℝ :=
  let A1 := lerp s0 s1 (fun _ => p0) (fun _ => p1)
  let A2 := lerp s1 s2 (fun _ => p1) (fun _ => p2)
  let A3 := lerp s2 s3 (fun _ => p2) (fun _ => p3)
  let B1 := lerp s0 s2 A1 A2
  let B2 := lerp s1 s3 A2 A3
  let A1p := (1 / (s1 - s0)) * (p1 - p0)
  let A2p := (1 / (s2 - s1)) * (p2 - p1)
  let A3p := (1 / (s3 - s2)) * (p3 - p2)
  let B1p := (1 / (s2 - s0)) * (A2 s - A1 s + (s2 - s) * A1p + (s - s0) * A2p)
  let B2p := (1 / (s3 - s1)) * (A3 s - A2 s + (s3 - s) * A2p + (s - s1) * A3p)
  (1 / (s2 - s1)) * (B2 s - B1 s + (s2 - s) * B1p + (s - s1) * B2p)

theorem segment_deriv (s0 s1 s2 s3 p0 p1 p2 p3 s : ℝ) :
    HasDerivAt (segment s0 s1 s2 s3 p0 p1 p2 p3) (slope s0 s1 s2 s3 p0 p1 p2 p3 s) s := by
  rw [segment_lerp]
  have hA : ∀ a b p q : ℝ, HasDerivAt (lerp a b (fun _ => p) (fun _ => q)) ((1 / (b - a)) * (q - p)) s := fun a b p q => by
    refine (lerp_deriv a b (hasDerivAt_const s p) (hasDerivAt_const s q)).congr_deriv ?_
    ring
  exact lerp_deriv s1 s2 (lerp_deriv s0 s2 (hA _ _ _ _) (hA _ _ _ _)) (lerp_deriv s1 s3 (hA _ _ _ _) (hA _ _ _ _))

/-- The tangent at the middle of three points: the slopes on both sides, each weighted with the length of the other
side. -/
noncomputable def tangent (a b c p q r : ℝ) : ℝ :=
  ((c - b) * ((q - p) / (b - a)) + (b - a) * ((r - q) / (c - b))) / (c - a)

section
variable {s0 s1 s2 s3 : ℝ} (h01 : s0 < s1) (h12 : s1 < s2) (h23 : s2 < s3) (p0 p1 p2 p3 : ℝ)
include h01 h12 h23

theorem slope_left : slope s0 s1 s2 s3 p0 p1 p2 p3 s1 = tangent s0 s1 s2 p0 p1 p2 := by
  have a : s1 - s0 ≠ 0 := by linarith
  have b : s2 - s1 ≠ 0 := by linarith
  have c : s2 - s0 ≠ 0 := by linarith
  have e : s3 - s2 ≠ 0 := by linarith
  have f : s3 - s1 ≠ 0 := by linarith
  unfold slope tangent lerp
  field_simp
  ring

theorem slope_right : slope s0 s1 s2 s3 p0 p1 p2 p3 s2 = tangent s1 s2 s3 p1 p2 p3 := by
  have a : s1 - s0 ≠ 0 := by linarith
  have b : s2 - s1 ≠ 0 := by linarith
  have c : s2 - s0 ≠ 0 := by linarith
  have e : s3 - s2 ≠ 0 := by linarith
  have f : s3 - s1 ≠ 0 := by linarith
  unfold slope tangent lerp
  field_simp
  ring

theorem prime_diff (s : ℝ) : segmentPrime s0 s1 s2 s3 p0 p1 p2 p3 s - slope s0 s1 s2 s3 p0 p1 p2 p3 s =
    ((s2 - s) * (s - s1) * (s1 - s0) / ((s2 - s1) ^ 2 * (s2 - s0))) * ((p2 - p1) / (s2 - s1) - (p1 - p0) / (s1 - s0)) := by
  have a : s1 - s0 ≠ 0 := by linarith
  have b : s2 - s1 ≠ 0 := by linarith
  have c : s2 - s0 ≠ 0 := by linarith
  have e : s3 - s2 ≠ 0 := by linarith
  have f : s3 - s1 ≠ 0 := by linarith
  unfold slope segmentPrime lerp
  field_simp
  ring

/-- Within a segment, `prime` is the derivative exactly when the chord of the segment continues the one before. -/
theorem prime_iff {s : ℝ} (h1 : s1 < s) (h2 : s < s2) :
    segmentPrime s0 s1 s2 s3 p0 p1 p2 p3 s = slope s0 s1 s2 s3 p0 p1 p2 p3 s ↔
      (p1 - p0) / (s1 - s0) = (p2 - p1) / (s2 - s1) := by
  have hd := prime_diff h01 h12 h23 p0 p1 p2 p3 s
  have hk : 0 < (s2 - s) * (s - s1) * (s1 - s0) / ((s2 - s1) ^ 2 * (s2 - s0)) := by
    have a : 0 < s2 - s := by linarith
    have b : 0 < s - s1 := by linarith
    have c : 0 < s1 - s0 := by linarith
    have e : 0 < s2 - s1 := by linarith
    have f : 0 < s2 - s0 := by linarith
    positivity
  rw [← sub_eq_zero, hd, mul_eq_zero]
  constructor
  · rintro (h | h)
    · exact absurd h (ne_of_gt hk)
    · linarith
  · intro h; right; linarith

theorem prime_left : segmentPrime s0 s1 s2 s3 p0 p1 p2 p3 s1 = slope s0 s1 s2 s3 p0 p1 p2 p3 s1 := by
  rw [← sub_eq_zero, prime_diff h01 h12 h23]; simp

end

/-! ### The curve -/

/-- **C161 (through the points)**: at the parameter of every control point the curve is at that point. -/
theorem through_points (eps : ℝ) (he : 0 < eps) (n : Nat) (p : Nat → Pt d) (closed : Bool) (alpha : ℝ) (c : Curve d)
    (hc : Curve.make eps n p closed alpha = .ok c) (i : Nat) (hi : i < n) : c.eval (c.parameterAt i) = .ok (p i) := by
  obtain ⟨g, hm, _⟩ := (make_spec_aux eps he n p closed alpha).2.2 c hc
  unfold Curve.parameterAt Curve.eval
  have hle : c.knot (i + 1) ≤ c.maxS := le_trans (knot_mono g (b := n) (by omega) (by omega)) (max_le g hm).1
  rw [at_piece g segment (i := i + 1) (by omega) (by omega) (le_refl _) (g.incr _ (by omega)) hle]
  congr 1
  funext j
  rw [Nat.add_sub_cancel, segment_left (g.incr i (by omega)) (g.incr (i + 1) (by omega)) (g.incr (i + 2) (by omega)), g.pnt]
  unfold extended
  rw [if_neg (by omega), if_pos (by omega)]
  congr 1

/-- **C161 (smooth)**: where two segments meet they have the same value, a control point, and the same derivative. -/
theorem smooth (eps : ℝ) (he : 0 < eps) (n : Nat) (p : Nat → Pt d) (closed : Bool) (alpha : ℝ) (c : Curve d)
    (hc : Curve.make eps n p closed alpha = .ok c) (i : Nat) (hi : 1 ≤ i) (hi' : i < n) (j : Fin d) :
    piece c i j (c.knot (i + 1)) = p i j ∧ piece c (i + 1) j (c.knot (i + 1)) = p i j ∧
    ∃ t, HasDerivAt (piece c i j) t (c.knot (i + 1)) ∧ HasDerivAt (piece c (i + 1) j) t (c.knot (i + 1)) := by
  obtain ⟨g, hm, _⟩ := (make_spec_aux eps he n p closed alpha).2.2 c hc
  have h0 := g.incr (i - 1) (by omega)
  rw [Nat.sub_add_cancel hi] at h0
  have h1 := g.incr i (by omega)
  have h2 := g.incr (i + 1) (by omega)
  have h3 := g.incr (i + 2) (by omega)
  have hp : c.pnt (i + 1) j = p i j := by
    rw [g.pnt]
    unfold extended
    rw [if_neg (by omega), if_pos (by omega)]
    congr 1
  refine ⟨?_, ?_, tangent (c.knot i) (c.knot (i + 1)) (c.knot (i + 2)) (c.pnt i j) (c.pnt (i + 1) j) (c.pnt (i + 2) j), ?_, ?_⟩
  · unfold piece
    rw [segment_right h0 h1 h2, hp]
  · unfold piece
    rw [Nat.add_sub_cancel, segment_left h1 h2 h3, hp]
  · rw [← slope_right h0 h1 h2 (c.pnt (i - 1) j)]
    exact segment_deriv _ _ _ _ _ _ _ _ _
  · rw [← slope_left h1 h2 h3 _ _ _ (c.pnt (i + 3) j)]
    exact segment_deriv _ _ _ _ _ _ _ _ _

/-- **C161 (prime, proved part)**: at the parameter of a control point `prime` is the derivative there. -/
theorem prime_at_points_partial (eps : ℝ) (he : 0 < eps) (n : Nat) (p : Nat → Pt d) (closed : Bool) (alpha : ℝ)
    (c : Curve d) (hc : Curve.make eps n p closed alpha = .ok c) (i : Nat) (hi : i < n) :
    ∃ v, c.prime (c.parameterAt i) = .ok v ∧ ∀ j, HasDerivAt (piece c (i + 1) j) (v j) (c.parameterAt i) := by
  obtain ⟨g, hm, _⟩ := (make_spec_aux eps he n p closed alpha).2.2 c hc
  unfold Curve.parameterAt Curve.prime
  have hle : c.knot (i + 1) ≤ c.maxS := le_trans (knot_mono g (b := n) (by omega) (by omega)) (max_le g hm).1
  rw [at_piece g segmentPrime (i := i + 1) (by omega) (by omega) (le_refl _) (g.incr _ (by omega)) hle]
  refine ⟨_, rfl, fun j => ?_⟩
  rw [Nat.add_sub_cancel, prime_left (g.incr i (by omega)) (g.incr (i + 1) (by omega)) (g.incr (i + 2) (by omega))]
  exact segment_deriv _ _ _ _ _ _ _ _ _

/-- **C161 refuted (prime)**: between two control points `prime` is the derivative of a coordinate only if the chord of
the segment continues the chord before it: `B1` is formed with weights left from another step. -/
theorem prime_wrong_between (eps : ℝ) (he : 0 < eps) (n : Nat) (p : Nat → Pt d) (closed : Bool) (alpha : ℝ)
    (c : Curve d) (hc : Curve.make eps n p closed alpha = .ok c) (i : Nat) (hi : 1 ≤ i) (hi' : i < n) (s : ℝ)
    (h1 : c.knot i < s) (h2 : s < c.knot (i + 1)) :
    ∃ v, c.prime s = .ok v ∧ ∀ j, (HasDerivAt (piece c i j) (v j) s ↔
      (c.pnt i j - c.pnt (i - 1) j) / (c.knot i - c.knot (i - 1)) = (c.pnt (i + 1) j - c.pnt i j) / (c.knot (i + 1) - c.knot i)) := by
  obtain ⟨g, hm, _⟩ := (make_spec_aux eps he n p closed alpha).2.2 c hc
  have hle : s ≤ c.maxS :=
    le_trans (le_of_lt h2) (le_trans (knot_mono g (a := i + 1) (b := n) (by omega) (by omega)) (max_le g hm).1)
  unfold Curve.prime
  rw [at_piece g segmentPrime hi (by omega) (le_of_lt h1) h2 hle]
  refine ⟨_, rfl, fun j => ?_⟩
  have h0 := g.incr (i - 1) (by omega)
  rw [Nat.sub_add_cancel hi] at h0
  have hd := segment_deriv (c.knot (i - 1)) (c.knot i) (c.knot (i + 1)) (c.knot (i + 2))
    (c.pnt (i - 1) j) (c.pnt i j) (c.pnt (i + 1) j) (c.pnt (i + 2) j) s
  rw [← prime_iff h0 (g.incr i (by omega)) (g.incr (i + 1) (by omega)) _ _ _ (c.pnt (i + 2) j) h1 h2]
  constructor
  · intro h
    exact h.unique hd
  · intro h
    rw [h]
    exact hd

/-- **C161 refuted (end of a closed curve)**: at its last parameter a closed curve reads outside of its knots. -/
theorem closed_end_undefined (eps : ℝ) (he : 0 < eps) (n : Nat) (p : Nat → Pt d) (alpha : ℝ) (c : Curve d)
    (hc : Curve.make eps n p true alpha = .ok c) : c.eval c.maxS = .undefined ∧ c.prime c.maxS = .undefined := by
  obtain ⟨g, hm, _⟩ := (make_spec_aux eps he n p true alpha).2.2 c hc
  have hm' : c.maxS = c.knot (n + 1) := hm
  have h0 : 0 ≤ c.maxS := by
    have := knot_mono g (a := 1) (b := n + 1) (by omega) (by omega)
    rw [g.zero] at this
    rw [hm']; exact this
  have key : ∀ f, c.at f c.maxS = .undefined := by
    intro f
    unfold Curve.at
    rw [if_neg (by push Not; exact ⟨h0, le_refl _⟩)]
    dsimp only
    rw [hm', upper_eq g (by omega) (le_refl _) (g.incr _ (by omega)), g.size.1, if_pos (by omega)]
  exact ⟨key _, key _⟩

/-- A case: with the values 0, 0, 1, 1 at the knots -1, 0, 1, 2 the two differ in the middle. -/
example : segmentPrime (-1) 0 1 2 0 0 1 1 (1 / 2) ≠ slope (-1) 0 1 2 0 0 1 1 (1 / 2) := by
  rw [Ne, prime_iff (by norm_num) (by norm_num) (by norm_num) _ _ _ _ (by norm_num) (by norm_num)]
  norm_num

/-- A case: with alpha 0 all parameters are the numbers of the points, and any points are accepted. -/
example (p : Nat → Pt 2) : ∃ c, Curve.make (1 / 2) 4 p false 0 = .ok c := by
  obtain ⟨h1, h2, _⟩ := make_spec (1 / 2) (by norm_num) 4 p false 0
  cases h : Curve.make (1 / 2) 4 p false 0 with
  | ok c => exact ⟨c, rfl⟩
  | undefined => exact absurd h h2
  | throw =>
    rcases h1.1 h with h | h | h | ⟨i, j, _, h⟩
    · omega
    · norm_num at h
    · norm_num at h
    · norm_num at h

end VW.Spline
