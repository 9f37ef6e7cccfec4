import Verif.VecUtil.Model
import Mathlib.Tactic.Linarith
import Mathlib.Tactic.NormNum
import Mathlib.Tactic.Ring
import Mathlib.Tactic.FieldSimp
import Mathlib.Tactic.LinearCombination
import Mathlib.Tactic.SplitIfs
import Mathlib.Tactic.Push
import Mathlib.Tactic.Positivity
/-
Properties C164 (bases and tangents) and C165 (rounding to integers).
-/
namespace VW.VecUtil

/-! ### Specification -/

/-- Inner product. -/
def dot (a b : V3) : ℝ := a.x * b.x + a.y * b.y + a.z * b.z

/-- A right-handed orthonormal basis. -/
structure Orthonormal (X Y Z : V3) : Prop where
  xx : dot X X = 1
  yy : dot Y Y = 1
  zz : dot Z Z = 1
  xy : dot X Y = 0
  yz : dot Y Z = 0
  zx : dot Z X = 0
  right : X.cross Y = Z

/-- On one of the axes. -/
def OnAxis (v : V3) : Prop := (v.y = 0 ∧ v.z = 0) ∨ (v.x = 0 ∧ v.z = 0) ∨ (v.x = 0 ∧ v.y = 0)

theorem norm_sq (v : V3) : v.norm * v.norm = dot v v := by
  unfold V3.norm dot
  exact Real.mul_self_sqrt (by nlinarith [mul_self_nonneg v.x, mul_self_nonneg v.y, mul_self_nonneg v.z])

theorem norm_eq_zero (v : V3) : v.norm = 0 ↔ v.x = 0 ∧ v.y = 0 ∧ v.z = 0 := by
  constructor
  · intro h
    have := norm_sq v
    rw [h] at this
    unfold dot at this
    refine ⟨?_, ?_, ?_⟩ <;> nlinarith [mul_self_nonneg v.x, mul_self_nonneg v.y, mul_self_nonneg v.z]
  · rintro ⟨h1, h2, h3⟩
    unfold V3.norm
    rw [h1, h2, h3]; simp

theorem norm_nonneg (v : V3) : 0 ≤ v.norm := Real.sqrt_nonneg _

theorem unit_over {v : V3} (h : v.norm ≠ 0) : dot (v.over v.norm) (v.over v.norm) = 1 := by
  have := norm_sq v
  unfold dot V3.over at *
  dsimp only
  field_simp
  linarith

/-- Z and a vector perpendicular to it of length 1 give a basis. -/
theorem basis_of {X Z : V3} (hx : dot X X = 1) (hz : dot Z Z = 1) (hp : dot Z X = 0) :
    Orthonormal X (Z.cross X) Z := by
  have yy : dot (Z.cross X) (Z.cross X) = 1 := by
    have e : dot (Z.cross X) (Z.cross X) = dot Z Z * dot X X - dot Z X * dot Z X := by
      unfold dot V3.cross; ring
    rw [e, hx, hz, hp]; ring
  refine ⟨hx, yy, hz, by unfold dot V3.cross; ring, by unfold dot V3.cross; ring, hp, ?_⟩
  have e1 : ∀ c, X.cross (Z.cross X) = ⟨Z.x * dot X X - X.x * dot Z X + c * 0, Z.y * dot X X - X.y * dot Z X,
      Z.z * dot X X - X.z * dot Z X⟩ := by
    intro c
    unfold V3.cross dot
    ext <;> ring
  rw [e1 0, hx, hp]
  ext <;> simp

/-- The index of the component of greatest magnitude. -/
theorem maxIdx_spec (Z : V3) : maxIdx Z < 3 ∧ ∀ i, i < 3 → |Z.get i| ≤ |Z.get (maxIdx Z)| := by
  have all : ∀ m : Nat, (|Z.get 0| ≤ |Z.get m| ∧ |Z.get 1| ≤ |Z.get m| ∧ |Z.get 2| ≤ |Z.get m|) →
      ∀ i, i < 3 → |Z.get i| ≤ |Z.get m| := by
    intro m ⟨h0, h1, h2⟩ i hi
    have : i = 0 ∨ i = 1 ∨ i = 2 := by omega
    rcases this with h | h | h <;> rw [h] <;> assumption
  unfold maxIdx
  dsimp only
  by_cases c1 : |Z.get 1| > |Z.get 0|
  · rw [if_pos c1]
    dsimp only
    by_cases c2 : |Z.get 2| > |Z.get 1|
    · rw [if_pos c2]
      exact ⟨show 2 < 3 by decide, all 2 ⟨(c1.trans c2).le, c2.le, le_refl _⟩⟩
    · rw [if_neg c2]
      exact ⟨show 1 < 3 by decide, all 1 ⟨c1.le, le_refl _, not_lt.1 c2⟩⟩
  · rw [if_neg c1]
    dsimp only
    by_cases c2 : |Z.get 2| > |Z.get 0|
    · rw [if_pos c2]
      exact ⟨show 2 < 3 by decide, all 2 ⟨c2.le, (not_lt.1 c1).trans c2.le, le_refl _⟩⟩
    · rw [if_neg c2]
      exact ⟨show 0 < 3 by decide, all 0 ⟨le_refl _, not_lt.1 c1, not_lt.1 c2⟩⟩

/-- **C164 (basis)**: `formBasis` throws exactly for the zero vector; for a vector along one of the axes it gives NaN; for
every other vector a right-handed orthonormal basis, the third vector along the given one. -/
theorem formBasis_spec_partial (V : V3) :
    (formBasis V = .throw ↔ V = ⟨0, 0, 0⟩) ∧
    (formBasis V = .nan ↔ V ≠ ⟨0, 0, 0⟩ ∧ OnAxis V) ∧
    ∀ X Y Z, formBasis V = .ok X Y Z → Orthonormal X Y Z ∧ ∃ l, 0 < l ∧ Z.times l = V := by
  have hz : V.norm = 0 ↔ V = ⟨0, 0, 0⟩ := by
    rw [norm_eq_zero]
    constructor
    · rintro ⟨a, b, c⟩; ext <;> simpa
    · intro h; rw [h]; exact ⟨rfl, rfl, rfl⟩
  unfold formBasis
  dsimp only
  by_cases h0 : V.norm = 0
  · rw [if_pos h0]
    have := hz.1 h0
    exact ⟨by simp [this], by simp [this], fun X Y Z h => by cases h⟩
  rw [if_neg h0]
  have hV : V ≠ ⟨0, 0, 0⟩ := fun h => h0 (hz.2 h)
  have hpos : 0 < V.norm := lt_of_le_of_ne (norm_nonneg V) (Ne.symm h0)
  have hZ : dot (V.over V.norm) (V.over V.norm) = 1 := unit_over h0
  -- components of Z vanish with those of V
  have zx : (V.over V.norm).x = 0 ↔ V.x = 0 := by unfold V3.over; simp [h0]
  have zy : (V.over V.norm).y = 0 ↔ V.y = 0 := by unfold V3.over; simp [h0]
  have zz : (V.over V.norm).z = 0 ↔ V.z = 0 := by unfold V3.over; simp [h0]
  have zl : (V.over V.norm).times V.norm = V := by
    unfold V3.over V3.times
    ext <;> dsimp only <;> field_simp
  have hax : OnAxis V ↔ OnAxis (V.over V.norm) := by unfold OnAxis; rw [zx, zy, zz]
  obtain ⟨hm, hmax⟩ := maxIdx_spec (V.over V.norm)
  rw [hax]
  generalize V.over V.norm = Z at *
  have key : ∀ X : V3, dot Z X = 0 → (X.norm = 0 ↔ OnAxis Z) →
      ((if X.norm = 0 then Basis.nan else .ok (X.over X.norm) (Z.cross (X.over X.norm)) Z) = .throw ↔ V = ⟨0, 0, 0⟩) ∧
      ((if X.norm = 0 then Basis.nan else .ok (X.over X.norm) (Z.cross (X.over X.norm)) Z) = .nan ↔
        V ≠ ⟨0, 0, 0⟩ ∧ OnAxis Z) ∧
      ∀ X' Y' Z', (if X.norm = 0 then Basis.nan else .ok (X.over X.norm) (Z.cross (X.over X.norm)) Z) = .ok X' Y' Z' →
        Orthonormal X' Y' Z' ∧ ∃ l, 0 < l ∧ Z'.times l = V := by
    intro X hp hx
    by_cases hX : X.norm = 0
    · rw [if_pos hX]
      exact ⟨by simp [hV], by simp [hV, hx.1 hX], fun _ _ _ h => by cases h⟩
    · rw [if_neg hX]
      refine ⟨by simp [hV], ?_, ?_⟩
      · constructor
        · intro h; cases h
        · rintro ⟨_, h⟩; exact absurd (hx.2 h) hX
      · intro X' Y' Z' h
        cases h
        refine ⟨basis_of (unit_over hX) hZ ?_, V.norm, hpos, zl⟩
        unfold dot at hp ⊢
        unfold V3.over
        dsimp only
        have e : Z.x * (X.x / X.norm) + Z.y * (X.y / X.norm) + Z.z * (X.z / X.norm) =
            (Z.x * X.x + Z.y * X.y + Z.z * X.z) / X.norm := by ring
        rw [e, hp, zero_div]
  have hnz : ¬ (Z.x = 0 ∧ Z.y = 0 ∧ Z.z = 0) := by
    rintro ⟨a, b, c⟩
    unfold dot at hZ
    rw [a, b, c] at hZ
    norm_num at hZ
  -- the greatest component is not 0
  have hm0 : Z.get (maxIdx Z) ≠ 0 := by
    intro e
    rw [e, abs_zero] at hmax
    have h1 := abs_nonpos_iff.1 (hmax 0 (by decide))
    have h2 := abs_nonpos_iff.1 (hmax 1 (by decide))
    have h3 := abs_nonpos_iff.1 (hmax 2 (by decide))
    unfold V3.get at h1 h2 h3
    exact hnz ⟨by simpa using h1, by simpa using h2, by simpa using h3⟩
  have hc : maxIdx Z = 0 ∨ maxIdx Z = 1 ∨ maxIdx Z = 2 := by omega
  rcases hc with hc | hc | hc
  · rw [hc] at hm0 ⊢
    have hm0 : Z.x ≠ 0 := by simpa [V3.get] using hm0
    apply key
    · simp [V3.set, V3.get, dot]; ring
    · rw [norm_eq_zero]
      simp only [V3.set, V3.get, OnAxis]
      norm_num [hm0, and_comm]
  · rw [hc] at hm0 ⊢
    have hm0 : Z.y ≠ 0 := by simpa [V3.get] using hm0
    apply key
    · simp [V3.set, V3.get, dot]; ring
    · rw [norm_eq_zero]
      simp only [V3.set, V3.get, OnAxis]
      norm_num [hm0, and_comm]
  · rw [hc] at hm0 ⊢
    have hm0 : Z.z ≠ 0 := by simpa [V3.get] using hm0
    apply key
    · simp [V3.set, V3.get, dot]; ring
    · rw [norm_eq_zero]
      simp only [V3.set, V3.get, OnAxis]
      norm_num [hm0, and_comm]

/-- **Discrepancy**: the vector straight up has no basis. -/
theorem up_nan : formBasis ⟨0, 0, 1⟩ = .nan :=
  (formBasis_spec_partial _).2.1.2 ⟨by intro h; injection h with _ _ h; norm_num at h, Or.inr (Or.inr ⟨rfl, rfl⟩)⟩

/-- A case of the theorem. -/
example : ∃ X Y Z, formBasis ⟨1, 1, 0⟩ = .ok X Y Z := by
  obtain ⟨h1, h2, _⟩ := formBasis_spec_partial ⟨1, 1, 0⟩
  cases h : formBasis ⟨1, 1, 0⟩ with
  | throw => have := h1.1 h; injection this with a; norm_num at a
  | nan => have := (h2.1 h).2; unfold OnAxis at this; norm_num at this
  | ok X Y Z => exact ⟨X, Y, Z, rfl⟩

/-! ### Tangents -/

theorem scaled_dot (v n : V3) (o : ℝ) (h : dot v n = 0) : dot (scaled v o) n = 0 := by
  unfold scaled dot V3.times V3.over at *
  dsimp only
  have : v.x / v.norm * o * n.x + v.y / v.norm * o * n.y + v.z / v.norm * o * n.z =
      (v.x * n.x + v.y * n.y + v.z * n.z) * (o / v.norm) := by ring
  rw [this, h, zero_mul]

theorem scaled_len {v : V3} (o : ℝ) (h : v.norm ≠ 0) : dot (scaled v o) (scaled v o) = o ^ 2 := by
  have := unit_over h
  unfold scaled
  generalize v.over v.norm = u at *
  unfold dot V3.times at *
  dsimp only
  linear_combination o ^ 2 * this

theorem norm_ne {v : V3} (h : v.x ≠ 0 ∨ v.y ≠ 0 ∨ v.z ≠ 0) : v.norm ≠ 0 := by
  intro e
  obtain ⟨a, b, c⟩ := (norm_eq_zero v).1 e
  rcases h with h | h | h <;> contradiction

theorem scaled_perp (u v : V3) (o : ℝ) (hu : u.norm ≠ 0) (hv : v.norm ≠ 0) (ho : o ≠ 0) :
    dot (scaled u o) (scaled v o) = 0 ↔ dot u v = 0 := by
  have e : dot (scaled u o) (scaled v o) = dot u v * (o ^ 2 / (u.norm * v.norm)) := by
    unfold scaled dot V3.times V3.over
    dsimp only
    ring
  rw [e, mul_eq_zero]
  constructor
  · rintro (h | h)
    · exact h
    · exact absurd h (by positivity)
  · exact Or.inl

/-- **C164 (tangents)**: for every unit normal both tangents are perpendicular to it, of the length asked for, and never
parallel. -/
theorem planeTangents_spec_partial (n : V3) (hn : dot n n = 1) (offset : ℝ) :
    ∃ t1 t2, planeTangents n offset = some (t1, t2) ∧ dot t1 n = 0 ∧ dot t2 n = 0 ∧
      dot t1 t1 = offset ^ 2 ∧ dot t2 t2 = offset ^ 2 ∧
      (∀ a b : ℝ, offset ≠ 0 → (⟨a * t1.x + b * t2.x, a * t1.y + b * t2.y, a * t1.z + b * t2.z⟩ : V3) = ⟨0, 0, 0⟩ →
        a = 0 ∧ b = 0) := by
  have indep : ∀ u v : V3, (∃ f g : V3 → ℝ, (∀ w c, f (w.times c) = f w * c) ∧ (∀ w c, g (w.times c) = g w * c) ∧
      (∀ w c, f (w.over c) = f w / c) ∧ (∀ w c, g (w.over c) = g w / c) ∧
      (∀ s t a b, f ⟨a * s.x + b * t.x, a * s.y + b * t.y, a * s.z + b * t.z⟩ = a * f s + b * f t) ∧
      (∀ s t a b, g ⟨a * s.x + b * t.x, a * s.y + b * t.y, a * s.z + b * t.z⟩ = a * g s + b * g t) ∧
      f ⟨0, 0, 0⟩ = 0 ∧ g ⟨0, 0, 0⟩ = 0 ∧ f u = 1 ∧ g u = 0 ∧ f v = 0 ∧ g v = 1) → u.norm ≠ 0 → v.norm ≠ 0 →
      ∀ a b : ℝ, offset ≠ 0 → (⟨a * (scaled u offset).x + b * (scaled v offset).x,
        a * (scaled u offset).y + b * (scaled v offset).y, a * (scaled u offset).z + b * (scaled v offset).z⟩ : V3) =
        ⟨0, 0, 0⟩ → a = 0 ∧ b = 0 := by
    rintro u v ⟨f, g, f1, g1, f2, g2, f3, g3, f0, g0, fu, gu, fv, gv⟩ hu hv a b ho h
    have hf := congrArg f h
    have hg := congrArg g h
    rw [f3, f0] at hf
    rw [g3, g0] at hg
    unfold scaled at hf hg
    rw [f1, f1, f2, f2, fu, fv] at hf
    rw [g1, g1, g2, g2, gu, gv] at hg
    simp only [zero_div, zero_mul, mul_zero, add_zero, zero_add, mul_eq_zero] at hf hg
    have i1 : ¬ (1 / u.norm * offset = 0) := by
      rw [mul_eq_zero]; rintro (h | h)
      · exact hu (by simpa using h)
      · exact ho h
    have i2 : ¬ (1 / v.norm * offset = 0) := by
      rw [mul_eq_zero]; rintro (h | h)
      · exact hv (by simpa using h)
      · exact ho h
    simp only [mul_eq_zero] at i1 i2
    exact ⟨hf.resolve_right i1, hg.resolve_right i2⟩
  unfold planeTangents
  by_cases hz : |n.z| > 1 / 10
  · rw [if_pos hz]
    have z0 : n.z ≠ 0 := fun e => by rw [e, abs_zero] at hz; norm_num at hz
    have nu : (⟨1, 0, -n.x / n.z⟩ : V3).norm ≠ 0 := norm_ne (Or.inl (by simp))
    have nv : (⟨0, 1, -n.y / n.z⟩ : V3).norm ≠ 0 := norm_ne (Or.inr (Or.inl (by simp)))
    refine ⟨_, _, rfl, scaled_dot _ _ _ (by unfold dot; field_simp; ring), scaled_dot _ _ _ (by unfold dot; field_simp; ring),
      scaled_len _ nu, scaled_len _ nv, indep _ _ ⟨V3.x, V3.y, fun _ _ => rfl, fun _ _ => rfl, fun _ _ => rfl, fun _ _ => rfl,
        fun _ _ _ _ => rfl, fun _ _ _ _ => rfl, rfl, rfl, rfl, rfl, rfl, rfl⟩ nu nv⟩
  rw [if_neg hz]
  by_cases hy : |n.y| > 1 / 10
  · rw [if_pos hy]
    have y0 : n.y ≠ 0 := fun e => by rw [e, abs_zero] at hy; norm_num at hy
    have nu : (⟨1, -n.x / n.y, 0⟩ : V3).norm ≠ 0 := norm_ne (Or.inl (by simp))
    have nv : (⟨0, -n.z / n.y, 1⟩ : V3).norm ≠ 0 := norm_ne (Or.inr (Or.inr (by simp)))
    refine ⟨_, _, rfl, scaled_dot _ _ _ (by unfold dot; field_simp; ring), scaled_dot _ _ _ (by unfold dot; field_simp; ring),
      scaled_len _ nu, scaled_len _ nv, indep _ _ ⟨V3.x, V3.z, fun _ _ => rfl, fun _ _ => rfl, fun _ _ => rfl, fun _ _ => rfl,
        fun _ _ _ _ => rfl, fun _ _ _ _ => rfl, rfl, rfl, rfl, rfl, rfl, rfl⟩ nu nv⟩
  rw [if_neg hy]
  have x0 : n.x ≠ 0 := by
    intro e
    rw [gt_iff_lt, not_lt, abs_le] at hz hy
    unfold dot at hn
    rw [e] at hn
    nlinarith
  rw [if_neg x0]
  have nu : (⟨-n.y / n.x, 1, 0⟩ : V3).norm ≠ 0 := norm_ne (Or.inr (Or.inl (by simp)))
  have nv : (⟨-n.z / n.x, 0, 1⟩ : V3).norm ≠ 0 := norm_ne (Or.inr (Or.inr (by simp)))
  exact ⟨_, _, rfl, scaled_dot _ _ _ (by unfold dot; field_simp; ring), scaled_dot _ _ _ (by unfold dot; field_simp; ring),
    scaled_len _ nu, scaled_len _ nv, indep _ _ ⟨V3.y, V3.z, fun _ _ => rfl, fun _ _ => rfl, fun _ _ => rfl, fun _ _ => rfl,
        fun _ _ _ _ => rfl, fun _ _ _ _ => rfl, rfl, rfl, rfl, rfl, rfl, rfl⟩ nu nv⟩

/-- **Discrepancy**: for a normal that is not too flat the tangents are perpendicular to each other only if it lies in one
of the vertical coordinate planes. -/
theorem tangents_not_perpendicular (n : V3) (hz : |n.z| > 1 / 10) (offset : ℝ) (ho : offset ≠ 0) {t1 t2 : V3}
    (h : planeTangents n offset = some (t1, t2)) : dot t1 t2 = 0 ↔ n.x = 0 ∨ n.y = 0 := by
  unfold planeTangents at h
  rw [if_pos hz] at h
  cases h
  have z0 : n.z ≠ 0 := fun e => by rw [e, abs_zero] at hz; norm_num at hz
  rw [scaled_perp _ _ _ (norm_ne (Or.inl (by simp))) (norm_ne (Or.inr (Or.inl (by simp)))) ho]
  unfold dot
  dsimp only
  have e : (1 : ℝ) * 0 + 0 * 1 + -n.x / n.z * (-n.y / n.z) = n.x * n.y / (n.z * n.z) := by field_simp; ring
  rw [e, div_eq_zero_iff]
  constructor
  · rintro (h | h)
    · exact mul_eq_zero.1 h
    · exact absurd h (mul_ne_zero z0 z0)
  · intro h; left; exact mul_eq_zero.2 h

/-! ### Rounding -/

/-- `k` is an integer nearest to `v`, at a half the one farther from 0. -/
def Nearest (v : ℝ) (k : Int) : Prop := |v - k| ≤ 1 / 2 ∧ (|v - k| = 1 / 2 → |v| < |(k : ℝ)|)

theorem round_nearest (v : ℝ) : Nearest v (round v) := by
  unfold Nearest round
  by_cases h : 0 ≤ v
  · rw [if_pos h]
    have a := Int.floor_le (v + 1 / 2)
    have b := Int.lt_floor_add_one (v + 1 / 2)
    refine ⟨by rw [abs_le]; constructor <;> linarith, fun e => ?_⟩
    have : v - (⌊v + 1 / 2⌋ : Int) = -(1 / 2) := by
      rcases (abs_eq (by norm_num)).1 e with h' | h' <;> linarith
    rw [abs_of_nonneg h, abs_of_nonneg (by linarith)]
    linarith
  · rw [if_neg h]
    push Not at h
    have a := Int.le_ceil (v - 1 / 2)
    have b := Int.ceil_lt_add_one (v - 1 / 2)
    refine ⟨by rw [abs_le]; constructor <;> linarith, fun e => ?_⟩
    have : v - (⌈v - 1 / 2⌉ : Int) = 1 / 2 := by
      rcases (abs_eq (by norm_num)).1 e with h' | h' <;> linarith
    rw [abs_of_neg h, abs_of_neg (by linarith)]
    linarith

theorem half {v : ℝ} {j k : Int} (p : v - j = 1 / 2) (q : v - k = -(1 / 2)) (f1 : |v| < |(j : ℝ)|)
    (f2 : |v| < |(k : ℝ)|) : False := by
  have kj : (k : ℝ) = j + 1 := by linarith
  rcases lt_or_ge j 0 with h | h
  · have h' : (j : ℝ) + 1 ≤ 0 := by exact_mod_cast (by omega : j + 1 ≤ 0)
    rw [abs_of_nonpos (by linarith : (k : ℝ) ≤ 0), abs_of_nonpos (by linarith : v ≤ 0)] at f2
    linarith
  · have h' : (0 : ℝ) ≤ j := by exact_mod_cast h
    rw [abs_of_nonneg h', abs_of_nonneg (by linarith : 0 ≤ v)] at f1
    linarith

theorem nearest_unique {v : ℝ} {j k : Int} (hj : Nearest v j) (hk : Nearest v k) : j = k := by
  obtain ⟨a1, a2⟩ := hj
  obtain ⟨b1, b2⟩ := hk
  by_contra hne
  have d : (1 : ℝ) ≤ |(j : ℝ) - k| := by
    have : (1 : Int) ≤ |j - k| := Int.one_le_abs (sub_ne_zero.2 hne)
    exact_mod_cast this
  have e1 : |v - j| = 1 / 2 := by
    rw [abs_le] at a1 b1
    rcases le_abs.1 d with h | h
    · have : v - j = -(1 / 2) := by linarith
      rw [this]; norm_num
    · have : v - j = 1 / 2 := by linarith
      rw [this]; norm_num
  have e2 : |v - k| = 1 / 2 := by
    rw [abs_le] at a1 b1
    rcases le_abs.1 d with h | h
    · have : v - k = 1 / 2 := by linarith
      rw [this]; norm_num
    · have : v - k = -(1 / 2) := by linarith
      rw [this]; norm_num
  have f1 := a2 e1
  have f2 := b2 e2
  rcases (abs_eq (by norm_num)).1 e1 with p | p <;> rcases (abs_eq (by norm_num)).1 e2 with q | q
  · exact hne (by have : (j : ℝ) = k := by linarith
                  exact_mod_cast this)
  · exact half p q f1 f2
  · exact half q p f2 f1
  · exact hne (by have : (j : ℝ) = k := by linarith
                  exact_mod_cast this)

/-- **C165 (round and clamp)**: for an integer type whose limits are exact as `double` (8, 16 and 32 bits) the result is the
nearest integer (halves away from 0) if the type has it, else the limit on its side. -/
theorem roundAndClamp_spec (lo hi : Int) (h : lo ≤ hi) (v : ℝ) :
    ∃ k, Nearest v k ∧ roundAndClamp lo hi lo hi v = some (max lo (min hi k)) := by
  refine ⟨round v, round_nearest v, ?_⟩
  unfold roundAndClamp
  dsimp only
  by_cases h1 : round v < lo
  · rw [if_pos h1, if_neg (c := lo > hi) (by omega), if_pos ⟨le_refl _, h⟩]
    congr 1; omega
  · rw [if_neg h1]
    by_cases h2 : round v > hi
    · rw [if_pos h2, if_pos ⟨h, le_refl _⟩]
      congr 1; omega
    · rw [if_neg h2, if_pos (by omega)]
      congr 1; omega

/-- **Discrepancy**: for 64-bit integers the upper limit is rounded up as `double`: a great value is converted out of
range. -/
theorem clamp_64 (v : ℝ) (h : 2 ^ 63 ≤ v) : roundAndClamp (-2 ^ 63) (2 ^ 63 - 1) (-2 ^ 63) (2 ^ 63) v = none := by
  have h0 : 0 ≤ v := le_trans (by positivity) h
  have hr : (2 ^ 63 : Int) ≤ round v := by
    unfold round
    rw [if_pos h0, Int.le_floor]
    push_cast
    linarith
  unfold roundAndClamp
  dsimp only
  rw [if_neg (c := round v < -2 ^ 63) (by omega)]
  by_cases c : round v > 2 ^ 63
  · rw [if_pos c, if_neg (by omega)]
  · rw [if_neg c, if_neg (by omega)]

/-- A case: 8-bit. -/
example : roundAndClamp 0 255 0 255 (5 / 2) = some 3 := by
  obtain ⟨k, hk, e⟩ := roundAndClamp_spec 0 255 (by norm_num) (5 / 2)
  have : k = 3 := nearest_unique hk ⟨by norm_num [abs_of_neg], by norm_num⟩
  rw [e, this]; rfl

end VW.VecUtil
