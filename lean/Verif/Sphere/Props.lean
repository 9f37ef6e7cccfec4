import Verif.Sphere.Model
import Mathlib.Tactic.Linarith
import Mathlib.Tactic.LinearCombination
import Mathlib.Tactic.NormNum
import Mathlib.Tactic.Ring
import Mathlib.Tactic.FieldSimp
import Mathlib.Tactic.Positivity
import Mathlib.Tactic.Module

/-! Bounding spheres (C134, C135). -/

namespace VW.Sphere

variable {E : Type*} [NormedAddCommGroup E] [InnerProductSpace ℝ E]

/-! ### Specification -/

/-- The sphere is proper: not empty, with a radius that is not negative. -/
def Proper (s : Sph E) : Prop := s.empty = false ∧ 0 ≤ s.radius

/-- `s` covers `o`: every point of `o` is one of `s`. -/
def Covers (s o : Sph E) : Prop := ∀ p, Contains o p → Contains s p

/-! ### Points along a line -/

theorem norm_unit {v : E} (hv : v ≠ 0) (t : ℝ) : ‖t • (‖v‖⁻¹ • v)‖ = |t| := by
  rw [norm_smul, norm_smul, norm_inv, norm_norm, inv_mul_cancel₀ (norm_ne_zero_iff.2 hv), mul_one, Real.norm_eq_abs]

theorem self_unit {v : E} (hv : v ≠ 0) : v = ‖v‖ • (‖v‖⁻¹ • v) := by
  rw [smul_smul, mul_inv_cancel₀ (norm_ne_zero_iff.2 hv), one_smul]

theorem sub_unit {v : E} (hv : v ≠ 0) (a : ℝ) : a • (‖v‖⁻¹ • v) - v = (a - ‖v‖) • (‖v‖⁻¹ • v) := by
  rw [sub_smul, ← self_unit hv]

/-- Center and radius of the grown sphere. -/
theorem growPoint_eq (s : Sph E) (hs : Proper s) (p : E) (h : s.radius < ‖p - s.center‖) :
    growPoint s p = ⟨s.center + ((‖p - s.center‖ - s.radius) / 2) • (‖p - s.center‖⁻¹ • (p - s.center)),
      s.radius + (‖p - s.center‖ + s.radius) / 2, false⟩ := by
  have hv : p - s.center ≠ 0 := norm_ne_zero_iff.1 (by linarith [hs.2])
  have e : ‖p - (s.center + ((‖p - s.center‖ - s.radius) / 2) • (‖p - s.center‖⁻¹ • (p - s.center)))‖ = (‖p - s.center‖ + s.radius) / 2 := by
    have : p - (s.center + ((‖p - s.center‖ - s.radius) / 2) • (‖p - s.center‖⁻¹ • (p - s.center))) =
        ((‖p - s.center‖ + s.radius) / 2) • (‖p - s.center‖⁻¹ • (p - s.center)) := by
      rw [← sub_sub]
      nth_rw 1 [self_unit hv]
      rw [← sub_smul]
      congr 1
      ring
    rw [this, norm_unit hv, abs_of_nonneg (by linarith [hs.2])]
  unfold growPoint
  rw [if_neg (by simp [hs.1])]
  simp only []
  rw [if_pos h, e, if_pos (by linarith [hs.2])]

/-- **C134 (growing to a point).** The grown sphere contains the point and all that the sphere contained before; if the sphere contained the
point it is unchanged; growing an empty sphere gives the point. -/
theorem growPoint_spec (s : Sph E) (p : E) :
    (s.empty = true → ∀ q, Contains (growPoint s p) q ↔ q = p) ∧
      (Proper s → Proper (growPoint s p) ∧ Contains (growPoint s p) p ∧ Covers (growPoint s p) s) ∧
      (Contains s p → growPoint s p = s) := by
  refine ⟨fun he q => ?_, fun hs => ?_, fun hc => ?_⟩
  · unfold growPoint Contains
    rw [if_pos he]
    simp [sub_eq_zero, eq_comm]
  · by_cases h : s.radius < ‖p - s.center‖
    · have hv : p - s.center ≠ 0 := norm_ne_zero_iff.1 (by linarith [hs.2])
      rw [growPoint_eq s hs p h]
      refine ⟨⟨rfl, by show 0 ≤ s.radius + _; linarith [hs.2]⟩, ⟨rfl, ?_⟩, fun q hq => ⟨rfl, ?_⟩⟩
      · show ‖s.center + _ - p‖ ≤ s.radius + _
        have : s.center + ((‖p - s.center‖ - s.radius) / 2) • (‖p - s.center‖⁻¹ • (p - s.center)) - p =
            (-((‖p - s.center‖ + s.radius) / 2)) • (‖p - s.center‖⁻¹ • (p - s.center)) := by
          rw [show s.center + ((‖p - s.center‖ - s.radius) / 2) • (‖p - s.center‖⁻¹ • (p - s.center)) - p =
            ((‖p - s.center‖ - s.radius) / 2) • (‖p - s.center‖⁻¹ • (p - s.center)) - (p - s.center) by abel]
          rw [sub_unit hv]
          congr 1
          ring
        rw [this, norm_unit hv, abs_neg, abs_of_nonneg (by linarith [hs.2])]
        linarith [hs.2]
      · show ‖s.center + _ - q‖ ≤ s.radius + _
        rw [show s.center + ((‖p - s.center‖ - s.radius) / 2) • (‖p - s.center‖⁻¹ • (p - s.center)) - q =
          (s.center - q) + ((‖p - s.center‖ - s.radius) / 2) • (‖p - s.center‖⁻¹ • (p - s.center)) by abel]
        refine (norm_add_le _ _).trans ?_
        rw [norm_unit hv, abs_of_nonneg (by linarith)]
        have := hq.2
        linarith [hs.2]
    · have : growPoint s p = s := by unfold growPoint; rw [if_neg (by simp [hs.1])]; simp only []; rw [if_neg h]
      rw [this]
      exact ⟨hs, ⟨hs.1, by rw [norm_sub_rev]; linarith⟩, fun q hq => hq⟩
  · unfold growPoint
    rw [if_neg (by simp [hc.1])]
    simp only []
    rw [if_neg (by have := hc.2; rw [norm_sub_rev] at this; linarith)]

/-- **C134 (growing to points).** A sphere grown from nothing by points contains them all. -/
theorem growAll_contains (r : ℝ) (l : List E) : ∀ p ∈ l, Contains (l.foldl growPoint (Sph.none r)) p := by
  have G : ∀ (l : List E) (s : Sph E), Proper s → Proper (l.foldl growPoint s) ∧ Covers (l.foldl growPoint s) s ∧
      ∀ p ∈ l, Contains (l.foldl growPoint s) p := by
    intro l
    induction l with
    | nil => exact fun s hs => ⟨hs, fun q hq => hq, by simp⟩
    | cons a t ih =>
      intro s hs
      obtain ⟨h1, h2, h3⟩ := (growPoint_spec s a).2.1 hs
      obtain ⟨i1, i2, i3⟩ := ih _ h1
      refine ⟨i1, fun q hq => i2 q (h3 q hq), fun p hp => ?_⟩
      rcases List.mem_cons.1 hp with rfl | hp
      · exact i2 _ h2
      · exact i3 p hp
  cases l with
  | nil => simp
  | cons a t =>
    have h0 : Proper (growPoint (Sph.none r) a) := by
      unfold growPoint Sph.none; exact ⟨rfl, le_refl _⟩
    obtain ⟨-, g2, g3⟩ := G t _ h0
    intro p hp
    rcases List.mem_cons.1 hp with rfl | hp
    · exact g2 _ (((growPoint_spec (Sph.none r) p).1 rfl p).2 rfl)
    · exact g3 p hp

/-- **Refuted (C134): the grown sphere is not the smallest.** Whenever a sphere of positive radius grows to a point outside, there is a smaller
one, with the same center, that does: the radius is too large by the old radius. -/
theorem growPoint_not_smallest (s : Sph E) (hs : Proper s) (hr : 0 < s.radius) (p : E) (hp : ¬ Contains s p) :
    ∃ t : Sph E, Proper t ∧ Contains t p ∧ Covers t s ∧ t.center = (growPoint s p).center ∧
      t.radius = (growPoint s p).radius - s.radius := by
  have h : s.radius < ‖p - s.center‖ := by
    by_contra h
    exact hp ⟨hs.1, by rw [norm_sub_rev]; linarith⟩
  have hv : p - s.center ≠ 0 := norm_ne_zero_iff.1 (by linarith [hs.2])
  rw [growPoint_eq s hs p h]
  refine ⟨⟨s.center + ((‖p - s.center‖ - s.radius) / 2) • (‖p - s.center‖⁻¹ • (p - s.center)), (‖p - s.center‖ + s.radius) / 2, false⟩,
    ⟨rfl, by show 0 ≤ (_ : ℝ) / 2; linarith⟩, ⟨rfl, ?_⟩, fun q hq => ⟨rfl, ?_⟩, rfl, by ring⟩
  · show ‖s.center + _ - p‖ ≤ _ / 2
    have : s.center + ((‖p - s.center‖ - s.radius) / 2) • (‖p - s.center‖⁻¹ • (p - s.center)) - p =
        (-((‖p - s.center‖ + s.radius) / 2)) • (‖p - s.center‖⁻¹ • (p - s.center)) := by
      rw [show s.center + ((‖p - s.center‖ - s.radius) / 2) • (‖p - s.center‖⁻¹ • (p - s.center)) - p =
        ((‖p - s.center‖ - s.radius) / 2) • (‖p - s.center‖⁻¹ • (p - s.center)) - (p - s.center) by abel]
      rw [sub_unit hv]
      congr 1
      ring
    rw [this, norm_unit hv, abs_neg, abs_of_nonneg (by linarith)]
  · show ‖s.center + _ - q‖ ≤ _ / 2
    rw [show s.center + ((‖p - s.center‖ - s.radius) / 2) • (‖p - s.center‖⁻¹ • (p - s.center)) - q =
      (s.center - q) + ((‖p - s.center‖ - s.radius) / 2) • (‖p - s.center‖⁻¹ • (p - s.center)) by abel]
    refine (norm_add_le _ _).trans ?_
    rw [norm_unit hv, abs_of_nonneg (by linarith)]
    have := hq.2
    linarith

/-! ### Spheres and spheres -/

/-- There is a unit vector along a given one. -/
theorem exists_dir [Nontrivial E] (v : E) : ∃ u : E, ‖u‖ = 1 ∧ v = ‖v‖ • u := by
  by_cases hv : v = 0
  · obtain ⟨w, hw⟩ := exists_ne (0 : E)
    exact ⟨‖w‖⁻¹ • w, by rw [norm_smul, norm_inv, norm_norm, inv_mul_cancel₀ (norm_ne_zero_iff.2 hw)], by simp [hv]⟩
  · exact ⟨‖v‖⁻¹ • v, by rw [norm_smul, norm_inv, norm_norm, inv_mul_cancel₀ (norm_ne_zero_iff.2 hv)], self_unit hv⟩

/-- **C135 (contains).** A proper sphere is contained in another one exactly if all of its points are. -/
theorem containsSphere_iff [Nontrivial E] (s o : Sph E) (hs : s.empty = false) (ho : Proper o) : ContainsSphere s o ↔ Covers s o := by
  constructor
  · rintro ⟨-, -, h⟩ p hp
    refine ⟨hs, ?_⟩
    have := norm_add_le (s.center - o.center) (o.center - p)
    rw [sub_add_sub_cancel] at this
    linarith [hp.2]
  · intro h
    refine ⟨hs, ho.1, ?_⟩
    obtain ⟨u, hu, hv⟩ := exists_dir (s.center - o.center)
    have := (h (o.center - o.radius • u) ⟨ho.1, by
      rw [sub_sub_cancel, norm_smul, hu, mul_one, Real.norm_eq_abs, abs_of_nonneg ho.2]⟩).2
    rw [show s.center - (o.center - o.radius • u) = (s.center - o.center) + o.radius • u by abel] at this
    nth_rw 1 [hv] at this
    rw [← add_smul, norm_smul, hu, mul_one, Real.norm_eq_abs, abs_of_nonneg (by have := norm_nonneg (s.center - o.center); linarith [ho.2])] at this
    linarith

/-- **C135 (intersects).** Two proper spheres intersect exactly if they have a point in common. -/
theorem intersects_iff (s o : Sph E) (hs : Proper s) (ho : Proper o) : Intersects s o ↔ ∃ p, Contains s p ∧ Contains o p := by
  constructor
  · rintro ⟨-, -, h⟩
    by_cases h0 : s.radius + o.radius = 0
    · have a : s.radius = 0 := by linarith [hs.2, ho.2]
      have b : o.radius = 0 := by linarith [hs.2, ho.2]
      rw [h0] at h
      have := sub_eq_zero.1 (norm_le_zero_iff.1 h)
      exact ⟨s.center, ⟨hs.1, by simp [a]⟩, ⟨ho.1, by simp [this, b]⟩⟩
    · have hp : 0 < s.radius + o.radius := lt_of_le_of_ne (by linarith [hs.2, ho.2]) (Ne.symm h0)
      refine ⟨s.center + (s.radius / (s.radius + o.radius)) • (o.center - s.center), ⟨hs.1, ?_⟩, ⟨ho.1, ?_⟩⟩
      · rw [show s.center - (s.center + (s.radius / (s.radius + o.radius)) • (o.center - s.center)) =
          (s.radius / (s.radius + o.radius)) • (s.center - o.center) by module]
        rw [norm_smul, Real.norm_eq_abs, abs_of_nonneg (div_nonneg hs.2 hp.le)]
        calc _ ≤ s.radius / (s.radius + o.radius) * (s.radius + o.radius) := mul_le_mul_of_nonneg_left h (div_nonneg hs.2 hp.le)
          _ = s.radius := div_mul_cancel₀ _ h0
      · rw [show o.center - (s.center + (s.radius / (s.radius + o.radius)) • (o.center - s.center)) =
          (1 - s.radius / (s.radius + o.radius)) • (o.center - s.center) by module]
        rw [show 1 - s.radius / (s.radius + o.radius) = o.radius / (s.radius + o.radius) by field_simp; ring]
        rw [norm_smul, Real.norm_eq_abs, abs_of_nonneg (div_nonneg ho.2 hp.le), norm_sub_rev]
        calc _ ≤ o.radius / (s.radius + o.radius) * (s.radius + o.radius) := mul_le_mul_of_nonneg_left h (div_nonneg ho.2 hp.le)
          _ = o.radius := div_mul_cancel₀ _ h0
  · rintro ⟨p, h1, h2⟩
    refine ⟨hs.1, ho.1, ?_⟩
    have := norm_add_le (s.center - p) (p - o.center)
    rw [sub_add_sub_cancel] at this
    have h2' := h2.2
    rw [norm_sub_rev] at h2'
    linarith [h1.2]

/-- **C134 (growing to a sphere).** Growing keeps all points, and an empty sphere becomes the other one. A sphere around another center is
covered exactly if its radius is at most the distance of the centers plus twice the radius of the sphere grown; one around the same center is
ignored. -/
theorem growSphere_spec [Nontrivial E] (s o : Sph E) :
    (o.empty = true → growSphere s o = s) ∧ (s.empty = true → o.empty = false → growSphere s o = o) ∧
      (Proper s → Covers (growSphere s o) s) ∧
      (Proper s → o.center = s.center → growSphere s o = s) ∧
      (Proper s → Proper o → o.center ≠ s.center → (Covers (growSphere s o) o ↔ o.radius ≤ ‖o.center - s.center‖ + 2 * s.radius)) := by
  refine ⟨fun h => by unfold growSphere; rw [if_pos h], fun h h' => by unfold growSphere; rw [if_neg (by simp [h']), if_pos h],
    fun hs => ?_, fun hs h => ?_, fun hs ho hne => ?_⟩
  · unfold growSphere
    split
    · exact fun q hq => hq
    · rw [if_neg (by simp [hs.1])]
      simp only []
      split
      · exact fun q hq => hq
      · exact ((growPoint_spec s _).2.1 hs).2.2
  · unfold growSphere
    split
    · rfl
    · rw [if_neg (by simp [hs.1])]
      simp only []
      rw [if_pos (by rw [h, sub_self])]
  · have hv : o.center - s.center ≠ 0 := sub_ne_zero.2 hne
    have hd : 0 < ‖o.center - s.center‖ := norm_pos_iff.2 hv
    have e : growSphere s o = growPoint s (o.center + o.radius • (‖o.center - s.center‖⁻¹ • (o.center - s.center))) := by
      unfold growSphere
      rw [if_neg (by simp [ho.1]), if_neg (by simp [hs.1])]
      simp only []
      rw [if_neg hv]
    rw [e]
    set d := ‖o.center - s.center‖ with hdd
    set u := d⁻¹ • (o.center - s.center) with hu
    have hun : ‖u‖ = 1 := by rw [hu, norm_smul, norm_inv, hdd, norm_norm, inv_mul_cancel₀ hd.ne']
    have hou : o.center - s.center = d • u := by rw [hu, hdd]; exact self_unit hv
    have hq : o.center + o.radius • u - s.center = (d + o.radius) • u := by
      rw [show o.center + o.radius • u - s.center = (o.center - s.center) + o.radius • u by abel, hou, add_smul]
    have hqn : ‖o.center + o.radius • u - s.center‖ = d + o.radius := by
      rw [hq, norm_smul, hun, mul_one, Real.norm_eq_abs, abs_of_nonneg (by linarith [ho.2])]
    have hD : 0 < d + o.radius := by linarith [ho.2]
    by_cases h : s.radius < d + o.radius
    · have hg := growPoint_eq s hs (o.center + o.radius • u) (by rw [hqn]; exact h)
      rw [hqn, hq, inv_smul_smul₀ hD.ne'] at hg
      rw [hg, ← containsSphere_iff _ _ rfl ho]
      unfold ContainsSphere
      simp only [ho.1, true_and]
      rw [show s.center + ((d + o.radius - s.radius) / 2) • u - o.center = ((d + o.radius - s.radius) / 2 - d) • u by
        rw [sub_smul, ← hou]; abel]
      rw [norm_smul, hun, mul_one, Real.norm_eq_abs, abs_le]
      constructor
      · rintro ⟨-, h2⟩; linarith
      · intro h2; constructor <;> linarith [hs.2, ho.2]
    · have hg : growPoint s (o.center + o.radius • u) = s := by
        unfold growPoint
        rw [if_neg (by simp [hs.1])]
        simp only []
        rw [hqn, if_neg h]
      rw [hg]
      push Not at h
      refine ⟨fun _ => by linarith [hs.2], fun _ => ?_⟩
      rw [← containsSphere_iff _ _ hs.1 ho]
      exact ⟨hs.1, ho.1, by rw [norm_sub_rev]; linarith⟩

/-! ### Crop -/

/-- The distance to a point between two centers. -/
theorem stewart (a b p : E) (t : ℝ) :
    ‖a + t • (b - a) - p‖ ^ 2 = (1 - t) * ‖a - p‖ ^ 2 + t * ‖b - p‖ ^ 2 - t * (1 - t) * ‖b - a‖ ^ 2 := by
  have e1 : a + t • (b - a) - p = (a - p) + t • (b - a) := by abel
  have e2 : b - p = (a - p) + (b - a) := by abel
  rw [e1, e2, norm_add_sq_real, norm_add_sq_real, norm_smul, mul_pow, inner_smul_right, Real.norm_eq_abs, sq_abs]
  ring

/-- **C135 (crop).** For proper spheres: the crop is empty exactly if there is no common point; it contains every common point; it is one of
the two spheres, or the one around a point between the centers through all common points of the surfaces. -/
theorem crop_spec (s o : Sph E) (hs : Proper s) (ho : Proper o) :
    ((crop s o).empty = true ↔ ¬ ∃ p, Contains s p ∧ Contains o p) ∧
      (∀ p, Contains s p → Contains o p → Contains (crop s o) p) ∧
      (Intersects s o → crop s o = s ∨ crop s o = o ∨
        (∃ t : ℝ, 0 ≤ t ∧ t ≤ 1 ∧ (crop s o).center = s.center + t • (o.center - s.center)) ∧
          (crop s o).radius ≤ s.radius ∧ (crop s o).radius ≤ o.radius ∧
          ∀ p, ‖s.center - p‖ = s.radius → ‖o.center - p‖ = o.radius → ‖(crop s o).center - p‖ = (crop s o).radius) := by
  rw [← intersects_iff s o hs ho]
  have hcop : (⟨o.center, o.radius, s.empty⟩ : Sph E) = o := by
    obtain ⟨c, r, e⟩ := o
    have : e = false := ho.1
    subst this
    simp [hs.1]
  have hI : Intersects s o ↔ ‖o.center - s.center‖ ≤ s.radius + o.radius := by
    unfold Intersects; rw [norm_sub_rev]; exact ⟨fun h => h.2.2, fun h => ⟨hs.1, ho.1, h⟩⟩
  unfold crop
  rw [if_neg (by simp [hs.1, ho.1])]
  simp only []
  rw [hcop]
  by_cases h1 : ‖o.center - s.center‖ > s.radius + o.radius
  · rw [if_pos h1]
    refine ⟨⟨fun _ h => by rw [hI] at h; linarith, fun _ => rfl⟩, fun p a b => ?_, fun h => by rw [hI] at h; linarith⟩
    have := hI.1 ((intersects_iff s o hs ho).2 ⟨p, a, b⟩)
    linarith
  have hi : Intersects s o := hI.2 (not_lt.1 h1)
  rw [if_neg h1]
  have S : ∀ c : Sph E, c = s ∨ c = o → ((c.empty = true ↔ ¬ Intersects s o) ∧ (∀ p, Contains s p → Contains o p → Contains c p)) := by
    rintro c (rfl | rfl)
    · exact ⟨⟨fun h => (by rw [hs.1] at h; cases h), fun h => absurd hi h⟩, fun p a _ => a⟩
    · exact ⟨⟨fun h => (by rw [ho.1] at h; cases h), fun h => absurd hi h⟩, fun p _ a => a⟩
  by_cases h2 : ‖o.center - s.center‖ ≤ s.radius - o.radius
  · rw [if_pos h2]; exact ⟨(S o (Or.inr rfl)).1, (S o (Or.inr rfl)).2, fun _ => Or.inr (Or.inl rfl)⟩
  rw [if_neg h2]
  by_cases h3 : ‖o.center - s.center‖ ≤ o.radius - s.radius
  · rw [if_pos h3]; exact ⟨(S s (Or.inl rfl)).1, (S s (Or.inl rfl)).2, fun _ => Or.inl rfl⟩
  rw [if_neg h3]
  by_cases h4 : s.radius ≥ ‖o.center - s.center‖
  · rw [if_pos h4]; exact ⟨(S o (Or.inr rfl)).1, (S o (Or.inr rfl)).2, fun _ => Or.inr (Or.inl rfl)⟩
  rw [if_neg h4]
  by_cases h5 : o.radius ≥ ‖o.center - s.center‖
  · rw [if_pos h5]; exact ⟨(S s (Or.inl rfl)).1, (S s (Or.inl rfl)).2, fun _ => Or.inl rfl⟩
  rw [if_neg h5]
  push Not at h1 h2 h3 h4 h5
  clear S hcop
  set d := ‖o.center - s.center‖ with hd
  have hs0 := hs.2
  have ho0 := ho.2
  have hd0 : 0 < d := lt_of_le_of_lt hs0 h4
  set x := (d + (s.radius * s.radius - o.radius * o.radius) / d) / 2 with hx
  have hxd : 2 * x * d = d ^ 2 + s.radius ^ 2 - o.radius ^ 2 := by rw [hx]; field_simp; ring
  have hc : s.center + x • (d⁻¹ • (o.center - s.center)) = s.center + (x / d) • (o.center - s.center) := by rw [smul_smul, div_eq_mul_inv]
  rw [hc]
  have hx0 : 0 < x := by
    by_contra hcon
    push Not at hcon
    nlinarith [mul_nonneg hd0.le (neg_nonneg.2 hcon), mul_self_nonneg s.radius, mul_lt_mul'' h5 h5 ho0 ho0]
  have hx1 : x < d := by
    by_contra hcon
    push Not at hcon
    nlinarith [mul_le_mul_of_nonneg_right hcon hd0.le, mul_self_nonneg o.radius, mul_lt_mul'' h4 h4 hs0 hs0]
  have ht0 : 0 ≤ x / d := div_nonneg hx0.le hd0.le
  have ht1 : x / d ≤ 1 := (div_le_one hd0).2 hx1.le
  have key : ∀ p : E, ‖s.center + (x / d) • (o.center - s.center) - p‖ ^ 2 =
      (s.radius ^ 2 - x ^ 2) + ((1 - x / d) * (‖s.center - p‖ ^ 2 - s.radius ^ 2) + (x / d) * (‖o.center - p‖ ^ 2 - o.radius ^ 2)) := by
    intro p
    rw [stewart, ← hd]
    have e1 : (x / d) * d ^ 2 = x * d := by field_simp
    have e2 : (x / d) ^ 2 * d ^ 2 = x ^ 2 := by field_simp
    have e3 : (x / d) * (s.radius ^ 2 - o.radius ^ 2) = 2 * x ^ 2 - x * d := by
      rw [show s.radius ^ 2 - o.radius ^ 2 = 2 * x * d - d ^ 2 by linarith]; field_simp
    linear_combination -e1 + e2 + e3
  have hrad : 0 ≤ s.radius ^ 2 - x ^ 2 := by
    have a : x ≤ s.radius := by
      by_contra hcon
      push Not at hcon
      have : 2 * s.radius * d < 2 * x * d := by nlinarith
      have h6 : o.radius < d - s.radius ∨ d - s.radius ≤ o.radius := lt_or_ge _ _
      rcases h6 with h6 | h6
      · linarith
      · nlinarith [mul_self_le_mul_self (by linarith : 0 ≤ d - s.radius) h6]
    nlinarith
  refine ⟨⟨fun h => (by rw [hs.1] at h; cases h), fun h => absurd hi h⟩, fun p a b => ⟨hs.1, ?_⟩, fun _ => Or.inr (Or.inr ⟨⟨x / d, ht0, ht1, rfl⟩, ?_, ?_, ?_⟩)⟩
  · show _ ≤ Real.sqrt (s.radius * s.radius - x * x)
    apply Real.le_sqrt_of_sq_le
    rw [key p]
    have a' := a.2
    have b' := b.2
    have a2 : ‖s.center - p‖ ^ 2 - s.radius ^ 2 ≤ 0 := by nlinarith [norm_nonneg (s.center - p)]
    have b2 : ‖o.center - p‖ ^ 2 - o.radius ^ 2 ≤ 0 := by nlinarith [norm_nonneg (o.center - p)]
    nlinarith [mul_nonneg (sub_nonneg.2 ht1) (neg_nonneg.2 a2), mul_nonneg ht0 (neg_nonneg.2 b2)]
  · show Real.sqrt _ ≤ s.radius
    rw [Real.sqrt_le_left hs0]
    nlinarith
  · show Real.sqrt _ ≤ o.radius
    rw [Real.sqrt_le_left ho0]
    nlinarith [mul_self_nonneg (d - x)]
  · intro p a b
    show _ = Real.sqrt (s.radius * s.radius - x * x)
    rw [eq_comm, Real.sqrt_eq_iff_mul_self_eq (by nlinarith) (norm_nonneg _)]
    have := key p
    rw [a, b] at this
    nlinarith

/-- **Refuted (C135).** Cropping to an empty sphere changes nothing, though there is no common point. -/
theorem crop_empty (s o : Sph E) (ho : o.empty = true) : crop s o = s ∧ ¬ ∃ p, Contains o p := by
  unfold crop Contains
  simp [ho]

/-- **Refuted (C135).** Cropping can enlarge a sphere: if it contains the center of the other one, the result is the other one, whatever its
size. -/
theorem crop_enlarges (u : E) (hu : ‖u‖ = 1) :
    ∃ s o : Sph E, Proper s ∧ Proper o ∧ (crop s o).radius > s.radius ∧ ¬ Covers s (crop s o) := by
  refine ⟨Sph.of 0 2, Sph.of ((3 / 2 : ℝ) • u) 3, ⟨rfl, by norm_num [Sph.of]⟩, ⟨rfl, by norm_num [Sph.of]⟩, ?_⟩
  have e : crop (Sph.of 0 2) (Sph.of ((3 / 2 : ℝ) • u) 3) = Sph.of ((3 / 2 : ℝ) • u) 3 := by
    unfold crop Sph.of
    norm_num [norm_smul, hu]
  rw [e]
  refine ⟨by norm_num [Sph.of], fun h => ?_⟩
  have := (h ((9 / 2 : ℝ) • u) ⟨rfl, by simp only [Sph.of]; rw [← sub_smul, norm_smul, hu]; norm_num⟩).2
  simp only [Sph.of, zero_sub, norm_neg] at this
  rw [norm_smul, hu] at this
  norm_num at this

/-- **C135 (moving and scaling).** Adding a vector moves the points, scaling by a positive number scales them, and expanding by a distance that
is not negative gives all points at most that far from the sphere. -/
theorem motions (s : Sph E) :
    (∀ v p, Contains (offset s v) (p + v) ↔ Contains s p) ∧ (∀ k : ℝ, 0 < k → ∀ p, Contains (scale s k) (k • p) ↔ Contains s p) ∧
      (Proper s → ∀ d : ℝ, 0 ≤ d → ∀ p, Contains (expand s d) p ↔ ∃ q, Contains s q ∧ ‖q - p‖ ≤ d) := by
  refine ⟨fun v p => ?_, fun k hk p => ?_, fun hs d hd p => ?_⟩
  · unfold Contains offset; simp
  · unfold Contains scale
    simp only []
    rw [← smul_sub, norm_smul, Real.norm_eq_abs, abs_of_pos hk, mul_comm s.radius]
    exact and_congr_right fun _ => mul_le_mul_iff_right₀ hk
  · have h := intersects_iff s ⟨p, d, false⟩ hs ⟨rfl, hd⟩
    unfold expand
    rw [if_neg (by simp [hs.1])]
    unfold Intersects at h
    simp only [hs.1, true_and] at h
    unfold Contains at h ⊢
    simp only [hs.1, true_and] at h ⊢
    rw [h]
    constructor
    · rintro ⟨q, a, b⟩; exact ⟨q, a, by rw [norm_sub_rev]; exact b⟩
    · rintro ⟨q, a, b⟩; exact ⟨q, a, by rw [norm_sub_rev]; exact b⟩

/-- **Refuted (C135): empty is not kept.** A sphere contracted by more than its radius contains nothing, and is not said to be empty; so is one
scaled by a negative number. A conversion of an empty sphere is not empty. Equality ignores emptiness. -/
theorem emptiness (s : Sph E) :
    (∀ d, Proper s → s.radius < d → (contract s d).empty = false ∧ ∀ p, ¬ Contains (contract s d) p) ∧
      (∀ k, s.empty = false → 0 < s.radius → k < 0 → (scale s k).empty = false ∧ ∀ p, ¬ Contains (scale s k) p) ∧
      ((convert s).empty = false) ∧ (0 ≤ s.radius → ∃ p, Contains (convert s) p) ∧ Equal (⟨s.center, s.radius, true⟩ : Sph E) ⟨s.center, s.radius, false⟩ := by
  refine ⟨fun d hs hd => ?_, fun k he hr hk => ?_, rfl, fun h => ⟨s.center, rfl, by simpa [convert, Sph.of] using h⟩, rfl, rfl⟩
  · unfold contract
    rw [if_neg (by simp [hs.1])]
    refine ⟨hs.1, fun p hp => ?_⟩
    have := hp.2
    simp only [] at this
    linarith [norm_nonneg (s.center - p)]
  · refine ⟨he, fun p hp => ?_⟩
    have := hp.2
    simp only [scale] at this
    linarith [norm_nonneg (k • s.center - p), mul_neg_of_pos_of_neg hr hk]

/-! ### Cases -/

/-- Points on a line: 0 and 2 give the sphere around 1 of radius 1; growing to 6 then gives radius 4 around 3, where 3 were enough. -/
example : growPoint (Sph.of (1 : ℝ) 1) 6 = Sph.of 3 4 := by
  have := growPoint_eq (Sph.of (1 : ℝ) 1) ⟨rfl, by norm_num [Sph.of]⟩ 6 (by norm_num [Sph.of])
  rw [this]
  unfold Sph.of
  norm_num

example : Proper (Sph.of (0 : EuclideanSpace ℝ (Fin 3)) 1) ∧ Proper (Sph.of (EuclideanSpace.single 0 (3 / 2) : EuclideanSpace ℝ (Fin 3)) 1) ∧
    Intersects (Sph.of (0 : EuclideanSpace ℝ (Fin 3)) 1) (Sph.of (EuclideanSpace.single 0 (3 / 2) : EuclideanSpace ℝ (Fin 3)) 1) := by
  refine ⟨⟨rfl, by norm_num [Sph.of]⟩, ⟨rfl, by norm_num [Sph.of]⟩, rfl, rfl, ?_⟩
  simp only [Sph.of, zero_sub, norm_neg]
  simp
  norm_num

/-- A sphere that is not covered after growing to it: from a point, to a sphere of radius 3 at distance 1. -/
example : ¬ Covers (growSphere (Sph.of (0 : ℝ) 0) (Sph.of 1 3)) (Sph.of 1 3) := by
  rw [(growSphere_spec (Sph.of (0 : ℝ) 0) (Sph.of 1 3)).2.2.2.2 ⟨rfl, le_refl _⟩ ⟨rfl, by norm_num [Sph.of]⟩ (by norm_num [Sph.of])]
  norm_num [Sph.of]

/-- A unit vector in three dimensions, for `crop_enlarges`. -/
example : ‖(EuclideanSpace.single 0 1 : EuclideanSpace ℝ (Fin 3))‖ = 1 := by simp

end VW.Sphere
