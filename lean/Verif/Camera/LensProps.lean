import Mathlib.Analysis.SpecialFunctions.Trigonometric.ArctanDeriv
import Mathlib.Analysis.SpecialFunctions.Trigonometric.Bounds
import Mathlib.Analysis.Calculus.Deriv.MeanValue
import Mathlib.Tactic.Linarith
import Mathlib.Data.List.GetD
import Mathlib.Tactic.FinCases
import Mathlib.Tactic.FieldSimp
import Mathlib.Tactic.LinearCombination
import Verif.Camera.Lens
import Verif.Opt.NewtonProps

/-
C121: the other lens distortions.
-/

namespace Verif.Camera.Lens

open Verif.Opt Verif.Camera.Rpc Real

/-! ### The frame -/

/-- A camera whose focal lengths are not tiny. -/
def Usable (tiny : ℝ) (cam : Cam ℝ) : Prop := 0 < tiny ∧ tiny ≤ cam.focal.1 ∧ tiny ≤ cam.focal.2

theorem frame_some (tiny : ℝ) (f : V2 ℝ → V2 ℝ) (cam : Cam ℝ) (p : V2 ℝ) (h : Usable tiny cam) :
    frame tiny f cam p = some (ofNorm cam (f (toNorm cam p))) := by
  unfold frame
  rw [if_neg]
  rintro (h1 | h1)
  · exact absurd h1 (not_lt.2 h.2.1)
  · exact absurd h1 (not_lt.2 h.2.2)

theorem of_to (tiny : ℝ) (cam : Cam ℝ) (h : Usable tiny cam) (p : V2 ℝ) : ofNorm cam (toNorm cam p) = p := by
  have h1 : cam.focal.1 ≠ 0 := (h.1.trans_le h.2.1).ne'
  have h2 : cam.focal.2 ≠ 0 := (h.1.trans_le h.2.2).ne'
  unfold ofNorm toNorm
  refine Prod.ext ?_ ?_ <;> dsimp only
  · rw [div_mul_cancel₀ _ h1, sub_add_cancel]
  · rw [div_mul_cancel₀ _ h2, sub_add_cancel]

theorem to_of (tiny : ℝ) (cam : Cam ℝ) (h : Usable tiny cam) (p : V2 ℝ) : toNorm cam (ofNorm cam p) = p := by
  have h1 : cam.focal.1 ≠ 0 := (h.1.trans_le h.2.1).ne'
  have h2 : cam.focal.2 ≠ 0 := (h.1.trans_le h.2.2).ne'
  unfold ofNorm toNorm
  refine Prod.ext ?_ ?_ <;> dsimp only
  · rw [add_sub_cancel_right, mul_div_assoc, div_self h1, mul_one]
  · rw [add_sub_cancel_right, mul_div_assoc, div_self h2, mul_one]

/-- **C121.** With a tiny or negative focal length there is no pixel, in any of the models that normalise. -/
theorem lens_tiny_focal (tiny big : ℝ) (d : List ℝ) (L : Fov) (cam : Cam ℝ) (p : V2 ℝ)
    (h : cam.focal.1 < tiny ∨ cam.focal.2 < tiny) :
    tsaiDistorted tiny d cam p = none ∧ tsaiUndistorted tiny big d cam p = none ∧
    fovDistorted tiny L cam p = none ∧ fovUndistorted tiny L cam p = none ∧
    fisheyeDistorted tiny d cam p = none ∧ fisheyeUndistorted tiny big d cam p = none ∧
    adjDistorted tiny d cam p = none ∧ adjUndistorted tiny big d cam p = none := by
  have : ∀ f : V2 ℝ → V2 ℝ, frame tiny f cam p = none := fun f => by unfold frame; rw [if_pos h]
  exact ⟨this _, this _, this _, this _, this _, this _, this _, this _⟩

theorem norm2_nonneg (v : V2 ℝ) : 0 ≤ norm2 v := sqrt_nonneg _

theorem norm2_sq (v : V2 ℝ) : norm2 v * norm2 v = v.1 * v.1 + v.2 * v.2 :=
  mul_self_sqrt (by nlinarith [mul_self_nonneg v.1, mul_self_nonneg v.2])

theorem norm2_smul (a : ℝ) (ha : 0 ≤ a) (v : V2 ℝ) : norm2 (a * v.1, a * v.2) = a * norm2 v := by
  unfold norm2
  dsimp only
  rw [show a * v.1 * (a * v.1) + a * v.2 * (a * v.2) = (a * a) * (v.1 * v.1 + v.2 * v.2) by ring,
    sqrt_mul (mul_self_nonneg a), sqrt_mul_self ha]

theorem norm2_zero : norm2 (0, 0) = 0 := by unfold norm2; simp

theorem solve_fixed (big : ℝ) (hb : 0 < big) (f : V2 ℝ → V2 ℝ) (J : V2 ℝ → ℝ → Option (ℝ × ℝ × ℝ × ℝ)) (y : V2 ℝ) (h : f y = y) :
    (newtonSolve ⟨fun x => some (f x), J, norm2, big⟩ y y (1 / 1000000) (1 / 1000000000)).1 = y := by
  unfold newtonSolve newtonLoop
  dsimp only
  rw [h]
  have e : norm2 (y.1 - y.1, y.2 - y.2) = 0 := by rw [sub_self, sub_self, norm2_zero]
  simp only [e, if_pos hb]
  cases J y (1 / 1000000) with
  | none => rfl
  | some j =>
    obtain ⟨j0, j1, j2, j3⟩ := j
    dsimp only
    split_ifs with h1 h2
    · rfl
    · simp
    · exfalso
      apply h2
      simp only [mul_zero, sub_self, zero_div]
      rw [norm2_zero]
      norm_num

/-- If the point is its own image, Newton's method finds it. -/
theorem newtonInv_fixed (big : ℝ) (hb : 0 < big) (f : V2 ℝ → V2 ℝ) (jac : Option (V2 ℝ → ℝ × ℝ × ℝ × ℝ)) (y : V2 ℝ) (h : f y = y) :
    newtonInv big f jac y = y := by
  cases jac <;> exact solve_fixed big hb f _ y h

theorem tiny_le_one : (1 / 10 ^ 300 : ℝ) ≤ 1 := by
  rw [div_le_one (by positivity)]; exact one_le_pow₀ (by norm_num)

/-! ### Tsai -/

/-- The distortion of Brown and Conrady as in the OpenCV documentation, with radial factor `R`. -/
def brown (R p1 p2 x y : ℝ) : V2 ℝ :=
  (x * R + 2 * p1 * x * y + p2 * ((x ^ 2 + y ^ 2) + 2 * x ^ 2), y * R + p1 * ((x ^ 2 + y ^ 2) + 2 * y ^ 2) + 2 * p2 * x * y)

/-- **C121.** The Tsai model with parameters in the order `k1 k2 p1 p2 k3` is the one of the OpenCV documentation. -/
theorem tsai_formula (k1 k2 p1 p2 k3 x y : ℝ) : tsaiNorm [k1, k2, p1, p2, k3] (x, y) =
    brown (1 + k1 * (x ^ 2 + y ^ 2) + k2 * (x ^ 2 + y ^ 2) ^ 2 + k3 * (x ^ 2 + y ^ 2) ^ 3) p1 p2 x y := by
  unfold tsaiNorm brown
  simp only [List.getD_cons_zero, List.getD_cons_succ]
  refine Prod.ext ?_ ?_ <;> dsimp only <;> ring

theorem deriv7 (a0 a1 a2 a3 a4 a5 a6 a7 x : ℝ) :
    HasDerivAt (fun x => a0 + a1 * x + a2 * x ^ 2 + a3 * x ^ 3 + a4 * x ^ 4 + a5 * x ^ 5 + a6 * x ^ 6 + a7 * x ^ 7)
      (a1 + 2 * a2 * x + 3 * a3 * x ^ 2 + 4 * a4 * x ^ 3 + 5 * a5 * x ^ 4 + 6 * a6 * x ^ 5 + 7 * a7 * x ^ 6) x := by
  have h := (((((((hasDerivAt_const x a0).add ((hasDerivAt_id x).const_mul a1)).add ((hasDerivAt_pow 2 x).const_mul a2)).add
    ((hasDerivAt_pow 3 x).const_mul a3)).add ((hasDerivAt_pow 4 x).const_mul a4)).add
    ((hasDerivAt_pow 5 x).const_mul a5)).add ((hasDerivAt_pow 6 x).const_mul a6)).add ((hasDerivAt_pow 7 x).const_mul a7)
  refine h.congr_deriv ?_
  push_cast
  ring

/-- **C121.** The Jacobian of the Tsai model is made of its four partial derivatives, by rows. -/
theorem tsai_jacobian (d : List ℝ) (x y : ℝ) :
    HasDerivAt (fun t => (tsaiNorm d (t, y)).1) (tsaiJac d (x, y)).1 x ∧
    HasDerivAt (fun t => (tsaiNorm d (x, t)).1) (tsaiJac d (x, y)).2.1 y ∧
    HasDerivAt (fun t => (tsaiNorm d (t, y)).2) (tsaiJac d (x, y)).2.2.1 x ∧
    HasDerivAt (fun t => (tsaiNorm d (x, t)).2) (tsaiJac d (x, y)).2.2.2 y := by
  unfold tsaiNorm tsaiJac
  dsimp only
  generalize d.getD 0 0 = k1
  generalize d.getD 1 0 = k2
  generalize d.getD 2 0 = p1
  generalize d.getD 3 0 = p2
  generalize d.getD 4 0 = k3
  refine ⟨?_, ?_, ?_, ?_⟩
  · have h := deriv7 (p2 * y ^ 2) (1 + k1 * y ^ 2 + k2 * y ^ 4 + k3 * y ^ 6 + 2 * p1 * y) (3 * p2)
      (k1 + 2 * k2 * y ^ 2 + 3 * k3 * y ^ 4) 0 (k2 + 3 * k3 * y ^ 2) 0 k3 x
    refine (h.congr_deriv ?_).congr_of_eventuallyEq (Filter.Eventually.of_forall fun t => ?_) <;> ring
  · have h := deriv7 (x * (1 + k1 * x ^ 2 + k2 * x ^ 4 + k3 * x ^ 6) + 3 * p2 * x ^ 2) (2 * p1 * x)
      (x * (k1 + 2 * k2 * x ^ 2 + 3 * k3 * x ^ 4) + p2) 0 (x * (k2 + 3 * k3 * x ^ 2)) 0 (x * k3) 0 y
    refine (h.congr_deriv ?_).congr_of_eventuallyEq (Filter.Eventually.of_forall fun t => ?_) <;> ring
  · have h := deriv7 (y * (1 + k1 * y ^ 2 + k2 * y ^ 4 + k3 * y ^ 6) + 3 * p1 * y ^ 2) (2 * p2 * y)
      (y * (k1 + 2 * k2 * y ^ 2 + 3 * k3 * y ^ 4) + p1) 0 (y * (k2 + 3 * k3 * y ^ 2)) 0 (y * k3) 0 x
    refine (h.congr_deriv ?_).congr_of_eventuallyEq (Filter.Eventually.of_forall fun t => ?_) <;> ring
  · have h := deriv7 (p1 * x ^ 2) (1 + k1 * x ^ 2 + k2 * x ^ 4 + k3 * x ^ 6 + 2 * p2 * x) (3 * p1)
      (k1 + 2 * k2 * x ^ 2 + 3 * k3 * x ^ 4) 0 (k2 + 3 * k3 * x ^ 2) 0 k3 y
    refine (h.congr_deriv ?_).congr_of_eventuallyEq (Filter.Eventually.of_forall fun t => ?_) <;> ring

theorem tsaiNorm_zero (P : V2 ℝ) : tsaiNorm [0, 0, 0, 0, 0] P = P := by
  rw [show P = (P.1, P.2) from rfl, tsai_formula]
  unfold brown
  refine Prod.ext ?_ ?_ <;> dsimp only <;> ring

/-- **C121.** With zero parameters the Tsai model changes nothing, in both directions. -/
theorem tsai_zero (tiny big : ℝ) (hb : 0 < big) (cam : Cam ℝ) (h : Usable tiny cam) (p : V2 ℝ) :
    tsaiDistorted tiny [0, 0, 0, 0, 0] cam p = some p ∧ tsaiUndistorted tiny big [0, 0, 0, 0, 0] cam p = some p := by
  unfold tsaiDistorted tsaiUndistorted
  rw [frame_some _ _ _ _ h, frame_some _ _ _ _ h, newtonInv_fixed big hb _ _ _ (tsaiNorm_zero _), tsaiNorm_zero, of_to tiny cam h]
  exact ⟨rfl, rfl⟩

/-- **C121.** In the optical centre there is no distortion, and undistorting it gives it back, whatever the parameters. -/
theorem tsai_centre (tiny big : ℝ) (hb : 0 < big) (d : List ℝ) (cam : Cam ℝ) (h : Usable tiny cam) :
    tsaiDistorted tiny d cam cam.offset = some cam.offset ∧ tsaiUndistorted tiny big d cam cam.offset = some cam.offset := by
  have h0 : toNorm cam cam.offset = (0, 0) := by unfold toNorm; simp
  have h1 : tsaiNorm d (0, 0) = (0, 0) := by unfold tsaiNorm; simp
  unfold tsaiDistorted tsaiUndistorted
  rw [frame_some _ _ _ _ h, frame_some _ _ _ _ h, h0, newtonInv_fixed big hb _ _ _ h1, h1]
  constructor <;> (unfold ofNorm; simp)

/-- A camera of the same view whose image is `s` times as large. -/
noncomputable def grow (cam : Cam ℝ) (s : ℝ) : Cam ℝ := ⟨(cam.focal.1 * s, cam.focal.2 * s), (cam.offset.1 * s, cam.offset.2 * s)⟩

/-- **C121.** In an image `s` times as large the distortion of the Tsai model is `s` times as large, without any change of
the parameters. -/
theorem tsai_scale_free (tiny : ℝ) (d : List ℝ) (cam : Cam ℝ) (s : ℝ) (hs : 0 < s) (h : Usable tiny cam) (h' : Usable tiny (grow cam s))
    (p q : V2 ℝ) (hq : tsaiDistorted tiny d cam p = some q) :
    tsaiDistorted tiny d (grow cam s) (p.1 * s, p.2 * s) = some (q.1 * s, q.2 * s) := by
  unfold tsaiDistorted at hq ⊢
  rw [frame_some _ _ _ _ h] at hq
  rw [frame_some _ _ _ _ h']
  cases hq
  have h1 : cam.focal.1 ≠ 0 := (h.1.trans_le h.2.1).ne'
  have h2 : cam.focal.2 ≠ 0 := (h.1.trans_le h.2.2).ne'
  have e : toNorm (grow cam s) (p.1 * s, p.2 * s) = toNorm cam p := by
    unfold toNorm grow
    refine Prod.ext ?_ ?_ <;> dsimp only <;> field_simp
  rw [e]
  unfold ofNorm grow
  congr 1
  refine Prod.ext ?_ ?_ <;> dsimp only <;> ring

/-- **C121, refutation.** `scale`, which is for images of another size, multiplies the parameters: with it the distortion
of an image twice as large is not twice the distortion. -/
theorem tsai_scale_wrong : ∃ (d : List ℝ) (cam : Cam ℝ) (p q : V2 ℝ), tsaiDistorted (1 / 10 ^ 300) d cam p = some q ∧
    tsaiDistorted (1 / 10 ^ 300) (scale d 2) (grow cam 2) (p.1 * 2, p.2 * 2) ≠ some (q.1 * 2, q.2 * 2) := by
  have hu : Usable (1 / 10 ^ 300) ⟨(1, 1), (0, 0)⟩ := ⟨by positivity, tiny_le_one, tiny_le_one⟩
  have hu' : Usable (1 / 10 ^ 300) (grow ⟨(1, 1), (0, 0)⟩ 2) := by
    refine ⟨by positivity, ?_, ?_⟩ <;> (have := tiny_le_one; simp only [grow]; linarith)
  refine ⟨[1, 0, 0, 0, 0], ⟨(1, 1), (0, 0)⟩, (1, 0), (2, 0), ?_, ?_⟩
  · unfold tsaiDistorted
    rw [frame_some _ _ _ _ hu]
    norm_num [toNorm, ofNorm, tsaiNorm]
  · unfold tsaiDistorted
    rw [frame_some _ _ _ _ hu']
    norm_num [toNorm, ofNorm, tsaiNorm, scale, grow]

/-! ### Adjustable Tsai -/

theorem radialLoop_eq (r2 : ℝ) (ks : List ℝ) : ∀ a b, (radialLoop r2 ks (a, b)).2 =
    b + ∑ i ∈ Finset.range ks.length, ks.getD i 0 * (a * r2 ^ (i + 1)) := by
  induction ks with
  | nil => intro a b; simp [radialLoop]
  | cons k ks ih =>
    intro a b
    unfold radialLoop
    dsimp only
    rw [ih, List.length_cons, Finset.sum_range_succ', add_assoc]
    congr 1
    rw [add_comm]
    congr 1
    · refine Finset.sum_congr rfl fun i _ => ?_
      rw [List.getD_cons_succ]
      ring
    · simp

/-- **C121.** The adjustable model with radial coefficients `ks`, then two tangential ones and `a`: the same formula with
the radial factor `1 + ks₀ r² + ks₁ r⁴ + …`, and then the shear `x + a y`. -/
theorem adj_formula (ks : List ℝ) (p1 p2 a x y : ℝ) : adjNorm (ks ++ [p1, p2, a]) (x, y) =
    let q := brown (1 + ∑ i ∈ Finset.range ks.length, ks.getD i 0 * (x ^ 2 + y ^ 2) ^ (i + 1)) p1 p2 x y
    (q.1 + a * q.2, q.2) := by
  have hl : (ks ++ [p1, p2, a]).length = ks.length + 3 := by simp
  have e1 : (ks ++ [p1, p2, a]).getD (ks.length + 3 - 1) 0 = a := by
    rw [List.getD_append_right _ _ _ _ (by omega), show ks.length + 3 - 1 - ks.length = 2 by omega]; rfl
  have e2 : (ks ++ [p1, p2, a]).getD (ks.length + 3 - 2) 0 = p2 := by
    rw [List.getD_append_right _ _ _ _ (by omega), show ks.length + 3 - 2 - ks.length = 1 by omega]; rfl
  have e3 : (ks ++ [p1, p2, a]).getD (ks.length + 3 - 3) 0 = p1 := by
    rw [List.getD_append_right _ _ _ _ (by omega), show ks.length + 3 - 3 - ks.length = 0 by omega]; rfl
  unfold adjNorm
  dsimp only
  rw [hl, e1, e2, e3, show ks.length + 3 - 3 = ks.length by omega, List.take_left, radialLoop_eq]
  have : ∑ i ∈ Finset.range ks.length, ks.getD i 0 * (1 * (x * x + y * y) ^ (i + 1)) =
      ∑ i ∈ Finset.range ks.length, ks.getD i 0 * (x ^ 2 + y ^ 2) ^ (i + 1) :=
    Finset.sum_congr rfl fun i _ => by rw [one_mul, pow_two x, pow_two y]
  rw [this]
  generalize ∑ i ∈ Finset.range ks.length, ks.getD i 0 * (x ^ 2 + y ^ 2) ^ (i + 1) = R
  unfold brown
  refine Prod.ext ?_ ?_ <;> dsimp only <;> ring

/-- **C121.** With three radial coefficients and no shear it is the Tsai model, whose parameters are in another order. -/
theorem adj_tsai (tiny : ℝ) (k1 k2 k3 p1 p2 : ℝ) (cam : Cam ℝ) (p : V2 ℝ) :
    adjDistorted tiny [k1, k2, k3, p1, p2, 0] cam p = tsaiDistorted tiny [k1, k2, p1, p2, k3] cam p := by
  unfold adjDistorted tsaiDistorted
  congr 1
  funext P
  rw [show P = (P.1, P.2) from rfl, tsai_formula, show [k1, k2, k3, p1, p2, 0] = [k1, k2, k3] ++ [p1, p2, 0] from rfl, adj_formula]
  simp only [List.length_cons, List.length_nil, Finset.sum_range_succ, Finset.sum_range_zero, List.getD_cons_zero, List.getD_cons_succ]
  refine Prod.ext ?_ ?_
  · dsimp only
    rw [zero_mul, add_zero]
    congr 2
    ring
  · dsimp only
    congr 2
    ring

/-- **C121.** With zero parameters the adjustable model changes nothing, in both directions, for any number of them. -/
theorem adj_zero (tiny big : ℝ) (hb : 0 < big) (n : Nat) (cam : Cam ℝ) (h : Usable tiny cam) (p : V2 ℝ) :
    adjDistorted tiny (List.replicate n 0 ++ [0, 0, 0]) cam p = some p ∧
    adjUndistorted tiny big (List.replicate n 0 ++ [0, 0, 0]) cam p = some p := by
  have hz : ∀ P : V2 ℝ, adjNorm (List.replicate n 0 ++ [0, 0, 0]) P = P := by
    intro P
    rw [show P = (P.1, P.2) from rfl, adj_formula, Finset.sum_eq_zero]
    · unfold brown
      refine Prod.ext ?_ ?_ <;> dsimp only <;> ring
    · intro i _
      have : (List.replicate n (0 : ℝ)).getD i 0 = 0 := by
        rw [List.getD_eq_getElem?_getD, List.getElem?_replicate]; split_ifs <;> rfl
      rw [this, zero_mul]
  unfold adjDistorted adjUndistorted
  rw [frame_some _ _ _ _ h, frame_some _ _ _ _ h, newtonInv_fixed big hb _ _ _ (hz _), hz, of_to tiny cam h]
  exact ⟨rfl, rfl⟩

/-! ### Field of view -/

/-- **C121.** The parameter of this model is one positive number. -/
theorem fov_accepts (params : List ℝ) : (∃ L, fovSet params = some L) ↔ ∃ k, params = [k] ∧ 0 < k := by
  unfold fovSet
  constructor
  · rintro ⟨L, h⟩
    split_ifs at h with h1 h2
    rw [not_not, List.length_eq_one_iff] at h1
    obtain ⟨k, rfl⟩ := h1
    exact ⟨k, rfl, by simpa using h2⟩
  · rintro ⟨k, rfl, hk⟩
    rw [if_neg (by simp), if_neg (by simpa using hk)]
    exact ⟨_, rfl⟩

/-- The lens with parameter `k`. -/
noncomputable def fov (k : ℝ) : Fov := ⟨k, 1 / k, 2 * tan (k / 2)⟩

theorem fovSet_eq (k : ℝ) (hk : 0 < k) : fovSet [k] = some (fov k) := by
  unfold fovSet
  rw [if_neg (by simp), if_neg (by simpa using hk)]
  rfl

theorem tan_mul_le (t u : ℝ) (ht0 : 0 ≤ t) (ht1 : t ≤ 1) (hu0 : 0 ≤ u) (hu1 : u < π / 2) : tan (t * u) ≤ t * tan u := by
  have hd : ∀ v, HasDerivAt (fun v => t * sin v * cos (t * v) - cos v * sin (t * v)) ((1 - t ^ 2) * (sin v * sin (t * v))) v := by
    intro v
    have h1 : HasDerivAt (fun v => t * v) t v := by simpa using (hasDerivAt_id v).const_mul t
    have h2 := (hasDerivAt_cos (t * v)).comp v h1
    have h3 := (hasDerivAt_sin (t * v)).comp v h1
    have h := (((hasDerivAt_sin v).const_mul t).mul h2).sub ((hasDerivAt_cos v).mul h3)
    refine h.congr_deriv ?_
    simp only [Function.comp]
    ring
  have hm : MonotoneOn (fun v => t * sin v * cos (t * v) - cos v * sin (t * v)) (Set.Icc 0 (π / 2)) := by
    refine monotoneOn_of_deriv_nonneg (convex_Icc _ _) (fun v _ => (hd v).continuousAt.continuousWithinAt)
      (fun v _ => (hd v).differentiableAt.differentiableWithinAt) fun v hv => ?_
    rw [(hd v).deriv]
    rw [interior_Icc] at hv
    have hv0 := hv.1
    have hv1 := hv.2
    have hp := pi_pos
    have htv : t * v ≤ v := by nlinarith
    exact mul_nonneg (by nlinarith) (mul_nonneg (sin_nonneg_of_nonneg_of_le_pi hv0.le (by linarith))
      (sin_nonneg_of_nonneg_of_le_pi (mul_nonneg ht0 hv0.le) (by linarith)))
  have hp := pi_pos
  have h := hm (Set.left_mem_Icc.2 (by linarith)) (⟨hu0, hu1.le⟩ : u ∈ Set.Icc 0 (π / 2)) hu0
  simp only [sin_zero, mul_zero, zero_mul, cos_zero, sub_zero, one_mul] at h
  have hc1 : 0 < cos u := cos_pos_of_mem_Ioo ⟨by linarith, hu1⟩
  have htu : t * u ≤ u := by nlinarith
  have hc2 : 0 < cos (t * u) := cos_pos_of_mem_Ioo ⟨by nlinarith [mul_nonneg ht0 hu0], by linarith⟩
  rw [tan_eq_sin_div_cos, tan_eq_sin_div_cos, div_le_iff₀ hc2]
  have : t * (sin u / cos u) * cos (t * u) = (t * sin u * cos (t * u)) / cos u := by ring
  rw [this, le_div_iff₀ hc1]
  linarith

theorem fov_pre2_pos (k : ℝ) (h0 : 0 < k) (h1 : k < π) : 0 < 2 * tan (k / 2) := by
  have := tan_pos_of_pos_of_lt_pi_div_two (x := k / 2) (by linarith) (by linarith)
  linarith

/-- The distorted radius is at least the smaller of the radius and one half. -/
theorem fov_radius (k r : ℝ) (h0 : 0 < k) (h1 : k < π) (hr : 0 ≤ r) : min r (1 / 2) ≤ arctan (r * (2 * tan (k / 2))) * (1 / k) := by
  have hc := fov_pre2_pos k h0 h1
  set m := min r (1 / 2) with hm
  have hm0 : 0 ≤ m := le_min hr (by norm_num)
  have hmr : m ≤ r := min_le_left _ _
  have hmh : m ≤ 1 / 2 := min_le_right _ _
  have h2 : tan (2 * m * (k / 2)) ≤ 2 * m * tan (k / 2) := tan_mul_le (2 * m) (k / 2) (by linarith) (by linarith) (by linarith) (by linarith)
  have h3 : 2 * m * (k / 2) = m * k := by ring
  rw [h3] at h2
  have hp := pi_pos
  have h4 : m * k < π / 2 := by nlinarith
  have h5 : m * k = arctan (tan (m * k)) := (arctan_tan (by nlinarith [mul_nonneg hm0 h0.le]) h4).symm
  have h6 : arctan (tan (m * k)) ≤ arctan (r * (2 * tan (k / 2))) := by
    refine arctan_strictMono.monotone (h2.trans ?_)
    nlinarith
  rw [mul_one_div, le_div_iff₀ h0, h5]
  exact h6

theorem fovInv_fovNorm (k : ℝ) (h0 : 0 < k) (h1 : k < π) (p : V2 ℝ) : fovInv (fov k) (fovNorm (fov k) p) = p := by
  have hc := fov_pre2_pos k h0 h1
  have hn := norm2_nonneg p
  by_cases hr : norm2 p > 1 / 100000000
  · have hr0 : 0 < norm2 p := lt_trans (by norm_num) hr
    have hd := fov_radius k (norm2 p) h0 h1 hn
    have hd1 : 1 / 100000000 < arctan (norm2 p * (2 * tan (k / 2))) * (1 / k) := by
      refine lt_of_lt_of_le (lt_min hr (by norm_num)) hd
    generalize hrd : arctan (norm2 p * (2 * tan (k / 2))) * (1 / k) = rd at hd1
    have hrd0 : 0 < rd := lt_trans (by norm_num) hd1
    have e : fovNorm (fov k) p = (rd / norm2 p * p.1, rd / norm2 p * p.2) := by
      unfold fovNorm fov
      dsimp only
      rw [if_pos hr, hrd]
    have hnorm : norm2 (rd / norm2 p * p.1, rd / norm2 p * p.2) = rd := by
      rw [norm2_smul _ (by positivity), div_mul_cancel₀ _ hr0.ne']
    rw [e]
    unfold fovInv fov
    dsimp only
    rw [hnorm, if_pos hd1]
    have ht : tan (rd * k) = norm2 p * (2 * tan (k / 2)) := by
      rw [← hrd, mul_assoc, one_div_mul_cancel h0.ne', mul_one, tan_arctan]
    rw [ht, mul_div_assoc, div_self hc.ne', mul_one]
    refine Prod.ext ?_ ?_ <;> dsimp only <;> field_simp
  · have e : fovNorm (fov k) p = p := by
      unfold fovNorm; dsimp only; rw [if_neg hr, one_mul, one_mul]
    rw [e]
    unfold fovInv; dsimp only; rw [if_neg hr, one_mul, one_mul]

/-- **C121.** In the field of view model, with a parameter less than `π`, undistorting a distorted pixel gives it back
exactly, everywhere: also near the centre, where the code uses another formula. -/
theorem fov_undistort_distort (tiny k : ℝ) (h0 : 0 < k) (h1 : k < π) (cam : Cam ℝ) (h : Usable tiny cam) (p : V2 ℝ) :
    ∃ L q, fovSet [k] = some L ∧ fovDistorted tiny L cam p = some q ∧ fovUndistorted tiny L cam q = some p := by
  refine ⟨_, _, fovSet_eq k h0, by unfold fovDistorted; exact frame_some _ _ _ _ h, ?_⟩
  unfold fovUndistorted
  rw [frame_some _ _ _ _ h, to_of tiny cam h, fovInv_fovNorm k h0 h1, of_to tiny cam h]

/-- **C121.** Distorting an undistorted pixel gives it back if the pixel is in the image of the lens, that is if its
normalised distance `r` from the centre has `r k < π / 2`, and it is not one whose undistorted distance only is so small
that the code uses the other formula. -/
theorem fov_distort_undistort (tiny k : ℝ) (h0 : 0 < k) (h1 : k < π) (cam : Cam ℝ) (h : Usable tiny cam) (p : V2 ℝ)
    (hr : norm2 (toNorm cam p) * k < π / 2)
    (hs : norm2 (toNorm cam p) ≤ 1 / 10 ^ 8 ∨ 1 / 10 ^ 8 < tan (norm2 (toNorm cam p) * k) / (2 * tan (k / 2))) :
    ∃ L q, fovSet [k] = some L ∧ fovUndistorted tiny L cam p = some q ∧ fovDistorted tiny L cam q = some p := by
  have hc := fov_pre2_pos k h0 h1
  have key : ∀ v : V2 ℝ, norm2 v * k < π / 2 → (norm2 v ≤ 1 / 10 ^ 8 ∨ 1 / 10 ^ 8 < tan (norm2 v * k) / (2 * tan (k / 2))) →
      fovNorm (fov k) (fovInv (fov k) v) = v := by
    intro v hv hs
    have hn := norm2_nonneg v
    have e8 : (1 / 10 ^ 8 : ℝ) = 1 / 100000000 := by norm_num
    rw [e8] at hs
    by_cases hr : norm2 v > 1 / 100000000
    · have hs' : 1 / 100000000 < tan (norm2 v * k) / (2 * tan (k / 2)) := by
        rcases hs with hs | hs
        · exact absurd hr (not_lt.2 hs)
        · exact hs
      have hr0 : 0 < norm2 v := lt_trans (by norm_num) hr
      generalize hru : tan (norm2 v * k) / (2 * tan (k / 2)) = ru at hs'
      have hru0 : 0 < ru := lt_trans (by norm_num) hs'
      have e : fovInv (fov k) v = (ru / norm2 v * v.1, ru / norm2 v * v.2) := by
        unfold fovInv fov
        dsimp only
        rw [if_pos hr, hru]
      have hnorm : norm2 (ru / norm2 v * v.1, ru / norm2 v * v.2) = ru := by
        rw [norm2_smul _ (by positivity), div_mul_cancel₀ _ hr0.ne']
      rw [e]
      unfold fovNorm fov
      dsimp only
      rw [hnorm, if_pos hs']
      have ht : arctan (ru * (2 * tan (k / 2))) = norm2 v * k := by
        rw [← hru, div_mul_cancel₀ _ hc.ne', arctan_tan (by have := pi_pos; have := mul_pos hr0 h0; linarith) hv]
      rw [ht, mul_assoc, mul_one_div, div_self h0.ne', mul_one]
      refine Prod.ext ?_ ?_ <;> dsimp only <;> field_simp
    · have e : fovInv (fov k) v = v := by
        unfold fovInv; dsimp only; rw [if_neg hr, one_mul, one_mul]
      rw [e]
      unfold fovNorm; dsimp only; rw [if_neg hr, one_mul, one_mul]
  refine ⟨_, _, fovSet_eq k h0, by unfold fovUndistorted; exact frame_some _ _ _ _ h, ?_⟩
  unfold fovDistorted
  rw [frame_some _ _ _ _ h, to_of tiny cam h, key _ hr hs, of_to tiny cam h]

/-- **C121, refutation.** Without `r k < π / 2` it is not so, and nothing is reported: every pixel with `r k = π` is
undistorted to the optical centre. -/
theorem fov_undistort_wraps (tiny k : ℝ) (h0 : 0 < k) (h1 : k < π) (cam : Cam ℝ) (h : Usable tiny cam) (p : V2 ℝ)
    (hr : norm2 (toNorm cam p) * k = π) : fovUndistorted tiny (fov k) cam p = some cam.offset := by
  unfold fovUndistorted
  rw [frame_some _ _ _ _ h]
  have hp := pi_pos
  have h3 : norm2 (toNorm cam p) > 1 / 100000000 := by
    by_contra hlt
    have : norm2 (toNorm cam p) * k ≤ 1 / 100000000 * k := mul_le_mul_of_nonneg_right (not_lt.1 hlt) h0.le
    linarith
  unfold fovInv fov
  dsimp only
  rw [hr, tan_pi, if_pos h3, zero_div, zero_div, zero_mul, zero_mul]
  unfold ofNorm
  simp

/-- **C121, refutation.** A parameter between `π` and `2 π` is accepted, and then pixels are distorted to the opposite side
of the optical centre. -/
theorem fov_large_flips (k : ℝ) (h1 : π < k) (h2 : k < 2 * π) (p : V2 ℝ) (hp : 1 / 10 ^ 8 < norm2 p) :
    ∃ L s, fovSet [k] = some L ∧ 0 < s ∧ fovNorm L p = (-s * p.1, -s * p.2) := by
  have hpi := pi_pos
  have h0 : 0 < k := by linarith
  have ht : tan (k / 2) < 0 := by
    rw [tan_eq_sin_div_cos]
    refine div_neg_of_pos_of_neg (sin_pos_of_pos_of_lt_pi (by linarith) (by linarith)) ?_
    exact cos_neg_of_pi_div_two_lt_of_lt (by linarith) (by linarith)
  have e8 : (1 / 10 ^ 8 : ℝ) = 1 / 100000000 := by norm_num
  rw [e8] at hp
  have hr0 : 0 < norm2 p := lt_trans (by norm_num) hp
  have ha : arctan (norm2 p * (2 * tan (k / 2))) < 0 := by
    rw [← arctan_zero]
    exact arctan_strictMono (by nlinarith)
  refine ⟨_, -(arctan (norm2 p * (2 * tan (k / 2))) * (1 / k) / norm2 p), fovSet_eq k h0, ?_, ?_⟩
  · have : 0 < 1 / k := by positivity
    have h3 : arctan (norm2 p * (2 * tan (k / 2))) * (1 / k) < 0 := mul_neg_of_neg_of_pos ha this
    have := div_neg_of_neg_of_pos h3 hr0
    linarith
  · unfold fovNorm fov
    dsimp only
    rw [if_pos hp, neg_neg]

/-! ### Fisheye -/

/-- The distorted angle. -/
def bend (k1 k2 k3 k4 a : ℝ) : ℝ := a + k1 * a ^ 3 + k2 * a ^ 5 + k3 * a ^ 7 + k4 * a ^ 9

/-- **C121.** The fisheye model: the direction is kept, and the angle `atan r` is bent by an odd polynomial. -/
theorem fisheye_formula (k1 k2 k3 k4 : ℝ) (p : V2 ℝ) (hp : 1 / 10 ^ 8 < norm2 p) :
    fisheyeNorm [k1, k2, k3, k4] p =
      (p.1 * (bend k1 k2 k3 k4 (arctan (norm2 p)) / norm2 p), p.2 * (bend k1 k2 k3 k4 (arctan (norm2 p)) / norm2 p)) := by
  have e8 : (1 / 10 ^ 8 : ℝ) = 1 / 100000000 := by norm_num
  rw [e8] at hp
  unfold fisheyeNorm
  simp only [List.getD_cons_zero, List.getD_cons_succ]
  rw [show √(p.1 * p.1 + p.2 * p.2) = norm2 p from rfl, if_pos hp]
  have : arctan (norm2 p) * (1 + k1 * (arctan (norm2 p) * arctan (norm2 p)) +
        k2 * (arctan (norm2 p) * arctan (norm2 p) * (arctan (norm2 p) * arctan (norm2 p))) +
      k3 * (arctan (norm2 p) * arctan (norm2 p) * (arctan (norm2 p) * arctan (norm2 p)) * (arctan (norm2 p) * arctan (norm2 p))) +
      k4 * (arctan (norm2 p) * arctan (norm2 p) * (arctan (norm2 p) * arctan (norm2 p)) *
        (arctan (norm2 p) * arctan (norm2 p) * (arctan (norm2 p) * arctan (norm2 p))))) = bend k1 k2 k3 k4 (arctan (norm2 p)) := by
    unfold bend; ring
  rw [this]

theorem bend_strictMono (k1 k2 k3 k4 : ℝ) (h1 : 0 ≤ k1) (h2 : 0 ≤ k2) (h3 : 0 ≤ k3) (h4 : 0 ≤ k4) (a b : ℝ) (ha : 0 ≤ a) (h : a < b) :
    bend k1 k2 k3 k4 a < bend k1 k2 k3 k4 b := by
  unfold bend
  have e3 := mul_le_mul_of_nonneg_left (pow_le_pow_left₀ ha h.le 3) h1
  have e5 := mul_le_mul_of_nonneg_left (pow_le_pow_left₀ ha h.le 5) h2
  have e7 := mul_le_mul_of_nonneg_left (pow_le_pow_left₀ ha h.le 7) h3
  have e9 := mul_le_mul_of_nonneg_left (pow_le_pow_left₀ ha h.le 9) h4
  linarith

/-- **C121.** With coefficients that are not negative, two pixels that are not within `1e-8` of the centre are not distorted
to the same place. -/
theorem fisheye_injective (k1 k2 k3 k4 : ℝ) (h1 : 0 ≤ k1) (h2 : 0 ≤ k2) (h3 : 0 ≤ k3) (h4 : 0 ≤ k4) (p q : V2 ℝ)
    (hp : 1 / 10 ^ 8 < norm2 p) (hq : 1 / 10 ^ 8 < norm2 q)
    (h : fisheyeNorm [k1, k2, k3, k4] p = fisheyeNorm [k1, k2, k3, k4] q) : p = q := by
  rw [fisheye_formula _ _ _ _ _ hp, fisheye_formula _ _ _ _ _ hq] at h
  have hp0 : 0 < norm2 p := lt_trans (by norm_num) hp
  have hq0 : 0 < norm2 q := lt_trans (by norm_num) hq
  have pos : ∀ r, 0 < r → 0 < bend k1 k2 k3 k4 (arctan r) := by
    intro r hr
    have := bend_strictMono k1 k2 k3 k4 h1 h2 h3 h4 0 (arctan r) le_rfl (by rw [← arctan_zero]; exact arctan_strictMono hr)
    simpa [bend] using this
  have hbp := pos _ hp0
  have hbq := pos _ hq0
  have nrm : ∀ v : V2 ℝ, 0 < norm2 v → norm2 (v.1 * (bend k1 k2 k3 k4 (arctan (norm2 v)) / norm2 v),
      v.2 * (bend k1 k2 k3 k4 (arctan (norm2 v)) / norm2 v)) = bend k1 k2 k3 k4 (arctan (norm2 v)) := by
    intro v hv
    have hb := pos _ hv
    rw [mul_comm v.1, mul_comm v.2, norm2_smul _ (by positivity), div_mul_cancel₀ _ hv.ne']
  have hn : bend k1 k2 k3 k4 (arctan (norm2 p)) = bend k1 k2 k3 k4 (arctan (norm2 q)) := by
    rw [← nrm p hp0, h, nrm q hq0]
  have ha0 : ∀ r, 0 < r → 0 ≤ arctan r := fun r hr => by rw [← arctan_zero]; exact (arctan_strictMono hr).le
  have hr : norm2 p = norm2 q := by
    rcases lt_trichotomy (norm2 p) (norm2 q) with hlt | he | hlt
    · exact absurd hn (bend_strictMono _ _ _ _ h1 h2 h3 h4 _ _ (ha0 _ hp0) (arctan_strictMono hlt)).ne
    · exact he
    · exact absurd hn (bend_strictMono _ _ _ _ h1 h2 h3 h4 _ _ (ha0 _ hq0) (arctan_strictMono hlt)).ne'
  rw [hr] at h
  simp only [Prod.mk.injEq] at h
  have hne : bend k1 k2 k3 k4 (arctan (norm2 q)) / norm2 q ≠ 0 := (div_pos hbq hq0).ne'
  exact Prod.ext (mul_right_cancel₀ hne h.1) (mul_right_cancel₀ hne h.2)

/-! ### Brown-Conrady and Photometrix -/

/-- **C121.** In the models that invert by optimisation, whatever the solver does: the pixel that is returned undistorts to
the given one up to `1e-10` of its distance from the origin (or of `0.1`); else an exception is thrown. -/
theorem generic_distorted (undist solve : V2 ℝ → V2 ℝ) (v s : V2 ℝ) (h : genericDistorted undist solve v = some s) :
    s = solve v ∧ norm2 ((undist s).1 - v.1, (undist s).2 - v.2) ≤ 1 / 10 ^ 10 * max (norm2 v) 0.1 := by
  unfold genericDistorted at h
  dsimp only at h
  split_ifs at h with he
  cases h
  refine ⟨rfl, ?_⟩
  have hm : (0 : ℝ) < max (norm2 v) 0.1 := lt_max_of_lt_right (by norm_num)
  rw [not_lt, div_le_iff₀ hm] at he
  exact he

/-- **C121.** If the solver finds the solution, it is returned. -/
theorem generic_exact (undist solve : V2 ℝ → V2 ℝ) (v : V2 ℝ) (h : undist (solve v) = v) :
    genericDistorted undist solve v = some (solve v) := by
  unfold genericDistorted
  dsimp only
  rw [h, sub_self, sub_self, norm2_zero, zero_div, if_neg (by norm_num)]

/-- **C121.** The Photometrix model without radial and tangential distortion changes nothing, wherever its principal point is. -/
theorem photo_zero (xp yp b1 b2 : ℝ) (cam : Cam ℝ) (p : V2 ℝ) : photoUndistorted [xp, yp, 0, 0, 0, 0, 0, b1, b2] cam p = p := by
  unfold photoUndistorted
  simp

/-- **C121.** The Photometrix model, with `x`, `y` the position relative to its principal point: radial and tangential
corrections are added to the pixel.  The last two parameters have no effect. -/
theorem photo_formula (xp yp k1 k2 k3 p1 p2 b1 b2 : ℝ) (cam : Cam ℝ) (x y : ℝ) :
    photoUndistorted [xp, yp, k1, k2, k3, p1, p2, b1, b2] cam (x + (xp + cam.offset.1), y + (yp + cam.offset.2)) =
      let q := brown (1 + k1 * (x ^ 2 + y ^ 2) + k2 * (x ^ 2 + y ^ 2) ^ 2 + k3 * (x ^ 2 + y ^ 2) ^ 3) p2 p1 x y
      (q.1 + (xp + cam.offset.1), q.2 + (yp + cam.offset.2)) := by
  unfold photoUndistorted brown
  simp only [List.getD_cons_zero, List.getD_cons_succ]
  refine Prod.ext ?_ ?_ <;> dsimp only <;> ring

/-- **C121.** The Brown-Conrady model: with `x`, `y` relative to its principal point, radial distortion and a tangential
one in a fixed direction, and the result is relative to the centre of the camera. -/
theorem brown_formula (xp yp k1 k2 k3 p1 p2 phi : ℝ) (cam : Cam ℝ) (x y : ℝ) :
    brownUndistorted [xp, yp, k1, k2, k3, p1, p2, phi] cam (x + xp + cam.offset.1, y + yp + cam.offset.2) =
      let r2 := x ^ 2 + y ^ 2
      let R := 1 + k1 * r2 + k2 * r2 ^ 2 + k3 * r2 ^ 3
      let T := p1 * r2 + p2 * r2 ^ 2
      (x * R - T * sin phi + cam.offset.1, y * R + T * cos phi + cam.offset.2) := by
  unfold brownUndistorted
  simp only [List.getD_cons_zero, List.getD_cons_succ]
  refine Prod.ext ?_ ?_ <;> dsimp only <;> ring

/-- **C121.** The two differ without radial and tangential distortion: the Brown-Conrady model then shifts by its principal
point. -/
theorem brown_zero (xp yp phi : ℝ) (cam : Cam ℝ) (p : V2 ℝ) :
    brownUndistorted [xp, yp, 0, 0, 0, 0, 0, phi] cam p = (p.1 - xp, p.2 - yp) := by
  unfold brownUndistorted
  simp only [List.getD_cons_zero, List.getD_cons_succ]
  refine Prod.ext ?_ ?_ <;> dsimp only <;> ring

/-- **C121, refutation.** `scale` of the Photometrix model does not fit images of another size either. -/
theorem photo_scale_wrong : ∃ (d : List ℝ) (cam : Cam ℝ) (p : V2 ℝ),
    photoUndistorted (scale d 2) (grow cam 2) (p.1 * 2, p.2 * 2) ≠
      ((photoUndistorted d cam p).1 * 2, (photoUndistorted d cam p).2 * 2) := by
  refine ⟨[0, 0, 1, 0, 0, 0, 0, 0, 0], ⟨(1, 1), (0, 0)⟩, (1, 0), ?_⟩
  norm_num [photoUndistorted, scale, grow]

/-! ### Parameters in files -/

/-- The number that a file gives to a name, for a file in which no name occurs twice. -/
theorem lookup_iff (f : Fields) (hn : (f.map (·.1)).Nodup) (n : String) (v : ℝ) : lookup f n = some v ↔ (n, v) ∈ f := by
  unfold lookup
  have hn' : (f.reverse.map (·.1)).Nodup := by rw [List.map_reverse]; exact List.nodup_reverse.2 hn
  rw [← List.mem_reverse (as := f)]
  generalize f.reverse = g at hn'
  induction g with
  | nil => simp
  | cons a g ih =>
    rw [List.map_cons, List.nodup_cons] at hn'
    rw [List.find?_cons]
    by_cases ha : a.1 = n
    · simp only [ha, decide_true, Option.map_some, Option.some.injEq, List.mem_cons]
      constructor
      · intro h; left; rw [← ha, ← h]
      · rintro (h | h)
        · rw [← h]
        · exact absurd (List.mem_map.2 ⟨_, h, rfl⟩) (by rw [← ha] at *; exact hn'.1)
    · simp only [ha, decide_false, List.mem_cons]
      refine (ih hn'.2).trans ?_
      constructor
      · exact Or.inr
      · rintro (h | h)
        · exact absurd (by rw [← h]) ha
        · exact h

theorem readFields_congr (m : List String) (f g : Fields) (ns : List String) (h : ∀ n ∈ ns, lookup f n = lookup g n) :
    readFields m f ns = readFields m g ns := by
  induction ns with
  | nil => rfl
  | cons n ns ih =>
    unfold readFields
    rw [h n (by simp), ih fun k hk => h k (by simp [hk])]

/-- **C121.** The order of the lines of a file is not important. -/
theorem read_perm (m : List String) (f g : Fields) (ns : List String) (hn : (f.map (·.1)).Nodup) (h : f.Perm g) :
    readFields m f ns = readFields m g ns := by
  refine readFields_congr m f g ns fun n _ => ?_
  have hg : (g.map (·.1)).Nodup := (h.map _).nodup_iff.1 hn
  refine Option.ext fun v => ?_
  rw [lookup_iff f hn, lookup_iff g hg, h.mem_iff]

/-- **C121.** Lines with other names are not important. -/
theorem read_extra (m : List String) (f g : Fields) (ns : List String) (h : ∀ l ∈ g, l.1 ∉ ns) :
    readFields m (f ++ g) ns = readFields m f ns := by
  refine readFields_congr m _ _ ns fun n hn => ?_
  unfold lookup
  rw [List.reverse_append, List.find?_append]
  have : g.reverse.find? (·.1 = n) = none := by
    rw [List.find?_eq_none]
    intro l hl
    have := h l (List.mem_reverse.1 hl)
    simp only [decide_eq_true_eq]
    rintro rfl
    exact this hn
  rw [this]
  rfl

/-- **C121.** What the models with named parameters write is read back. -/
theorem read_write (m : List String) (names : List String) (vals : List ℝ) (hn : names.Nodup) (hl : names.length = vals.length) :
    readFields m (writeFields names vals) names = some vals := by
  have hk : ((writeFields names vals).map (·.1)).Nodup := by
    unfold writeFields
    rw [show (fun x : String × ℝ => x.1) = Prod.fst from rfl, List.map_fst_zip hl.le]
    exact hn
  have key : ∀ n v, (n, v) ∈ names.zip vals → lookup (writeFields names vals) n = some v := fun n v h => (lookup_iff _ hk n v).2 h
  generalize writeFields names vals = f at key
  clear hk
  induction names generalizing vals with
  | nil => cases vals with
    | nil => rfl
    | cons _ _ => simp at hl
  | cons n ns ih =>
    cases vals with
    | nil => simp at hl
    | cons v vs =>
      unfold readFields
      rw [key n v (by simp)]
      dsimp only
      rw [ih vs (List.nodup_cons.1 hn).2 (by simpa using hl) fun k w h => key k w (by rw [List.zip_cons_cons]; exact List.mem_cons_of_mem _ h)]
      rfl

/-- **C121.** For the Tsai, fisheye, Brown-Conrady and Photometrix models, and for the parameter of the field of view model. -/
theorem lens_read_write :
    (∀ v : List ℝ, v.length = 5 → tsaiRead (writeFields tsaiNames v) = some v) ∧
    (∀ v : List ℝ, v.length = 4 → readFields [] (writeFields fisheyeNames v) fisheyeNames = some v) ∧
    (∀ v : List ℝ, v.length = 8 → readFields [] (writeFields brownNames v) brownNames = some v) ∧
    (∀ v : List ℝ, v.length = 9 → readFields [] (writeFields photoNames v) photoNames = some v) ∧
    (∀ k : ℝ, 0 < k → fovRead (writeFields fovNames [k]) = fovSet [k]) := by
  refine ⟨fun v h => ?_, fun v h => ?_, fun v h => ?_, fun v h => ?_, fun k _ => ?_⟩
  · exact read_write _ _ _ (by decide) (by rw [h]; rfl)
  · exact read_write _ _ _ (by decide) (by rw [h]; rfl)
  · exact read_write _ _ _ (by decide) (by rw [h]; rfl)
  · exact read_write _ _ _ (by decide) (by rw [h]; rfl)
  · unfold fovRead
    rw [read_write [] fovNames [k] (by decide) rfl]
    rfl

/-- **C121.** A file of the Tsai model without `k3`, as older versions wrote it, gives `k3 = 0`; a file without another
parameter is refused. -/
theorem tsai_old_file (f : Fields) :
    (∀ k1 k2 p1 p2 : ℝ, tsaiRead (writeFields ["k1", "k2", "p1", "p2"] [k1, k2, p1, p2]) = some [k1, k2, p1, p2, 0]) ∧
    (∀ n ∈ ["k1", "k2", "p1", "p2"], lookup f n = none → tsaiRead f = none) := by
  constructor
  · intro k1 k2 p1 p2
    simp [tsaiRead, readFields, tsaiNames, writeFields, lookup]
  · intro n hn h
    unfold tsaiRead tsaiNames
    fin_cases hn <;> simp only [readFields, h] <;> (repeat' split) <;> simp_all

/-! ### Examples -/

example : Usable (1 / 10 ^ 300) ⟨(1000, 1000), (320, 240)⟩ := by
  refine ⟨by positivity, ?_, ?_⟩ <;> (have := tiny_le_one; dsimp only; linarith)
example : tsaiNorm [1, 0, 0, 0, 0] (1, 1) = (3, 3) := by norm_num [tsaiNorm]
example : adjNorm [1, 0, 0, 1] (1, 1) = (6, 3) := by norm_num [adjNorm, radialLoop]
example : norm2 (3, 4) = 5 := by
  unfold norm2
  rw [show ((3, 4) : V2 ℝ).1 * ((3, 4) : V2 ℝ).1 + ((3, 4) : V2 ℝ).2 * ((3, 4) : V2 ℝ).2 = 5 * 5 by norm_num, sqrt_mul_self (by norm_num)]
example : tsaiRead [("p2", 4), ("k1", 1), ("zoom", 7), ("k2", 2), ("p1", 3)] = some [1, 2, 3, 4, 0] := by
  simp [tsaiRead, readFields, tsaiNames, lookup]

end Verif.Camera.Lens
