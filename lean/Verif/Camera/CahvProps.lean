import Verif.Camera.Cahv
import Verif.Camera.TriangulateProps
import Mathlib.Tactic.FieldSimp

/-
C96.  The CAHV camera.
-/

namespace Verif.Camera

set_option linter.unusedSectionVars false

variable {K : Type} [Field K] [LinearOrder K] [IsStrictOrderedRing K]

/-- The volume spanned by the three vectors: a camera is usable if it is not zero. -/
def Cahv.vol (m : Cahv K) : K := dot (cross m.V m.H) m.A

theorem norm_pos {sqrt : K → K} (hs : IsSqrt sqrt) (v : V3 K) (h : v ≠ 0) : 0 < norm sqrt v := by
  have h0 := sq_pos v h
  obtain ⟨h1, h2⟩ := hs (sq v) h0.le
  unfold norm
  rcases h1.lt_or_eq with h | h
  · exact h
  · rw [← h] at h2; rw [← h2] at h0; simp at h0

theorem norm_mul_self {sqrt : K → K} (hs : IsSqrt sqrt) (v : V3 K) : norm sqrt v * norm sqrt v = sq v := (hs _ (sq_nonneg' v)).2

theorem norm_nonneg' {sqrt : K → K} (hs : IsSqrt sqrt) (v : V3 K) : 0 ≤ norm sqrt v := (hs _ (sq_nonneg' v)).1

theorem sq_smul (s : K) (v : V3 K) : sq (s * v) = s * s * sq v := by
  simp only [sq, dot, smul_x, smul_y, smul_z]; ring

/-- The normalised vector is a unit vector along the vector. -/
theorem normalize_spec {sqrt : K → K} (hs : IsSqrt sqrt) (v : V3 K) :
    (normalize sqrt v = none ↔ v = 0) ∧
    (∀ u, normalize sqrt v = some u → sq u = 1 ∧ 0 < norm sqrt v ∧ v = norm sqrt v * u) := by
  unfold normalize
  by_cases h : sq v = 0
  · rw [if_pos h]
    exact ⟨⟨fun _ => (sq_eq_zero v).1 h, fun _ => rfl⟩, fun u hu => (by cases hu)⟩
  · rw [if_neg h]
    have hv : v ≠ 0 := fun e => h ((sq_eq_zero v).2 e)
    have hn := norm_pos hs v hv
    refine ⟨⟨fun e => (by cases e), fun e => absurd e hv⟩, fun u hu => ?_⟩
    simp only [Option.some.injEq] at hu
    subst hu
    refine ⟨?_, hn, ?_⟩
    · rw [sq_smul, ← norm_mul_self hs v]; field_simp
    · ext <;> simp <;> field_simp

/-- Normalising a positive multiple of a unit vector gives the unit vector. -/
theorem normalize_mul {sqrt : K → K} (hs : IsSqrt sqrt) (t : K) (ht : 0 < t) (u : V3 K) (hu : sq u = 1) :
    normalize sqrt (t * u) = some u ∧ norm sqrt (t * u) = t := by
  have hn : norm sqrt (t * u) = t := hs.unique _ _ ht.le (by rw [sq_smul, hu, mul_one])
  unfold normalize
  rw [if_neg (by rw [sq_smul, hu, mul_one]; positivity), hn]
  refine ⟨?_, rfl⟩
  congr 1
  ext <;> simp <;> field_simp

/-- Positive multiples have the same direction. -/
theorem normalize_smul {sqrt : K → K} (hs : IsSqrt sqrt) (t : K) (ht : 0 < t) (v : V3 K) :
    normalize sqrt (t * v) = normalize sqrt v := by
  cases hv : normalize sqrt v with
  | none =>
    rw [(normalize_spec hs v).1] at hv
    rw [(normalize_spec hs _).1, hv]; ext <;> simp
  | some u =>
    obtain ⟨hu, hn, e⟩ := (normalize_spec hs v).2 u hv
    have : t * v = (t * norm sqrt v) * u := by
      conv_lhs => rw [e]
      ext <;> simp <;> ring
    rw [this]
    exact (normalize_mul hs _ (by positivity) u hu).1

/-- **C96.** The pixel of a point exists exactly if the point is not in the plane through the centre parallel to the image. -/
theorem pixel_iff (m : Cahv K) (p : V3 K) :
    (m.pointToPixel p = none ↔ dot (p - m.C) m.A = 0) ∧
    (∀ q, m.pointToPixel p = some q ↔ dot (p - m.C) m.A ≠ 0 ∧ dot (p - m.C) (m.H - q.1 * m.A) = 0 ∧
      dot (p - m.C) (m.V - q.2 * m.A) = 0) := by
  unfold Cahv.pointToPixel
  simp only
  by_cases h : dot (p - m.C) m.A = 0
  · rw [if_pos h]
    exact ⟨⟨fun _ => h, fun _ => rfl⟩, fun q => ⟨fun e => (by cases e), fun e => absurd h e.1⟩⟩
  · rw [if_neg h]
    refine ⟨⟨fun e => (by cases e), fun e => absurd e h⟩, fun q => ?_⟩
    have e1 : ∀ (t : K) (w : V3 K), dot (p - m.C) (w - t * m.A) = dot (p - m.C) w - t * dot (p - m.C) m.A := by
      intro t w; simp only [dot, sub_x, sub_y, sub_z, smul_x, smul_y, smul_z]; ring
    rw [e1, e1]
    constructor
    · intro e
      simp only [Option.some.injEq] at e
      subst e
      exact ⟨h, by field_simp; ring, by field_simp; ring⟩
    · rintro ⟨-, h1, h2⟩
      congr 1
      refine Prod.ext ?_ ?_
      · show dot (p - m.C) m.H / dot (p - m.C) m.A = q.1
        rw [div_eq_iff h]; linarith
      · show dot (p - m.C) m.V / dot (p - m.C) m.A = q.2
        rw [div_eq_iff h]; linarith

/-- The vector before it is normalised. -/
theorem cross_dot_A (m : Cahv K) (q : K × K) :
    dot (cross (m.V - q.2 * m.A) (m.H - q.1 * m.A)) m.A = m.vol := by
  simp only [Cahv.vol, dot, cross, sub_x, sub_y, sub_z, smul_x, smul_y, smul_z]; ring

/-- **C96.** The direction of a pixel of a usable camera: it exists, is a unit vector, points to the front of the image
plane, and every point of the line of sight except the centre is seen at that pixel. -/
theorem vector_spec (sqrt : K → K) (hs : IsSqrt sqrt) (m : Cahv K) (hD : m.vol ≠ 0) (q : K × K) :
    ∃ d, m.pixelToVector sqrt q = some d ∧ sq d = 1 ∧ 0 < dot d m.A ∧
      ∀ t : K, t ≠ 0 → m.pointToPixel (m.C + t * d) = some q := by
  set w := cross (m.V - q.2 * m.A) (m.H - q.1 * m.A) with hw
  have hwA : dot w m.A = m.vol := cross_dot_A m q
  have hw0 : w ≠ 0 := by
    intro e; rw [e] at hwA; apply hD; rw [← hwA]; simp [dot]
  cases hu : normalize sqrt w with
  | none => exact absurd ((normalize_spec hs w).1.1 hu) hw0
  | some u =>
    obtain ⟨h1, hn, e⟩ := (normalize_spec hs w).2 u hu
    have huA : norm sqrt w * dot u m.A = m.vol := by
      rw [← hwA]; conv_rhs => rw [e]
      simp only [dot, smul_x, smul_y, smul_z]; ring
    have huH : norm sqrt w * dot u (m.H - q.1 * m.A) = 0 := by
      have : dot w (m.H - q.1 * m.A) = 0 := by
        rw [hw]; simp only [dot, cross]; ring
      rw [← this]; conv_rhs => rw [e]
      simp only [dot, smul_x, smul_y, smul_z]; ring
    have huV : norm sqrt w * dot u (m.V - q.2 * m.A) = 0 := by
      have : dot w (m.V - q.2 * m.A) = 0 := by
        rw [hw]; simp only [dot, cross]; ring
      rw [← this]; conv_rhs => rw [e]
      simp only [dot, smul_x, smul_y, smul_z]; ring
    have huH' := (mul_eq_zero.1 huH).resolve_left hn.ne'
    have huV' := (mul_eq_zero.1 huV).resolve_left hn.ne'
    have huA0 : dot u m.A ≠ 0 := fun h => hD (by rw [← huA, h, mul_zero])
    -- the sign
    have key : ∀ σ : K, (σ = 1 ∨ σ = -1) → 0 < σ * dot u m.A →
        sq (σ * u) = 1 ∧ 0 < dot (σ * u) m.A ∧ ∀ t : K, t ≠ 0 → m.pointToPixel (m.C + t * (σ * u)) = some q := by
      intro σ hσ hpos
      have hσ2 : σ * σ = 1 := by rcases hσ with rfl | rfl <;> ring
      have hl : ∀ v : V3 K, dot (σ * u) v = σ * dot u v := by
        intro v; simp only [dot, smul_x, smul_y, smul_z]; ring
      refine ⟨by rw [sq_smul, hσ2, h1, mul_one], by rw [hl]; exact hpos, fun t ht => ?_⟩
      have hp : ∀ v : V3 K, dot (m.C + t * (σ * u) - m.C) v = t * σ * dot u v := by
        intro v; simp only [dot, sub_x, sub_y, sub_z, add_x, add_y, add_z, smul_x, smul_y, smul_z]; ring
      rw [(pixel_iff m _).2 q, hp, hp, hp, huH', huV']
      refine ⟨?_, by ring, by ring⟩
      exact mul_ne_zero (mul_ne_zero ht (by rcases hσ with rfl | rfl <;> norm_num)) huA0
    have hv : m.pixelToVector sqrt q = some (if m.vol < 0 then (-1 : K) * u else u) := by
      unfold Cahv.pixelToVector
      rw [← hw, hu]; rfl
    rw [hv]
    by_cases hneg : m.vol < 0
    · rw [if_pos hneg]
      exact ⟨_, rfl, key (-1) (Or.inr rfl) (by nlinarith)⟩
    · rw [if_neg hneg]
      have hvol : 0 < m.vol := lt_of_le_of_ne (not_lt.1 hneg) (Ne.symm hD)
      have := key 1 (Or.inl rfl) (by rw [one_mul]; by_contra h; push Not at h; nlinarith)
      have e1 : (1 : K) * u = u := by ext <;> simp
      rw [e1] at this
      exact ⟨u, rfl, this⟩

/-- Three independent vectors: a vector perpendicular to two of the adjusted vectors is a multiple of the line of sight. -/
theorem unique_line (m : Cahv K) (hD : m.vol ≠ 0) (q : K × K) (a b : V3 K) (ha : dot a m.A ≠ 0)
    (haH : dot a (m.H - q.1 * m.A) = 0) (haV : dot a (m.V - q.2 * m.A) = 0)
    (hbH : dot b (m.H - q.1 * m.A) = 0) (hbV : dot b (m.V - q.2 * m.A) = 0) : b = (dot b m.A / dot a m.A) * a := by
  -- b·A a − a·A b is perpendicular to the three vectors
  set w := dot a m.A * b - dot b m.A * a with hw
  have l : ∀ v : V3 K, dot w v = dot a m.A * dot b v - dot b m.A * dot a v := by
    intro v; rw [hw]; simp only [dot, sub_x, sub_y, sub_z, smul_x, smul_y, smul_z]; ring
  have w1 : dot w m.A = 0 := by rw [l]; ring
  have w2 : dot w (m.H - q.1 * m.A) = 0 := by rw [l, haH, hbH]; ring
  have w3 : dot w (m.V - q.2 * m.A) = 0 := by rw [l, haV, hbV]; ring
  have w2' : dot w m.H = 0 := by
    have : dot w (m.H - q.1 * m.A) = dot w m.H - q.1 * dot w m.A := by simp only [dot, sub_x, sub_y, sub_z, smul_x, smul_y, smul_z]; ring
    rw [this, w1] at w2; linarith
  have w3' : dot w m.V = 0 := by
    have : dot w (m.V - q.2 * m.A) = dot w m.V - q.2 * dot w m.A := by simp only [dot, sub_x, sub_y, sub_z, smul_x, smul_y, smul_z]; ring
    rw [this, w1] at w3; linarith
  have hz : w = 0 := by
    clear_value w
    unfold Cahv.vol at hD
    simp only [dot, cross] at w1 w2' w3' hD
    refine V3.ext ((mul_eq_zero.1 (?_ : _ * w.x = 0)).resolve_left hD) ((mul_eq_zero.1 (?_ : _ * w.y = 0)).resolve_left hD)
      ((mul_eq_zero.1 (?_ : _ * w.z = 0)).resolve_left hD)
    · linear_combination (m.V.y * m.H.z - m.V.z * m.H.y) * w1 + (m.A.y * m.V.z - m.A.z * m.V.y) * w2' +
        (m.H.y * m.A.z - m.H.z * m.A.y) * w3'
    · linear_combination (m.V.z * m.H.x - m.V.x * m.H.z) * w1 + (m.A.z * m.V.x - m.A.x * m.V.z) * w2' +
        (m.H.z * m.A.x - m.H.x * m.A.z) * w3'
    · linear_combination (m.V.x * m.H.y - m.V.y * m.H.x) * w1 + (m.A.x * m.V.y - m.A.y * m.V.x) * w2' +
        (m.H.x * m.A.y - m.H.y * m.A.x) * w3'
  have hx := congrArg V3.x hz; have hy := congrArg V3.y hz; have hzz := congrArg V3.z hz
  rw [hw] at hx hy hzz
  simp only [sub_x, sub_y, sub_z, smul_x, smul_y, smul_z, zero_x, zero_y, zero_z] at hx hy hzz
  ext
  · simp only [smul_x]; field_simp; linarith
  · simp only [smul_y]; field_simp; linarith
  · simp only [smul_z]; field_simp; linarith

/-- **C96.** The round trip from a point: the direction of its pixel is the direction to the point if the point is in front
of the image plane, and the opposite direction if it is behind. -/
theorem round_trip (sqrt : K → K) (hs : IsSqrt sqrt) (m : Cahv K) (hD : m.vol ≠ 0) (p : V3 K) (q : K × K)
    (hq : m.pointToPixel p = some q) :
    (0 < dot (p - m.C) m.A → m.pixelToVector sqrt q = normalize sqrt (p - m.C)) ∧
    (dot (p - m.C) m.A < 0 → m.pixelToVector sqrt q = (normalize sqrt (p - m.C)).map (fun v => -v)) := by
  obtain ⟨d, hd, hu, hA, hproj⟩ := vector_spec sqrt hs m hD q
  have h1 := ((pixel_iff m _).2 q).1 (hproj 1 one_ne_zero)
  have e1 : m.C + (1 : K) * d - m.C = d := by ext <;> simp
  rw [e1] at h1
  have h2 := ((pixel_iff m p).2 q).1 hq
  have hl := unique_line m hD q d (p - m.C) hA.ne' h1.2.1 h1.2.2 h2.2.1 h2.2.2
  set t := dot (p - m.C) m.A / dot d m.A with ht
  rw [hd]
  constructor
  · intro hpos
    have : 0 < t := div_pos hpos hA
    rw [hl]
    exact (normalize_mul hs t this d hu).1.symm
  · intro hneg
    have htn : t < 0 := div_neg_of_neg_of_pos hneg hA
    have e : t * d = (-t) * (-d) := by ext <;> simp
    have hu' : sq (-d) = 1 := by rw [← hu]; simp [sq, dot]
    rw [hl, e, (normalize_mul hs (-t) (by linarith) (-d) hu').1]
    simp only [Option.map_some, Option.some.injEq]
    ext <;> simp

/-- **C96.** Stereo with CAHV cameras: usable cameras, a point in front of all of them that two of them see along different
lines, and directions that the test does not take for parallel: projecting the point into the cameras and triangulating the
pixels gives the point back, without error. -/
theorem cahv_stereo (sqrt : K → K) (hs : IsSqrt sqrt) (dflt tol : K) (inv : K × K) (cams : List (Cahv K)) (p : V3 K)
    (hD : ∀ m ∈ cams, m.vol ≠ 0) (hf : ∀ m ∈ cams, 0 < dot (p - m.C) m.A)
    (hinv : ∀ m ∈ cams, m.pointToPixel p ≠ some inv)
    (hsp : ∃ m ∈ cams, ∃ m' ∈ cams, cross (p - m.C) (p - m'.C) ≠ 0)
    (hn : nearlyParallel dflt tol (cams.map (fun m => (normalize sqrt (p - m.C)).getD 0)) = false) :
    triangulate sqrt dflt tol inv (cams.map (Cahv.cam sqrt)) (cams.map (fun m => m.pointToPixel p)) = .ok p 0 := by
  have hpix : ∀ m ∈ cams, ∃ q, m.pointToPixel p = some q ∧ q ≠ inv := by
    intro m hm
    cases h : m.pointToPixel p with
    | none => exact absurd ((pixel_iff m p).1.1 h) (hf m hm).ne'
    | some q => exact ⟨q, rfl, fun e => hinv m hm (by rw [h, e])⟩
  have hus : usable inv ((cams.map (Cahv.cam sqrt)).zip (cams.map (fun m => m.pointToPixel p))) =
      cams.map (fun m => (m.cam sqrt, (m.pointToPixel p).getD inv)) := by
    clear hn hsp hf hD hinv
    induction cams with
    | nil => rfl
    | cons m l ih =>
      obtain ⟨q, hq, hne⟩ := hpix m (List.mem_cons_self)
      have := ih (fun m hm => hpix m (List.mem_cons_of_mem _ hm))
      unfold usable at this ⊢
      rw [List.map_cons, List.map_cons, List.zip_cons_cons, List.filterMap_cons, this, hq]
      simp [hne, hq]
  have hdir : ∀ m ∈ cams, (m.cam sqrt).toVector ((m.pointToPixel p).getD inv) = normalize sqrt (p - m.C) := by
    intro m hm
    obtain ⟨q, hq, -⟩ := hpix m hm
    rw [hq]
    exact (round_trip sqrt hs m (hD m hm) p q hq).1 (hf m hm)
  have hne0 : ∀ m ∈ cams, p - m.C ≠ 0 := by
    intro m hm e
    have := hf m hm
    rw [e] at this
    simp [dot] at this
  have hunit : ∀ m ∈ cams, ∃ u, normalize sqrt (p - m.C) = some u ∧ sq u = 1 ∧ 0 < norm sqrt (p - m.C) ∧ p - m.C = norm sqrt (p - m.C) * u := by
    intro m hm
    cases h : normalize sqrt (p - m.C) with
    | none => exact absurd ((normalize_spec hs _).1.1 h) (hne0 m hm)
    | some u => exact ⟨u, rfl, (normalize_spec hs _).2 u h⟩
  refine triangulate_exact sqrt hs dflt tol inv _ _ p (by simp) ?_ ?_ ?_
  · intro cq hcq
    rw [hus] at hcq
    obtain ⟨m, hm, rfl⟩ := List.mem_map.1 hcq
    obtain ⟨u, h1, h2, h3, h4⟩ := hunit m hm
    refine ⟨u, by rw [← h1]; exact hdir m hm, h2, norm sqrt (p - m.C), h3.le, ?_⟩
    show p = m.C + norm sqrt (p - m.C) * u
    rw [← h4]; ext <;> simp
  · intro v hv
    rw [hus] at hv
    obtain ⟨m, hm, m', hm', hc⟩ := hsp
    obtain ⟨u, h1, -, -, h4⟩ := hunit m hm
    obtain ⟨u', h1', -, -, h4'⟩ := hunit m' hm'
    refine spread_of_pair [(u, 0), (u', 0)] (u, 0) (u', 0) (by simp) (by simp) ?_ v ?_
    · intro h
      apply hc
      rw [h4, h4']
      have hx := congrArg V3.x h; have hy := congrArg V3.y h; have hz := congrArg V3.z h
      simp only [cross, zero_x, zero_y, zero_z] at hx hy hz
      ext
      · simp only [cross, smul_x, smul_y, smul_z, zero_x]; linear_combination norm sqrt (p - m.C) * norm sqrt (p - m'.C) * hx
      · simp only [cross, smul_x, smul_y, smul_z, zero_y]; linear_combination norm sqrt (p - m.C) * norm sqrt (p - m'.C) * hy
      · simp only [cross, smul_x, smul_y, smul_z, zero_z]; linear_combination norm sqrt (p - m.C) * norm sqrt (p - m'.C) * hz
    · intro r hr
      simp only [List.mem_cons, List.not_mem_nil, or_false] at hr
      rcases hr with rfl | rfl
      · exact hv _ (List.mem_map.2 ⟨m, hm, rfl⟩) u (by rw [← h1]; exact hdir m hm)
      · exact hv _ (List.mem_map.2 ⟨m', hm', rfl⟩) u' (by rw [← h1']; exact hdir m' hm')
  · rw [hus, List.map_map]
    rw [← hn]
    congr 1
    refine List.map_congr_left fun m hm => ?_
    simp only [Function.comp]
    rw [hdir m hm]

/-- **C96.** The constructor from pinhole parameters with an orthonormal frame: the point with coordinates x, y, z in the
frame of the camera is seen at the focal length in pixels times x/z and y/z, plus the offset. -/
theorem params_project (f sx sy Hc Vc : K) (C A Hv Vv : V3 K) (hA : sq A = 1) (hAH : dot A Hv = 0) (hAV : dot A Vv = 0)
    (hH : sq Hv = 1) (hV : sq Vv = 1) (hHV : dot Hv Vv = 0) (x y z : K) (hz : z ≠ 0) :
    (Cahv.ofPinholeParams f sx sy Hc Vc C A Hv Vv).pointToPixel (C + x * Hv + y * Vv + z * A) =
      some (f / sx * (x / z) + Hc, f / sy * (y / z) + Vc) := by
  have eA : dot (C + x * Hv + y * Vv + z * A - C) A = z := by
    simp only [sq, dot, sub_x, sub_y, sub_z, add_x, add_y, add_z, smul_x, smul_y, smul_z] at *
    linear_combination x * hAH + y * hAV + z * hA
  rw [(pixel_iff _ _).2]
  show dot (C + x * Hv + y * Vv + z * A - C) A ≠ 0 ∧
    dot (C + x * Hv + y * Vv + z * A - C) ((f / sx) * Hv + Hc * A - (f / sx * (x / z) + Hc) * A) = 0 ∧
    dot (C + x * Hv + y * Vv + z * A - C) ((f / sy) * Vv + Vc * A - (f / sy * (y / z) + Vc) * A) = 0
  refine ⟨by rw [eA]; exact hz, ?_, ?_⟩
  · have : dot (C + x * Hv + y * Vv + z * A - C) ((f / sx) * Hv + Hc * A - (f / sx * (x / z) + Hc) * A) =
        f / sx * dot (C + x * Hv + y * Vv + z * A - C) Hv - f / sx * (x / z) * dot (C + x * Hv + y * Vv + z * A - C) A := by
      simp only [dot, sub_x, sub_y, sub_z, add_x, add_y, add_z, smul_x, smul_y, smul_z]; ring
    have eH : dot (C + x * Hv + y * Vv + z * A - C) Hv = x := by
      simp only [sq, dot, sub_x, sub_y, sub_z, add_x, add_y, add_z, smul_x, smul_y, smul_z] at *
      linear_combination x * hH + y * hHV + z * hAH
    rw [this, eA, eH, mul_assoc, div_mul_cancel₀ _ hz]; ring
  · have : dot (C + x * Hv + y * Vv + z * A - C) ((f / sy) * Vv + Vc * A - (f / sy * (y / z) + Vc) * A) =
        f / sy * dot (C + x * Hv + y * Vv + z * A - C) Vv - f / sy * (y / z) * dot (C + x * Hv + y * Vv + z * A - C) A := by
      simp only [dot, sub_x, sub_y, sub_z, add_x, add_y, add_z, smul_x, smul_y, smul_z]; ring
    have eV : dot (C + x * Hv + y * Vv + z * A - C) Vv = y := by
      simp only [sq, dot, sub_x, sub_y, sub_z, add_x, add_y, add_z, smul_x, smul_y, smul_z] at *
      linear_combination x * hHV + y * hV + z * hAV
    rw [this, eA, eV, mul_assoc, div_mul_cancel₀ _ hz]; ring

/-- **C96.** The constructor from a view matrix of the documented form, whose last row is 0 0 0 1: the camera is at the
origin, whatever the translation. -/
theorem view_center (f sx sy xmin ymin : K) (v : Nat → Nat → K) (h0 : v 3 0 = 0) (h1 : v 3 1 = 0) (h2 : v 3 2 = 0) :
    (Cahv.ofView f sx sy xmin ymin v).C = 0 := by
  unfold Cahv.ofView
  simp only [h0, h1, h2]
  rfl

/-! ## Epipolar cameras -/

theorem cross_perp (app b : V3 K) : dot (cross (cross app b) app) app = 0 := by
  simp only [dot, cross]; ring

/-- **C96.** When the aligned cameras exist, and what they are: at the old centres, with the same unit axis, the mean of the
two axes, the same H and V, the mean centre and scales, and the vertical direction perpendicular to the baseline. -/
theorem epipolar_spec (sqrt : K → K) (hs : IsSqrt sqrt) (s0 s1 : Cahv K) :
    (epipolar sqrt s0 s1 = none ↔ cross (s0.A + s1.A) (s1.C - s0.C) = 0 ∨
      norm sqrt (cross s0.A s0.H) + norm sqrt (cross s1.A s1.H) = 0) ∧
    (∀ d0 d1, epipolar sqrt s0 s1 = some (d0, d1) →
      d0.C = s0.C ∧ d1.C = s1.C ∧ d1.A = d0.A ∧ d1.H = d0.H ∧ d1.V = d0.V ∧
      normalize sqrt (s0.A + s1.A) = some d0.A ∧
      dot d0.H d0.A = (dot s0.H s0.A + dot s1.H s1.A) / 2 ∧ dot d0.V d0.A = (dot s0.V s0.A + dot s1.V s1.A) / 2 ∧
      norm sqrt (cross d0.A d0.H) = (norm sqrt (cross s0.A s0.H) + norm sqrt (cross s1.A s1.H)) / 2 ∧
      norm sqrt (cross d0.A d0.V) = (norm sqrt (cross s0.A s0.V) + norm sqrt (cross s1.A s1.V)) / 2 ∧
      dot (cross d0.A d0.H) (cross d0.A d0.V) = 0 ∧
      0 ≤ dot (d0.H - dot d0.H d0.A * d0.A) s0.H ∧
      ∃ k : K, (k = 0 ↔ norm sqrt (cross s0.A s0.V) + norm sqrt (cross s1.A s1.V) = 0) ∧
        d0.V - dot d0.V d0.A * d0.A = k * cross (s0.A + s1.A) (s1.C - s0.C)) := by
  set app := s0.A + s1.A with happ
  set b := s1.C - s0.C with hb
  set f := cross (cross app b) app with hf
  set hs' := norm sqrt (cross s0.A s0.H) / 2 + norm sqrt (cross s1.A s1.H) / 2 with hhs
  set vs' := norm sqrt (cross s0.A s0.V) / 2 + norm sqrt (cross s1.A s1.V) / 2 with hvs
  have hsnn : 0 ≤ hs' := by have := norm_nonneg' hs (cross s0.A s0.H); have := norm_nonneg' hs (cross s1.A s1.H); positivity
  have vsnn : 0 ≤ vs' := by have := norm_nonneg' hs (cross s0.A s0.V); have := norm_nonneg' hs (cross s1.A s1.V); positivity
  have hsum : norm sqrt (cross s0.A s0.H) + norm sqrt (cross s1.A s1.H) = 0 ↔ hs' = 0 := by
    rw [hhs]; constructor <;> intro h <;> linarith
  have hsqf : sq f = sq (cross app b) * sq app := by rw [hf]; simp only [sq, dot, cross]; ring
  have hf0 : norm sqrt f = 0 ↔ cross app b = 0 := by
    constructor
    · intro h
      have : sq f = 0 := by rw [← norm_mul_self hs f, h]; ring
      rw [hsqf] at this
      rcases mul_eq_zero.1 this with h | h
      · exact (sq_eq_zero _).1 h
      · rw [(sq_eq_zero _).1 h]; ext <;> simp [cross]
    · intro h
      have : sq f = 0 := by rw [hsqf, h]; simp [sq, dot]
      exact mul_self_eq_zero.1 (by rw [norm_mul_self hs f, this])
  have hfapp : dot f app = 0 := cross_perp app b
  -- the step
  by_cases hdeg : norm sqrt f = 0 ∨ hs' = 0
  · have e : epipolar sqrt s0 s1 = none := by
      unfold epipolar
      simp only [← happ, ← hb, ← hf, ← hhs]
      rw [if_pos hdeg]
    rw [e, hsum, ← hf0]
    exact ⟨⟨fun _ => hdeg, fun _ => rfl⟩, fun d0 d1 h => (by cases h)⟩
  · have hnf : 0 < norm sqrt f := lt_of_le_of_ne (norm_nonneg' hs f) (fun h => hdeg (Or.inl h.symm))
    have hhp : 0 < hs' := lt_of_le_of_ne hsnn (fun h => hdeg (Or.inr h.symm))
    have happ0 : app ≠ 0 := by
      intro h
      apply hdeg; left
      rw [hf0, h]; ext <;> simp [cross]
    -- sign of hp
    obtain ⟨σ, hσ, hhpe, hσH⟩ : ∃ σ : K, σ * σ = 1 ∧
        (if 0 < dot f s0.H then (hs' / norm sqrt f) * f else (hs' / norm sqrt f) * (-f)) = (σ * (hs' / norm sqrt f)) * f ∧
        0 ≤ σ * dot f s0.H := by
      by_cases h : 0 < dot f s0.H
      · exact ⟨1, by ring, by rw [if_pos h]; ext <;> simp, by linarith⟩
      · exact ⟨-1, by ring, by rw [if_neg h]; ext <;> simp, by linarith⟩
    set hp : V3 K := (σ * (hs' / norm sqrt f)) * f with hhpdef
    have hperp : dot ((1 / 2 : K) * app) hp = 0 := by
      have : dot ((1 / 2 : K) * app) hp = (1 / 2) * (σ * (hs' / norm sqrt f)) * dot f app := by
        rw [hhpdef]; simp only [dot, smul_x, smul_y, smul_z]; ring
      rw [this, hfapp, mul_zero]
    cases ha : normalize sqrt app with
    | none => exact absurd ((normalize_spec hs _).1.1 ha) happ0
    | some a =>
      obtain ⟨ha1, hna, haa⟩ := (normalize_spec hs _).2 a ha
      have ha' : normalize sqrt ((1 / 2 : K) * app - (dot ((1 / 2 : K) * app) hp / (hs' * hs')) * hp) = some a := by
        rw [hperp, zero_div]
        have : (1 / 2 : K) * app - (0 : K) * hp = (1 / 2 : K) * app := by ext <;> simp
        rw [this, normalize_smul hs _ (by norm_num), ha]
      set hc := dot s0.H s0.A / 2 + dot s1.H s1.A / 2 with hhc
      set vc := dot s0.V s0.A / 2 + dot s1.V s1.A / 2 with hvc
      have e : epipolar sqrt s0 s1 = some (⟨s0.C, a, hp + hc * a, (vs' / hs') * cross a hp + vc * a⟩,
          ⟨s1.C, a, hp + hc * a, (vs' / hs') * cross a hp + vc * a⟩) := by
        unfold epipolar
        simp only [← happ, ← hb, ← hf, ← hhs, ← hvs, ← hhc, ← hvc]
        rw [if_neg hdeg, hhpe, ha']
      rw [e, hsum, ← hf0]
      refine ⟨⟨fun h => (by cases h), fun h => absurd h hdeg⟩, fun d0 d1 h => ?_⟩
      simp only [Option.some.injEq, Prod.mk.injEq] at h
      obtain ⟨rfl, rfl⟩ := h
      have hahp : dot a hp = 0 := by
        have h2 : norm sqrt app * dot a hp = dot app hp := by
          conv_rhs => rw [haa]
          simp only [dot, smul_x, smul_y, smul_z]; ring
        have h3 : dot app hp = 0 := by
          have : dot ((1 / 2 : K) * app) hp = (1 / 2) * dot app hp := by simp only [dot, smul_x, smul_y, smul_z]; ring
          rw [this] at hperp; linarith
        rw [h3] at h2
        exact (mul_eq_zero.1 h2).resolve_left hna.ne'
      have hsqhp : sq hp = hs' * hs' := by
        rw [hhpdef, sq_smul, ← norm_mul_self hs f]
        field_simp
        linear_combination hσ
      have hpa : dot (hp + hc * a) a = hc := by
        have := hahp
        have h1 := ha1
        simp only [sq, dot, add_x, add_y, add_z, smul_x, smul_y, smul_z] at *
        linear_combination this + hc * h1
      have hva : dot ((vs' / hs') * cross a hp + vc * a) a = vc := by
        have h1 := ha1
        simp only [sq, dot, cross, add_x, add_y, add_z, smul_x, smul_y, smul_z] at *
        linear_combination vc * h1
      have hcr : sq (cross a (hp + hc * a)) = hs' * hs' := by
        rw [← hsqhp]
        have h1 := ha1
        have h2 := hahp
        simp only [sq, dot, cross, add_x, add_y, add_z, smul_x, smul_y, smul_z] at *
        linear_combination (hp.x * hp.x + hp.y * hp.y + hp.z * hp.z) * h1 - (a.x * hp.x + a.y * hp.y + a.z * hp.z) * h2
      have hcv : cross a ((vs' / hs') * cross a hp + vc * a) = -(vs' / hs') * hp := by
        have h1 := ha1
        have h2 := hahp
        simp only [sq, dot] at h1 h2
        ext
        · simp only [cross, add_x, add_y, add_z, smul_x, smul_y, smul_z]
          linear_combination (vs' / hs') * (a.x * h2 - hp.x * h1)
        · simp only [cross, add_x, add_y, add_z, smul_x, smul_y, smul_z]
          linear_combination (vs' / hs') * (a.y * h2 - hp.y * h1)
        · simp only [cross, add_x, add_y, add_z, smul_x, smul_y, smul_z]
          linear_combination (vs' / hs') * (a.z * h2 - hp.z * h1)
      refine ⟨rfl, rfl, rfl, rfl, rfl, rfl, ?_, ?_, ?_, ?_, ?_, ?_, ?_⟩
      · show dot (hp + hc * a) a = _
        rw [hpa, hhc]; ring
      · show dot ((vs' / hs') * cross a hp + vc * a) a = _
        rw [hva, hvc]; ring
      · show norm sqrt (cross a (hp + hc * a)) = _
        have : norm sqrt (cross a (hp + hc * a)) = hs' := hs.unique _ _ hsnn hcr.symm
        rw [this, hhs]; ring
      · show norm sqrt (cross a ((vs' / hs') * cross a hp + vc * a)) = _
        have : norm sqrt (cross a ((vs' / hs') * cross a hp + vc * a)) = vs' := by
          refine hs.unique _ _ vsnn ?_
          rw [hcv, sq_smul, hsqhp]; field_simp
        rw [this, hvs]; ring
      · show dot (cross a (hp + hc * a)) (cross a ((vs' / hs') * cross a hp + vc * a)) = 0
        rw [hcv]
        simp only [dot, cross, add_x, add_y, add_z, smul_x, smul_y, smul_z]; ring
      · show 0 ≤ dot (hp + hc * a - dot (hp + hc * a) a * a) s0.H
        rw [hpa]
        have : dot (hp + hc * a - hc * a) s0.H = (hs' / norm sqrt f) * (σ * dot f s0.H) := by
          rw [hhpdef]; simp only [dot, sub_x, sub_y, sub_z, add_x, add_y, add_z, smul_x, smul_y, smul_z]; ring
        rw [this]
        positivity
      · refine ⟨(vs' / hs') * (σ * (hs' / norm sqrt f)) * norm sqrt app, ?_, ?_⟩
        · have hσ0 : σ ≠ 0 := fun h => by rw [h] at hσ; simp at hσ
          have hv : norm sqrt (cross s0.A s0.V) + norm sqrt (cross s1.A s1.V) = 0 ↔ vs' = 0 := by
            rw [hvs]; constructor <;> intro h <;> linarith
          rw [hv]
          constructor
          · intro h
            by_contra hne
            have hq : (vs' / hs') * (σ * (hs' / norm sqrt f)) * norm sqrt app ≠ 0 := by
              have := hnf.ne'; have := hna.ne'; have := hhp.ne'
              positivity
            exact hq h
          · intro h; rw [h]; ring
        · show (vs' / hs') * cross a hp + vc * a - dot ((vs' / hs') * cross a hp + vc * a) a * a = _
          rw [hva]
          -- a × f = |app| (app × b)
          have hx : cross a hp = ((σ * (hs' / norm sqrt f)) * norm sqrt app) * cross app b := by
            have hab : cross a f = norm sqrt app * cross app b := by
              have h1 := ha1
              rw [hf]
              generalize hN : norm sqrt app = N at *
              rw [haa]
              simp only [sq, dot] at h1
              ext
              · simp only [cross, smul_x, smul_y, smul_z]
                linear_combination (N * N * (a.y * b.z - a.z * b.y)) * h1
              · simp only [cross, smul_x, smul_y, smul_z]
                linear_combination (N * N * (a.z * b.x - a.x * b.z)) * h1
              · simp only [cross, smul_x, smul_y, smul_z]
                linear_combination (N * N * (a.x * b.y - a.y * b.x)) * h1
            have h2 : cross a hp = (σ * (hs' / norm sqrt f)) * cross a f := by
              rw [hhpdef]; ext <;> simp only [cross, smul_x, smul_y, smul_z] <;> ring
            rw [h2, hab]; ext <;> simp only [smul_x, smul_y, smul_z] <;> ring
          rw [hx]
          ext <;> simp only [add_x, add_y, add_z, sub_x, sub_y, sub_z, smul_x, smul_y, smul_z] <;> ring

/-- **C96.** Rows of the aligned cameras: a point is seen in the same row by both exactly if the baseline is perpendicular to
the mean axis, or the point lies in the plane of the baseline and the mean axis, or the vertical scale is zero. -/
theorem epipolar_rows (sqrt : K → K) (hs : IsSqrt sqrt) (s0 s1 d0 d1 : Cahv K) (h : epipolar sqrt s0 s1 = some (d0, d1))
    (p : V3 K) (q0 q1 : K × K) (h0 : d0.pointToPixel p = some q0) (h1 : d1.pointToPixel p = some q1) :
    q0.2 = q1.2 ↔ dot (s0.A + s1.A) (s1.C - s0.C) = 0 ∨ dot (p - s0.C) (cross (s0.A + s1.A) (s1.C - s0.C)) = 0 ∨
      norm sqrt (cross s0.A s0.V) + norm sqrt (cross s1.A s1.V) = 0 := by
  obtain ⟨e1, e2, e3, e4, e5, ha, -, -, -, -, -, -, k, hk, hV⟩ := (epipolar_spec sqrt hs s0 s1).2 d0 d1 h
  obtain ⟨-, hna, haa⟩ := (normalize_spec hs _).2 _ ha
  obtain ⟨n0, -, v0⟩ := ((pixel_iff d0 p).2 q0).1 h0
  obtain ⟨n1, -, v1⟩ := ((pixel_iff d1 p).2 q1).1 h1
  rw [e3, e2] at n1
  rw [e5, e3, e2] at v1
  rw [e1] at n0 v0
  set app := s0.A + s1.A with happ
  set b := s1.C - s0.C with hb
  have hp1 : p - s1.C = (p - s0.C) - b := by rw [hb]; ext <;> simp
  rw [hp1] at n1 v1
  generalize hN : norm sqrt app = N at *
  generalize hvc : dot d0.V d0.A = vc at *
  -- dot with V
  have dV : ∀ u : V3 K, dot u d0.V = k * dot u (cross app b) + vc * dot u d0.A := by
    intro u
    have : d0.V = k * cross app b + vc * d0.A := by
      rw [← hV]; ext <;> simp
    rw [this]; simp only [dot, add_x, add_y, add_z, smul_x, smul_y, smul_z]; ring
  have hbc : dot b (cross app b) = 0 := by simp only [dot, cross]; ring
  have lin : ∀ (u v w : V3 K), dot (u - v) w = dot u w - dot v w := by
    intro u v w; simp only [dot, sub_x, sub_y, sub_z]; ring
  have lin2 : ∀ (u v : V3 K) (t : K), dot u (v - t * d0.A) = dot u v - t * dot u d0.A := by
    intro u v t; simp only [dot, sub_x, sub_y, sub_z, smul_x, smul_y, smul_z]; ring
  rw [lin2, dV] at v0 v1
  rw [lin (p - s0.C) b, lin (p - s0.C) b, hbc, sub_zero] at v1
  rw [lin (p - s0.C) b] at n1
  have happb : dot app b = N * dot b d0.A := by
    conv_lhs => rw [haa]
    simp only [dot, smul_x, smul_y, smul_z]; ring
  rw [happb, ← hk]
  generalize dot (p - s0.C) (cross app b) = c at *
  generalize dot (p - s0.C) d0.A = a0 at *
  generalize dot b d0.A = ab at *
  constructor
  · intro heq
    rw [← heq] at v1
    -- (vc − q) (a0) = −k c = (vc − q)(a0 − ab)
    have h3 : (vc - q0.2) * ab = 0 := by linear_combination v0 - v1
    rcases mul_eq_zero.1 h3 with h | h
    · have h4 : k * c = 0 := by linear_combination v0 - a0 * h
      rcases mul_eq_zero.1 h4 with h | h
      · exact Or.inr (Or.inr h)
      · exact Or.inr (Or.inl h)
    · left; rw [h, mul_zero]
  · intro hor
    have hcase : ab = 0 ∨ k * c = 0 := by
      rcases hor with h | h | h
      · exact Or.inl ((mul_eq_zero.1 h).resolve_left hna.ne')
      · right; rw [h, mul_zero]
      · right; rw [h, zero_mul]
    rcases hcase with h | h
    · have : (q1.2 - q0.2) * a0 = 0 := by rw [h] at v1; linear_combination v0 - v1
      have := (mul_eq_zero.1 this).resolve_right n0
      linarith
    · have f0 : (vc - q0.2) * a0 = 0 := by linear_combination v0 - h
      have f1 : (vc - q1.2) * (a0 - ab) = 0 := by linear_combination v1 - h
      have := (mul_eq_zero.1 f0).resolve_right n0
      have := (mul_eq_zero.1 f1).resolve_right n1
      linarith

/-- Two cameras with the same axes; the second is displaced along the row and forward. -/
noncomputable def epi0 : Cahv ℝ := ⟨0, ⟨0, 0, 1⟩, ⟨1, 0, 0⟩, ⟨0, 1, 0⟩⟩
noncomputable def epi1 : Cahv ℝ := ⟨⟨1, 0, 1⟩, ⟨0, 0, 1⟩, ⟨1, 0, 0⟩, ⟨0, 1, 0⟩⟩

theorem sqrt16 : Real.sqrt 16 = 4 := by
  rw [show (16 : ℝ) = 4 ^ 2 by norm_num]; exact Real.sqrt_sq (by norm_num)

/-- **C96.** Corresponding points are not in the same row in general, even after both cameras are aligned. -/
theorem epipolar_rows_fail : ∃ d0 d1 : Cahv ℝ, epipolar Real.sqrt epi0 epi1 = some (d0, d1) ∧ ∃ (p : V3 ℝ) (q0 q1 : ℝ × ℝ),
    0 < dot (p - d0.C) d0.A ∧ 0 < dot (p - d1.C) d1.A ∧
    d0.pointToPixel p = some q0 ∧ d1.pointToPixel p = some q1 ∧ q0.2 ≠ q1.2 := by
  have hn : epipolar Real.sqrt epi0 epi1 ≠ none := by
    intro h
    rcases (epipolar_spec Real.sqrt isSqrt_real epi0 epi1).1.1 h with h | h
    · have := congrArg V3.y h; norm_num [cross, epi0, epi1] at this
    · norm_num [norm, cross, sq, dot, epi0, epi1] at h
  cases he : epipolar Real.sqrt epi0 epi1 with
  | none => exact absurd he hn
  | some d =>
    obtain ⟨d0, d1⟩ := d
    refine ⟨d0, d1, rfl, ⟨0, 1, 2⟩, ?_⟩
    have hr := epipolar_rows Real.sqrt isSqrt_real epi0 epi1 d0 d1 he ⟨0, 1, 2⟩
    obtain ⟨e1, e2, e3, -, -, ha, -⟩ := (epipolar_spec Real.sqrt isSqrt_real epi0 epi1).2 d0 d1 he
    have h1 : d0.A = ⟨0, 0, 1⟩ := by
      have e : epi0.A + epi1.A = (2 : ℝ) * (⟨0, 0, 1⟩ : V3 ℝ) := by ext <;> norm_num [epi0, epi1]
      rw [e, (normalize_mul isSqrt_real 2 (by norm_num) ⟨0, 0, 1⟩ (by norm_num [sq, dot])).1] at ha
      exact (Option.some.inj ha).symm
    have p0 : 0 < dot ((⟨0, 1, 2⟩ : V3 ℝ) - d0.C) d0.A := by rw [h1, e1]; norm_num [dot, epi0]
    have p1 : 0 < dot ((⟨0, 1, 2⟩ : V3 ℝ) - d1.C) d1.A := by rw [e3, h1, e2]; norm_num [dot, epi1]
    cases hq0 : d0.pointToPixel (⟨0, 1, 2⟩ : V3 ℝ) with
    | none => exact absurd ((pixel_iff _ _).1.1 hq0) p0.ne'
    | some q0 =>
      cases hq1 : d1.pointToPixel (⟨0, 1, 2⟩ : V3 ℝ) with
      | none => exact absurd ((pixel_iff _ _).1.1 hq1) p1.ne'
      | some q1 =>
        refine ⟨q0, q1, p0, p1, rfl, rfl, fun heq => ?_⟩
        rcases (hr q0 q1 hq0 hq1).1 heq with h | h | h
        · norm_num [dot, epi0, epi1] at h
        · norm_num [dot, cross, epi0, epi1] at h
        · norm_num [norm, cross, sq, dot, epi0, epi1] at h

/-! ## Concrete cases -/

/-- A camera with a left-handed frame and one with a right-handed one. -/
def exCahv0 : Cahv ℚ := ⟨⟨0, 0, 0⟩, ⟨0, 0, 1⟩, ⟨100, 0, 50⟩, ⟨0, 100, 40⟩⟩
def exCahv1 : Cahv ℚ := ⟨⟨1, 0, 0⟩, ⟨0, 0, 1⟩, ⟨100, 3, 50⟩, ⟨2, -100, 40⟩⟩

example : exCahv0.vol < 0 ∧ 0 < exCahv1.vol ∧ exCahv0.pointToPixel ⟨1, 2, 4⟩ = some (75, 90) ∧
    exCahv0.pointToPixel ⟨1, 2, -4⟩ = some (25, -10) ∧ exCahv0.pointToPixel ⟨1, 2, 0⟩ = none := by decide +kernel

/-- The stereo theorem applies. -/
noncomputable def stCams : List (Cahv ℝ) := [⟨0, ⟨0, 0, 1⟩, ⟨1, 0, 0⟩, ⟨0, 1, 0⟩⟩, ⟨⟨4, 0, 1⟩, ⟨0, 0, 1⟩, ⟨1, 0, 0⟩, ⟨0, 1, 0⟩⟩]

example : triangulate Real.sqrt (1/10000) 0 (-1, -1) (stCams.map (Cahv.cam Real.sqrt)) (stCams.map (fun m => m.pointToPixel ⟨0, 0, 4⟩)) =
    .ok ⟨0, 0, 4⟩ 0 := by
  refine cahv_stereo Real.sqrt isSqrt_real _ _ _ stCams ⟨0, 0, 4⟩ ?_ ?_ ?_ ?_ ?_
  · intro m hm
    simp only [stCams, List.mem_cons, List.not_mem_nil, or_false] at hm
    rcases hm with rfl | rfl <;> norm_num [Cahv.vol, dot, cross]
  · intro m hm
    simp only [stCams, List.mem_cons, List.not_mem_nil, or_false] at hm
    rcases hm with rfl | rfl <;> norm_num [dot]
  · intro m hm
    simp only [stCams, List.mem_cons, List.not_mem_nil, or_false] at hm
    rcases hm with rfl | rfl <;> norm_num [Cahv.pointToPixel, dot]
  · refine ⟨stCams[0], by simp [stCams], stCams[1], by simp [stCams], fun h => ?_⟩
    have := congrArg V3.y h
    norm_num [stCams, cross] at this
  · have n0 : normalize Real.sqrt ((⟨0, 0, 4⟩ : V3 ℝ) - 0) = some ⟨0, 0, 1⟩ := by
      have : ((⟨0, 0, 4⟩ : V3 ℝ) - 0) = (4 : ℝ) * (⟨0, 0, 1⟩ : V3 ℝ) := by ext <;> norm_num
      rw [this]; exact (normalize_mul isSqrt_real 4 (by norm_num) _ (by norm_num [sq, dot])).1
    have n1 : normalize Real.sqrt ((⟨0, 0, 4⟩ : V3 ℝ) - ⟨4, 0, 1⟩) = some ⟨-4/5, 0, 3/5⟩ := by
      have : ((⟨0, 0, 4⟩ : V3 ℝ) - ⟨4, 0, 1⟩) = (5 : ℝ) * (⟨-4/5, 0, 3/5⟩ : V3 ℝ) := by ext <;> norm_num
      rw [this]; exact (normalize_mul isSqrt_real 5 (by norm_num) _ (by norm_num [sq, dot])).1
    by_contra h
    have h := (nearlyParallel_spec (1/10000 : ℝ) 0 _).1 (by simpa using h) 0 (by simp [stCams])
    simp only [stCams, List.map_cons, List.map_nil, List.getElem_cons_zero, List.getElem_cons_succ, n0, n1, Option.getD_some, dot] at h
    norm_num at h

/-- The frame of the constructor from parameters. -/
example : sq (⟨0, 0, 1⟩ : V3 ℚ) = 1 ∧ dot (⟨0, 0, 1⟩ : V3 ℚ) ⟨3/5, 4/5, 0⟩ = 0 ∧ sq (⟨-4/5, 3/5, 0⟩ : V3 ℚ) = 1 ∧
    dot (⟨3/5, 4/5, 0⟩ : V3 ℚ) ⟨-4/5, 3/5, 0⟩ = 0 := by decide +kernel

end Verif.Camera
