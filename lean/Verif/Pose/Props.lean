import Verif.Pose.Model
import Verif.Camera.AdjustedProps
import Mathlib.Topology.Instances.Real.Lemmas
import Mathlib.Topology.Order.Compact
import Mathlib.Tactic.Linarith
import Mathlib.Tactic.LinearCombination
/-
C176: the relative orientation of two sets of vectors.
-/
namespace VW.Pose

open Verif.Camera

/-- The product of two vectors of four numbers. -/
def ip (p q : Quat ℝ) : ℝ := p.w * q.w + p.x * q.x + p.y * q.y + p.z * q.z

/-- What is minimised: `sum(|v2-q.rotate(v1)|^2)`. -/
noncomputable def err (ps : List (V3 ℝ × V3 ℝ)) (q : Quat ℝ) : ℝ :=
  (ps.map fun p => dot (p.2 - Rot q p.1) (p.2 - Rot q p.1)).sum

/-- The solver: each pair given back is an eigenvalue with an eigenvector of length 1, and no eigenvalue is left out. -/
structure Solves (M : Up ℝ) (e : (Fin 4 → ℝ) × (Fin 4 → Quat ℝ)) : Prop where
  unit : ∀ i, (e.2 i).sq = 1
  eig : ∀ i, mulVec M (e.2 i) = Quat.scale (e.1 i) (e.2 i)
  all : ∀ (l : ℝ) (v : Quat ℝ), v.sq ≠ 0 → mulVec M v = Quat.scale l v → ∃ i, e.1 i = l

/-- The sum of the squares of the lengths. -/
def lens (ps : List (V3 ℝ × V3 ℝ)) : ℝ := (ps.map fun p => dot p.1 p.1 + dot p.2 p.2).sum

theorem sub_x' (a b : V3 ℝ) : (a - b).x = a.x - b.x := rfl
theorem sub_y' (a b : V3 ℝ) : (a - b).y = a.y - b.y := rfl
theorem sub_z' (a b : V3 ℝ) : (a - b).z = a.z - b.z := rfl

theorem addPair_form (M : Up ℝ) (p : V3 ℝ × V3 ℝ) (q : Quat ℝ) :
    ip q (mulVec (addPair M p) q) = ip q (mulVec M q) - dot p.2 (q.toM.mulVec p.1) := by
  simp only [ip, mulVec, addPair, Quat.toM, M3.mulVec, dot]; ring

theorem pair_err (p : V3 ℝ × V3 ℝ) (q : Quat ℝ) (hq : q.sq = 1) :
    dot (p.2 - Rot q p.1) (p.2 - Rot q p.1) = dot p.1 p.1 + dot p.2 p.2 - 2 * dot p.2 (q.toM.mulVec p.1) := by
  have h1 := rot_isometry q (by rw [hq]; norm_num) p.1 p.1
  have h2 : Rot q p.1 = q.toM.mulVec p.1 := by
    unfold Rot
    rw [hq]
    ext <;> simp only [smul_x, smul_y, smul_z] <;> ring
  rw [h2] at h1 ⊢
  rw [← h1]
  simp only [dot, sub_x', sub_y', sub_z']
  ring

theorem fold_err (q : Quat ℝ) (hq : q.sq = 1) : ∀ (ps : List (V3 ℝ × V3 ℝ)) (M : Up ℝ),
    err ps q = lens ps + 2 * (ip q (mulVec (ps.foldl addPair M) q) - ip q (mulVec M q)) := by
  intro ps
  induction ps with
  | nil => intro M; simp [err, lens]
  | cons p ps ih =>
    intro M
    have h := ih (addPair M p)
    rw [addPair_form] at h
    have h1 : err (p :: ps) q = dot (p.2 - Rot q p.1) (p.2 - Rot q p.1) + err ps q := by simp [err]
    have h2 : lens (p :: ps) = dot p.1 p.1 + dot p.2 p.2 + lens ps := by simp [lens]
    rw [h1, h2, h, pair_err p q hq, List.foldl_cons]
    ring

/-- The error is a quadratic form on the unit sphere. -/
theorem err_form (ps : List (V3 ℝ × V3 ℝ)) (q : Quat ℝ) (hq : q.sq = 1) :
    err ps q = lens ps + 2 * ip q (mulVec (build ps) q) := by
  rw [fold_err q hq ps zero]
  have : ip q (mulVec (zero : Up ℝ) q) = 0 := by simp [ip, mulVec, zero]
  rw [this]; unfold build; ring

/-- The form is least on the sphere somewhere. -/
theorem exists_min (M : Up ℝ) : ∃ q : Quat ℝ, q.sq = 1 ∧ ∀ p : Quat ℝ, p.sq = 1 → ip q (mulVec M q) ≤ ip p (mulVec M p) := by
  let f : (Fin 4 → ℝ) → Quat ℝ := fun v => ⟨v 0, v 1, v 2, v 3⟩
  let S : Set (Fin 4 → ℝ) := {v | (f v).sq = 1}
  have hc : IsClosed S := by
    apply isClosed_eq
    · simp only [f, Quat.sq]; fun_prop
    · exact continuous_const
  have hsub : S ⊆ Set.Icc (fun _ => -1) (fun _ => 1) := by
    intro v hv
    have hv : v 0 * v 0 + v 1 * v 1 + v 2 * v 2 + v 3 * v 3 = 1 := hv
    have h0 := mul_self_nonneg (v 0)
    have h1 := mul_self_nonneg (v 1)
    have h2 := mul_self_nonneg (v 2)
    have h3 := mul_self_nonneg (v 3)
    constructor <;> intro i <;> fin_cases i <;> dsimp <;> nlinarith
  have hk : IsCompact S := IsCompact.of_isClosed_subset isCompact_Icc hc hsub
  have hn : S.Nonempty := ⟨![1, 0, 0, 0], by simp [S, f, Quat.sq]⟩
  have hcont : ContinuousOn (fun v => ip (f v) (mulVec M (f v))) S := by
    apply Continuous.continuousOn
    simp only [f, ip, mulVec]; fun_prop
  obtain ⟨v, hv, hmin⟩ := hk.exists_isMinOn hn hcont
  refine ⟨f v, hv, fun p hp => ?_⟩
  have := hmin (a := ![p.w, p.x, p.y, p.z]) (by simpa [S, f] using hp)
  simpa [f] using this

theorem sq_pos (q : Quat ℝ) : 0 ≤ q.sq := quat_sq_nonneg q

/-- On the whole space the form is at least the minimum times the square. -/
theorem min_all (M : Up ℝ) (m : ℝ) (hm : ∀ p : Quat ℝ, p.sq = 1 → m ≤ ip p (mulVec M p)) (p : Quat ℝ) :
    m * p.sq ≤ ip p (mulVec M p) := by
  by_cases h : p.sq = 0
  · have hz : p.w = 0 ∧ p.x = 0 ∧ p.y = 0 ∧ p.z = 0 := by
      unfold Quat.sq at h
      refine ⟨?_, ?_, ?_, ?_⟩ <;> nlinarith [mul_self_nonneg p.w, mul_self_nonneg p.x, mul_self_nonneg p.y, mul_self_nonneg p.z]
    obtain ⟨a, b, c, d⟩ := hz
    simp [Quat.sq, ip, mulVec, a, b, c, d]
  · have hp : 0 < p.sq := lt_of_le_of_ne (sq_pos p) (Ne.symm h)
    set s := Real.sqrt p.sq with hs
    have hss : s * s = p.sq := Real.mul_self_sqrt hp.le
    have hs0 : s ≠ 0 := by intro h0; rw [h0] at hss; simp at hss; exact h hss.symm
    have h1 := hm (Quat.scale (1 / s) p) (by
      have : (Quat.scale (1 / s) p).sq = (1 / (s * s)) * p.sq := by
        simp only [Quat.scale, Quat.sq]; field_simp
      rw [this, hss]; field_simp)
    have h2 : ip (Quat.scale (1 / s) p) (mulVec M (Quat.scale (1 / s) p)) = ip p (mulVec M p) / p.sq := by
      rw [← hss]
      simp only [ip, mulVec, Quat.scale]; field_simp
    rw [h2, le_div_iff₀ hp] at h1
    exact h1

/-- Where the form is least on the sphere there is an eigenvector. -/
theorem min_eig (M : Up ℝ) (q : Quat ℝ) (hq : q.sq = 1)
    (hm : ∀ p : Quat ℝ, p.sq = 1 → ip q (mulVec M q) ≤ ip p (mulVec M p)) :
    mulVec M q = Quat.scale (ip q (mulVec M q)) q := by
  set m := ip q (mulVec M q) with hmd
  -- the rest
  let r : Quat ℝ := ⟨(mulVec M q).w - m * q.w, (mulVec M q).x - m * q.x, (mulVec M q).y - m * q.y, (mulVec M q).z - m * q.z⟩
  have hB : ∀ t : ℝ, 0 ≤ 2 * t * r.sq + t * t * (ip r (mulVec M r) - m * r.sq) := by
    intro t
    have h := min_all M m hm ⟨q.w + t * r.w, q.x + t * r.x, q.y + t * r.y, q.z + t * r.z⟩
    have e1 : ip ⟨q.w + t * r.w, q.x + t * r.x, q.y + t * r.y, q.z + t * r.z⟩
        (mulVec M ⟨q.w + t * r.w, q.x + t * r.x, q.y + t * r.y, q.z + t * r.z⟩) =
        ip q (mulVec M q) + 2 * t * ip r (mulVec M q) + t * t * ip r (mulVec M r) := by
      simp only [ip, mulVec]; ring
    have e2 : (⟨q.w + t * r.w, q.x + t * r.x, q.y + t * r.y, q.z + t * r.z⟩ : Quat ℝ).sq =
        q.sq + 2 * t * ip r q + t * t * r.sq := by
      simp only [ip, Quat.sq]; ring
    have e3 : r.sq = ip r (mulVec M q) - m * ip r q := by
      simp only [ip, Quat.sq, r]; ring
    rw [e1, e2, ← hmd, hq] at h
    have e4 : 2 * t * r.sq = 2 * t * ip r (mulVec M q) - 2 * t * m * ip r q := by rw [e3]; ring
    rw [e4]
    linarith
  have hr : r.sq = 0 := by
    by_contra hne
    have hpos : 0 < r.sq := lt_of_le_of_ne (sq_pos r) (Ne.symm hne)
    set c := ip r (mulVec M r) - m * r.sq with hc
    by_cases hc0 : c ≤ 0
    · have := hB (-1); nlinarith
    · have hc0 : 0 < c := not_le.mp hc0
      have := hB (-(r.sq / c))
      have e : 2 * -(r.sq / c) * r.sq + -(r.sq / c) * -(r.sq / c) * c = -(r.sq * r.sq / c) := by field_simp; ring
      rw [e] at this
      have : 0 < r.sq * r.sq / c := by positivity
      linarith
  have hz : r.w = 0 ∧ r.x = 0 ∧ r.y = 0 ∧ r.z = 0 := by
    unfold Quat.sq at hr
    refine ⟨?_, ?_, ?_, ?_⟩ <;> nlinarith [mul_self_nonneg r.w, mul_self_nonneg r.x, mul_self_nonneg r.y, mul_self_nonneg r.z]
  obtain ⟨a, b, c, d⟩ := hz
  simp only [r] at a b c d
  ext <;> simp only [Quat.scale] <;> linarith

/-- The index found is that of the least value. -/
theorem least_spec (e : Fin 4 → ℝ) (i : Fin 4) : e (least e) ≤ e i := by
  unfold least
  simp only [List.foldl_cons, List.foldl_nil]
  fin_cases i <;> dsimp <;> split_ifs <;> simp_all <;> linarith

/-- **C176 (least squares)**: for every list of pairs of vectors and every solver that gives unit eigenvectors and misses no
eigenvalue, the quaternion given back has length 1, and no quaternion of length 1 has a smaller `sum(|v2-q.rotate(v1)|^2)`. -/
theorem relativeOrientation_spec (eigen : Up ℝ → (Fin 4 → ℝ) × (Fin 4 → Quat ℝ)) (ps : List (V3 ℝ × V3 ℝ))
    (h : Solves (build ps) (eigen (build ps))) :
    (relativeOrientation eigen ps).sq = 1 ∧
    ∀ q : Quat ℝ, q.sq = 1 → err ps (relativeOrientation eigen ps) ≤ err ps q := by
  have hu : (relativeOrientation eigen ps).sq = 1 := h.unit _
  refine ⟨hu, fun q hq => ?_⟩
  rw [err_form ps _ hu, err_form ps q hq]
  obtain ⟨q0, h0, hmin⟩ := exists_min (build ps)
  have he := min_eig (build ps) q0 h0 hmin
  obtain ⟨i, hi⟩ := h.all _ q0 (by rw [h0]; norm_num) he
  have hl := least_spec (eigen (build ps)).1 i
  have hv : ip (relativeOrientation eigen ps) (mulVec (build ps) (relativeOrientation eigen ps)) =
      (eigen (build ps)).1 (least (eigen (build ps)).1) := by
    have hs : (relativeOrientation eigen ps).sq = 1 := hu
    have e := h.eig (least (eigen (build ps)).1)
    change mulVec (build ps) (relativeOrientation eigen ps) = Quat.scale _ (relativeOrientation eigen ps) at e
    rw [e]
    have : ip (relativeOrientation eigen ps) (Quat.scale ((eigen (build ps)).1 (least (eigen (build ps)).1))
        (relativeOrientation eigen ps)) = (eigen (build ps)).1 (least (eigen (build ps)).1) *
        (relativeOrientation eigen ps).sq := by
      simp only [ip, Quat.scale, Quat.sq]; ring
    rw [this, hs, mul_one]
  rw [hv]
  have := hmin q hq
  linarith

/-- **C176 (exact data)**: if one rotation takes all vectors of the first set to those of the second, so does the one given
back. -/
theorem relativeOrientation_exact (eigen : Up ℝ → (Fin 4 → ℝ) × (Fin 4 → Quat ℝ)) (ps : List (V3 ℝ × V3 ℝ))
    (h : Solves (build ps) (eigen (build ps))) (q : Quat ℝ) (hq : q.sq = 1) (hp : ∀ p ∈ ps, q.rotate p.1 = some p.2) :
    ∀ p ∈ ps, (relativeOrientation eigen ps).rotate p.1 = some p.2 := by
  obtain ⟨hu, hmin⟩ := relativeOrientation_spec eigen ps h
  have h1 := hmin q hq
  have nn : ∀ v : V3 ℝ, 0 ≤ dot v v := fun v => by
    simp only [dot]; nlinarith [mul_self_nonneg v.x, mul_self_nonneg v.y, mul_self_nonneg v.z]
  have h0 : err ps q = 0 := by
    unfold err
    apply List.sum_eq_zero
    intro x hx
    obtain ⟨p, hpm, rfl⟩ := List.mem_map.mp hx
    have := hp p hpm
    rw [rotate_some q (by rw [hq]; norm_num)] at this
    have e : Rot q p.1 = p.2 := by simpa using this
    rw [e]
    simp [dot, sub_x', sub_y', sub_z']
  rw [h0] at h1
  intro p hpm
  have hle : dot (p.2 - Rot (relativeOrientation eigen ps) p.1) (p.2 - Rot (relativeOrientation eigen ps) p.1) ≤
      err ps (relativeOrientation eigen ps) := by
    unfold err
    apply List.single_le_sum
    · intro x hx
      obtain ⟨p, _, rfl⟩ := List.mem_map.mp hx
      exact nn _
    · exact List.mem_map.mpr ⟨p, hpm, rfl⟩
  have hz := le_trans hle h1
  rw [rotate_some _ (by rw [hu]; norm_num)]
  generalize Rot (relativeOrientation eigen ps) p.1 = w at *
  simp only [dot, sub_x', sub_y', sub_z'] at hz
  congr 1
  have a := mul_self_nonneg (p.2.x - w.x)
  have b := mul_self_nonneg (p.2.y - w.y)
  have c := mul_self_nonneg (p.2.z - w.z)
  have ex : p.2.x - w.x = 0 := by nlinarith
  have ey : p.2.y - w.y = 0 := by nlinarith
  have ez : p.2.z - w.z = 0 := by nlinarith
  ext <;> linarith

/-- The three axes, turned by a quarter about the third. -/
def quarter : List (V3 ℝ × V3 ℝ) := [(⟨1, 0, 0⟩, ⟨0, 1, 0⟩), (⟨0, 1, 0⟩, ⟨-1, 0, 0⟩), (⟨0, 0, 1⟩, ⟨0, 0, 1⟩)]

/-- The cosine of an eighth of a turn. -/
noncomputable def half : ℝ := Real.sqrt (1 / 2)

theorem half_sq : half * half = 1 / 2 := Real.mul_self_sqrt (by norm_num)

/-- A solver for this matrix: its eigenvalues are -3, 1, 1, 1. -/
noncomputable def quarterEig : (Fin 4 → ℝ) × (Fin 4 → Quat ℝ) :=
  (![1, 1, -3, 1], ![⟨half, 0, 0, -half⟩, ⟨0, 1, 0, 0⟩, ⟨half, 0, 0, half⟩,
    ⟨0, 0, 1, 0⟩])

theorem quarter_solves : Solves (build quarter) quarterEig := by
  have hs := half_sq
  constructor
  · intro i
    fin_cases i <;> simp [quarterEig, Quat.sq] <;> linarith
  · intro i
    fin_cases i <;> simp [quarterEig, build, quarter, zero, addPair, mulVec, Quat.scale, dot] <;> constructor <;> ring
  · intro l v hv h
    have hw := congrArg Quat.w h
    have hx := congrArg Quat.x h
    have hy := congrArg Quat.y h
    have hz := congrArg Quat.z h
    simp only [build, quarter, List.foldl_cons, List.foldl_nil, zero, addPair, mulVec, Quat.scale, dot] at hw hx hy hz
    norm_num at hw hx hy hz
    by_cases hl : l = 1
    · exact ⟨0, by simp [quarterEig, hl]⟩
    · refine ⟨2, ?_⟩
      have x0 : v.x = 0 := by
        have : (l - 1) * v.x = 0 := by linarith
        rcases mul_eq_zero.mp this with h | h
        · exact absurd (by linarith) hl
        · exact h
      have y0 : v.y = 0 := by
        have : (l - 1) * v.y = 0 := by linarith
        rcases mul_eq_zero.mp this with h | h
        · exact absurd (by linarith) hl
        · exact h
      have wz : v.w = v.z := by
        have : (l - 1) * (v.w - v.z) = 0 := by linarith
        rcases mul_eq_zero.mp this with h | h
        · exact absurd (by linarith) hl
        · linarith
      have w0 : v.w ≠ 0 := by
        intro h0
        apply hv
        simp [Quat.sq, x0, y0, ← wz, h0]
      have : (l + 3) * v.w = 0 := by rw [← wz] at hw; linarith
      rcases mul_eq_zero.mp this with h | h
      · simp [quarterEig]; linarith
      · exact absurd h w0

/-- The hypotheses are met, and the answer is the quarter turn. -/
theorem quarter_found : relativeOrientation (fun _ => quarterEig) quarter =
    ⟨half, 0, 0, half⟩ ∧
    ∀ p ∈ quarter, (relativeOrientation (fun _ => quarterEig) quarter).rotate p.1 = some p.2 := by
  have hs := half_sq
  constructor
  · have : least quarterEig.1 = 2 := by
      have h := least_spec quarterEig.1 2
      generalize least quarterEig.1 = k at *
      fin_cases k <;> simp [quarterEig] at h ⊢ <;> linarith
    simp only [relativeOrientation, this]; rfl
  · apply relativeOrientation_exact _ _ quarter_solves ⟨half, 0, 0, half⟩
    · simp only [Quat.sq]; linarith
    · intro p hp
      rw [rotate_some _ (by simp only [Quat.sq]; intro h; linarith)]
      simp only [quarter, List.mem_cons, List.not_mem_nil, or_false] at hp
      have hq : (⟨half, 0, 0, half⟩ : Quat ℝ).sq = 1 := by simp only [Quat.sq]; linarith
      unfold Rot
      rw [hq]
      congr 1
      rcases hp with rfl | rfl | rfl <;> ext <;> simp only [smul_x, smul_y, smul_z, Quat.toM, M3.mulVec, dot] <;> linarith

end VW.Pose
