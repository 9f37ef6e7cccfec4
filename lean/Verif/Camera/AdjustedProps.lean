import Verif.Camera.Adjusted
import Verif.Camera.PinOps
import Mathlib.Tactic.IntervalCases

/-
C101.  The adjusted camera model.
-/

namespace Verif.Camera

variable {K : Type} [Field K] [LinearOrder K] [IsStrictOrderedRing K]

set_option linter.unusedSectionVars false

/-! ## Specification -/

/-- The rotation of a quaternion that is not zero. -/
def Rot (q : Quat K) (v : V3 K) : V3 K := (1 / q.sq) * q.toM.mulVec v

/-- The rigid transform of the class comment: where a point of the camera inside goes. -/
def Adj.move (a : Adj K) (p : V3 K) : V3 K := Rot a.rot (p - a.rc) + a.rc + a.t

/-- The stored inverse is the inverse of the rotation, which is not zero. -/
def Adj.Good (a : Adj K) : Prop := a.rot.sq ≠ 0 ∧ a.rotInv = a.rot.inv

theorem quat_sq_nonneg (q : Quat K) : 0 ≤ q.sq := by
  unfold Quat.sq; nlinarith [mul_self_nonneg q.w, mul_self_nonneg q.x, mul_self_nonneg q.y, mul_self_nonneg q.z]

theorem rotate_some (q : Quat K) (h : q.sq ≠ 0) (v : V3 K) : q.rotate v = some (Rot q v) := (rotate_spec q v).2.1 h

theorem rot_isometry (q : Quat K) (h : q.sq ≠ 0) (u v : V3 K) : dot (Rot q u) (Rot q v) = dot u v := by
  have hp : dot (q.toM.mulVec u) (q.toM.mulVec v) = q.sq * q.sq * dot u v := by
    simp only [Quat.toM, Quat.sq, M3.mulVec, dot]; ring
  have e : dot (Rot q u) (Rot q v) = (1 / q.sq) * (1 / q.sq) * dot (q.toM.mulVec u) (q.toM.mulVec v) := by
    simp only [Rot, dot, smul_x, smul_y, smul_z]; ring
  rw [e, hp]; field_simp

theorem inv_sq (q i : Quat K) (hi : q.inv = some i) : q.sq ≠ 0 ∧ i.sq ≠ 0 ∧
    (∀ v, Rot i (Rot q v) = v) ∧ (∀ v, Rot q (Rot i v) = v) := by
  unfold Quat.inv at hi
  by_cases h : q.sq = 0
  · rw [if_pos h] at hi; cases hi
  rw [if_neg h] at hi
  simp only [Option.some.injEq] at hi
  have hsq : i.sq = 1 / q.sq := by
    rw [← hi]
    have e : (Quat.scale (1 / q.sq) q.conj).sq = (1 / q.sq) * (1 / q.sq) * q.sq := by
      simp only [Quat.scale, Quat.conj, Quat.sq]; ring
    rw [e]; field_simp
  have hM : ∀ v, Rot i v = (1 / q.sq) * q.toM.transpose.mulVec v := by
    intro v
    have e : i.toM.mulVec v = (1 / q.sq * (1 / q.sq)) * q.toM.transpose.mulVec v := by
      rw [← hi]
      ext <;> simp only [Quat.scale, Quat.conj, Quat.toM, M3.mulVec, M3.transpose, dot, smul_x, smul_y, smul_z] <;> ring
    unfold Rot
    rw [hsq, e]
    ext <;> simp only [smul_x, smul_y, smul_z] <;> field_simp
  have h1 : ∀ v, q.toM.transpose.mulVec (q.toM.mulVec v) = (q.sq * q.sq) * v := by
    intro v
    ext <;> simp only [Quat.toM, Quat.sq, M3.mulVec, M3.transpose, dot, smul_x, smul_y, smul_z] <;> ring
  have h2 : ∀ v, q.toM.mulVec (q.toM.transpose.mulVec v) = (q.sq * q.sq) * v := by
    intro v
    ext <;> simp only [Quat.toM, Quat.sq, M3.mulVec, M3.transpose, dot, smul_x, smul_y, smul_z] <;> ring
  have hl : ∀ (m : M3 K) (s : K) (v : V3 K), m.mulVec (s * v) = s * m.mulVec v := by
    intro m s v; ext <;> simp only [M3.mulVec, dot, smul_x, smul_y, smul_z] <;> ring
  refine ⟨h, by rw [hsq]; exact one_div_ne_zero h, ?_, ?_⟩
  · intro v
    rw [hM]; unfold Rot; rw [hl, h1]
    ext <;> simp only [smul_x, smul_y, smul_z] <;> field_simp
  · intro v
    unfold Rot at hM ⊢
    rw [hM, hl, h2]
    ext <;> simp only [smul_x, smul_y, smul_z] <;> field_simp

/-! ## Histories -/

/-- **C101.** However it was constructed and whatever setters were called: the stored inverse belongs to the rotation, and the
centre of rotation is the one chosen at construction. -/
theorem adj_run (sqrt : K → K) (b : Base K) (t : V3 K) (q : Quat K) (off : K × K) (s : K) (l : List (AdjOp K)) :
    let a := l.foldl (fun a o => a.step sqrt o) (Adj.make b t q off s)
    a.rotInv = a.rot.inv ∧ a.rc = b.rotCenter ∧ a.base = b := by
  have key : ∀ (l : List (AdjOp K)) (a : Adj K), a.rotInv = a.rot.inv → a.rc = b.rotCenter → a.base = b →
      let a' := l.foldl (fun a o => a.step sqrt o) a
      a'.rotInv = a'.rot.inv ∧ a'.rc = b.rotCenter ∧ a'.base = b := by
    intro l
    induction l with
    | nil => intro a h1 h2 h3; exact ⟨h1, h2, h3⟩
    | cons o l ih =>
      intro a h1 h2 h3
      simp only [List.foldl_cons]
      apply ih
      · cases o <;> simp only [Adj.step] <;> first | rfl | exact h1
      · cases o <;> exact h2
      · cases o <;> exact h3
  exact key l (Adj.make b t q off s) (by simp only [Adj.make]) (by simp only [Adj.make]) (by simp only [Adj.make])

/-- **C101.** What the setters set, and what they keep. -/
theorem adj_setters (sqrt : K → K) (a : Adj K) :
    (∀ q, let c := a.step sqrt (.rotation q); c.rot = q ∧ c.t = a.t ∧ c.off = a.off ∧ c.scale = a.scale) ∧
    (∀ m, let c := a.step sqrt (.rotationM m); c.rot = Quat.ofM sqrt m ∧ c.t = a.t ∧ c.off = a.off ∧ c.scale = a.scale) ∧
    (∀ t, let c := a.step sqrt (.translation t); c.rot = a.rot ∧ c.t = t ∧ c.off = a.off ∧ c.scale = a.scale) ∧
    (∀ p, let c := a.step sqrt (.offset p); c.rot = a.rot ∧ c.t = a.t ∧ c.off = p ∧ c.scale = a.scale) ∧
    (∀ s, let c := a.step sqrt (.scale s); c.rot = a.rot ∧ c.t = a.t ∧ c.off = a.off ∧ c.scale = s) :=
  ⟨fun _ => ⟨rfl, rfl, rfl, rfl⟩, fun _ => ⟨rfl, rfl, rfl, rfl⟩, fun _ => ⟨rfl, rfl, rfl, rfl⟩, fun _ => ⟨rfl, rfl, rfl, rfl⟩,
    fun _ => ⟨rfl, rfl, rfl, rfl⟩⟩

/-- **C101.** The centre of rotation is the centre of the camera at the first pixel (0, 0), (10, 10), … that has one, the
origin if none below 100000 has. -/
theorem rotCenter_spec (b : Base K) :
    (∀ k : ℕ, k < 10000 → ∀ c, b.center (((10 * k : ℕ) : K), ((10 * k : ℕ) : K)) = some c →
      (∀ j < k, b.center (((10 * j : ℕ) : K), ((10 * j : ℕ) : K)) = none) → b.rotCenter = c) ∧
    ((∀ k : ℕ, k < 10000 → b.center (((10 * k : ℕ) : K), ((10 * k : ℕ) : K)) = none) → b.rotCenter = 0) := by
  constructor
  · intro k hk c hc hj
    unfold Base.rotCenter
    have : (List.range 10000).findSome? (fun k => b.center (((10 * k : ℕ) : K), ((10 * k : ℕ) : K))) = some c := by
      rw [List.findSome?_eq_some_iff]
      refine ⟨List.range k, k, (List.range' (k + 1) (10000 - (k + 1))), ?_, hc, ?_⟩
      · rw [List.range_eq_range', List.range_eq_range']
        have e1 : List.range' k (10000 - k) = k :: List.range' (k + 1) (10000 - (k + 1)) := by
          have : 10000 - k = (10000 - (k + 1)) + 1 := by omega
          rw [this, List.range'_succ]
        rw [← e1]
        have := List.range'_append_1 (s := 0) (m := k) (n := 10000 - k)
        rw [Nat.zero_add, show k + (10000 - k) = 10000 by omega] at this
        exact this.symm
      · intro j hj'
        exact hj j (List.mem_range.1 hj')
    rw [this]; rfl
  · intro h
    unfold Base.rotCenter
    have : (List.range 10000).findSome? (fun k => b.center (((10 * k : ℕ) : K), ((10 * k : ℕ) : K))) = none := by
      rw [List.findSome?_eq_none_iff]
      intro k hk
      exact h k (List.mem_range.1 hk)
    rw [this]; rfl

attribute [local irreducible] Base.rotCenter

/-! ## Projection -/

/-- **C101.** The transform is rigid. -/
theorem move_rigid (a : Adj K) (h : a.rot.sq ≠ 0) (p q : V3 K) : sq (a.move p - a.move q) = sq (p - q) := by
  have e : a.move p - a.move q = Rot a.rot (p - q) := by
    ext <;> simp only [Adj.move, Rot, M3.mulVec, dot, smul_x, smul_y, smul_z, sub_x, sub_y, sub_z, add_x, add_y, add_z] <;> ring
  rw [e]
  have := rot_isometry a.rot h (p - q) (p - q)
  exact this

/-- **C101.** The adjusted camera: its centres are the moved centres, its directions the turned directions, its poses the
turned poses, of the pixel scaled and shifted; a moved point is where the point was for the camera inside, shifted and
scaled back.  `adjusted_point` undoes the transform. -/
theorem adj_spec (a : Adj K) (h : a.Good) :
    (∀ pix, a.center pix = (a.base.center (a.scale * pix.1 + a.off.1, a.scale * pix.2 + a.off.2)).map a.move) ∧
    (∀ pix, a.toVector pix = (a.base.toVector (a.scale * pix.1 + a.off.1, a.scale * pix.2 + a.off.2)).map (Rot a.rot)) ∧
    (∀ pix, a.pose pix = (a.base.pose (a.scale * pix.1 + a.off.1, a.scale * pix.2 + a.off.2)).map (fun q => a.rot.mul q)) ∧
    (∀ p, a.point (a.move p) = some p) ∧ (∀ p p', a.point p = some p' → a.move p' = p) ∧
    (a.scale ≠ 0 → ∀ p, a.toPixel (a.move p) = (a.base.toPixel p).map (fun q => ((q.1 - a.off.1) / a.scale, (q.2 - a.off.2) / a.scale))) := by
  obtain ⟨h0, h1⟩ := h
  obtain ⟨i, hi⟩ : ∃ i, a.rot.inv = some i := by unfold Quat.inv; rw [if_neg h0]; exact ⟨_, rfl⟩
  obtain ⟨-, hi0, r1, r2⟩ := inv_sq a.rot i hi
  have hp : ∀ p, a.point p = some (Rot i (p - a.rc - a.t) + a.rc) := by
    intro p; unfold Adj.point; rw [h1, hi]; simp only; rw [rotate_some i hi0]; rfl
  have e1 : ∀ p, a.point (a.move p) = some p := by
    intro p
    rw [hp]
    have : a.move p - a.rc - a.t = Rot a.rot (p - a.rc) := by
      ext <;> simp only [Adj.move, sub_x, sub_y, sub_z, add_x, add_y, add_z] <;> ring
    rw [this, r1]
    congr 1
    ext <;> simp only [sub_x, sub_y, sub_z, add_x, add_y, add_z] <;> ring
  refine ⟨?_, ?_, fun _ => rfl, e1, ?_, ?_⟩
  · intro pix
    unfold Adj.center Adj.inner
    rcases a.base.center (a.scale * pix.1 + a.off.1, a.scale * pix.2 + a.off.2) with _ | c
    · rfl
    · simp only [rotate_some a.rot h0, Option.map_some]; rfl
  · intro pix
    unfold Adj.toVector Adj.inner
    rcases a.base.toVector (a.scale * pix.1 + a.off.1, a.scale * pix.2 + a.off.2) with _ | c
    · rfl
    · simp only [rotate_some a.rot h0, Option.map_some]
  · intro p p' hh
    rw [hp] at hh
    simp only [Option.some.injEq] at hh
    rw [← hh]
    have : Rot i (p - a.rc - a.t) + a.rc - a.rc = Rot i (p - a.rc - a.t) := by
      ext <;> simp only [sub_x, sub_y, sub_z, add_x, add_y, add_z] <;> ring
    unfold Adj.move
    rw [this, r2]
    ext <;> simp only [sub_x, sub_y, sub_z, add_x, add_y, add_z] <;> ring
  · intro hs p
    unfold Adj.toPixel
    rw [e1]
    simp only
    rcases a.base.toPixel p with _ | q
    · rfl
    · simp only [divPix, if_neg hs, Option.map_some]

/-- A camera is consistent if every point it sees is on the ray of its pixel, in front. -/
def Consistent (toPixel : V3 K → Option (K × K)) (toVector center : K × K → Option (V3 K)) : Prop :=
  ∀ p pix, toPixel p = some pix → ∃ (c v : V3 K) (r : K), center pix = some c ∧ toVector pix = some v ∧ 0 < r ∧ p = c + r * v

/-- **C101.** An adjusted consistent camera is consistent. -/
theorem adj_consistent (a : Adj K) (h : a.Good) (hc : Consistent a.base.toPixel a.base.toVector a.base.center) :
    Consistent a.toPixel a.toVector a.center := by
  obtain ⟨s1, s2, -, -, s5, -⟩ := adj_spec a h
  intro p pix hp
  unfold Adj.toPixel at hp
  rcases hx : a.point p with _ | x
  · rw [hx] at hp; cases hp
  rw [hx] at hp
  simp only at hp
  rcases hq : a.base.toPixel x with _ | q
  · rw [hq] at hp; cases hp
  rw [hq] at hp
  unfold divPix at hp
  simp only at hp
  by_cases h0 : a.scale = 0
  · rw [if_pos h0] at hp; cases hp
  rw [if_neg h0] at hp
  simp only [Option.some.injEq] at hp
  have hin : (a.scale * pix.1 + a.off.1, a.scale * pix.2 + a.off.2) = q := by
    rw [← hp]
    apply Prod.ext
    · simp only; field_simp; ring
    · simp only; field_simp; ring
  obtain ⟨c, v, r, hc1, hc2, hr, hx'⟩ := hc x q hq
  refine ⟨a.move c, Rot a.rot v, r, by rw [s1, hin, hc1]; rfl, by rw [s2, hin, hc2]; rfl, hr, ?_⟩
  rw [← s5 p x hx, hx']
  ext <;> simp only [Adj.move, Rot, M3.mulVec, dot, smul_x, smul_y, smul_z, sub_x, sub_y, sub_z, add_x, add_y, add_z] <;> ring

/-! ## Transforms -/

/-- **C101.** The 4 by 4 matrix of the adjustments of a unit quaternion is the rigid transform; none if the scale of pixels
is not 1. -/
theorem ecef_spec (tol : K) (a : Adj K) (hq : a.rot.sq = 1) :
    (tol < |a.scale - 1| → a.ecef tol = none) ∧
    (|a.scale - 1| ≤ tol → ∃ R S, a.ecef tol = some (R, S) ∧ IsRot R ∧ (∀ p, R.mulVec p + S = a.move p) ∧ (∀ v, R.mulVec v = Rot a.rot v)) := by
  constructor
  · intro h; unfold Adj.ecef; rw [if_pos h]
  · intro h
    refine ⟨_, _, by unfold Adj.ecef; rw [if_neg (not_lt.2 h)], (toM_rot a.rot).2.2 hq, ?_, ?_⟩
    · intro p
      ext <;> simp only [Adj.move, Rot, hq, M3.mulVec, M3.neg, dot, smul_x, smul_y, smul_z, sub_x, sub_y, sub_z, add_x, add_y, add_z,
        neg_x, neg_y, neg_z] <;> ring
    · intro v
      ext <;> simp only [Rot, hq, smul_x, smul_y, smul_z] <;> ring

theorem rot_mul (p q : Quat K) (v : V3 K) : Rot (p.mul q) v = Rot p (Rot q v) := by
  have e : (p.mul q).sq = p.sq * q.sq := by simp only [Quat.mul, Quat.sq]; ring
  unfold Rot
  rw [e, toM_mul]
  ext <;> simp only [M3.mul, M3.mulVec, M3.transpose, dot, smul_x, smul_y, smul_z] <;>
    rw [show (1 : K) / (p.sq * q.sq) = 1 / p.sq * (1 / q.sq) by rw [one_div_mul_one_div]] <;> ring

theorem rot_unit (sqrt : K → K) (hs : IsSqrt sqrt) (R : M3 K) (hR : IsRot R) (v : V3 K) : Rot (Quat.ofM sqrt R) v = R.mulVec v := by
  obtain ⟨h1, h2⟩ := ofM_toM sqrt hs R hR
  unfold Rot
  rw [h1, h2]
  ext <;> simp only [smul_x, smul_y, smul_z] <;> ring

theorem transform_value (sqrt cbrt : K → K) (hc : ∀ x, 0 < x → cbrt (x * x * x) = x) (a : Adj K) (R : M3 K) (hR : IsRot R) (s : K)
    (h : 0 < s) (t : V3 K) : a.transform sqrt cbrt (R.smul s) t =
      some { a with rot := (Quat.ofM sqrt R).mul a.rot, t := s * R.mulVec (a.rc + a.t) + t - a.rc } := by
  have hd : (R.smul s).det = s * s * s := by
    have : (R.smul s).det = s * s * s * R.det := by simp only [M3.smul, M3.det, dot, cross, smul_x, smul_y, smul_z]; ring
    rw [this, hR.2, mul_one]
  have hpos : 0 < s * s * s := by positivity
  unfold Adj.transform
  rw [if_neg (not_le.2 (by rw [hd]; exact hpos)), hd, hc s h]
  have e : (R.smul s).smul (1 / s) = R := by
    ext <;> simp only [M3.smul, smul_x, smul_y, smul_z] <;> field_simp
  have e2 : ∀ v, (R.smul s).mulVec v = s * R.mulVec v := by
    intro v; ext <;> simp only [M3.smul, M3.mulVec, dot, smul_x, smul_y, smul_z] <;> ring
  simp only [e, e2]

/-- **C101.** Applying a similarity `x ↦ s R x + T` to an adjusted camera: the directions of pixels are turned by `R`; a
centre of the camera goes to the transformed centre if the scale is 1 or it is the centre of rotation, and otherwise not. -/
theorem adj_transform (sqrt cbrt : K → K) (hs : IsSqrt sqrt) (hc : ∀ x, 0 < x → cbrt (x * x * x) = x) (a : Adj K) (hg : a.rot.sq ≠ 0)
    (R : M3 K) (hR : IsRot R) (s : K) (h : 0 < s) (t : V3 K) :
    ∃ b, a.transform sqrt cbrt (R.smul s) t = some b ∧ b.base = a.base ∧ b.off = a.off ∧ b.scale = a.scale ∧ b.rc = a.rc ∧
      (∀ pix, b.toVector pix = (a.toVector pix).map R.mulVec) ∧
      (∀ p, b.move p = s * R.mulVec (a.move p) + t ↔ s = 1 ∨ p = a.rc) := by
  have hq : ((Quat.ofM sqrt R).mul a.rot).sq ≠ 0 := by
    have e : ((Quat.ofM sqrt R).mul a.rot).sq = (Quat.ofM sqrt R).sq * a.rot.sq := by simp only [Quat.mul, Quat.sq]; ring
    rw [e, (ofM_toM sqrt hs R hR).2, one_mul]; exact hg
  refine ⟨_, transform_value sqrt cbrt hc a R hR s h t, rfl, rfl, rfl, rfl, ?_, ?_⟩
  · intro pix
    unfold Adj.toVector Adj.inner
    simp only
    rcases a.base.toVector (a.scale * pix.1 + a.off.1, a.scale * pix.2 + a.off.2) with _ | v
    · rfl
    · simp only [rotate_some _ hg, rotate_some _ hq, Option.map_some, rot_mul, rot_unit sqrt hs R hR]
  · intro p
    have e : Adj.move { a with rot := (Quat.ofM sqrt R).mul a.rot, t := s * R.mulVec (a.rc + a.t) + t - a.rc } p =
        R.mulVec (Rot a.rot (p - a.rc)) + (s * R.mulVec (a.rc + a.t) + t) := by
      unfold Adj.move
      simp only [rot_mul, rot_unit sqrt hs R hR]
      ext <;> simp only [sub_x, sub_y, sub_z, add_x, add_y, add_z] <;> ring
    have e2 : s * R.mulVec (a.move p) + t = s * R.mulVec (Rot a.rot (p - a.rc)) + (s * R.mulVec (a.rc + a.t) + t) := by
      ext <;> simp only [Adj.move, M3.mulVec, dot, smul_x, smul_y, smul_z, add_x, add_y, add_z] <;> ring
    rw [e, e2]
    have e3 : ∀ x y z : V3 K, x + z = y + z ↔ x = y := by
      intro x y z
      constructor
      · intro h
        have := congrArg V3.x h; have := congrArg V3.y h; have := congrArg V3.z h
        simp only [add_x, add_y, add_z] at *
        ext <;> linarith
      · rintro rfl; rfl
    rw [e3]
    constructor
    · intro hh
      by_cases h1 : s = 1
      · exact Or.inl h1
      · right
        have hz : sq (R.mulVec (Rot a.rot (p - a.rc))) = 0 := by
          have e4 : ∀ v : V3 K, v = s * v → sq v = 0 := by
            intro v hv
            have hx : (s - 1) * v.x = 0 := by have := congrArg V3.x hv; simp only [smul_x] at this; linarith
            have hy : (s - 1) * v.y = 0 := by have := congrArg V3.y hv; simp only [smul_y] at this; linarith
            have hz : (s - 1) * v.z = 0 := by have := congrArg V3.z hv; simp only [smul_z] at this; linarith
            have hs1 : s - 1 ≠ 0 := sub_ne_zero.2 h1
            simp only [sq, dot, (mul_eq_zero.1 hx).resolve_left hs1, (mul_eq_zero.1 hy).resolve_left hs1, (mul_eq_zero.1 hz).resolve_left hs1]
            ring
          exact e4 _ hh
        have hz' : sq (p - a.rc) = 0 := by
          have a1 : sq (R.mulVec (Rot a.rot (p - a.rc))) = sq (Rot a.rot (p - a.rc)) := rot_dot R hR _ _
          have a2 : sq (Rot a.rot (p - a.rc)) = sq (p - a.rc) := rot_isometry a.rot hg _ _
          rw [← a2, ← a1]; exact hz
        simp only [sq, dot, sub_x, sub_y, sub_z] at hz'
        have b1 := mul_self_nonneg (p.x - a.rc.x)
        have b2 := mul_self_nonneg (p.y - a.rc.y)
        have b3 := mul_self_nonneg (p.z - a.rc.z)
        ext
        · have := mul_self_eq_zero.1 (show (p.x - a.rc.x) * (p.x - a.rc.x) = 0 by linarith); linarith
        · have := mul_self_eq_zero.1 (show (p.y - a.rc.y) * (p.y - a.rc.y) = 0 by linarith); linarith
        · have := mul_self_eq_zero.1 (show (p.z - a.rc.z) * (p.z - a.rc.z) = 0 by linarith); linarith
    · rintro (h1 | h1)
      · rw [h1]; ext <;> simp only [smul_x, smul_y, smul_z] <;> ring
      · rw [h1]
        ext <;> simp only [Rot, M3.mulVec, dot, smul_x, smul_y, smul_z, sub_x, sub_y, sub_z] <;> ring

/-- **C101**, refuted after a transform: `apply_transform` keeps the stored inverse of the old rotation, so that projection
does not undo the transform: a moved point is taken back where it was only if the rotation leaves it alone, and then is
projected from the wrong place.  `Good` is lost unless the applied rotation is the identity. -/
theorem adj_transform_stale (sqrt cbrt : K → K) (hs : IsSqrt sqrt) (hc : ∀ x, 0 < x → cbrt (x * x * x) = x) (a b : Adj K) (hg : a.Good)
    (R : M3 K) (hR : IsRot R) (s : K) (h : 0 < s) (t : V3 K) (hb : a.transform sqrt cbrt (R.smul s) t = some b) :
    b.rotInv = a.rotInv ∧ (∀ p, b.point (b.move p) = some p ↔ R.mulVec (Rot a.rot (p - a.rc)) = Rot a.rot (p - a.rc)) ∧
    (b.Good → R = M3.one) := by
  obtain ⟨h0, h1⟩ := hg
  obtain ⟨i, hi⟩ : ∃ i, a.rot.inv = some i := by unfold Quat.inv; rw [if_neg h0]; exact ⟨_, rfl⟩
  obtain ⟨-, hi0, r1, r2⟩ := inv_sq a.rot i hi
  rw [transform_value sqrt cbrt hc a R hR s h t] at hb
  simp only [Option.some.injEq] at hb
  have key : ∀ p, b.point (b.move p) = some p ↔ R.mulVec (Rot a.rot (p - a.rc)) = Rot a.rot (p - a.rc) := by
    intro p
    have e : b.point (b.move p) = some (Rot i (R.mulVec (Rot a.rot (p - a.rc))) + a.rc) := by
      rw [← hb]
      unfold Adj.point
      simp only [h1, hi, rotate_some i hi0, Option.map_some]
      congr 3
      unfold Adj.move
      simp only [rot_mul, rot_unit sqrt hs R hR]
      ext <;> simp only [sub_x, sub_y, sub_z, add_x, add_y, add_z] <;> ring
    rw [e]
    simp only [Option.some.injEq]
    constructor
    · intro hh
      have h2 : Rot i (R.mulVec (Rot a.rot (p - a.rc))) = p - a.rc := by
        have hx := congrArg V3.x hh; have hy := congrArg V3.y hh; have hz := congrArg V3.z hh
        simp only [add_x, add_y, add_z] at hx hy hz
        ext <;> simp only [sub_x, sub_y, sub_z] <;> linarith
      have h3 := congrArg (Rot a.rot) h2
      rw [r2] at h3
      exact h3
    · intro hh
      rw [hh, r1]
      ext <;> simp only [sub_x, sub_y, sub_z, add_x, add_y, add_z] <;> ring
  refine ⟨by rw [← hb], key, ?_⟩
  intro hbg
  have hall : ∀ v, R.mulVec v = v := by
    intro v
    have h4 := (key (Rot i v + a.rc)).1 ((adj_spec b hbg).2.2.2.1 _)
    have h5 : Rot i v + a.rc - a.rc = Rot i v := by
      ext <;> simp only [sub_x, sub_y, sub_z, add_x, add_y, add_z] <;> ring
    rw [h5, r2] at h4
    exact h4
  have x := hall ⟨1, 0, 0⟩
  have y := hall ⟨0, 1, 0⟩
  have z := hall ⟨0, 0, 1⟩
  simp only [M3.mulVec, dot, V3.mk.injEq, mul_one, mul_zero, add_zero, zero_add] at x y z
  obtain ⟨x1, x2, x3⟩ := x
  obtain ⟨y1, y2, y3⟩ := y
  obtain ⟨z1, z2, z3⟩ := z
  ext <;> simp only [M3.one] <;> assumption

/-! ## Files -/

/-- **C101.** Reading what was written gives translation, rotation, offset and scale back, with the inverse of the rotation
(also where it was stale), whatever the adjustments were before; the centre of rotation is chosen anew. -/
theorem read_write (a c : Adj K) :
    let r := c.read a.write
    r.base = c.base ∧ r.t = a.t ∧ r.rot = a.rot ∧ r.rotInv = a.rot.inv ∧ r.off = a.off ∧ r.scale = a.scale ∧ r.rc = c.base.rotCenter :=
  ⟨rfl, rfl, rfl, rfl, rfl, rfl, rfl⟩

/-- **C101.** A file cut short leaves what is missing at its default, without report. -/
theorem read_short (a c : Adj K) (n : ℕ) :
    let r := c.read (a.write.take n)
    r.base = c.base ∧ r.rotInv = r.rot.inv ∧ r.rc = c.base.rotCenter ∧
    r.t = (if 3 ≤ n then a.t else 0) ∧ r.rot = (if 7 ≤ n then a.rot else ⟨1, 0, 0, 0⟩) ∧
    r.off = (if 9 ≤ n then a.off else (0, 0)) ∧ r.scale = (if 10 ≤ n then a.scale else 1) := by
  rcases lt_or_ge n 10 with hn | hn
  · interval_cases n <;> exact ⟨rfl, rfl, rfl, by simp [Adj.read, Adj.write, Adj.blank, Adj.make], by simp [Adj.read, Adj.write, Adj.blank, Adj.make],
      by simp [Adj.read, Adj.write, Adj.blank, Adj.make], by simp [Adj.read, Adj.write, Adj.blank, Adj.make]⟩
  · have : a.write.take n = a.write := List.take_of_length_le hn
    rw [this]
    rw [if_pos (by omega), if_pos (by omega), if_pos (by omega), if_pos hn]
    exact ⟨rfl, rfl, rfl, rfl, rfl, rfl, rfl⟩

/-! ## Cases -/

/-- A camera at (0, 0, 0) that looks along z. -/
def exBase : Base ℚ :=
  ⟨fun p => if 0 < p.z then some (p.x / p.z, p.y / p.z) else none, fun q => some ⟨q.1, q.2, 1⟩, fun _ => some 0, fun _ => some ⟨1, 0, 0, 0⟩⟩

example : Consistent exBase.toPixel exBase.toVector exBase.center := by
  intro p pix hp
  simp only [exBase] at hp
  by_cases h : 0 < p.z
  · rw [if_pos h] at hp
    simp only [Option.some.injEq] at hp
    refine ⟨0, ⟨pix.1, pix.2, 1⟩, p.z, rfl, rfl, h, ?_⟩
    rw [← hp]
    have := h.ne'
    ext <;> simp <;> field_simp
  · rw [if_neg h] at hp; cases hp

/-- The camera moved, turned by a quarter about z, with another scale of pixels: it sees, and a transform makes it lose. -/
def exAdj : Adj ℚ := Adj.make exBase ⟨1, 2, 3⟩ ⟨1, 0, 0, 1⟩ (10, 20) 2

example : exAdj.Good := ⟨by norm_num [exAdj, Adj.make, Quat.sq], rfl⟩

example : exAdj.rc = 0 := (rotCenter_spec exBase).1 0 (by norm_num) 0 rfl (fun j hj => absurd hj (by omega))

end Verif.Camera
