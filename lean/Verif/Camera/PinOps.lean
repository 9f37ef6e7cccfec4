import Verif.Camera.PinProject

/-
C98, C99.  Changing, scaling, moving and rectifying pinhole cameras; conversion to and from the CAHV model.
-/

namespace Verif.Camera

set_option linter.unusedSectionVars false

variable {K : Type} [Field K] [LinearOrder K] [IsStrictOrderedRing K]

/-- **C98.** The constructor: it succeeds exactly for an orthogonal, nearly unit frame, a rotation that can be inverted and
focal lengths that are not zero, and the camera has the given parameters, is up to date and checks its projections. -/
theorem make_spec (sqrt : K → K) (hs : IsSqrt sqrt) (tol : K) (ht : tol ≤ 1) (C : V3 K) (R : M3 K) (fu fv cu cv : K) (u v w : V3 K)
    (lens : Lens K) (pitch : K) :
    ((∃ p, Pin.make sqrt tol C R fu fv cu cv u v w lens pitch = .ok p) ↔
      (dot u v = 0 ∧ dot u w = 0 ∧ dot v w = 0 ∧ |norm sqrt u - 1| < tol ∧ |norm sqrt v - 1| < tol ∧ |norm sqrt w - 1| < tol) ∧
      R.det ≠ 0 ∧ fu ≠ 0 ∧ fv ≠ 0) ∧
    (∀ p, Pin.make sqrt tol C R fu fv cu cv u v w lens pitch = .ok p → Fresh sqrt tol p ∧ p.lens = lens ∧ p.C = C ∧ p.R = R ∧
      p.fu = fu ∧ p.fv = fv ∧ p.cu = cu ∧ p.cv = cv ∧ p.u = u ∧ p.v = v ∧ p.w = w ∧ p.pitch = pitch ∧ p.check = true) := by
  obtain ⟨h1, -, -, h4, h5⟩ := rebuild_spec sqrt hs tol ht
    (⟨lens, C, R, fu, fv, cu, cv, u, v, w, pitch, true, M3.one, 0, M3.one, 0, M3.one⟩ : Pin K)
  have h4' : _ ↔ (dot u v = 0 ∧ dot u w = 0 ∧ dot v w = 0 ∧ |norm sqrt u - 1| < tol ∧ |norm sqrt v - 1| < tol ∧
      |norm sqrt w - 1| < tol) ∧ R.det ≠ 0 ∧ fu ≠ 0 ∧ fv ≠ 0 := h4
  rw [← h4']
  unfold Pin.make
  cases hr : (⟨lens, C, R, fu, fv, cu, cv, u, v, w, pitch, true, M3.one, 0, M3.one, 0, M3.one⟩ : Pin K).rebuild sqrt tol with
  | mk p e =>
    rw [hr] at h1 h5
    cases e with
    | none =>
      simp only
      refine ⟨⟨fun _ => trivial, fun _ => ⟨p, rfl⟩⟩, fun q hq => ?_⟩
      cases hq
      exact ⟨h5 rfl, h1⟩
    | some e =>
      simp only
      refine ⟨⟨fun ⟨q, hq⟩ => (by cases hq), fun h => (by cases h)⟩, fun q hq => (by cases hq)⟩

theorem fresh_ok (sqrt : K → K) (hs : IsSqrt sqrt) (tol : K) (ht : tol ≤ 1) (p : Pin K) (h : Fresh sqrt tol p) :
    FrameOk sqrt tol p ∧ p.R.det ≠ 0 ∧ p.fu ≠ 0 ∧ p.fv ≠ 0 := by
  have := (rebuild_spec sqrt hs tol ht p).2.2.2.1
  rw [h] at this
  exact this.1 rfl

theorem plane_congr (sqrt : K → K) (tol : K) (p q : Pin K) (hp : Fresh sqrt tol p) (hq : Fresh sqrt tol q) (x y : V3 K)
    (s : K) (hs : s ≠ 0) (hc : q.coord y = s * p.coord x) (h1 : q.fu = p.fu) (h2 : q.fv = p.fv) (h3 : q.cu = p.cu)
    (h4 : q.cv = p.cv) : q.plane y = p.plane x := by
  rw [plane_spec sqrt tol p hp, plane_spec sqrt tol q hq, hc, h1, h2, h3, h4]
  simp only [smul_x, smul_y, smul_z]
  by_cases h : (p.coord x).z = 0
  · rw [if_pos h, if_pos (by rw [h, mul_zero])]
  · rw [if_neg h, if_neg (mul_ne_zero hs h), mul_div_mul_left _ _ hs, mul_div_mul_left _ _ hs]

/-- **C98.** Scaling: the scaled camera is up to date, sees every point at its pixel times the scale, and gives the scaled
pixel the direction of the pixel; a scale of zero is refused. -/
theorem scale_spec (sqrt : K → K) (hs : IsSqrt sqrt) (tol : K) (ht : tol ≤ 1) (p : Pin K) (h : Fresh sqrt tol p) (hR : IsRot p.R)
    (s : K) :
    (p.scale sqrt tol 0 = .error .arg) ∧
    (s ≠ 0 → ∃ q, p.scale sqrt tol s = .ok q ∧ Fresh sqrt tol q ∧
      (∀ x, q.noCheck x = (p.noCheck x).map (fun a => (a.1 * s, a.2 * s)) ∧ q.valid x = p.valid x) ∧
      (∀ a, q.pixelToVector sqrt (a.1 * s, a.2 * s) = p.pixelToVector sqrt a)) := by
  refine ⟨by simp [Pin.scale], fun hs0 => ?_⟩
  obtain ⟨hf, hd, hu, hv⟩ := fresh_ok sqrt hs tol ht p h
  have hq := (ofM_toM sqrt hs p.R hR).1
  obtain ⟨m1, m2⟩ := make_spec sqrt hs tol ht p.C (Quat.ofM sqrt p.R).toM p.fu p.fv p.cu p.cv p.u p.v p.w p.lens (p.pitch / s)
  rw [hq] at m1 m2
  obtain ⟨q, hmk⟩ := m1.2 ⟨hf, hd, hu, hv⟩
  obtain ⟨fr, e1, e2, e3, e4, e5, e6, e7, e8, e9, e10, e11, -⟩ := m2 q hmk
  have hcoord : ∀ x, q.coord x = p.coord x := by intro x; simp only [Pin.coord, e2, e3, e8, e9, e10]
  have hinv : q.inv = p.inv := by
    obtain ⟨-, -, -, -, -, a, b, a5, a6, a7⟩ := fresh_cache sqrt tol p h
    obtain ⟨-, -, -, -, -, a', b', b5, b6, b7⟩ := fresh_cache sqrt tol q fr
    simp only [Pin.uvw, Pin.intr, e3, e4, e5, e6, e7, e8, e9, e10] at *
    rw [a5] at b5
    rw [a6] at b6
    simp only [Option.some.injEq] at b5 b6
    rw [a7, b7, b5, b6]
  refine ⟨q, ?_, fr, fun x => ⟨?_, ?_⟩, fun a => ?_⟩
  · unfold Pin.scale
    rw [if_neg hs0, hq, hmk]
  · have hpl : q.plane x = p.plane x :=
      plane_congr sqrt tol p q h fr x x 1 one_ne_zero (by rw [hcoord]; ext <;> simp) e4 e5 e6 e7
    unfold Pin.noCheck
    rw [hpl, e1, e4, e5, e6, e7, e11]
    cases p.plane x with
    | none => rfl
    | some r =>
      simp only
      cases p.lens.dist (p.fu, p.fv) (p.cu, p.cv) r with
      | none => rfl
      | some d =>
        simp only [divPix]
        by_cases hp : p.pitch = 0
        · rw [hp, zero_div, if_pos rfl]; rfl
        · rw [if_neg (div_ne_zero hp hs0), if_neg hp]
          simp only [Option.map_some, Option.some.injEq, Prod.mk.injEq]
          constructor <;> field_simp
  · have a := valid_spec sqrt tol p h x
    have b := valid_spec sqrt tol q fr x
    rw [hcoord] at b
    rw [Bool.eq_iff_iff, a, b]
  · unfold Pin.pixelToVector
    have e : (a.1 * s * q.pitch, a.2 * s * q.pitch) = (a.1 * p.pitch, a.2 * p.pitch) := by
      rw [e11]; ext <;> simp <;> field_simp
    simp only at e ⊢
    rw [e, e1, e4, e5, e6, e7, hinv]

/-- **C98.** Without the lens: the result sees every point where the camera sees it without distortion. -/
theorem strip_spec (sqrt : K → K) (hs : IsSqrt sqrt) (tol : K) (ht : tol ≤ 1) (p : Pin K) (h : Fresh sqrt tol p) (hR : IsRot p.R) :
    ∃ q, p.strip sqrt tol = .ok q ∧ Fresh sqrt tol q ∧ ∀ x, q.noCheck x = p.noDistortion x ∧ q.noDistortion x = p.noDistortion x := by
  obtain ⟨hf, hd, hu, hv⟩ := fresh_ok sqrt hs tol ht p h
  have hq := (ofM_toM sqrt hs p.R hR).1
  obtain ⟨m1, m2⟩ := make_spec sqrt hs tol ht p.C (Quat.ofM sqrt p.R).toM p.fu p.fv p.cu p.cv p.u p.v p.w Lens.null p.pitch
  rw [hq] at m1 m2
  obtain ⟨q, hmk⟩ := m1.2 ⟨hf, hd, hu, hv⟩
  obtain ⟨fr, e1, e2, e3, e4, e5, e6, e7, e8, e9, e10, e11, -⟩ := m2 q hmk
  refine ⟨q, by unfold Pin.strip; rw [hq, hmk], fr, fun x => ?_⟩
  have hpl : q.plane x = p.plane x :=
    plane_congr sqrt tol p q h fr x x 1 one_ne_zero (by
      have : q.coord x = p.coord x := by simp only [Pin.coord, e2, e3, e8, e9, e10]
      rw [this]; ext <;> simp) e4 e5 e6 e7
  unfold Pin.noCheck Pin.noDistortion
  rw [hpl, e1, e11]
  cases p.plane x with
  | none => exact ⟨rfl, rfl⟩
  | some r => exact ⟨rfl, rfl⟩

/-- **C98.** A left-handed camera is scaled to a camera with another orientation, without report. -/
theorem scale_left_handed (sqrt : K → K) (hs : IsSqrt sqrt) (tol : K) (ht : tol ≤ 1) (p q : Pin K) (s : K) (hR : p.R.det < 0)
    (h : p.scale sqrt tol s = .ok q) : q.R ≠ p.R := by
  unfold Pin.scale at h
  by_cases hs0 : s = 0
  · rw [if_pos hs0] at h; cases h
  · rw [if_neg hs0] at h
    have := ((make_spec sqrt hs tol ht p.C (Quat.ofM sqrt p.R).toM p.fu p.fv p.cu p.cv p.u p.v p.w p.lens (p.pitch / s)).2 q h).2.2.2.1
    rw [this]
    exact ofM_det_neg sqrt p.R hR

/-- **C98.** Moving the camera together with the world by a rotation, a scale and a shift: every point is seen where it was
seen before, and on the same side if the scale is positive. -/
theorem transform_spec (sqrt : K → K) (hs : IsSqrt sqrt) (tol : K) (ht : tol ≤ 1) (p : Pin K) (h : Fresh sqrt tol p) (hR : IsRot p.R)
    (rot : M3 K) (hrot : IsRot rot) (t : V3 K) (s : K) (hs0 : s ≠ 0) :
    ∃ q, p.transform sqrt tol rot t s = (q, none) ∧ Fresh sqrt tol q ∧ q.C = s * rot.mulVec p.C + t ∧ q.R = rot.mul p.R ∧
      (∀ x, q.noCheck (s * rot.mulVec x + t) = p.noCheck x) ∧
      (0 < s → ∀ x, q.valid (s * rot.mulVec x + t) = p.valid x) := by
  obtain ⟨hf, hd, hu, hv⟩ := fresh_ok sqrt hs tol ht p h
  have hq := (ofM_toM sqrt hs p.R hR).1
  have hq' := (ofM_toM sqrt hs rot hrot).1
  have hC : (rot.smul s).mulVec p.C = s * rot.mulVec p.C := by
    ext <;> simp only [M3.smul, M3.mulVec, dot, smul_x, smul_y, smul_z] <;> ring
  have hrun : ∃ q, p.transform sqrt tol rot t s = (q, none) := by
    unfold Pin.transform
    simp only
    obtain ⟨a1, -, -, a4, a5⟩ := rebuild_spec sqrt hs tol ht ((Op.center ((rot.smul s).mulVec p.C + t)).params p)
    have n1 := a4.2 ⟨hf, hd, hu, hv⟩
    have hst : ∃ p1, p.step sqrt tol (.center ((rot.smul s).mulVec p.C + t)) = (p1, none) ∧ SameParams p1 ((Op.center ((rot.smul s).mulVec p.C + t)).params p) :=
      ⟨_, Prod.ext rfl n1, a1⟩
    obtain ⟨p1, hp1, sp⟩ := hst
    unfold Pin.run
    rw [hp1]
    simp only
    obtain ⟨b1, -, -, b4, b5⟩ := rebuild_spec sqrt hs tol ht ((Op.pose ((Quat.ofM sqrt rot).mul (Quat.ofM sqrt p.R))).params p1)
    obtain ⟨s1, s2, s3, s4, s5, s6, s7, s8, s9, s10, s11, s12⟩ := sp
    have n2 := b4.2 (by
      refine ⟨?_, ?_, ?_, ?_⟩
      · simp only [FrameOk, Op.params] at *
        rw [s8, s9, s10]; exact hf
      · simp only [Op.params]
        rw [toM_mul, hq, hq', det_mul, hrot.2, hR.2]; norm_num
      · simp only [Op.params] at *; rw [s4]; exact hu
      · simp only [Op.params] at *; rw [s5]; exact hv)
    unfold Pin.run
    have hst2 : ∃ p2, p1.step sqrt tol (.pose ((Quat.ofM sqrt rot).mul (Quat.ofM sqrt p.R))) = (p2, none) := ⟨_, Prod.ext rfl n2⟩
    obtain ⟨p2, hp2⟩ := hst2
    rw [hp2]
    exact ⟨p2, rfl⟩
  obtain ⟨q, hq0⟩ := hrun
  obtain ⟨fr, e1, e2, e3, e4, e5, e6, e7, e8, e9, e10, e11, e12⟩ := run_fresh sqrt hs tol ht _ p q h
    (by intro o ho; simp only [List.mem_cons, List.not_mem_nil, or_false] at ho; rcases ho with rfl | rfl <;> exact ⟨fun _ _ h => (by cases h), fun _ _ h => (by cases h)⟩) hq0
  simp only [List.foldl_cons, List.foldl_nil, Op.params] at e1 e2 e3 e4 e5 e6 e7 e8 e9 e10 e11 e12
  rw [toM_mul, hq, hq'] at e3
  rw [hC] at e2
  have hcoord : ∀ x, q.coord (s * rot.mulVec x + t) = s * p.coord x := by
    intro x
    have key : ∀ a : V3 K, dot ((rot.mul p.R).mulVec a) (s * rot.mulVec x + t - (s * rot.mulVec p.C + t)) =
        s * dot (p.R.mulVec a) (x - p.C) := by
      intro a
      have e : s * rot.mulVec x + t - (s * rot.mulVec p.C + t) = s * rot.mulVec (x - p.C) := by
        rw [mulVec_sub]; ext <;> simp <;> ring
      have := rot_dot rot hrot (p.R.mulVec a) (x - p.C)
      rw [e, mul_mulVec, ← this]
      simp only [dot, smul_x, smul_y, smul_z]; ring
    simp only [Pin.coord, e2, e3, e8, e9, e10, key]
    rfl
  refine ⟨q, hq0, fr, e2, e3, fun x => ?_, fun hpos x => ?_⟩
  · have hpl := plane_congr sqrt tol p q h fr x (s * rot.mulVec x + t) s hs0 (hcoord x) e4 e5 e6 e7
    unfold Pin.noCheck
    rw [hpl, e1, e4, e5, e6, e7, e11]
  · have a := valid_spec sqrt tol p h x
    have b := valid_spec sqrt tol q fr (s * rot.mulVec x + t)
    rw [hcoord] at b
    rw [Bool.eq_iff_iff, a, b]
    simp only [smul_z]
    exact mul_pos_iff_of_pos_left hpos

/-- **C98.** The same for a 4 by 4 matrix: a positive multiple of a rotation is taken apart; anything but 1 in the last place
is refused and changes nothing. -/
theorem transform4_spec (sqrt cbrt : K → K) (hc : ∀ x, 0 < x → cbrt (x * x * x) = x) (tol : K) (p : Pin K) (rot : M3 K)
    (hrot : IsRot rot) (t : V3 K) (s last : K) (hs0 : 0 < s) :
    p.transform4 sqrt cbrt tol (rot.smul s) t 1 = some (p.transform sqrt tol rot t s) ∧
    (last ≠ 1 → p.transform4 sqrt cbrt tol (rot.smul s) t last = some (p, some .arg)) := by
  have hd : (rot.smul s).det = s * s * s := by
    have h : (rot.smul s).det = s * s * s * rot.det := by
      simp only [M3.smul, M3.det, dot, cross, smul_x, smul_y, smul_z]; ring
    rw [h, hrot.2, mul_one]
  have hpos : 0 < s * s * s := by positivity
  constructor
  · unfold Pin.transform4
    rw [if_neg (by simp), hd, if_neg (not_le.2 hpos)]
    simp only [hc s hs0]
    have : (rot.smul s).smul (1 / s) = rot := by
      ext <;> simp only [M3.smul, smul_x, smul_y, smul_z] <;> field_simp
    rw [this]
  · intro h
    unfold Pin.transform4
    rw [if_pos h]

/-! ## States that are not up to date -/

/-- **C98.** Setting focal length or offset without rebuilding leaves the projection before the lens and the kept inverse as
they were, whatever the values. -/
theorem no_rebuild (sqrt : K → K) (tol : K) (p : Pin K) (a b : K) (x : V3 K) :
    (p.step sqrt tol (.focal a b false)).2 = none ∧ (p.step sqrt tol (.focal a b false)).1.plane x = p.plane x ∧
    (p.step sqrt tol (.focal a b false)).1.inv = p.inv ∧
    (p.step sqrt tol (.offset a b false)).1.plane x = p.plane x ∧ (p.step sqrt tol (.offset a b false)).1.inv = p.inv := by
  exact ⟨rfl, rfl, rfl, rfl, rfl⟩

/-- **C98.** A focal length of zero throws, but the camera is changed: it projects with the new values and computes
directions with the old ones. -/
theorem focal_zero (sqrt : K → K) (hs : IsSqrt sqrt) (tol : K) (ht : tol ≤ 1) (p : Pin K) (h : Fresh sqrt tol p) (b : K) :
    ∃ q, p.step sqrt tol (.focal 0 b true) = (q, some .math) ∧ q.inv = p.inv ∧ q.fu = 0 ∧
      (∀ x r, q.plane x = some r → r.1 = p.cu) ∧ ¬ Fresh sqrt tol q := by
  obtain ⟨hf, hd, hu, hv⟩ := fresh_ok sqrt hs tol ht p h
  obtain ⟨a1, -, a3, -, -⟩ := rebuild_spec sqrt hs tol ht ((Op.focal 0 b true).params p)
  have hm := a3.2 ⟨hf, Or.inr (Or.inl rfl)⟩
  have hfo : Pin.frameOk sqrt tol ((Op.focal 0 b true).params p) = true := (frameOk_iff sqrt tol _).2 hf
  have hI : ((Op.focal 0 b true).params p).intr.inverse = none := by
    rw [(inverse_m3 _).1]
    simp [Op.params, Pin.intr, M3.det, dot, cross]
  have hform : p.step sqrt tol (.focal 0 b true) = ({ p with fu := 0, fv := b, ext := p.uvw.mul p.R.transpose, extT := (p.uvw.mul p.R.transpose.neg).mulVec p.C, cam := ((Op.focal 0 b true).params p).intr.mul (p.uvw.mul p.R.transpose), camT := ((Op.focal 0 b true).params p).intr.mulVec ((p.uvw.mul p.R.transpose.neg).mulVec p.C) }, some .math) := by
    show Pin.rebuild sqrt tol ((Op.focal 0 b true).params p) = _
    unfold Pin.rebuild
    rw [if_pos hfo]
    simp only [hI]
    cases (((Op.focal 0 b true).params p).uvw.mul ((Op.focal 0 b true).params p).R.transpose).inverse <;> rfl
  refine ⟨_, hform, rfl, rfl, ?_, ?_⟩
  · intro x r hr
    simp only [Pin.plane, divPix] at hr
    by_cases hz : ((((Op.focal 0 b true).params p).intr.mul (p.uvw.mul p.R.transpose)).mulVec x +
        ((Op.focal 0 b true).params p).intr.mulVec ((p.uvw.mul p.R.transpose.neg).mulVec p.C)).z = 0
    · rw [if_pos hz] at hr; cases hr
    · rw [if_neg hz] at hr
      simp only [Option.some.injEq] at hr
      rw [← hr]
      simp only
      rw [div_eq_iff hz, mul_mulVec]
      simp only [Op.params, Pin.intr, M3.mulVec, dot, add_x, add_z]
      ring
  · intro hfr
    obtain ⟨-, -, h3, -⟩ := fresh_ok sqrt hs tol ht _ hfr
    exact h3 rfl

/-! ## Rectification -/

/-- A frame of three axes. -/
theorem axes_frame (sqrt : K → K) (hs : IsSqrt sqrt) (tol : K) (h0 : 0 < tol) :
    dot (⟨1, 0, 0⟩ : V3 K) ⟨0, 1, 0⟩ = 0 ∧ dot (⟨1, 0, 0⟩ : V3 K) ⟨0, 0, 1⟩ = 0 ∧ dot (⟨0, 1, 0⟩ : V3 K) ⟨0, 0, 1⟩ = 0 ∧
    |norm sqrt (⟨1, 0, 0⟩ : V3 K) - 1| < tol ∧ |norm sqrt (⟨0, 1, 0⟩ : V3 K) - 1| < tol ∧ |norm sqrt (⟨0, 0, 1⟩ : V3 K) - 1| < tol := by
  have h1 : ∀ a : V3 K, sq a = 1 → |norm sqrt a - 1| < tol := by
    intro a ha
    have : norm sqrt a = 1 := hs.unique _ _ zero_le_one (by rw [ha]; ring)
    rw [this]; simpa using h0
  refine ⟨by simp [dot], by simp [dot], by simp [dot], h1 _ (by simp [sq, dot]), h1 _ (by simp [sq, dot]), h1 _ (by simp [sq, dot])⟩

end Verif.Camera
