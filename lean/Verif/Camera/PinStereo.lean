import Verif.Camera.PinOps

/-
C99.  Rectification of pinhole cameras and conversion to and from the CAHV model.
-/

namespace Verif.Camera

set_option linter.unusedSectionVars false

variable {K : Type} [Field K] [LinearOrder K] [IsStrictOrderedRing K]

/-- The rotation that rectification makes. -/
theorem epi_rot (u w : V3 K) (hu : sq u = 1) (hw : sq w = 1) (huw : dot u w = 0) :
    IsRot (⟨⟨u.x, -(cross w u).x, -w.x⟩, ⟨u.y, -(cross w u).y, -w.y⟩, ⟨u.z, -(cross w u).z, -w.z⟩⟩ : M3 K) := by
  have hd : M3.det (⟨⟨u.x, -(cross w u).x, -w.x⟩, ⟨u.y, -(cross w u).y, -w.y⟩, ⟨u.z, -(cross w u).z, -w.z⟩⟩ : M3 K) = 1 := by
    simp only [M3.det, cross, dot, sq] at *
    grind
  refine ⟨?_, hd⟩
  have : M3.mul (M3.transpose (⟨⟨u.x, -(cross w u).x, -w.x⟩, ⟨u.y, -(cross w u).y, -w.y⟩, ⟨u.z, -(cross w u).z, -w.z⟩⟩ : M3 K))
      (⟨⟨u.x, -(cross w u).x, -w.x⟩, ⟨u.y, -(cross w u).y, -w.y⟩, ⟨u.z, -(cross w u).z, -w.z⟩⟩ : M3 K) = M3.one := by
    ext <;> simp only [M3.mul, M3.mulVec, M3.transpose, M3.one, dot, cross, sq] at * <;> grind
  exact M3.mul_one_comm _ _ this

/-- The direction a camera looks to. -/
def Pin.view (p : Pin K) : V3 K := p.R.mulVec p.w

/-- Everything about one of the two cameras made. -/
theorem epi_cam (sqrt : K → K) (hs : IsSqrt sqrt) (tol : K) (h0 : 0 < tol) (ht : tol ≤ 1) (C u w : V3 K) (hu : sq u = 1)
    (hw : sq w = 1) (huw : dot u w = 0) (fu fv cu cv pitch : K) :
    ((∃ d, Pin.make sqrt tol C ⟨⟨u.x, -(cross w u).x, -w.x⟩, ⟨u.y, -(cross w u).y, -w.y⟩, ⟨u.z, -(cross w u).z, -w.z⟩⟩ fu fv cu cv
      ⟨1, 0, 0⟩ ⟨0, 1, 0⟩ ⟨0, 0, 1⟩ Lens.null pitch = .ok d) ↔ fu ≠ 0 ∧ fv ≠ 0) ∧
    (∀ d, Pin.make sqrt tol C ⟨⟨u.x, -(cross w u).x, -w.x⟩, ⟨u.y, -(cross w u).y, -w.y⟩, ⟨u.z, -(cross w u).z, -w.z⟩⟩ fu fv cu cv
      ⟨1, 0, 0⟩ ⟨0, 1, 0⟩ ⟨0, 0, 1⟩ Lens.null pitch = .ok d →
      Fresh sqrt tol d ∧ d.C = C ∧ d.fu = fu ∧ d.fv = fv ∧ d.cu = cu ∧ d.cv = cv ∧ d.pitch = pitch ∧ d.view = -w ∧ IsRot d.R ∧
      (∀ x, d.coord x = ⟨dot u (x - C), -dot (cross w u) (x - C), -dot w (x - C)⟩) ∧ (∀ x, d.noCheck x = d.noDistortion x)) := by
  have hrot := epi_rot u w hu hw huw
  obtain ⟨m1, m2⟩ := make_spec sqrt hs tol ht C ⟨⟨u.x, -(cross w u).x, -w.x⟩, ⟨u.y, -(cross w u).y, -w.y⟩, ⟨u.z, -(cross w u).z, -w.z⟩⟩
    fu fv cu cv ⟨1, 0, 0⟩ ⟨0, 1, 0⟩ ⟨0, 0, 1⟩ Lens.null pitch
  constructor
  · rw [m1]
    have := axes_frame sqrt hs tol h0
    have hd := hrot.2
    constructor
    · rintro ⟨-, -, h⟩; exact h
    · intro h; exact ⟨this, by rw [hd]; exact one_ne_zero, h⟩
  · intro d hd
    obtain ⟨fr, e1, e2, e3, e4, e5, e6, e7, e8, e9, e10, e11, -⟩ := m2 d hd
    refine ⟨fr, e2, e4, e5, e6, e7, e11, ?_, ?_, ?_, ?_⟩
    · unfold Pin.view; rw [e3, e10]; ext <;> simp [M3.mulVec, dot]
    · rw [e3]; exact hrot
    · intro x
      simp only [Pin.coord, e2, e3, e8, e9, e10]
      ext <;> simp only [M3.mulVec, dot] <;> ring
    · intro x
      unfold Pin.noCheck Pin.noDistortion
      rw [e1]
      cases d.plane x <;> rfl

/-- **C99.** Rectification of two cameras with the usual frame: the result exists exactly if the centres differ, the line between
them is not along the mean direction of view, and the mean focal lengths are not zero.  The two cameras keep the centres,
have the same orientation, mean parameters and no distortion; they look to the side of the mean direction of view, and a
point is beside both or none, in the same row, and its columns differ by mean focal length times distance of the centres over
depth (in pixels). -/
theorem pin_epipolar (sqrt : K → K) (hs : IsSqrt sqrt) (tol : K) (h0 : 0 < tol) (ht : tol ≤ 1) (s0 s1 : Pin K) (hR0 : IsRot s0.R)
    (hR1 : IsRot s1.R) (hw0 : s0.w = ⟨0, 0, 1⟩) (hw1 : s1.w = ⟨0, 0, 1⟩) :
    ((∃ d0 d1, Pin.epipolar sqrt tol s0 s1 = some (d0, d1)) ↔ cross (s0.view + s1.view) (s1.C - s0.C) ≠ 0 ∧
      s0.fu + s1.fu ≠ 0 ∧ s0.fv + s1.fv ≠ 0) ∧
    (∀ d0 d1, Pin.epipolar sqrt tol s0 s1 = some (d0, d1) →
      Fresh sqrt tol d0 ∧ Fresh sqrt tol d1 ∧ d0.C = s0.C ∧ d1.C = s1.C ∧ d1.R = d0.R ∧ IsRot d0.R ∧
      d0.fu = (s0.fu + s1.fu) / 2 ∧ d0.fv = (s0.fv + s1.fv) / 2 ∧ d0.cu = (s0.cu + s1.cu) / 2 ∧ d0.cv = (s0.cv + s1.cv) / 2 ∧
      d0.pitch = (s0.pitch + s1.pitch) / 2 ∧
      0 < dot d0.view (s0.view + s1.view) ∧ dot d0.view (s1.C - s0.C) = 0 ∧
      (∀ x, d1.valid x = d0.valid x) ∧
      (∀ x q0, d0.noCheck x = some q0 → ∃ q1, d1.noCheck x = some q1 ∧ q1.2 = q0.2 ∧
        (q0.1 - q1.1) * dot d0.view (x - s0.C) * d0.pitch = d0.fu * norm sqrt (s1.C - s0.C))) := by
  have hq0 := (ofM_toM sqrt hs s0.R hR0).1
  have hq1 := (ofM_toM sqrt hs s1.R hR1).1
  have hv0 : s0.view = s0.R.col2 := by unfold Pin.view; rw [hw0]; ext <;> simp [M3.mulVec, dot, M3.col2]
  have hv1 : s1.view = s1.R.col2 := by unfold Pin.view; rw [hw1]; ext <;> simp [M3.mulVec, dot, M3.col2]
  unfold Pin.epipolar
  simp only [hq0, hq1, ← hv0, ← hv1]
  set b := s1.C - s0.C with hb
  set m := s0.view + s1.view with hm
  have hmean : (1 / 2 : K) * ((-1 : K) * s0.view + (-1 : K) * s1.view) = (-1 / 2 : K) * m := by
    rw [hm]; ext <;> simp <;> ring
  rw [hmean]
  cases hu : normalize sqrt b with
  | none =>
    have : b = 0 := (normalize_spec hs b).1.1 hu
    constructor
    · constructor
      · rintro ⟨d0, d1, h⟩; cases h
      · rintro ⟨h, -⟩
        exfalso; apply h; rw [this]; ext <;> simp [cross]
    · intro d0 d1 h; cases h
  | some u =>
    obtain ⟨hu1, hbn, hbu⟩ := (normalize_spec hs b).2 u hu
    simp only
    have hsq : sq (cross u (cross ((-1 / 2 : K) * m) u)) = 1 / 4 * sq (cross m u) := by
      have : sq (cross u (cross ((-1 / 2 : K) * m) u)) = 1 / 4 * (sq u * sq (cross m u)) := by
        simp only [sq, dot, cross, smul_x, smul_y, smul_z]; ring
      rw [this, hu1, one_mul]
    have hsb : sq (cross m b) = norm sqrt b * norm sqrt b * sq (cross m u) := by
      have e : cross m b = norm sqrt b * cross m u := by
        conv_lhs => rw [hbu]
        ext <;> simp only [cross, smul_x, smul_y, smul_z] <;> ring
      rw [e, sq_smul]
    have hiff : cross u (cross ((-1 / 2 : K) * m) u) = 0 ↔ cross m b = 0 := by
      rw [← sq_eq_zero, ← sq_eq_zero, hsq, hsb]
      constructor
      · intro h
        have : sq (cross m u) = 0 := by linarith
        rw [this, mul_zero]
      · intro h
        have : sq (cross m u) = 0 := (mul_eq_zero.1 h).resolve_left (mul_ne_zero hbn.ne' hbn.ne')
        rw [this, mul_zero]
    cases hw : normalize sqrt (cross u (cross ((-1 / 2 : K) * m) u)) with
    | none =>
      have h1 := hiff.1 ((normalize_spec hs _).1.1 hw)
      constructor
      · constructor
        · rintro ⟨d0, d1, h⟩; cases h
        · rintro ⟨h, -⟩; exact absurd h1 h
      · intro d0 d1 h; cases h
    | some w =>
      obtain ⟨hw1', hwn, hww⟩ := (normalize_spec hs _).2 w hw
      set n := norm sqrt (cross u (cross ((-1 / 2 : K) * m) u)) with hn
      have hne : cross m b ≠ 0 := by
        intro h
        have h2 : normalize sqrt (cross u (cross ((-1 / 2 : K) * m) u)) = none := (normalize_spec hs _).1.2 (hiff.2 h)
        rw [h2] at hw; cases hw
      have huw : dot u w = 0 := by
        have e : dot u (cross u (cross ((-1 / 2 : K) * m) u)) = 0 := by simp only [dot, cross]; ring
        rw [hww] at e
        have e2 : dot u (n * w) = n * dot u w := by simp only [dot, smul_x, smul_y, smul_z]; ring
        rw [e2] at e
        exact (mul_eq_zero.1 e).resolve_left hwn.ne'
      have hwm : dot w m < 0 := by
        have e : dot (cross u (cross ((-1 / 2 : K) * m) u)) m = -(1 / 2) * sq (cross m u) := by
          simp only [dot, cross, sq, smul_x, smul_y, smul_z]; ring
        rw [hww] at e
        have e2 : dot (n * w) m = n * dot w m := by simp only [dot, smul_x, smul_y, smul_z]; ring
        have e3 : 0 < sq (cross m u) := by
          have hp := sq_pos _ hne
          rw [hsb] at hp
          rcases (sq_nonneg' (cross m u)).lt_or_eq with h | h
          · exact h
          · rw [← h] at hp; simp at hp
        rw [e2] at e
        by_contra hcon
        have := mul_nonneg hwn.le (not_lt.1 hcon)
        linarith
      simp only
      obtain ⟨i0, c0⟩ := epi_cam sqrt hs tol h0 ht s0.C u w hu1 hw1' huw ((s0.fu + s1.fu) / 2) ((s0.fv + s1.fv) / 2)
        ((s0.cu + s1.cu) / 2) ((s0.cv + s1.cv) / 2) ((s0.pitch + s1.pitch) / 2)
      obtain ⟨i1, c1⟩ := epi_cam sqrt hs tol h0 ht s1.C u w hu1 hw1' huw ((s0.fu + s1.fu) / 2) ((s0.fv + s1.fv) / 2)
        ((s0.cu + s1.cu) / 2) ((s0.cv + s1.cv) / 2) ((s0.pitch + s1.pitch) / 2)
      have hhalf : ∀ a : K, a / 2 ≠ 0 ↔ a ≠ 0 := fun a => by simp
      rw [hhalf, hhalf] at i0 i1
      constructor
      · constructor
        · rintro ⟨d0, d1, h⟩
          split at h
          · rename_i e0 e1 he0 he1
            exact ⟨hne, i0.1 ⟨_, he0⟩⟩
          · cases h
        · rintro ⟨-, hf⟩
          obtain ⟨d0, hd0⟩ := i0.2 hf
          obtain ⟨d1, hd1⟩ := i1.2 hf
          rw [hd0, hd1]
          exact ⟨d0, d1, rfl⟩
      · intro d0 d1 h
        split at h
        · rename_i e0 e1 he0 he1
          simp only [Option.some.injEq, Prod.mk.injEq] at h
          obtain ⟨rfl, rfl⟩ := h
          have R0 := ((make_spec sqrt hs tol ht _ _ _ _ _ _ _ _ _ _ _).2 _ he0).2.2.2.1
          have R1 := ((make_spec sqrt hs tol ht _ _ _ _ _ _ _ _ _ _ _).2 _ he1).2.2.2.1
          obtain ⟨f0, a1, a2, a3, a4, a5, a6, a7, a8, a9, a10⟩ := c0 _ he0
          obtain ⟨f1, b1, b2, b3, b4, b5, b6, b7, b8, b9, b10⟩ := c1 _ he1
          have hub : dot w b = 0 := by
            rw [hbu]
            have : dot w (norm sqrt b * u) = norm sqrt b * dot u w := by simp only [dot, smul_x, smul_y, smul_z]; ring
            rw [this, huw, mul_zero]
          have hvb : dot (cross w u) b = 0 := by
            rw [hbu]; simp only [dot, cross, smul_x, smul_y, smul_z]; ring
          have huu : dot u b = norm sqrt b := by
            conv_lhs => rw [hbu]
            have : dot u (norm sqrt b * u) = norm sqrt b * sq u := by simp only [dot, sq, smul_x, smul_y, smul_z]; ring
            rw [this, hu1, mul_one]
          have shift : ∀ (a x : V3 K), dot a (x - s1.C) = dot a (x - s0.C) - dot a b := by
            intro a x; rw [hb]; simp only [dot, sub_x, sub_y, sub_z]; ring
          have hc1 : ∀ x, (e1.coord x).y = (e0.coord x).y ∧ (e1.coord x).z = (e0.coord x).z ∧
              (e1.coord x).x = (e0.coord x).x - norm sqrt b := by
            intro x
            rw [a9, b9]
            simp only [shift, hub, hvb, huu, sub_zero]
            exact ⟨trivial, trivial, trivial⟩
          refine ⟨f0, f1, a1, b1, R1.trans R0.symm, a8, a2, a3, a4, a5, a6, ?_, ?_, ?_, ?_⟩
          · rw [a7]
            have : dot (-w) m = -dot w m := by simp only [dot, neg_x, neg_y, neg_z]; ring
            rw [this]; linarith
          · rw [a7]
            have : dot (-w) b = -dot w b := by simp only [dot, neg_x, neg_y, neg_z]; ring
            rw [this, hub, neg_zero]
          · intro x
            rw [Bool.eq_iff_iff, valid_spec sqrt tol _ f0, valid_spec sqrt tol _ f1, (hc1 x).2.1]
          · intro x q0 hq
            have hview : dot e0.view (x - s0.C) = (e0.coord x).z := by
              rw [a7, a9]; simp only [dot, neg_x, neg_y, neg_z]; ring
            rw [hview]
            rw [a10] at hq
            rw [b10]
            unfold Pin.noDistortion at hq ⊢
            rw [plane_spec sqrt tol _ f0] at hq
            rw [plane_spec sqrt tol _ f1]
            rw [(hc1 x).1, (hc1 x).2.1, (hc1 x).2.2, b2, b3, b4, b5, b6]
            rw [a2, a3, a4, a5, a6] at hq
            by_cases hz : (e0.coord x).z = 0
            · rw [if_pos hz] at hq; cases hq
            · rw [if_neg hz] at hq ⊢
              simp only [divPix] at hq ⊢
              by_cases hp : (s0.pitch + s1.pitch) / 2 = 0
              · rw [if_pos hp] at hq; cases hq
              · rw [if_neg hp] at hq ⊢
                simp only [Option.some.injEq] at hq
                subst hq
                refine ⟨_, rfl, rfl, ?_⟩
                rw [a2, a6]
                have gen : ∀ F C P X Z B : K, Z ≠ 0 → P ≠ 0 →
                    ((F * (X / Z) + C) / P - (F * ((X - B) / Z) + C) / P) * Z * P = F * B := by
                  intro F C P X Z B hZ hP
                  field_simp
                  ring
                exact gen _ _ _ _ _ _ hz hp
        · cases h

/-- **C99.** Rectification takes the third column of the rotation for the direction of view.  For two parallel cameras whose frame
has the third direction reversed, a point that is in front of the cameras made is behind the first of the given ones. -/
theorem pin_epipolar_frame (sqrt : K → K) (hs : IsSqrt sqrt) (tol : K) (h0 : 0 < tol) (ht : tol ≤ 1) (s0 s1 d0 d1 : Pin K)
    (hf : Fresh sqrt tol s0) (hR : IsRot s0.R) (hR1 : s1.R = s0.R) (hw : s0.w = ⟨0, 0, -1⟩) (hb : dot s0.view (s1.C - s0.C) = 0)
    (h : Pin.epipolar sqrt tol s0 s1 = some (d0, d1)) (x : V3 K) (hx : d0.valid x = true) : s0.valid x = false := by
  have hq0 := (ofM_toM sqrt hs s0.R hR).1
  have hv0 : s0.view = (-1 : K) * s0.R.col2 := by unfold Pin.view; rw [hw]; ext <;> simp [M3.mulVec, dot, M3.col2]
  unfold Pin.epipolar at h
  simp only [hR1, hq0, ← hv0] at h
  cases hu : normalize sqrt (s1.C - s0.C) with
  | none => rw [hu] at h; cases h
  | some u =>
    rw [hu] at h
    simp only at h
    obtain ⟨hu1, hbn, hbu⟩ := (normalize_spec hs _).2 u hu
    have hsv : sq s0.view = 1 := by
      unfold Pin.view sq
      rw [rot_dot s0.R hR, hw]; simp [dot]
    have huv : dot s0.view u = 0 := by
      rw [hbu] at hb
      have : dot s0.view (norm sqrt (s1.C - s0.C) * u) = norm sqrt (s1.C - s0.C) * dot s0.view u := by
        simp only [dot, smul_x, smul_y, smul_z]; ring
      rw [this] at hb
      exact (mul_eq_zero.1 hb).resolve_left hbn.ne'
    have hcr : cross u (cross ((1 / 2 : K) * (s0.view + s0.view)) u) = (1 : K) * s0.view := by
      generalize s0.view = a at huv
      ext <;> simp only [cross, smul_x, smul_y, smul_z, add_x, add_y, add_z, sq, dot] at * <;> grind
    rw [hcr, (normalize_mul hs 1 one_pos s0.view hsv).1] at h
    simp only at h
    split at h
    · rename_i e0 e1 he0 he1
      simp only [Option.some.injEq, Prod.mk.injEq] at h
      obtain ⟨rfl, rfl⟩ := h
      obtain ⟨f0, a1, a2, a3, a4, a5, a6, a7, a8, a9, a10⟩ := (epi_cam sqrt hs tol h0 ht s0.C u s0.view hu1 hsv
        (by rw [← huv]; simp only [dot]; ring) _ _ _ _ _).2 _ he0
      rw [valid_spec sqrt tol _ f0, a9] at hx
      simp only at hx
      have : ¬ s0.valid x = true := by
        rw [valid_spec sqrt tol _ hf]
        show ¬ 0 < dot s0.view (x - s0.C)
        linarith
      simpa using this
    · cases h

/-! ## CAHV -/

/-- **C99.** The CAHV camera of a pinhole camera sees every point where the pinhole camera sees it without its lens; without
a lens, where it sees it.  A pitch of zero is refused. -/
theorem ofPin_spec (sqrt : K → K) (tol : K) (p : Pin K) (h : Fresh sqrt tol p) :
    (Cahv.ofPin p = none ↔ p.pitch = 0) ∧
    (∀ m, Cahv.ofPin p = some m → m.C = p.C ∧ ∀ x, m.pointToPixel x = p.noDistortion x ∧
      (p.lens = Lens.null → m.pointToPixel x = p.noCheck x)) := by
  unfold Cahv.ofPin
  by_cases hp : p.pitch = 0
  · rw [if_pos hp]
    exact ⟨by simp [hp], fun m hm => (by cases hm)⟩
  · rw [if_neg hp]
    refine ⟨by simp [hp], fun m hm => ?_⟩
    simp only [Option.some.injEq] at hm
    subst hm
    refine ⟨rfl, fun x => ?_⟩
    have key : Cahv.pointToPixel (⟨p.C, p.R.mulVec p.w, (p.fu / p.pitch) * p.R.mulVec p.u + (p.cu / p.pitch) * p.R.mulVec p.w,
        (p.fv / p.pitch) * p.R.mulVec p.v + (p.cv / p.pitch) * p.R.mulVec p.w⟩ : Cahv K) x = p.noDistortion x := by
      unfold Cahv.pointToPixel Pin.noDistortion
      rw [plane_spec sqrt tol p h]
      simp only
      have e1 : dot (x - p.C) (p.R.mulVec p.w) = (p.coord x).z := by simp only [Pin.coord, dot]; ring
      have e2 : dot (x - p.C) ((p.fu / p.pitch) * p.R.mulVec p.u + (p.cu / p.pitch) * p.R.mulVec p.w) =
          p.fu / p.pitch * (p.coord x).x + p.cu / p.pitch * (p.coord x).z := by
        simp only [Pin.coord, dot, add_x, add_y, add_z, smul_x, smul_y, smul_z]; ring
      have e3 : dot (x - p.C) ((p.fv / p.pitch) * p.R.mulVec p.v + (p.cv / p.pitch) * p.R.mulVec p.w) =
          p.fv / p.pitch * (p.coord x).y + p.cv / p.pitch * (p.coord x).z := by
        simp only [Pin.coord, dot, add_x, add_y, add_z, smul_x, smul_y, smul_z]; ring
      rw [e1, e2, e3]
      by_cases hz : (p.coord x).z = 0
      · rw [if_pos hz, if_pos hz]
      · rw [if_neg hz, if_neg hz]
        simp only [divPix]
        rw [if_neg hp]
        simp only [Option.some.injEq, Prod.mk.injEq]
        constructor <;> field_simp
    refine ⟨key, fun hl => key.trans ?_⟩
    unfold Pin.noCheck Pin.noDistortion
    rw [hl]
    cases p.plane x <;> rfl

/-- The inverse of an orthonormal matrix is its transpose. -/
theorem inverse_orth (m b : M3 K) (hm : m.mul m.transpose = M3.one) (hb : m.inverse = some b) (x : V3 K) :
    b.mulVec x = m.transpose.mulVec x := by
  have h1 := ((inverse_m3 m).2 b hb (m.transpose.mulVec x)).2
  rw [← mul_mulVec m m.transpose, hm] at h1
  have : (M3.one : M3 K).mulVec x = x := by ext <;> simp [M3.one, M3.mulVec, dot]
  rw [this] at h1
  exact h1

/-- **C99.** A CAHV camera with unit axis and no skew becomes a pinhole camera that sees every point at the same pixel, and is
itself left as it was. -/
theorem toPin_spec (sqrt : K → K) (hs : IsSqrt sqrt) (tol : K) (h0 : 0 < tol) (ht : tol ≤ 1) (m : Cahv K) (hA : sq m.A = 1)
    (hH : cross m.A m.H ≠ 0) (hV : cross m.A m.V ≠ 0) (hskew : dot (cross m.A m.H) (cross m.A m.V) = 0) :
    ∃ p, m.toPin sqrt tol = some (p, m) ∧ Fresh sqrt tol p ∧ p.C = m.C ∧ ∀ x, p.noCheck x = m.pointToPixel x := by
  have hfH := norm_pos hs _ hH
  have hfV := norm_pos hs _ hV
  unfold Cahv.toPin
  simp only
  set fH := norm sqrt (cross m.A m.H) with hfHe
  set fV := norm sqrt (cross m.A m.V) with hfVe
  have hfH2 : fH * fH = sq (cross m.A m.H) := norm_mul_self hs _
  have hfV2 : fV * fV = sq (cross m.A m.V) := norm_mul_self hs _
  rw [if_neg (by push Not; exact ⟨hfH.ne', hfV.ne'⟩)]
  have hperp : ∀ (X : V3 K), sq (X - dot m.A X * m.A) = sq (cross m.A X) := by
    intro X
    have hA' := hA
    simp only [sq, dot, cross, sub_x, sub_y, sub_z, smul_x, smul_y, smul_z] at *
    linear_combination ((m.A.x * X.x + m.A.y * X.y + m.A.z * X.z) * (m.A.x * X.x + m.A.y * X.y + m.A.z * X.z) -
      (X.x * X.x + X.y * X.y + X.z * X.z)) * hA'
  have uh : sq ((1 / fH) * (m.H - dot m.A m.H * m.A)) = 1 := by
    rw [sq_smul, hperp, ← hfH2]; field_simp
  have uv : sq ((1 / fV) * (m.V - dot m.A m.V * m.A)) = 1 := by
    rw [sq_smul, hperp, ← hfV2]; field_simp
  set h := (1 / fH) * (m.H - dot m.A m.H * m.A) with hh
  set v := (1 / fV) * (m.V - dot m.A m.V * m.A) with hv
  have one_smul' : ∀ a : V3 K, (1 : K) * a = a := fun a => by ext <;> simp
  have nh : normalize sqrt h = some h := by have := (normalize_mul hs 1 one_pos h uh).1; rwa [one_smul'] at this
  have nv : normalize sqrt v = some v := by have := (normalize_mul hs 1 one_pos v uv).1; rwa [one_smul'] at this
  have nA : normalize sqrt m.A = some m.A := by have := (normalize_mul hs 1 one_pos m.A hA).1; rwa [one_smul'] at this
  rw [nh, nv, nA]
  simp only
  have dhA : dot h m.A = 0 := by
    rw [hh]
    have hA' := hA
    simp only [sq, dot, sub_x, sub_y, sub_z, smul_x, smul_y, smul_z] at *
    linear_combination (-(1 / fH) * (m.A.x * m.H.x + m.A.y * m.H.y + m.A.z * m.H.z)) * hA'
  have dvA : dot v m.A = 0 := by
    rw [hv]
    have hA' := hA
    simp only [sq, dot, sub_x, sub_y, sub_z, smul_x, smul_y, smul_z] at *
    linear_combination (-(1 / fV) * (m.A.x * m.V.x + m.A.y * m.V.y + m.A.z * m.V.z)) * hA'
  have dhv : dot h v = 0 := by
    have e : dot h v = (1 / fH) * (1 / fV) * dot (m.H - dot m.A m.H * m.A) (m.V - dot m.A m.V * m.A) := by
      rw [hh, hv]; simp only [dot, sub_x, sub_y, sub_z, smul_x, smul_y, smul_z]; ring
    have e2 : dot (m.H - dot m.A m.H * m.A) (m.V - dot m.A m.V * m.A) = dot (cross m.A m.H) (cross m.A m.V) := by
      have hA' := hA
      simp only [sq, dot, cross, sub_x, sub_y, sub_z, smul_x, smul_y, smul_z] at *
      linear_combination ((m.A.x * m.H.x + m.A.y * m.H.y + m.A.z * m.H.z) * (m.A.x * m.V.x + m.A.y * m.V.y + m.A.z * m.V.z) -
        (m.H.x * m.V.x + m.H.y * m.V.y + m.H.z * m.V.z)) * hA'
    rw [e, e2, hskew, mul_zero]
  clear_value h v
  have horth : (⟨h, v, m.A⟩ : M3 K).mul (⟨h, v, m.A⟩ : M3 K).transpose = M3.one := by
    ext <;> simp only [M3.mul, M3.mulVec, M3.transpose, M3.one, sq, dot] at * <;> first | linarith | nlinarith
  have hdet := frame_det h v m.A dhv dhA dvA
  rw [uh, uv, hA] at hdet
  have hdet0 : M3.det (⟨h, v, m.A⟩ : M3 K) ≠ 0 := by
    intro e; rw [e] at hdet; norm_num at hdet
  cases hi : (⟨h, v, m.A⟩ : M3 K).inverse with
  | none => exact absurd ((inverse_m3 _).1.1 hi) hdet0
  | some r =>
    simp only
    have hr := inverse_orth _ r horth hi
    have hrt : r = (⟨h, v, m.A⟩ : M3 K).transpose := by
      have a := hr ⟨1, 0, 0⟩
      have b := hr ⟨0, 1, 0⟩
      have c := hr ⟨0, 0, 1⟩
      simp only [M3.mulVec, M3.transpose, dot, mul_one, mul_zero, add_zero, zero_add, V3.mk.injEq] at a b c
      obtain ⟨⟨q1, q2, q3⟩, ⟨q4, q5, q6⟩, ⟨q7, q8, q9⟩⟩ := r
      simp only [M3.transpose, M3.mk.injEq, V3.mk.injEq]
      tauto
    have hrd : r.det ≠ 0 := by rw [hrt, det_transpose]; exact hdet0
    obtain ⟨m1, m2⟩ := make_spec sqrt hs tol ht m.C r fH fV (dot m.A m.H) (dot m.A m.V) ⟨1, 0, 0⟩ ⟨0, 1, 0⟩ ⟨0, 0, 1⟩ Lens.null 1
    obtain ⟨p, hmk⟩ := m1.2 ⟨axes_frame sqrt hs tol h0, hrd, hfH.ne', hfV.ne'⟩
    obtain ⟨fr, e1, e2, e3, e4, e5, e6, e7, e8, e9, e10, e11, -⟩ := m2 p hmk
    rw [hmk]
    refine ⟨p, rfl, fr, e2, fun x => ?_⟩
    have hc : p.coord x = ⟨dot h (x - m.C), dot v (x - m.C), dot m.A (x - m.C)⟩ := by
      simp only [Pin.coord, e2, e3, hrt, e8, e9, e10]
      ext <;> simp only [M3.mulVec, M3.transpose, dot] <;> ring
    unfold Pin.noCheck Cahv.pointToPixel
    rw [plane_spec sqrt tol p fr, hc, e1, e4, e5, e6, e7, e11]
    simp only
    have c1 : dot (x - m.C) m.A = dot m.A (x - m.C) := by simp only [dot]; ring
    rw [c1]
    by_cases hz : dot m.A (x - m.C) = 0
    · rw [if_pos hz, if_pos hz]
    · rw [if_neg hz, if_neg hz]
      simp only [Lens.null, divPix]
      rw [if_neg one_ne_zero]
      have k1 : fH * dot h (x - m.C) = dot (x - m.C) m.H - dot m.A m.H * dot m.A (x - m.C) := by
        rw [hh]
        simp only [dot, sub_x, sub_y, sub_z, smul_x, smul_y, smul_z]
        field_simp
        ring
      have k2 : fV * dot v (x - m.C) = dot (x - m.C) m.V - dot m.A m.V * dot m.A (x - m.C) := by
        rw [hv]
        simp only [dot, sub_x, sub_y, sub_z, smul_x, smul_y, smul_z]
        field_simp
        ring
      simp only [div_one, Option.some.injEq, Prod.mk.injEq]
      constructor
      · rw [← mul_div_assoc, k1]; field_simp; ring
      · rw [← mul_div_assoc, k2]; field_simp; ring

/-- **C99.** If the axis is not a unit vector, the conversion changes the camera converted: from then on it sees every point
at its old pixel times the old length of the axis. -/
theorem toPin_changes (sqrt : K → K) (hs : IsSqrt sqrt) (tol : K) (m m' : Cahv K) (p : Pin K) (h : m.toPin sqrt tol = some (p, m'))
    (x : V3 K) : m'.pointToPixel x = (m.pointToPixel x).map (fun q => (norm sqrt m.A * q.1, norm sqrt m.A * q.2)) := by
  have hm : ∃ a, normalize sqrt m.A = some a ∧ m' = { m with A := a } := by
    unfold Cahv.toPin at h
    simp only at h
    split at h
    · cases h
    · split at h
      · rename_i a b c ha hb hc
        split at h
        · cases h
        · split at h
          · simp only [Option.some.injEq, Prod.mk.injEq] at h
            exact ⟨_, hc, h.2.symm⟩
          · cases h
      · cases h
  obtain ⟨a, ha, rfl⟩ := hm
  obtain ⟨h1, h2, h3⟩ := (normalize_spec hs _).2 a ha
  unfold Cahv.pointToPixel
  simp only
  have e : dot (x - m.C) m.A = norm sqrt m.A * dot (x - m.C) a := by
    conv_lhs => rw [h3]
    simp only [dot, smul_x, smul_y, smul_z]; ring
  rw [e]
  by_cases hz : dot (x - m.C) a = 0
  · rw [if_pos hz, if_pos (by rw [hz, mul_zero])]; rfl
  · rw [if_neg hz, if_neg (mul_ne_zero h2.ne' hz)]
    simp only [Option.map_some, Option.some.injEq, Prod.mk.injEq]
    have := h2.ne'
    constructor <;> field_simp

/-- A camera with skew. -/
noncomputable def skewCam : Cahv ℝ := ⟨0, ⟨0, 0, 1⟩, ⟨1, 0, 0⟩, ⟨3/5, 4/5, 0⟩⟩

/-- **C99.** With skew the conversion gives a camera that sees points elsewhere. -/
theorem toPin_skew : ∃ (p : Pin ℝ) (m : Cahv ℝ), skewCam.toPin Real.sqrt (1/1000) = some (p, m) ∧
    skewCam.pointToPixel ⟨0, 1, 1⟩ = some (0, 4/5) ∧ p.noCheck ⟨0, 1, 1⟩ = some (-3/4, 5/4) := by
  have hs := isSqrt_real
  have n1 : ∀ a : V3 ℝ, sq a = 1 → norm Real.sqrt a = 1 := fun a ha => hs.unique _ _ zero_le_one (by rw [ha]; ring)
  have nn : ∀ a : V3 ℝ, sq a = 1 → normalize Real.sqrt a = some a := by
    intro a ha
    have := (normalize_mul hs 1 one_pos a ha).1
    have e : (1 : ℝ) * a = a := by ext <;> simp
    rwa [e] at this
  have f1 : norm Real.sqrt (cross skewCam.A skewCam.H) = 1 := n1 _ (by norm_num [skewCam, cross, sq, dot])
  have f2 : norm Real.sqrt (cross skewCam.A skewCam.V) = 1 := n1 _ (by norm_num [skewCam, cross, sq, dot])
  have eh : (1 / (1 : ℝ)) * (skewCam.H - dot skewCam.A skewCam.H * skewCam.A) = (⟨1, 0, 0⟩ : V3 ℝ) := by
    ext <;> norm_num [skewCam, dot]
  have ev : (1 / (1 : ℝ)) * (skewCam.V - dot skewCam.A skewCam.V * skewCam.A) = (⟨3/5, 4/5, 0⟩ : V3 ℝ) := by
    ext <;> norm_num [skewCam, dot]
  have hA : skewCam.A = ⟨0, 0, 1⟩ := rfl
  unfold Cahv.toPin
  simp only
  rw [f1, f2, if_neg (by norm_num), eh, ev, nn _ (by norm_num [sq, dot]), nn _ (by norm_num [sq, dot]), hA, nn _ (by norm_num [sq, dot])]
  simp only
  cases hi : (⟨⟨1, 0, 0⟩, ⟨3/5, 4/5, 0⟩, ⟨0, 0, 1⟩⟩ : M3 ℝ).inverse with
  | none =>
    have := (inverse_m3 _).1.1 hi
    norm_num [M3.det, dot, cross] at this
  | some r =>
    simp only
    have hr := (inverse_m3 _).2 r hi
    have a := (hr ⟨1, 0, 0⟩).1
    have b := (hr ⟨0, 1, 0⟩).1
    have c := (hr ⟨0, 0, 1⟩).1
    have hrr : r = ⟨⟨1, 0, 0⟩, ⟨-3/4, 5/4, 0⟩, ⟨0, 0, 1⟩⟩ := by
      obtain ⟨⟨q1, q2, q3⟩, ⟨q4, q5, q6⟩, ⟨q7, q8, q9⟩⟩ := r
      simp only [M3.mulVec, dot, mul_one, mul_zero, add_zero, zero_add, V3.mk.injEq, zero_mul, one_mul] at a b c
      obtain ⟨a1, a2, a3⟩ := a
      obtain ⟨b1, b2, b3⟩ := b
      obtain ⟨c1, c2, c3⟩ := c
      simp only [M3.mk.injEq, V3.mk.injEq]
      refine ⟨⟨?_, ?_, ?_⟩, ⟨?_, ?_, ?_⟩, ⟨?_, ?_, ?_⟩⟩ <;> linarith
    subst hrr
    obtain ⟨m1, m2⟩ := make_spec Real.sqrt hs (1/1000) (by norm_num) skewCam.C ⟨⟨1, 0, 0⟩, ⟨-3/4, 5/4, 0⟩, ⟨0, 0, 1⟩⟩ 1 1
      (dot ⟨0, 0, 1⟩ skewCam.H) (dot ⟨0, 0, 1⟩ skewCam.V) ⟨1, 0, 0⟩ ⟨0, 1, 0⟩ ⟨0, 0, 1⟩ Lens.null 1
    obtain ⟨p, hmk⟩ := m1.2 ⟨axes_frame Real.sqrt hs _ (by norm_num), by norm_num [M3.det, dot, cross], one_ne_zero, one_ne_zero⟩
    obtain ⟨fr, e1, e2, e3, e4, e5, e6, e7, e8, e9, e10, e11, -⟩ := m2 p hmk
    rw [hmk]
    refine ⟨p, _, rfl, ?_, ?_⟩
    · norm_num [Cahv.pointToPixel, skewCam, dot]
    · unfold Pin.noCheck
      have hc : p.coord ⟨0, 1, 1⟩ = ⟨-3/4, 5/4, 1⟩ := by
        simp only [Pin.coord, e2, e3, e8, e9, e10, skewCam]
        ext <;> norm_num [M3.mulVec, dot]
      rw [plane_spec Real.sqrt (1/1000) p fr, hc, e1, e4, e5, e6, e7, e11]
      norm_num [Lens.null, divPix, dot, skewCam]

/-! ## Cases that meet the hypotheses -/

theorem isRot_one : IsRot (M3.one : M3 ℝ) := by
  constructor
  · ext <;> simp [M3.mul, M3.mulVec, M3.transpose, M3.one, dot]
  · simp [M3.det, M3.one, dot, cross]

theorem norm_one (a : V3 ℝ) (h : sq a = 1) : norm Real.sqrt a = 1 := isSqrt_real.unique _ _ zero_le_one (by rw [h]; ring)

/-- Cameras exist, for every centre and for the usual and the reversed frame. -/
theorem cam_exists (C : V3 ℝ) (e : ℝ) (he : e = 1 ∨ e = -1) :
    ∃ p, Pin.make Real.sqrt (1/1000) C M3.one 100 100 50 40 ⟨1, 0, 0⟩ ⟨0, e, 0⟩ ⟨0, 0, e⟩ Lens.null 2 = .ok p := by
  refine (make_spec Real.sqrt isSqrt_real (1/1000) (by norm_num) C M3.one 100 100 50 40 ⟨1, 0, 0⟩ ⟨0, e, 0⟩ ⟨0, 0, e⟩ Lens.null 2).1.2
    ⟨⟨by simp [dot], by simp [dot], by simp [dot], ?_, ?_, ?_⟩, by rw [isRot_one.2]; norm_num, by norm_num, by norm_num⟩
  · rw [norm_one _ (by simp [sq, dot])]; norm_num
  · rw [norm_one _ (by rcases he with rfl | rfl <;> simp [sq, dot])]; norm_num
  · rw [norm_one _ (by rcases he with rfl | rfl <;> simp [sq, dot])]; norm_num

/-- A camera that is up to date, and a point it sees. -/
example : ∃ p : Pin ℝ, Fresh Real.sqrt (1/1000) p ∧ IsRot p.R ∧ p.lensOk (75, 90) ∧ p.valid ⟨1, 2, 4⟩ = true ∧
    p.noCheck ⟨1, 2, 4⟩ = some (75/2, 45) ∧ p.valid ⟨-1, -2, -4⟩ = false ∧ p.pointToPixel Real.sqrt (1/100) ⟨-1, -2, -4⟩ = some (75/2, 45) := by
  obtain ⟨p, hp⟩ := cam_exists 0 1 (Or.inl rfl)
  obtain ⟨fr, e1, e2, e3, e4, e5, e6, e7, e8, e9, e10, e11, e12⟩ := (make_spec Real.sqrt isSqrt_real (1/1000) (by norm_num) _ _ _ _ _ _ _ _ _ _ _).2 p hp
  have hc : ∀ x, p.coord x = x := by
    intro x
    simp only [Pin.coord, e2, e3, e8, e9, e10]
    ext <;> simp [M3.mulVec, M3.one, dot]
  have hok : ∀ q, p.lensOk q := by intro q d hd; rw [e1] at hd ⊢; simp only [Lens.null, Option.some.injEq] at hd ⊢; exact hd.symm
  have hn : ∀ x : V3 ℝ, x.x / x.z = 1 / 4 → x.y / x.z = 1 / 2 → x.z ≠ 0 → p.noCheck x = some (75/2, 45) := by
    intro x h1 h2 h3
    unfold Pin.noCheck
    rw [plane_spec Real.sqrt (1/1000) p fr, hc, if_neg h3, h1, h2, e1, e4, e5, e6, e7, e11]
    norm_num [Lens.null, divPix]
  refine ⟨p, fr, by rw [e3]; exact isRot_one, hok _, ?_, hn _ (by norm_num) (by norm_num) (by norm_num), ?_, ?_⟩
  · rw [valid_spec Real.sqrt (1/1000) p fr, hc]; norm_num
  · have : ¬ p.valid ⟨-1, -2, -4⟩ = true := by rw [valid_spec Real.sqrt (1/1000) p fr, hc]; norm_num
    simpa using this
  · rw [(check_spec Real.sqrt isSqrt_real (1/1000) (1/100) (by norm_num) p fr _).2.2.2 (fun q _ => hok q)]
    exact hn _ (by norm_num) (by norm_num) (by norm_num)

/-- Two cameras that can be rectified. -/
example : ∃ s0 s1 : Pin ℝ, IsRot s0.R ∧ IsRot s1.R ∧ s0.w = ⟨0, 0, 1⟩ ∧ s1.w = ⟨0, 0, 1⟩ ∧
    ∃ d0 d1, Pin.epipolar Real.sqrt (1/1000) s0 s1 = some (d0, d1) := by
  obtain ⟨s0, h0⟩ := cam_exists 0 1 (Or.inl rfl)
  obtain ⟨s1, h1⟩ := cam_exists ⟨1, 2, 3⟩ 1 (Or.inl rfl)
  obtain ⟨-, -, a2, a3, a4, a5, -, -, -, -, a10, -⟩ := (make_spec Real.sqrt isSqrt_real (1/1000) (by norm_num) _ _ _ _ _ _ _ _ _ _ _).2 s0 h0
  obtain ⟨-, -, b2, b3, b4, b5, -, -, -, -, b10, -⟩ := (make_spec Real.sqrt isSqrt_real (1/1000) (by norm_num) _ _ _ _ _ _ _ _ _ _ _).2 s1 h1
  have r0 : IsRot s0.R := by rw [a3]; exact isRot_one
  have r1 : IsRot s1.R := by rw [b3]; exact isRot_one
  refine ⟨s0, s1, r0, r1, a10, b10, (pin_epipolar Real.sqrt isSqrt_real (1/1000) (by norm_num) (by norm_num) s0 s1 r0 r1 a10 b10).1.2 ⟨?_, ?_, ?_⟩⟩
  · intro h
    have := congrArg V3.y h
    simp only [Pin.view, a2, a3, a10, b2, b3, b10] at this
    norm_num [cross, M3.mulVec, M3.one, dot] at this
  · rw [a4, b4]; norm_num
  · rw [a5, b5]; norm_num

/-- Two cameras with the reversed frame, and a point in front of the cameras made. -/
example : ∃ s0 s1 d0 d1 : Pin ℝ, Fresh Real.sqrt (1/1000) s0 ∧ IsRot s0.R ∧ s1.R = s0.R ∧ s0.w = ⟨0, 0, -1⟩ ∧
    dot s0.view (s1.C - s0.C) = 0 ∧ Pin.epipolar Real.sqrt (1/1000) s0 s1 = some (d0, d1) ∧ d0.valid ⟨0, 0, 1⟩ = true := by
  obtain ⟨s0, h0⟩ := cam_exists 0 (-1) (Or.inr rfl)
  obtain ⟨s1, h1⟩ := cam_exists ⟨1, 0, 0⟩ (-1) (Or.inr rfl)
  obtain ⟨fr, -, a2, a3, a4, a5, -, -, -, -, a10, -⟩ := (make_spec Real.sqrt isSqrt_real (1/1000) (by norm_num) _ _ _ _ _ _ _ _ _ _ _).2 s0 h0
  obtain ⟨-, -, b2, b3, b4, b5, -, -, -, -, b10, -⟩ := (make_spec Real.sqrt isSqrt_real (1/1000) (by norm_num) _ _ _ _ _ _ _ _ _ _ _).2 s1 h1
  have r0 : IsRot s0.R := by rw [a3]; exact isRot_one
  have hq : (Quat.ofM Real.sqrt s0.R).toM = M3.one := by rw [(ofM_toM Real.sqrt isSqrt_real s0.R r0).1, a3]
  have hq1 : (Quat.ofM Real.sqrt s1.R).toM = M3.one := by
    have e : s1.R = s0.R := by rw [a3, b3]
    rw [e]; exact hq
  have nn : ∀ a : V3 ℝ, sq a = 1 → normalize Real.sqrt a = some a := by
    intro a ha
    have := (normalize_mul isSqrt_real 1 one_pos a ha).1
    have e : (1 : ℝ) * a = a := by ext <;> simp
    rwa [e] at this
  have hb : s1.C - s0.C = ⟨1, 0, 0⟩ := by rw [a2, b2]; ext <;> simp
  have hc : cross (⟨1, 0, 0⟩ : V3 ℝ) (cross ((1 / 2 : ℝ) * ((-1 : ℝ) * (M3.one : M3 ℝ).col2 + (-1 : ℝ) * (M3.one : M3 ℝ).col2)) ⟨1, 0, 0⟩) =
      ⟨0, 0, -1⟩ := by ext <;> norm_num [cross, M3.col2, M3.one]
  have huw : dot (⟨1, 0, 0⟩ : V3 ℝ) ⟨0, 0, -1⟩ = 0 := by simp [dot]
  have u1 : sq (⟨1, 0, 0⟩ : V3 ℝ) = 1 := by simp [sq, dot]
  have w1 : sq (⟨0, 0, -1⟩ : V3 ℝ) = 1 := by simp [sq, dot]
  obtain ⟨i0, c0⟩ := epi_cam Real.sqrt isSqrt_real (1/1000) (by norm_num) (by norm_num) s0.C ⟨1, 0, 0⟩ ⟨0, 0, -1⟩ u1 w1 huw
    ((s0.fu + s1.fu) / 2) ((s0.fv + s1.fv) / 2) ((s0.cu + s1.cu) / 2) ((s0.cv + s1.cv) / 2) ((s0.pitch + s1.pitch) / 2)
  obtain ⟨i1, -⟩ := epi_cam Real.sqrt isSqrt_real (1/1000) (by norm_num) (by norm_num) s1.C ⟨1, 0, 0⟩ ⟨0, 0, -1⟩ u1 w1 huw
    ((s0.fu + s1.fu) / 2) ((s0.fv + s1.fv) / 2) ((s0.cu + s1.cu) / 2) ((s0.cv + s1.cv) / 2) ((s0.pitch + s1.pitch) / 2)
  obtain ⟨d0, hd0⟩ := i0.2 ⟨by rw [a4, b4]; norm_num, by rw [a5, b5]; norm_num⟩
  obtain ⟨d1, hd1⟩ := i1.2 ⟨by rw [a4, b4]; norm_num, by rw [a5, b5]; norm_num⟩
  obtain ⟨f0, k1, -, -, -, -, -, -, -, k9, -⟩ := c0 d0 hd0
  refine ⟨s0, s1, d0, d1, fr, r0, by rw [a3, b3], a10, ?_, ?_, ?_⟩
  · rw [hb]; simp only [Pin.view, a3, a10]; simp [M3.mulVec, M3.one, dot]
  · unfold Pin.epipolar
    simp only [hq, hq1]
    rw [hb, nn _ u1]
    simp only
    rw [hc, nn _ w1]
    simp only
    rw [hd0, hd1]
  · rw [valid_spec Real.sqrt (1/1000) _ f0, k9, a2]; norm_num [dot]

end Verif.Camera
