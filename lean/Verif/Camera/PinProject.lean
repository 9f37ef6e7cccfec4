import Verif.Camera.PinholeProps

/-
C98.  Projection and directions of the pinhole camera.
-/

namespace Verif.Camera

set_option linter.unusedSectionVars false

variable {K : Type} [Field K] [LinearOrder K] [IsStrictOrderedRing K]

/-- The coordinates of a point seen from the camera: along the directions of columns, rows and view. -/
def Pin.coord (p : Pin K) (x : V3 K) : V3 K :=
  ⟨dot (p.R.mulVec p.u) (x - p.C), dot (p.R.mulVec p.v) (x - p.C), dot (p.R.mulVec p.w) (x - p.C)⟩

theorem ext_coord (sqrt : K → K) (tol : K) (p : Pin K) (h : Fresh sqrt tol p) (x : V3 K) :
    p.ext.mulVec x + p.extT = p.coord x := by
  obtain ⟨-, h1, h2, -⟩ := fresh_cache sqrt tol p h
  rw [h1, h2]
  ext <;> simp only [Pin.coord, Pin.uvw, M3.mul, M3.mulVec, M3.transpose, M3.neg, dot, add_x, add_y, add_z, sub_x, sub_y, sub_z,
    neg_x, neg_y, neg_z] <;> ring

/-- **C98.** The place of a point in the image plane, before the lens: focal length times the quotient of its coordinates
plus the offset; none exactly if the point is beside the camera. -/
theorem plane_spec (sqrt : K → K) (tol : K) (p : Pin K) (h : Fresh sqrt tol p) (x : V3 K) :
    p.plane x = if (p.coord x).z = 0 then none
      else some (p.fu * ((p.coord x).x / (p.coord x).z) + p.cu, p.fv * ((p.coord x).y / (p.coord x).z) + p.cv) := by
  have he := ext_coord sqrt tol p h x
  obtain ⟨-, -, -, h3, h4, -⟩ := fresh_cache sqrt tol p h
  have hh : p.cam.mulVec x + p.camT = p.intr.mulVec (p.coord x) := by
    rw [h3, h4, mul_mulVec, ← he]
    ext <;> simp only [M3.mulVec, dot, add_x, add_y, add_z] <;> ring
  unfold Pin.plane divPix
  simp only [hh]
  have hz : (p.intr.mulVec (p.coord x)).z = (p.coord x).z := by simp only [Pin.intr, M3.mulVec, dot]; ring
  rw [hz]
  by_cases h0 : (p.coord x).z = 0
  · rw [if_pos h0, if_pos h0]
  · rw [if_neg h0, if_neg h0]
    simp only [Pin.intr, M3.mulVec, dot, Option.some.injEq, Prod.mk.injEq]
    constructor <;> field_simp <;> ring

/-- **C98.** `projection_valid` says exactly whether the point is in front of the camera. -/
theorem valid_spec (sqrt : K → K) (tol : K) (p : Pin K) (h : Fresh sqrt tol p) (x : V3 K) :
    p.valid x = true ↔ 0 < (p.coord x).z := by
  have he := congrArg V3.z (ext_coord sqrt tol p h x)
  unfold Pin.valid
  rw [decide_eq_true_eq, ← he]
  rfl

/-- The coordinates along a line from the centre. -/
theorem coord_line (p : Pin K) (t : K) (d : V3 K) : p.coord (p.C + t * d) = t * p.coord (p.C + d) := by
  ext <;> simp only [Pin.coord, dot, add_x, add_y, add_z, sub_x, sub_y, sub_z, smul_x, smul_y, smul_z] <;> ring

/-- The matrix applied to a direction. -/
theorem ext_dir (p : Pin K) (d : V3 K) :
    (p.uvw.mul p.R.transpose).mulVec d = p.coord (p.C + d) := by
  ext <;> simp only [Pin.coord, Pin.uvw, M3.mul, M3.mulVec, M3.transpose, dot, add_x, add_y, add_z, sub_x, sub_y, sub_z] <;> ring

/-- What the kept inverse does: the coordinates of what it gives for a place in the image plane. -/
theorem inv_coord (sqrt : K → K) (tol : K) (p : Pin K) (h : Fresh sqrt tol p) (q : K × K) :
    ∃ e : V3 K, p.coord (p.C + p.inv.mulVec ⟨q.1, q.2, 1⟩) = e ∧ e.z = 1 ∧ p.fu * e.x + p.cu = q.1 ∧ p.fv * e.y + p.cv = q.2 ∧
      ∀ d, p.coord (p.C + d) = e → d = p.inv.mulVec ⟨q.1, q.2, 1⟩ := by
  obtain ⟨-, h1, -, -, -, a, b, ha, hb, h5⟩ := fresh_cache sqrt tol p h
  have ia := (inverse_m3 _).2 a ha
  have ib := (inverse_m3 _).2 b hb
  refine ⟨b.mulVec ⟨q.1, q.2, 1⟩, ?_, ?_, ?_, ?_, ?_⟩
  · rw [← ext_dir p, h5, mul_mulVec a b, (ia _).1]
  all_goals have e := (ib ⟨q.1, q.2, 1⟩).1
  · have := congrArg V3.z e
    simp only [Pin.intr, M3.mulVec, dot] at this
    simp only [M3.mulVec, dot]
    linarith
  · have e3 := congrArg V3.z e
    have := congrArg V3.x e
    simp only [Pin.intr, M3.mulVec, dot] at this e3
    simp only [M3.mulVec, dot]
    linear_combination this - p.cu * e3
  · have e3 := congrArg V3.z e
    have := congrArg V3.y e
    simp only [Pin.intr, M3.mulVec, dot] at this e3
    simp only [M3.mulVec, dot]
    linear_combination this - p.cv * e3
  · intro d hd
    rw [h5, mul_mulVec, ← hd, ← ext_dir p, (ia d).2]

/-- **C98.** The direction of a pixel: a unit vector to the front of the camera; the points of its line, and only those, are
at the place in the image plane where the lens puts the pixel. -/
theorem pin_vector_spec (sqrt : K → K) (hs : IsSqrt sqrt) (tol : K) (p : Pin K) (h : Fresh sqrt tol p) (pix q : K × K)
    (hq : p.lens.undist (p.fu, p.fv) (p.cu, p.cv) (pix.1 * p.pitch, pix.2 * p.pitch) = some q) :
    ∃ d, p.pixelToVector sqrt pix = some d ∧ sq d = 1 ∧ 0 < (p.coord (p.C + d)).z ∧
      ∀ x, p.plane x = some q ↔ ∃ t : K, t ≠ 0 ∧ x = p.C + t * d := by
  obtain ⟨e, he, ez, ex, ey, hu⟩ := inv_coord sqrt tol p h q
  set y := p.inv.mulVec ⟨q.1, q.2, 1⟩ with hy
  have hy0 : y ≠ 0 := by
    intro h0
    have : e = 0 := by
      rw [← he, h0]
      have : p.C + (0 : V3 K) = p.C := by ext <;> simp
      rw [this]
      ext <;> simp [Pin.coord, dot]
    rw [this] at ez; simp at ez
  unfold Pin.pixelToVector
  rw [hq]
  simp only
  cases hd : normalize sqrt y with
  | none => exact absurd ((normalize_spec hs y).1.1 hd) hy0
  | some d =>
    obtain ⟨d1, d2, d3⟩ := (normalize_spec hs y).2 d hd
    have hc : e = norm sqrt y * p.coord (p.C + d) := by
      rw [← he, ← coord_line, ← d3]
    have hcz : norm sqrt y * (p.coord (p.C + d)).z = 1 := by rw [← ez, hc]; rfl
    have hz0 : 0 < (p.coord (p.C + d)).z := by
      by_contra hneg
      have : norm sqrt y * (p.coord (p.C + d)).z ≤ 0 := mul_nonpos_of_nonneg_of_nonpos d2.le (not_lt.1 hneg)
      rw [hcz] at this
      exact absurd this (not_le.2 one_pos)
    refine ⟨d, rfl, d1, hz0, fun x => ⟨fun hx => ?_, ?_⟩⟩
    · rw [plane_spec sqrt tol p h] at hx
      by_cases h0 : (p.coord x).z = 0
      · rw [if_pos h0] at hx; cases hx
      · rw [if_neg h0] at hx
        simp only [Option.some.injEq] at hx
        obtain ⟨hx1, hx2⟩ := Prod.mk.injEq _ _ _ _ ▸ hx
        have hnon : p.fu ≠ 0 ∧ p.fv ≠ 0 := by
          obtain ⟨-, -, -, -, -, a, b, ha, hb, h5⟩ := fresh_cache sqrt tol p h
          have : p.intr.det ≠ 0 := fun h0 => by rw [(inverse_m3 p.intr).1.2 h0] at hb; cases hb
          have hk : p.intr.det = p.fu * p.fv := by simp only [Pin.intr, M3.det, dot, cross]; ring
          rw [hk] at this
          exact ⟨left_ne_zero_of_mul this, right_ne_zero_of_mul this⟩
        have key : p.coord (p.C + (1 / (p.coord x).z) * (x - p.C)) = e := by
          rw [coord_line]
          have : p.C + (x - p.C) = x := by ext <;> simp
          rw [this]
          have a1 : p.fu * ((p.coord x).x / (p.coord x).z) = p.fu * e.x := by
            have := congrArg Prod.fst hx; simp only at this; linarith
          have a2 : p.fv * ((p.coord x).y / (p.coord x).z) = p.fv * e.y := by
            have := congrArg Prod.snd hx; simp only at this; linarith
          have b1 := mul_left_cancel₀ hnon.1 a1
          have b2 := mul_left_cancel₀ hnon.2 a2
          ext
          · simp only [smul_x]; rw [← b1]; ring
          · simp only [smul_y]; rw [← b2]; ring
          · simp only [smul_z]; rw [ez]; field_simp
        have := hu _ key
        refine ⟨(p.coord x).z * norm sqrt y, mul_ne_zero h0 d2.ne', ?_⟩
        have e2 : x - p.C = (p.coord x).z * y := by
          rw [← this]
          ext <;> simp <;> field_simp
        have e3 : x = p.C + (x - p.C) := by ext <;> simp
        have e6 : (p.coord x).z * y = ((p.coord x).z * norm sqrt y) * d := by
          have : (p.coord x).z * y = (p.coord x).z * (norm sqrt y * d) := congrArg _ d3
          rw [this]
          ext <;> simp <;> ring
        exact e3.trans (by rw [e2, e6])
    · rintro ⟨t, ht, rfl⟩
      rw [plane_spec sqrt tol p h, coord_line]
      have h1 : (t * p.coord (p.C + d)).z ≠ 0 := mul_ne_zero ht hz0.ne'
      rw [if_neg h1]
      have hn := d2.ne'
      have a1 := congrArg V3.x hc
      have a2 := congrArg V3.y hc
      simp only [smul_x, smul_y] at a1 a2
      simp only [smul_x, smul_y, smul_z, Option.some.injEq]
      have c1 : t * (p.coord (p.C + d)).x / (t * (p.coord (p.C + d)).z) = e.x := by
        rw [a1, div_eq_iff (show t * (p.coord (p.C + d)).z ≠ 0 from h1)]; linear_combination (-t * (p.coord (p.C + d)).x) * hcz
      have c2 : t * (p.coord (p.C + d)).y / (t * (p.coord (p.C + d)).z) = e.y := by
        rw [a2, div_eq_iff (show t * (p.coord (p.C + d)).z ≠ 0 from h1)]; linear_combination (-t * (p.coord (p.C + d)).y) * hcz
      rw [c1, c2, ex, ey]

/-- The lens undoes itself at a place of the image plane. -/
def Pin.lensOk (p : Pin K) (q : K × K) : Prop :=
  ∀ d, p.lens.dist (p.fu, p.fv) (p.cu, p.cv) q = some d → p.lens.undist (p.fu, p.fv) (p.cu, p.cv) d = some q

/-- **C98.** The round trip: the direction of the pixel of a point is the direction to the point if the point is in front of
the camera, and the opposite direction if it is behind. -/
theorem pin_round_trip (sqrt : K → K) (hs : IsSqrt sqrt) (tol : K) (p : Pin K) (h : Fresh sqrt tol p) (x : V3 K) (pix : K × K)
    (hx : p.noCheck x = some pix) (hl : ∀ q, p.plane x = some q → p.lensOk q) :
    (p.valid x = true → p.pixelToVector sqrt pix = normalize sqrt (x - p.C)) ∧
    (p.valid x = false → p.pixelToVector sqrt pix = (normalize sqrt (x - p.C)).map (fun v => -v)) := by
  unfold Pin.noCheck at hx
  cases hq : p.plane x with
  | none => rw [hq] at hx; cases hx
  | some q =>
    rw [hq] at hx
    simp only at hx
    cases hd : p.lens.dist (p.fu, p.fv) (p.cu, p.cv) q with
    | none => rw [hd] at hx; cases hx
    | some d =>
      rw [hd] at hx
      simp only [divPix] at hx
      by_cases hp : p.pitch = 0
      · rw [if_pos hp] at hx; cases hx
      · rw [if_neg hp] at hx
        simp only [Option.some.injEq] at hx
        subst hx
        have hun := hl q hq d hd
        have e : ((d.1 / p.pitch) * p.pitch, (d.2 / p.pitch) * p.pitch) = d := by
          ext <;> simp <;> field_simp
        obtain ⟨v, hv, hv1, hvz, hline⟩ := pin_vector_spec sqrt hs tol p h (d.1 / p.pitch, d.2 / p.pitch) q (by rw [e]; exact hun)
        obtain ⟨t, ht, rfl⟩ := (hline x).1 hq
        have hc : (p.coord (p.C + t * v)).z = t * (p.coord (p.C + v)).z := by rw [coord_line]; rfl
        have hsub : p.C + t * v - p.C = t * v := by ext <;> simp
        rw [hv, hsub]
        constructor
        · intro hval
          rw [valid_spec sqrt tol p h, hc] at hval
          have : 0 < t := pos_of_mul_pos_left hval hvz.le |> fun _ => by
            by_contra hn
            have := mul_nonpos_of_nonpos_of_nonneg (not_lt.1 hn) hvz.le
            linarith
          exact ((normalize_mul hs t this v hv1).1).symm
        · intro hval
          have hval' : ¬ p.valid (p.C + t * v) = true := by rw [hval]; simp
          rw [valid_spec sqrt tol p h, hc] at hval'
          have : t < 0 := by
            by_contra hn
            have h0 : 0 < t := lt_of_le_of_ne (not_lt.1 hn) (Ne.symm ht)
            exact hval' (mul_pos h0 hvz)
          have e2 : t * v = (-t) * (-v) := by ext <;> simp
          have hu' : sq (-v) = 1 := by rw [← hv1]; simp [sq, dot]
          rw [e2, (normalize_mul hs (-t) (by linarith) (-v) hu').1]
          simp only [Option.map_some, Option.some.injEq]
          ext <;> simp

theorem norm_zero' (sqrt : K → K) (hs : IsSqrt sqrt) (a : V3 K) (h : a = 0) : norm sqrt a = 0 := by
  rw [h]; unfold norm
  have : sq (0 : V3 K) = 0 := by simp [sq, dot]
  rw [this]; exact sqrt_zero' hs

/-- **C98.** The checked projection: it gives the unchecked pixel or nothing; with the check, the direction of the pixel is
within the threshold of the direction to the point or its opposite, and with a lens that undoes itself nothing is refused: not
even a point behind the camera. -/
theorem check_spec (sqrt : K → K) (hs : IsSqrt sqrt) (tol thr : K) (h0 : 0 < thr) (p : Pin K) (h : Fresh sqrt tol p) (x : V3 K) :
    (∀ pix, p.pointToPixel sqrt thr x = some pix → p.noCheck x = some pix) ∧
    (p.check = false → p.pointToPixel sqrt thr x = p.noCheck x) ∧
    (∀ pix, p.check = true → p.pointToPixel sqrt thr x = some pix →
      ∃ a b, p.pixelToVector sqrt pix = some a ∧ normalize sqrt (x - p.C) = some b ∧
        (norm sqrt (a - b) < thr ∨ norm sqrt (a + b) < thr)) ∧
    ((∀ q, p.plane x = some q → p.lensOk q) → p.pointToPixel sqrt thr x = p.noCheck x) := by
  unfold Pin.pointToPixel
  cases hn : p.noCheck x with
  | none => simp
  | some q =>
    simp only
    cases hc : p.check with
    | false => simp
    | true =>
      simp only [if_true]
      refine ⟨?_, fun hh => (by cases hh), ?_, ?_⟩
      · intro pix hp
        split at hp
        · rename_i a b ha hb
          by_cases h1 : thr ≤ (if thr ≤ norm sqrt (a - b) then norm sqrt (a + b) else norm sqrt (a - b))
          · rw [if_pos h1] at hp; cases hp
          · rw [if_neg h1] at hp; exact hp
        · cases hp
      · intro pix _ hp
        split at hp
        · rename_i a b ha hb
          by_cases h1 : thr ≤ norm sqrt (a - b)
          · rw [if_pos h1] at hp
            by_cases h2 : thr ≤ norm sqrt (a + b)
            · rw [if_pos h2] at hp; cases hp
            · rw [if_neg h2] at hp
              simp only [Option.some.injEq] at hp
              subst hp
              exact ⟨a, b, ha, hb, Or.inr (not_le.1 h2)⟩
          · rw [if_neg h1, if_neg h1] at hp
            simp only [Option.some.injEq] at hp
            subst hp
            exact ⟨a, b, ha, hb, Or.inl (not_le.1 h1)⟩
        · cases hp
      · intro hl
        obtain ⟨r1, r2⟩ := pin_round_trip sqrt hs tol p h x q hn hl
        have hx0 : x - p.C ≠ 0 := by
          intro hx
          unfold Pin.noCheck at hn
          rw [plane_spec sqrt tol p h] at hn
          have : (p.coord x).z = 0 := by simp only [Pin.coord]; rw [hx]; simp [dot]
          rw [if_pos this] at hn; cases hn
        cases hb : normalize sqrt (x - p.C) with
        | none => exact absurd ((normalize_spec hs _).1.1 hb) hx0
        | some b =>
          rw [hb] at r1 r2
          cases hv : p.valid x with
          | true =>
            rw [r1 hv]
            simp only
            have : norm sqrt (b - b) = 0 := norm_zero' sqrt hs _ (by ext <;> simp)
            rw [this, if_neg (not_le.2 h0), if_neg (not_le.2 h0)]
          | false =>
            rw [r2 hv]
            simp only [Option.map_some]
            have : norm sqrt (-b + b) = 0 := norm_zero' sqrt hs _ (by ext <;> simp)
            rw [this]
            have h2 : ¬ thr ≤ (if thr ≤ norm sqrt (-b - b) then 0 else norm sqrt (-b - b)) := by
              by_cases h3 : thr ≤ norm sqrt (-b - b)
              · rw [if_pos h3]; exact not_le.2 h0
              · rw [if_neg h3]; exact h3
            rw [if_neg h2]

end Verif.Camera
