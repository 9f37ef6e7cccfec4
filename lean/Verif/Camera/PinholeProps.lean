import Verif.Camera.Pinhole
import Verif.Camera.QuatProps

/-
C98.  The pinhole camera.
-/

namespace Verif.Camera

set_option linter.unusedSectionVars false

variable {K : Type} [Field K] [LinearOrder K] [IsStrictOrderedRing K]

/-! ## Matrices -/

theorem ofMat_mulVec (a : VW.Matrix.Mat K) (x : V3 K) : (M3.ofMat a).mulVec x = mulVec3 a x := rfl

theorem toMat_mulVec (m : M3 K) (x : V3 K) : mulVec3 m.toMat x = m.mulVec x := rfl

theorem inverse_m3 (m : M3 K) : (m.inverse = none ↔ m.det = 0) ∧
    (∀ b, m.inverse = some b → ∀ x, m.mulVec (b.mulVec x) = x ∧ b.mulVec (m.mulVec x) = x) := by
  constructor
  · unfold M3.inverse
    rw [Option.map_eq_none_iff, (VW.Matrix.inverse_correct 3 m.toMat).2, Matrix.det_fin_three]
    have : ∀ a b : K, a = b → (a = 0 ↔ b = 0) := fun a b h => by rw [h]
    apply this
    show m.r0.x * m.r1.y * m.r2.z - m.r0.x * m.r1.z * m.r2.y - m.r0.y * m.r1.x * m.r2.z + m.r0.y * m.r1.z * m.r2.x +
      m.r0.z * m.r1.x * m.r2.y - m.r0.z * m.r1.y * m.r2.x = m.det
    simp only [M3.det, dot, cross]
    ring
  · intro b h x
    unfold M3.inverse at h
    rw [Option.map_eq_some_iff] at h
    obtain ⟨B, hB, rfl⟩ := h
    have := inverse_solves m.toMat B hB x
    rw [toMat_mulVec, toMat_mulVec] at this
    rw [ofMat_mulVec, ofMat_mulVec]
    exact this

theorem mul_mulVec (a b : M3 K) (x : V3 K) : (a.mul b).mulVec x = a.mulVec (b.mulVec x) := by
  ext <;> simp only [M3.mul, M3.mulVec, M3.transpose, dot] <;> ring

/-- The product with the transpose. -/
theorem dot_transpose (m : M3 K) (a x : V3 K) : dot a (m.transpose.mulVec x) = dot (m.mulVec a) x := by
  simp only [M3.transpose, M3.mulVec, dot]; ring

theorem mulVec_sub (m : M3 K) (a b : V3 K) : m.mulVec (a - b) = m.mulVec a - m.mulVec b := by
  ext <;> simp only [M3.mulVec, dot, sub_x, sub_y, sub_z] <;> ring

theorem mulVec_smul (m : M3 K) (s : K) (a : V3 K) : m.mulVec (s * a) = s * m.mulVec a := by
  ext <;> simp only [M3.mulVec, dot, smul_x, smul_y, smul_z] <;> ring

/-! ## The cached matrices -/

/-- The cached matrices are those of the parameters. -/
def Fresh (sqrt : K → K) (tol : K) (p : Pin K) : Prop := p.rebuild sqrt tol = (p, none)

/-- Two cameras have the same parameters. -/
def SameParams (p q : Pin K) : Prop :=
  p.lens = q.lens ∧ p.C = q.C ∧ p.R = q.R ∧ p.fu = q.fu ∧ p.fv = q.fv ∧ p.cu = q.cu ∧ p.cv = q.cv ∧ p.u = q.u ∧ p.v = q.v ∧
  p.w = q.w ∧ p.pitch = q.pitch ∧ p.check = q.check

/-- The frame is orthogonal and nearly unit. -/
def FrameOk (sqrt : K → K) (tol : K) (p : Pin K) : Prop :=
  dot p.u p.v = 0 ∧ dot p.u p.w = 0 ∧ dot p.v p.w = 0 ∧ |norm sqrt p.u - 1| < tol ∧ |norm sqrt p.v - 1| < tol ∧
  |norm sqrt p.w - 1| < tol

theorem frameOk_iff (sqrt : K → K) (tol : K) (p : Pin K) : p.frameOk sqrt tol = true ↔ FrameOk sqrt tol p := by
  unfold Pin.frameOk FrameOk
  simp only [Bool.and_eq_true, decide_eq_true_eq]
  tauto

theorem norm_ne (sqrt : K → K) (hs : IsSqrt sqrt) (tol : K) (ht : tol ≤ 1) (a : V3 K) (h : |norm sqrt a - 1| < tol) :
    sq a ≠ 0 := by
  intro h0
  have : norm sqrt a = 0 := by
    have := hs.unique 0 0 le_rfl (by simp)
    unfold norm; rw [h0, this]
  rw [this] at h
  norm_num at h
  linarith

/-- An orthogonal frame has a determinant. -/
theorem frame_det (u v w : V3 K) (huv : dot u v = 0) (huw : dot u w = 0) (hvw : dot v w = 0) :
    M3.det (⟨u, v, w⟩ : M3 K) * M3.det (⟨u, v, w⟩ : M3 K) = sq u * sq v * sq w := by
  simp only [M3.det, sq, dot, cross] at *
  grind

theorem det_mul (a b : M3 K) : (a.mul b).det = a.det * b.det := by
  simp only [M3.det, M3.mul, M3.mulVec, M3.transpose, dot, cross]; ring

theorem det_transpose (a : M3 K) : a.transpose.det = a.det := by
  simp only [M3.det, M3.transpose, dot, cross]; ring

/-- **C98.** Computing the matrices changes no parameter; it fails with an assertion exactly if the frame is not orthogonal
and nearly unit, with a math error exactly if the frame is and the rotation or a focal length is singular; otherwise what
is kept is up to date. -/
theorem rebuild_spec (sqrt : K → K) (hs : IsSqrt sqrt) (tol : K) (ht : tol ≤ 1) (p : Pin K) :
    SameParams (p.rebuild sqrt tol).1 p ∧
    ((p.rebuild sqrt tol).2 = some .assert ↔ ¬ FrameOk sqrt tol p) ∧
    ((p.rebuild sqrt tol).2 = some .math ↔ FrameOk sqrt tol p ∧ (p.R.det = 0 ∨ p.fu = 0 ∨ p.fv = 0)) ∧
    ((p.rebuild sqrt tol).2 = none ↔ FrameOk sqrt tol p ∧ p.R.det ≠ 0 ∧ p.fu ≠ 0 ∧ p.fv ≠ 0) ∧
    ((p.rebuild sqrt tol).2 = none → Fresh sqrt tol (p.rebuild sqrt tol).1) := by
  have hr : p.rebuild sqrt tol = if p.frameOk sqrt tol then
      (match (p.uvw.mul p.R.transpose).inverse, p.intr.inverse with
      | some a, some b => ({ p with ext := p.uvw.mul p.R.transpose, extT := (p.uvw.mul p.R.transpose.neg).mulVec p.C, cam := p.intr.mul (p.uvw.mul p.R.transpose), camT := p.intr.mulVec ((p.uvw.mul p.R.transpose.neg).mulVec p.C), inv := a.mul b }, none)
      | _, _ => ({ p with ext := p.uvw.mul p.R.transpose, extT := (p.uvw.mul p.R.transpose.neg).mulVec p.C, cam := p.intr.mul (p.uvw.mul p.R.transpose), camT := p.intr.mulVec ((p.uvw.mul p.R.transpose.neg).mulVec p.C) }, some .math))
      else (p, some .assert) := rfl
  have hrefl : ∀ q : Pin K, SameParams q q := fun q => ⟨rfl, rfl, rfl, rfl, rfl, rfl, rfl, rfl, rfl, rfl, rfl, rfl⟩
  by_cases hf : FrameOk sqrt tol p
  · have hdet : (p.uvw.mul p.R.transpose).det = 0 ↔ p.R.det = 0 := by
      rw [det_mul, det_transpose]
      have h1 := frame_det p.u p.v p.w hf.1 hf.2.1 hf.2.2.1
      have h2 : sq p.u * sq p.v * sq p.w ≠ 0 :=
        mul_ne_zero (mul_ne_zero (norm_ne sqrt hs tol ht _ hf.2.2.2.1) (norm_ne sqrt hs tol ht _ hf.2.2.2.2.1))
          (norm_ne sqrt hs tol ht _ hf.2.2.2.2.2)
      have h3 : p.uvw.det ≠ 0 := by
        intro h
        apply h2
        rw [← h1]
        show p.uvw.det * p.uvw.det = 0
        rw [h]; ring
      constructor
      · intro h; exact (mul_eq_zero.1 h).resolve_left h3
      · intro h; rw [h, mul_zero]
    have hK : p.intr.det = 0 ↔ p.fu = 0 ∨ p.fv = 0 := by
      have : p.intr.det = p.fu * p.fv := by simp only [Pin.intr, M3.det, dot, cross]; ring
      rw [this, mul_eq_zero]
    have hE := (inverse_m3 (p.uvw.mul p.R.transpose)).1
    have hI := (inverse_m3 p.intr).1
    rw [hdet] at hE
    rw [hK] at hI
    rw [hr, if_pos ((frameOk_iff sqrt tol p).2 hf)]
    cases ha : (p.uvw.mul p.R.transpose).inverse with
    | none =>
      have h0 := hE.1 ha
      refine ⟨?_, ?_, ?_, ?_, ?_⟩
      · exact hrefl p
      · simp [hf]
      · simp [hf, h0]
      · simp [h0]
      · intro h; cases h
    | some a =>
      have h0 : p.R.det ≠ 0 := fun h => by rw [hE.2 h] at ha; cases ha
      cases hb : p.intr.inverse with
      | none =>
        have h1 := hI.1 hb
        refine ⟨?_, ?_, ?_, ?_, ?_⟩
        · exact hrefl p
        · simp [hf]
        · simp [hf, h1]
        · simp only [reduceCtorEq, false_iff]; tauto
        · intro h; cases h
      | some b =>
        have h1 : ¬ (p.fu = 0 ∨ p.fv = 0) := fun h => by rw [hI.2 h] at hb; cases hb
        refine ⟨?_, ?_, ?_, ?_, ?_⟩
        · exact hrefl p
        · simp [hf]
        · simp only [reduceCtorEq, false_iff]; tauto
        · simp only [true_iff]; tauto
        · intro _
          unfold Fresh Pin.rebuild
          have hf' : Pin.frameOk sqrt tol { p with ext := p.uvw.mul p.R.transpose, extT := (p.uvw.mul p.R.transpose.neg).mulVec p.C, cam := p.intr.mul (p.uvw.mul p.R.transpose), camT := p.intr.mulVec ((p.uvw.mul p.R.transpose.neg).mulVec p.C), inv := a.mul b } = true :=
            (frameOk_iff sqrt tol p).2 hf
          rw [if_pos hf']
          simp only [Pin.uvw, Pin.intr] at *
          rw [ha, hb]
  · have hf' : ¬ p.frameOk sqrt tol = true := fun h => hf ((frameOk_iff sqrt tol p).1 h)
    rw [hr, if_neg hf']
    refine ⟨hrefl p, ?_, ?_, ?_, ?_⟩
    · simp [hf]
    · simp [hf]
    · simp [hf]
    · intro h; cases h

/-- What an up to date camera holds. -/
theorem fresh_cache (sqrt : K → K) (tol : K) (p : Pin K) (h : Fresh sqrt tol p) :
    FrameOk sqrt tol p ∧ p.ext = p.uvw.mul p.R.transpose ∧ p.extT = (p.uvw.mul p.R.transpose.neg).mulVec p.C ∧
    p.cam = p.intr.mul p.ext ∧ p.camT = p.intr.mulVec p.extT ∧
    ∃ a b, (p.uvw.mul p.R.transpose).inverse = some a ∧ p.intr.inverse = some b ∧ p.inv = a.mul b := by
  unfold Fresh Pin.rebuild at h
  by_cases hf : p.frameOk sqrt tol = true
  · rw [if_pos hf] at h
    simp only at h
    cases ha : (p.uvw.mul p.R.transpose).inverse with
    | none => rw [ha] at h; simp at h
    | some a =>
      cases hb : p.intr.inverse with
      | none => rw [ha, hb] at h; simp at h
      | some b =>
        rw [ha, hb] at h
        simp only [Prod.mk.injEq, and_true] at h
        obtain ⟨lens, C, R, fu, fv, cu, cv, u, v, w, pitch, check, ext, extT, cam, camT, inv⟩ := p
        simp only [Pin.mk.injEq, true_and] at h
        obtain ⟨h1, h2, h3, h4, h5⟩ := h
        refine ⟨(frameOk_iff sqrt tol _).1 hf, h1.symm, h2.symm, ?_, ?_, a, b, rfl, rfl, h5.symm⟩
        · exact h3.symm.trans (congrArg _ h1)
        · exact h4.symm.trans (congrArg _ h2)
  · rw [if_neg hf] at h
    simp at h

/-- **C98.** What an up to date camera does depends on its parameters only. -/
theorem fresh_unique (sqrt : K → K) (tol : K) (p q : Pin K) (hp : Fresh sqrt tol p) (hq : Fresh sqrt tol q) (h : SameParams p q) :
    p = q := by
  obtain ⟨-, a1, a2, a3, a4, a, b, a5, a6, a7⟩ := fresh_cache sqrt tol p hp
  obtain ⟨-, b1, b2, b3, b4, a', b', b5, b6, b7⟩ := fresh_cache sqrt tol q hq
  obtain ⟨lens, C, R, fu, fv, cu, cv, u, v, w, pitch, check, ext, extT, cam, camT, inv⟩ := p
  obtain ⟨lens', C', R', fu', fv', cu', cv', u', v', w', pitch', check', ext', extT', cam', camT', inv'⟩ := q
  obtain ⟨h1, h2, h3, h4, h5, h6, h7, h8, h9, h10, h11, h12⟩ := h
  simp only at *
  subst h1 h2 h3 h4 h5 h6 h7 h8 h9 h10 h11 h12
  simp only [Pin.uvw, Pin.intr] at *
  rw [a5] at b5
  rw [a6] at b6
  simp only [Option.some.injEq] at b5 b6
  subst b5 b6
  rw [a1, b1, a2, b2] at *
  simp only [a3, a4, a7, b3, b4, b7]

/-- **C98.** Each of the functions that change a camera sets what it is called for and keeps all other parameters, whether it
throws or not. -/
theorem setters_spec (sqrt : K → K) (hs : IsSqrt sqrt) (tol : K) (ht : tol ≤ 1) (p : Pin K) :
    (∀ c, SameParams (p.step sqrt tol (.center c)).1 { p with C := c }) ∧
    (∀ q, SameParams (p.step sqrt tol (.pose q)).1 { p with R := q.toM }) ∧
    (∀ m, SameParams (p.step sqrt tol (.poseM m)).1 { p with R := m }) ∧
    (∀ u v w, SameParams (p.step sqrt tol (.frame u v w)).1 { p with u := u, v := v, w := w }) ∧
    (∀ l, SameParams (p.step sqrt tol (.lens l)).1 { p with lens := l }) ∧
    (∀ a b c d, SameParams (p.step sqrt tol (.intrinsics a b c d)).1 { p with fu := a, fv := b, cu := c, cv := d }) ∧
    (∀ a b r, SameParams (p.step sqrt tol (.focal a b r)).1 { p with fu := a, fv := b }) ∧
    (∀ a b r, SameParams (p.step sqrt tol (.offset a b r)).1 { p with cu := a, cv := b }) ∧
    (∀ x, SameParams (p.step sqrt tol (.pitch x)).1 { p with pitch := x }) ∧
    (∀ b, SameParams (p.step sqrt tol (.check b)).1 { p with check := b }) := by
  have key : ∀ o : Op K, SameParams (p.step sqrt tol o).1 (o.params p) := by
    intro o
    unfold Pin.step
    cases o.rebuilds
    · exact ⟨rfl, rfl, rfl, rfl, rfl, rfl, rfl, rfl, rfl, rfl, rfl, rfl⟩
    · exact (rebuild_spec sqrt hs tol ht _).1
  exact ⟨fun _ => key _, fun _ => key _, fun _ => key _, fun _ _ _ => key _, fun _ => key _, fun _ _ _ _ => key _,
    fun _ _ _ => key _, fun _ _ _ => key _, fun _ => key _, fun _ => key _⟩

/-- **C98.** Any history of changes that rebuild, without exception, leaves the camera up to date. -/
theorem run_fresh (sqrt : K → K) (hs : IsSqrt sqrt) (tol : K) (ht : tol ≤ 1) (l : List (Op K)) (p q : Pin K)
    (hp : Fresh sqrt tol p) (hl : ∀ o ∈ l, (∀ a b, o ≠ .focal a b false) ∧ (∀ a b, o ≠ .offset a b false))
    (h : p.run sqrt tol l = (q, none)) : Fresh sqrt tol q ∧ SameParams q (l.foldl (fun r o => o.params r) p) := by
  have hkeep : ∀ (r : Pin K) (o : Op K), Fresh sqrt tol r → o.rebuilds = false → (∀ a b, o ≠ .focal a b false) →
      (∀ a b, o ≠ .offset a b false) → Fresh sqrt tol (o.params r) := by
    intro r o hr ho h1 h2
    obtain ⟨c0, c1, c2, c3, c4, a, b, c5, c6, c7⟩ := fresh_cache sqrt tol r hr
    have hf := (frameOk_iff sqrt tol r).2 c0
    obtain ⟨lens, C, R, fu, fv, cu, cv, u, v, w, pitch, check, ext, extT, cam, camT, inv⟩ := r
    unfold Fresh Pin.rebuild
    cases o with
    | lens x => exact (show Fresh _ _ _ → _ from fun hr => by
        unfold Fresh Pin.rebuild at hr
        rw [if_pos hf] at hr
        have hf' : Pin.frameOk sqrt tol ((Op.lens x).params ⟨lens, C, R, fu, fv, cu, cv, u, v, w, pitch, check, ext, extT, cam, camT, inv⟩) = true := hf
        rw [if_pos hf']
        simp only [Op.params, Pin.uvw, Pin.intr] at *
        rw [c5, c6] at *
        simp only [c7, c1, c2, c3, c4]) hr
    | pitch x => exact (show Fresh _ _ _ → _ from fun hr => by
        unfold Fresh Pin.rebuild at hr
        rw [if_pos hf] at hr
        have hf' : Pin.frameOk sqrt tol ((Op.pitch x).params ⟨lens, C, R, fu, fv, cu, cv, u, v, w, pitch, check, ext, extT, cam, camT, inv⟩) = true := hf
        rw [if_pos hf']
        simp only [Op.params, Pin.uvw, Pin.intr] at *
        rw [c5, c6] at *
        simp only [c7, c1, c2, c3, c4]) hr
    | check x => exact (show Fresh _ _ _ → _ from fun hr => by
        unfold Fresh Pin.rebuild at hr
        rw [if_pos hf] at hr
        have hf' : Pin.frameOk sqrt tol ((Op.check x).params ⟨lens, C, R, fu, fv, cu, cv, u, v, w, pitch, check, ext, extT, cam, camT, inv⟩) = true := hf
        rw [if_pos hf']
        simp only [Op.params, Pin.uvw, Pin.intr] at *
        rw [c5, c6] at *
        simp only [c7, c1, c2, c3, c4]) hr
    | focal a b x => cases x with
      | true => cases ho
      | false => exact absurd rfl (h1 a b)
    | offset a b x => cases x with
      | true => cases ho
      | false => exact absurd rfl (h2 a b)
    | center _ => cases ho
    | pose _ => cases ho
    | poseM _ => cases ho
    | frame _ _ _ => cases ho
    | intrinsics _ _ _ _ => cases ho
  have hpar : ∀ (l : List (Op K)) (r r' : Pin K), SameParams r r' →
      SameParams (l.foldl (fun r o => o.params r) r) (l.foldl (fun r o => o.params r) r') := by
    intro l
    induction l with
    | nil => intro r r' h; exact h
    | cons o l ih =>
      intro r r' h
      refine ih _ _ ?_
      obtain ⟨h1, h2, h3, h4, h5, h6, h7, h8, h9, h10, h11, h12⟩ := h
      cases o <;> simp only [Op.params, SameParams] <;> tauto
  induction l generalizing p with
  | nil =>
    simp only [Pin.run, Prod.mk.injEq, and_true] at h
    subst h
    exact ⟨hp, rfl, rfl, rfl, rfl, rfl, rfl, rfl, rfl, rfl, rfl, rfl, rfl⟩
  | cons o l ih =>
    have ho := hl o List.mem_cons_self
    unfold Pin.run at h
    cases hst : p.step sqrt tol o with
    | mk p1 e =>
      rw [hst] at h
      cases e with
      | some e => simp at h
      | none =>
        simp only at h
        have hp1 : Fresh sqrt tol p1 ∧ SameParams p1 (o.params p) := by
          unfold Pin.step at hst
          cases hr : o.rebuilds with
          | true =>
            rw [hr, if_pos rfl] at hst
            obtain ⟨r1, -, -, -, r5⟩ := rebuild_spec sqrt hs tol ht (o.params p)
            rw [hst] at r1 r5
            exact ⟨r5 rfl, r1⟩
          | false =>
            rw [hr] at hst
            simp only [Bool.false_eq_true, if_false, Prod.mk.injEq, and_true] at hst
            rw [← hst]
            exact ⟨hkeep p o hp hr ho.1 ho.2, rfl, rfl, rfl, rfl, rfl, rfl, rfl, rfl, rfl, rfl, rfl, rfl⟩
        obtain ⟨i1, i2⟩ := ih p1 hp1.1 (fun o' ho' => hl o' (List.mem_cons_of_mem _ ho')) h
        refine ⟨i1, ?_⟩
        have := hpar l p1 (o.params p) hp1.2
        obtain ⟨g1, g2, g3, g4, g5, g6, g7, g8, g9, g10, g11, g12⟩ := i2
        obtain ⟨k1, k2, k3, k4, k5, k6, k7, k8, k9, k10, k11, k12⟩ := this
        exact ⟨g1.trans k1, g2.trans k2, g3.trans k3, g4.trans k4, g5.trans k5, g6.trans k6, g7.trans k7, g8.trans k8, g9.trans k9,
          g10.trans k10, g11.trans k11, g12.trans k12⟩

end Verif.Camera
