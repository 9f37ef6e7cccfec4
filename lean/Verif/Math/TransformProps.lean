import Verif.Math.Transform
import Verif.Math.InverseProps
import Verif.BBox.Props
import Mathlib.Tactic.Linarith
import Mathlib.Tactic.Positivity
import Mathlib.Tactic.LinearCombination
import Mathlib.Data.Rat.Floor
/-
Proofs about the transform functors and their bounding boxes.
-/
namespace VW.Warp
open VW.Block (Rect)
open VW.BBox (Box growToInt big32)
open VW.Matrix (Mat)

variable {K : Type} [Field K] [LinearOrder K]

/-! ### Specification -/

/-- One of the two functions of a functor. -/
def Tx.dir (t : Tx K) (fwd : Bool) : Pt K → Pt K := if fwd then t.forward else t.reverse

/-- The expression's forward (or reverse) function at the point divides by nothing that is zero, and the scale
factors are not zero. -/
def Expr.Ok : Bool → Expr K → Pt K → Prop
  | _, .resample fx fy, _ => fx ≠ 0 ∧ fy ≠ 0
  | true, .homography H, p => weight H p ≠ 0
  | false, .homography H, p => ∀ I, VW.Matrix.inverse 3 H = some I → weight I p ≠ 0
  | fwd, .inverse e, p => Expr.Ok (!fwd) e p
  | true, .compose a b, p => Expr.Ok true b p ∧ ∀ t, b.build = some t → Expr.Ok true a (t.forward p)
  | false, .compose a b, p => Expr.Ok false a p ∧ ∀ t, a.build = some t → Expr.Ok false b (t.reverse p)
  | _, _, _ => True

/-- The expression has no homographies and no zero scale factors. -/
def Expr.Affine : Expr K → Prop
  | .resample fx fy => fx ≠ 0 ∧ fy ≠ 0
  | .homography _ => False
  | .inverse e => e.Affine
  | .compose a b => a.Affine ∧ b.Affine
  | _ => True

/-- The point is in the rectangle spanned by the pixels of the box. -/
def Between (b : Rect) (p : Pt K) : Prop :=
  (b.x0 : K) ≤ p.x ∧ p.x ≤ ((b.x1 - 1 : Int) : K) ∧ (b.y0 : K) ≤ p.y ∧ p.y ≤ ((b.y1 - 1 : Int) : K)

/-- The box of pixels covers the point: the point's pixel (rounded down) is in it. -/
def Covers (b : Rect) (p : Pt K) : Prop :=
  (b.x0 : K) ≤ p.x ∧ p.x < (b.x1 : K) ∧ (b.y0 : K) ≤ p.y ∧ p.y < (b.y1 : K)

/-! ### Round trips -/

section inv3
variable [IsStrictOrderedRing K]

theorem inverse3_eqs {H I : Mat K} (h : VW.Matrix.inverse 3 H = some I) (i j : Nat) (hi : i < 3) (hj : j < 3) :
    H i 0 * I 0 j + H i 1 * I 1 j + H i 2 * I 2 j = (if i = j then 1 else 0) ∧
    I i 0 * H 0 j + I i 1 * H 1 j + I i 2 * H 2 j = (if i = j then 1 else 0) := by
  obtain ⟨h1, h2⟩ := (VW.Matrix.inverse_correct 3 H).1 I h
  have e1 := congrFun (congrFun h1 ⟨i, hi⟩) ⟨j, hj⟩
  have e2 := congrFun (congrFun h2 ⟨i, hi⟩) ⟨j, hj⟩
  rw [_root_.Matrix.mul_apply, Fin.sum_univ_three, _root_.Matrix.one_apply] at e1 e2
  simp only [Fin.mk.injEq] at e1 e2
  exact ⟨e1, e2⟩

theorem inverse3_symm_eqs {H I : Mat K} (h : VW.Matrix.inverse 3 H = some I) :
    (∀ i j, i < 3 → j < 3 → I i 0 * H 0 j + I i 1 * H 1 j + I i 2 * H 2 j = (if i = j then 1 else 0)) ∧
    (∀ i j, i < 3 → j < 3 → H i 0 * I 0 j + H i 1 * I 1 j + H i 2 * I 2 j = (if i = j then 1 else 0)) :=
  ⟨fun i j hi hj => (inverse3_eqs h i j hi hj).2, fun i j hi hj => (inverse3_eqs h i j hi hj).1⟩

end inv3

omit [LinearOrder K] in
theorem weight_project {A B : Mat K} {p : Pt K} (h : weight A p ≠ 0) :
    weight B (project A p) * weight A p =
      (B 2 0 * A 0 0 + B 2 1 * A 1 0 + B 2 2 * A 2 0) * p.x + (B 2 0 * A 0 1 + B 2 1 * A 1 1 + B 2 2 * A 2 1) * p.y
      + (B 2 0 * A 0 2 + B 2 1 * A 1 2 + B 2 2 * A 2 2) := by
  have e1 : (project A p).x * weight A p = A 0 0 * p.x + A 0 1 * p.y + A 0 2 := div_mul_cancel₀ _ h
  have e2 : (project A p).y * weight A p = A 1 0 * p.x + A 1 1 * p.y + A 1 2 := div_mul_cancel₀ _ h
  have e3 : weight A p = A 2 0 * p.x + A 2 1 * p.y + A 2 2 := rfl
  have e4 : weight B (project A p) = B 2 0 * (project A p).x + B 2 1 * (project A p).y + B 2 2 := rfl
  rw [e4]
  linear_combination B 2 0 * e1 + B 2 1 * e2 + B 2 2 * e3

omit [LinearOrder K] in
theorem project_inverse {H I : Mat K}
    (h : ∀ i j, i < 3 → j < 3 → I i 0 * H 0 j + I i 1 * H 1 j + I i 2 * H 2 j = (if i = j then 1 else 0))
    {p : Pt K} (hw : weight H p ≠ 0) : weight I (project H p) ≠ 0 ∧ project I (project H p) = p := by
  have e := weight_project (B := I) hw
  have h20 := h 2 0 (by omega) (by omega)
  have h21 := h 2 1 (by omega) (by omega)
  have h22 := h 2 2 (by omega) (by omega)
  have h00 := h 0 0 (by omega) (by omega)
  have h01 := h 0 1 (by omega) (by omega)
  have h02 := h 0 2 (by omega) (by omega)
  have h10 := h 1 0 (by omega) (by omega)
  have h11 := h 1 1 (by omega) (by omega)
  have h12 := h 1 2 (by omega) (by omega)
  norm_num at h20 h21 h22 h00 h01 h02 h10 h11 h12
  rw [h20, h21, h22] at e
  have e' : weight I (project H p) * weight H p = 1 := by rw [e]; ring
  have hne : weight I (project H p) ≠ 0 := by
    intro h0; rw [h0, zero_mul] at e'; exact zero_ne_one e'
  refine ⟨hne, ?_⟩
  have e1 : (project H p).x * weight H p = H 0 0 * p.x + H 0 1 * p.y + H 0 2 := div_mul_cancel₀ _ hw
  have e2 : (project H p).y * weight H p = H 1 0 * p.x + H 1 1 * p.y + H 1 2 := div_mul_cancel₀ _ hw
  have e3 : weight H p = H 2 0 * p.x + H 2 1 * p.y + H 2 2 := rfl
  generalize hq : project H p = q at e1 e2 e' hne ⊢
  have k1 : (I 0 0 * q.x + I 0 1 * q.y + I 0 2) * weight H p = p.x := by
    linear_combination I 0 0 * e1 + I 0 1 * e2 + I 0 2 * e3 + p.x * h00 + p.y * h01 + h02
  have k2 : (I 1 0 * q.x + I 1 1 * q.y + I 1 2) * weight H p = p.y := by
    linear_combination I 1 0 * e1 + I 1 1 * e2 + I 1 2 * e3 + p.x * h10 + p.y * h11 + h12
  have k : ∀ z v, z * weight H p = v → z / weight I q = v := by
    intro z v hz
    rw [div_eq_iff hne, ← hz]
    linear_combination (-z) * e'
  show Pt.mk _ _ = p
  rw [k _ _ k1, k _ _ k2]

theorem inverse2_eqs {M I : Mat K} (h : VW.Matrix.inverse2 M = some I) :
    (M 0 0 * I 0 0 + M 0 1 * I 1 0 = 1 ∧ M 0 0 * I 0 1 + M 0 1 * I 1 1 = 0 ∧
     M 1 0 * I 0 0 + M 1 1 * I 1 0 = 0 ∧ M 1 0 * I 0 1 + M 1 1 * I 1 1 = 1) ∧
    (I 0 0 * M 0 0 + I 0 1 * M 1 0 = 1 ∧ I 0 0 * M 0 1 + I 0 1 * M 1 1 = 0 ∧
     I 1 0 * M 0 0 + I 1 1 * M 1 0 = 0 ∧ I 1 0 * M 0 1 + I 1 1 * M 1 1 = 1) := by
  obtain ⟨h1, h2⟩ := (VW.Matrix.inverse2_correct M).1 I h
  have g : ∀ (A B : Mat K), VW.Matrix.toM 2 A * VW.Matrix.toM 2 B = 1 →
      A 0 0 * B 0 0 + A 0 1 * B 1 0 = 1 ∧ A 0 0 * B 0 1 + A 0 1 * B 1 1 = 0 ∧
      A 1 0 * B 0 0 + A 1 1 * B 1 0 = 0 ∧ A 1 0 * B 0 1 + A 1 1 * B 1 1 = 1 := by
    intro A B hAB
    have f : ∀ i j : Fin 2, A i 0 * B 0 j + A i 1 * B 1 j = if i = j then 1 else 0 := by
      intro i j
      have := congrFun (congrFun hAB i) j
      rw [_root_.Matrix.mul_apply, Fin.sum_univ_two, _root_.Matrix.one_apply] at this
      exact this
    have f00 := f 0 0
    have f01 := f 0 1
    have f10 := f 1 0
    have f11 := f 1 1
    simp at f00 f01 f10 f11
    exact ⟨f00, f01, f10, f11⟩
  exact ⟨g M I h1, g I M h2⟩

theorem affine_dir {M : Mat K} {o : Pt K} {t : Tx K} (h : affine M o = some t) (fwd : Bool) (p : Pt K) :
    t.dir (!fwd) (t.dir fwd p) = p := by
  unfold affine at h
  simp only [Option.map_eq_some_iff] at h
  obtain ⟨I, hI, rfl⟩ := h
  obtain ⟨⟨a1, a2, a3, a4⟩, ⟨b1, b2, b3, b4⟩⟩ := inverse2_eqs hI
  obtain ⟨x, y⟩ := p
  cases fwd
  · simp only [Tx.dir, Bool.not_false, if_true, Bool.false_eq_true, if_false, Pt.mk.injEq]
    constructor
    · linear_combination (x - o.x) * a1 + (y - o.y) * a2
    · linear_combination (x - o.x) * a3 + (y - o.y) * a4
  · simp only [Tx.dir, Bool.not_true, if_true, Bool.false_eq_true, if_false, Pt.mk.injEq]
    constructor
    · linear_combination x * b1 + y * b2
    · linear_combination x * b3 + y * b4

variable [IsStrictOrderedRing K]

/-- Going through an expression in one direction and back in the other leaves every point where it was, as long
as no denominator vanishes on the way there; none vanishes on the way back. -/
theorem expr_roundtrip (e : Expr K) : ∀ (t : Tx K) (fwd : Bool) (p : Pt K), e.build = some t → e.Ok fwd p →
    t.dir (!fwd) (t.dir fwd p) = p ∧ e.Ok (!fwd) (t.dir fwd p) := by
  induction e with
  | identity =>
    intro t fwd p h _
    simp only [Expr.build, Option.some.injEq] at h
    subst h
    cases fwd <;> exact ⟨rfl, trivial⟩
  | resample fx fy =>
    intro t fwd p h ok
    simp only [Expr.build, Option.some.injEq] at h
    subst h
    have ok' : fx ≠ 0 ∧ fy ≠ 0 := by cases fwd <;> exact ok
    obtain ⟨h1, h2⟩ := ok'
    obtain ⟨x, y⟩ := p
    cases fwd
    · refine ⟨?_, ok⟩
      simp only [Tx.dir, Bool.not_false, if_true, Bool.false_eq_true, if_false, resample, Pt.mk.injEq]
      exact ⟨div_mul_cancel₀ _ h1, div_mul_cancel₀ _ h2⟩
    · refine ⟨?_, ok⟩
      simp only [Tx.dir, Bool.not_true, if_true, Bool.false_eq_true, if_false, resample, Pt.mk.injEq]
      exact ⟨mul_div_cancel_right₀ _ h1, mul_div_cancel_right₀ _ h2⟩
  | translate tx ty =>
    intro t fwd p h _
    simp only [Expr.build, Option.some.injEq] at h
    subst h
    obtain ⟨x, y⟩ := p
    cases fwd
    · refine ⟨?_, trivial⟩
      simp only [Tx.dir, Bool.not_false, if_true, Bool.false_eq_true, if_false, translate, Pt.mk.injEq]
      constructor <;> ring
    · refine ⟨?_, trivial⟩
      simp only [Tx.dir, Bool.not_true, if_true, Bool.false_eq_true, if_false, translate, Pt.mk.injEq]
      constructor <;> ring
  | linear M =>
    intro t fwd p h _
    simp only [Expr.build, linear, Option.map_eq_some_iff] at h
    obtain ⟨I, hI, rfl⟩ := h
    obtain ⟨⟨a1, a2, a3, a4⟩, ⟨b1, b2, b3, b4⟩⟩ := inverse2_eqs hI
    obtain ⟨x, y⟩ := p
    cases fwd
    · refine ⟨?_, trivial⟩
      simp only [Tx.dir, Bool.not_false, if_true, Bool.false_eq_true, if_false, apply2, Pt.mk.injEq]
      constructor
      · linear_combination x * a1 + y * a2
      · linear_combination x * a3 + y * a4
    · refine ⟨?_, trivial⟩
      simp only [Tx.dir, Bool.not_true, if_true, Bool.false_eq_true, if_false, apply2, Pt.mk.injEq]
      constructor
      · linear_combination x * b1 + y * b2
      · linear_combination x * b3 + y * b4
  | affine M o =>
    intro t fwd p h _
    exact ⟨affine_dir h fwd p, by cases fwd <;> trivial⟩
  | rotate c s o =>
    intro t fwd p h _
    exact ⟨affine_dir h fwd p, by cases fwd <;> trivial⟩
  | homography H =>
    intro t fwd p h ok
    simp only [Expr.build, homography, Option.map_eq_some_iff] at h
    obtain ⟨I, hI, rfl⟩ := h
    obtain ⟨e1, e2⟩ := inverse3_symm_eqs hI
    cases fwd
    · have := project_inverse e2 (ok I hI)
      exact ⟨this.2, this.1⟩
    · have := project_inverse e1 (p := p) ok
      refine ⟨this.2, ?_⟩
      intro J hJ
      rw [hI, Option.some.injEq] at hJ
      subst hJ
      exact this.1
  | inverse e ih =>
    intro t fwd p h ok
    simp only [Expr.build, Option.map_eq_some_iff] at h
    obtain ⟨u, hu, rfl⟩ := h
    have hd : ∀ b, (Tx.inverse u).dir b = u.dir (!b) := by intro b; cases b <;> rfl
    have ok' : e.Ok (!fwd) p := by cases fwd <;> exact ok
    have := ih u (!fwd) p hu ok'
    rw [hd, hd]
    refine ⟨this.1, ?_⟩
    have h2 := this.2
    cases fwd <;> exact h2
  | compose a b iha ihb =>
    intro t fwd p h ok
    simp only [Expr.build, bind, pure, Option.bind_eq_some_iff, Option.some.injEq] at h
    obtain ⟨t1, h1, t2, h2, rfl⟩ := h
    cases fwd
    · obtain ⟨ok1, ok2⟩ := ok
      obtain ⟨r1, r2⟩ := iha t1 false p h1 ok1
      obtain ⟨s1, s2⟩ := ihb t2 false (t1.reverse p) h2 (ok2 t1 h1)
      constructor
      · show t1.forward (t2.forward (t2.reverse (t1.reverse p))) = p
        have : t2.forward (t2.reverse (t1.reverse p)) = t1.reverse p := s1
        rw [this]; exact r1
      · refine ⟨s2, ?_⟩
        intro u hu
        rw [h2, Option.some.injEq] at hu
        subst hu
        have : t2.forward ((compose t1 t2).dir false p) = t1.reverse p := s1
        rw [this]; exact r2
    · obtain ⟨ok1, ok2⟩ := ok
      obtain ⟨r1, r2⟩ := ihb t2 true p h2 ok1
      obtain ⟨s1, s2⟩ := iha t1 true (t2.forward p) h1 (ok2 t2 h2)
      constructor
      · show t2.reverse (t1.reverse (t1.forward (t2.forward p))) = p
        have : t1.reverse (t1.forward (t2.forward p)) = t2.forward p := s1
        rw [this]; exact r1
      · refine ⟨s2, ?_⟩
        intro u hu
        rw [h1, Option.some.injEq] at hu
        subst hu
        have : t1.reverse ((compose t1 t2).dir true p) = t2.forward p := s1
        rw [this]; exact r2

omit [IsStrictOrderedRing K] in
theorem affine_ok (e : Expr K) : ∀ (fwd : Bool) (p : Pt K), e.Affine → e.Ok fwd p := by
  induction e with
  | resample fx fy => intro fwd p h; cases fwd <;> exact h
  | homography H => intro fwd p h; exact absurd h id
  | inverse e ih => intro fwd p h; cases fwd <;> exact ih _ p h
  | compose a b iha ihb =>
    intro fwd p h
    cases fwd
    · exact ⟨iha _ _ h.1, fun t _ => ihb _ _ h.2⟩
    · exact ⟨ihb _ _ h.2, fun t _ => iha _ _ h.1⟩
  | _ => intro fwd p _; cases fwd <;> trivial

/-! ### Every expression is a projective map -/

/-- The product of two matrices of size 3x3. -/
def mul3 (B A : Mat K) : Mat K := fun i j => B i 0 * A 0 j + B i 1 * A 1 j + B i 2 * A 2 j

omit [LinearOrder K] [IsStrictOrderedRing K] in
theorem project_mul {A B : Mat K} {p : Pt K} (h : weight A p ≠ 0) (h' : weight B (project A p) ≠ 0) :
    weight (mul3 B A) p ≠ 0 ∧ project (mul3 B A) p = project B (project A p) := by
  have e : weight (mul3 B A) p = weight B (project A p) * weight A p := by
    rw [weight_project h]; simp only [weight, mul3]
  have hne : weight (mul3 B A) p ≠ 0 := by rw [e]; exact mul_ne_zero h' h
  refine ⟨hne, ?_⟩
  have e1 : (project A p).x * weight A p = A 0 0 * p.x + A 0 1 * p.y + A 0 2 := div_mul_cancel₀ _ h
  have e2 : (project A p).y * weight A p = A 1 0 * p.x + A 1 1 * p.y + A 1 2 := div_mul_cancel₀ _ h
  have e3 : weight A p = A 2 0 * p.x + A 2 1 * p.y + A 2 2 := rfl
  generalize hq : project A p = q at e e1 e2 h' ⊢
  have k : ∀ z n, n = z * weight A p → n / weight (mul3 B A) p = z / weight B q := by
    intro z n hn
    rw [div_eq_div_iff hne h', hn, e]; ring
  show Pt.mk _ _ = Pt.mk _ _
  congr 1
  · apply k
    simp only [mul3]
    linear_combination (-(B 0 0)) * e1 - B 0 1 * e2 - B 0 2 * e3
  · apply k
    simp only [mul3]
    linear_combination (-(B 1 0)) * e1 - B 1 1 * e2 - B 1 2 * e3

/-- On the set of points the function is a projective map without poles. -/
def IsProj (f : Pt K → Pt K) (S : Pt K → Prop) : Prop :=
  ∃ A : Mat K, ∀ p, S p → weight A p ≠ 0 ∧ f p = project A p

/-- The matrix of an affine map. -/
def affMat (a b x c d y : K) : Mat K := fun i j =>
  if i = 0 then (if j = 0 then a else if j = 1 then b else x)
  else if i = 1 then (if j = 0 then c else if j = 1 then d else y) else (if j = 2 then 1 else 0)

omit [LinearOrder K] [IsStrictOrderedRing K] in
theorem isProj_affine (a b x c d y : K) (f : Pt K → Pt K) (S : Pt K → Prop)
    (hf : ∀ p, f p = ⟨a * p.x + b * p.y + x, c * p.x + d * p.y + y⟩) : IsProj f S := by
  refine ⟨affMat a b x c d y, fun p _ => ?_⟩
  have hw : weight (affMat a b x c d y) p = 1 := by simp [weight, affMat]
  refine ⟨by rw [hw]; exact one_ne_zero, ?_⟩
  rw [hf]
  simp only [project, hw, div_one]
  simp [affMat]

omit [IsStrictOrderedRing K] in
theorem affine_proj {M : Mat K} {o : Pt K} {t : Tx K} (h : affine M o = some t) (fwd : Bool) (S : Pt K → Prop) :
    IsProj (t.dir fwd) S := by
  unfold affine at h
  simp only [Option.map_eq_some_iff] at h
  obtain ⟨I, hI, rfl⟩ := h
  cases fwd
  · apply isProj_affine (I 0 0) (I 0 1) (-(I 0 0 * o.x + I 0 1 * o.y)) (I 1 0) (I 1 1) (-(I 1 0 * o.x + I 1 1 * o.y))
    intro p
    show Pt.mk _ _ = Pt.mk _ _
    congr 1 <;> ring
  · apply isProj_affine (M 0 0) (M 0 1) o.x (M 1 0) (M 1 1) o.y
    intro p; rfl

omit [IsStrictOrderedRing K] in
theorem expr_proj (e : Expr K) : ∀ (t : Tx K) (fwd : Bool) (S : Pt K → Prop), e.build = some t →
    (∀ p, S p → e.Ok fwd p) → IsProj (t.dir fwd) S := by
  induction e with
  | identity =>
    intro t fwd S h _
    simp only [Expr.build, Option.some.injEq] at h
    subst h
    apply isProj_affine 1 0 0 0 1 0
    intro p; obtain ⟨x, y⟩ := p; cases fwd <;> simp [Tx.dir, identity]
  | resample fx fy =>
    intro t fwd S h _
    simp only [Expr.build, Option.some.injEq] at h
    subst h
    cases fwd
    · apply isProj_affine (1 / fx) 0 0 0 (1 / fy) 0
      intro p; obtain ⟨x, y⟩ := p
      simp [Tx.dir, resample, div_eq_inv_mul]
    · apply isProj_affine fx 0 0 0 fy 0
      intro p; obtain ⟨x, y⟩ := p
      simp [Tx.dir, resample, mul_comm]
  | translate tx ty =>
    intro t fwd S h _
    simp only [Expr.build, Option.some.injEq] at h
    subst h
    cases fwd
    · apply isProj_affine 1 0 (-tx) 0 1 (-ty)
      intro p; obtain ⟨x, y⟩ := p
      simp [Tx.dir, translate, sub_eq_add_neg]
    · apply isProj_affine 1 0 tx 0 1 ty
      intro p; obtain ⟨x, y⟩ := p
      simp [Tx.dir, translate]
  | linear M =>
    intro t fwd S h _
    simp only [Expr.build, linear, Option.map_eq_some_iff] at h
    obtain ⟨I, hI, rfl⟩ := h
    cases fwd
    · apply isProj_affine (I 0 0) (I 0 1) 0 (I 1 0) (I 1 1) 0
      intro p; simp [Tx.dir, apply2]
    · apply isProj_affine (M 0 0) (M 0 1) 0 (M 1 0) (M 1 1) 0
      intro p; simp [Tx.dir, apply2]
  | affine M o => intro t fwd S h _; exact affine_proj h fwd S
  | rotate c s o => intro t fwd S h _; exact affine_proj h fwd S
  | homography H =>
    intro t fwd S h ok
    simp only [Expr.build, homography, Option.map_eq_some_iff] at h
    obtain ⟨I, hI, rfl⟩ := h
    cases fwd
    · exact ⟨I, fun p hp => ⟨ok p hp I hI, rfl⟩⟩
    · exact ⟨H, fun p hp => ⟨ok p hp, rfl⟩⟩
  | inverse e ih =>
    intro t fwd S h ok
    simp only [Expr.build, Option.map_eq_some_iff] at h
    obtain ⟨u, hu, rfl⟩ := h
    have hd : (Tx.inverse u).dir fwd = u.dir (!fwd) := by cases fwd <;> rfl
    rw [hd]
    apply ih u (!fwd) S hu
    intro p hp
    have := ok p hp
    cases fwd <;> exact this
  | compose a b iha ihb =>
    intro t fwd S h ok
    simp only [Expr.build, bind, pure, Option.bind_eq_some_iff, Option.some.injEq] at h
    obtain ⟨t1, h1, t2, h2, rfl⟩ := h
    cases fwd
    · obtain ⟨A, hA⟩ := iha t1 false S h1 (fun p hp => (ok p hp).1)
      obtain ⟨B, hB⟩ := ihb t2 false (fun q => ∃ p, S p ∧ q = t1.reverse p) h2
        (by rintro q ⟨p, hp, rfl⟩; exact (ok p hp).2 t1 h1)
      refine ⟨mul3 B A, fun p hp => ?_⟩
      obtain ⟨w1, e1⟩ := hA p hp
      obtain ⟨w2, e2⟩ := hB (t1.reverse p) ⟨p, hp, rfl⟩
      have e1' : t1.reverse p = project A p := e1
      rw [e1'] at w2 e2
      obtain ⟨w3, e3⟩ := project_mul w1 w2
      refine ⟨w3, ?_⟩
      rw [e3, ← e2]
      show t2.reverse (t1.reverse p) = _
      rw [e1']; rfl
    · obtain ⟨A, hA⟩ := ihb t2 true S h2 (fun p hp => (ok p hp).1)
      obtain ⟨B, hB⟩ := iha t1 true (fun q => ∃ p, S p ∧ q = t2.forward p) h1
        (by rintro q ⟨p, hp, rfl⟩; exact (ok p hp).2 t2 h2)
      refine ⟨mul3 B A, fun p hp => ?_⟩
      obtain ⟨w1, e1⟩ := hA p hp
      obtain ⟨w2, e2⟩ := hB (t2.forward p) ⟨p, hp, rfl⟩
      have e1' : t2.forward p = project A p := e1
      rw [e1'] at w2 e2
      obtain ⟨w3, e3⟩ := project_mul w1 w2
      refine ⟨w3, ?_⟩
      rw [e3, ← e2]
      show t1.forward (t2.forward p) = _
      rw [e1']; rfl

omit [IsStrictOrderedRing K] in
/-- All expressions are marked convex, so their boxes are computed from four corners. -/
theorem expr_type (e : Expr K) : ∀ t, e.build = some t → t.forwardType = .convex ∧ t.reverseType = .convex := by
  induction e with
  | identity => intro t h; simp only [Expr.build, Option.some.injEq] at h; subst h; exact ⟨rfl, rfl⟩
  | resample fx fy => intro t h; simp only [Expr.build, Option.some.injEq] at h; subst h; exact ⟨rfl, rfl⟩
  | translate tx ty => intro t h; simp only [Expr.build, Option.some.injEq] at h; subst h; exact ⟨rfl, rfl⟩
  | linear M =>
    intro t h; simp only [Expr.build, linear, Option.map_eq_some_iff] at h
    obtain ⟨I, _, rfl⟩ := h; exact ⟨rfl, rfl⟩
  | affine M o =>
    intro t h; simp only [Expr.build, affine, Option.map_eq_some_iff] at h
    obtain ⟨I, _, rfl⟩ := h; exact ⟨rfl, rfl⟩
  | rotate c s o =>
    intro t h; simp only [Expr.build, rotate, affine, Option.map_eq_some_iff] at h
    obtain ⟨I, _, rfl⟩ := h; exact ⟨rfl, rfl⟩
  | homography H =>
    intro t h; simp only [Expr.build, homography, Option.map_eq_some_iff] at h
    obtain ⟨I, _, rfl⟩ := h; exact ⟨rfl, rfl⟩
  | inverse e ih =>
    intro t h
    simp only [Expr.build, Option.map_eq_some_iff] at h
    obtain ⟨u, hu, rfl⟩ := h
    exact ⟨(ih u hu).2, (ih u hu).1⟩
  | compose a b iha ihb =>
    intro t h
    simp only [Expr.build, bind, pure, Option.bind_eq_some_iff, Option.some.injEq] at h
    obtain ⟨t1, h1, t2, h2, rfl⟩ := h
    simp [compose, composeType, iha t1 h1, ihb t2 h2]

/-! ### Boxes -/

omit [IsStrictOrderedRing K] in
theorem growAll_eq (f : Pt K → Pt K) (l : List (Int × Int)) :
    growAll f l = (Box.default 2 (big32 : K)).growPts (l.map fun q => (f (pixel q)).vec) := by
  unfold growAll Box.growPts
  rw [List.foldl_map]

omit [IsStrictOrderedRing K] in
/-- Every point looked at is in the box. -/
theorem growAll_mem (f : Pt K → Pt K) (l : List (Int × Int)) {q : Int × Int} (hq : q ∈ l) :
    ∀ i, (growAll f l).min i ≤ (f (pixel q)).vec i ∧ (f (pixel q)).vec i ≤ (growAll f l).max i := by
  rw [growAll_eq]
  exact ((BBox.grow_least (Box.default 2 (big32 : K)) _ _).1 (fun i => ⟨le_refl _, le_refl _⟩)).2 _
    (List.mem_map.2 ⟨q, hq, rfl⟩)

omit [IsStrictOrderedRing K] in
/-- A box side is the side of a point looked at, or still the initial one. -/
theorem growAll_attained (f : Pt K → Pt K) (l : List (Int × Int)) (i : Fin 2) :
    ((growAll f l).min i = (big32 : K) ∨ ∃ q ∈ l, (growAll f l).min i = (f (pixel q)).vec i) ∧
    ((growAll f l).max i = -(big32 : K) ∨ ∃ q ∈ l, (growAll f l).max i = (f (pixel q)).vec i) := by
  unfold growAll
  have : ∀ (b : Box K 2) (P : K → Prop) (Q : K → Prop), P (b.min i) → Q (b.max i) →
      let c := l.foldl (fun b q => b.growPt (f (pixel q)).vec) b
      (P (c.min i) ∨ ∃ q ∈ l, c.min i = (f (pixel q)).vec i) ∧
      (Q (c.max i) ∨ ∃ q ∈ l, c.max i = (f (pixel q)).vec i) := by
    induction l with
    | nil => intro b P Q h1 h2; exact ⟨Or.inl h1, Or.inl h2⟩
    | cons q l ih =>
      intro b P Q h1 h2
      simp only [List.foldl_cons]
      have := ih (b.growPt (f (pixel q)).vec) (fun z => P z ∨ z = (f (pixel q)).vec i)
        (fun z => Q z ∨ z = (f (pixel q)).vec i)
        (by
          simp only [Box.growPt]
          by_cases h : (f (pixel q)).vec i < b.min i
          · rw [if_pos h]; exact Or.inr rfl
          · rw [if_neg h]; exact Or.inl h1)
        (by
          simp only [Box.growPt]
          by_cases h : (f (pixel q)).vec i > b.max i
          · rw [if_pos h]; exact Or.inr rfl
          · rw [if_neg h]; exact Or.inl h2)
      simp only at this
      obtain ⟨g1, g2⟩ := this
      constructor
      · rcases g1 with (h | h) | ⟨r, hr, h⟩
        · exact Or.inl h
        · exact Or.inr ⟨q, List.mem_cons_self, h⟩
        · exact Or.inr ⟨r, List.mem_cons_of_mem _ hr, h⟩
      · rcases g2 with (h | h) | ⟨r, hr, h⟩
        · exact Or.inl h
        · exact Or.inr ⟨q, List.mem_cons_self, h⟩
        · exact Or.inr ⟨r, List.mem_cons_of_mem _ hr, h⟩
  exact this (Box.default 2 (big32 : K)) (fun z => z = (big32 : K)) (fun z => z = -(big32 : K)) rfl rfl

omit [IsStrictOrderedRing K] in
theorem mem_intRange {lo hi x : Int} : x ∈ intRange lo hi ↔ lo ≤ x ∧ x < hi := by
  unfold intRange
  simp only [List.mem_map, List.mem_range]
  constructor
  · rintro ⟨k, hk, rfl⟩; omega
  · rintro ⟨h1, h2⟩; exact ⟨(x - lo).toNat, by omega, by omega⟩

theorem has_iff {b : Rect} {x y : Int} : b.has x y = true ↔ b.x0 ≤ x ∧ b.y0 ≤ y ∧ x < b.x1 ∧ y < b.y1 := by
  simp [Rect.has, and_assoc]

theorem nonempty_of_has {b : Rect} {x y : Int} (h : b.has x y = true) : b.empty = false := by
  rw [has_iff] at h
  simp [Rect.empty]; omega

/-- Which pixels are looked at: the four corners, the border, or all. -/
theorem mem_samples (t : FType) (b : Rect) (hb : b.empty = false) (x y : Int) :
    (x, y) ∈ samples t b ↔ b.has x y = true ∧ match t with
      | .convex => (x = b.x0 ∨ x = b.x1 - 1) ∧ (y = b.y0 ∨ y = b.y1 - 1)
      | .continuous => x = b.x0 ∨ x = b.x1 - 1 ∨ y = b.y0 ∨ y = b.y1 - 1
      | .discontinuous => True := by
  have hb' : b.x0 < b.x1 ∧ b.y0 < b.y1 := by
    simp [Rect.empty] at hb; exact hb
  rw [has_iff]
  cases t with
  | convex =>
    simp only [samples, List.mem_cons, Prod.mk.injEq, List.not_mem_nil, or_false]
    omega
  | continuous =>
    simp only [samples, List.mem_append, List.mem_flatMap, mem_intRange, List.mem_cons, Prod.mk.injEq, List.not_mem_nil,
      or_false]
    constructor
    · rintro (⟨a, ha, h⟩ | ⟨a, ha, h⟩)
      · rcases h with ⟨rfl, rfl⟩ | ⟨rfl, rfl⟩ <;> omega
      · rcases h with ⟨rfl, rfl⟩ | ⟨rfl, rfl⟩ <;> omega
    · rintro ⟨h1, h2⟩
      by_cases hy : y = b.y0 ∨ y = b.y1 - 1
      · left; refine ⟨x, by omega, ?_⟩
        rcases hy with rfl | rfl
        · exact Or.inl ⟨rfl, rfl⟩
        · exact Or.inr ⟨rfl, rfl⟩
      · right; refine ⟨y, by omega, ?_⟩
        omega
  | discontinuous =>
    simp only [samples, List.mem_flatMap, List.mem_map, mem_intRange, Prod.mk.injEq]
    constructor
    · rintro ⟨a, ha, c, hc, rfl, rfl⟩; exact ⟨by omega, trivial⟩
    · rintro ⟨h1, _⟩; exact ⟨y, by omega, x, by omega, rfl, rfl⟩

/-- An affine function that is nowhere zero on a rectangle has one sign there. -/
theorem affine_sign (b : Rect) (a c d : K) (h : ∀ p : Pt K, Between b p → a * p.x + c * p.y + d ≠ 0) :
    (∀ p : Pt K, Between b p → 0 < a * p.x + c * p.y + d) ∨ (∀ p : Pt K, Between b p → a * p.x + c * p.y + d < 0) := by
  by_contra hcon
  rw [not_or] at hcon
  obtain ⟨h1, h2⟩ := hcon
  simp only [not_forall, not_lt] at h1 h2
  obtain ⟨q, hq, hq'⟩ := h1
  obtain ⟨p, hp, hp'⟩ := h2
  generalize hG : a * p.x + c * p.y + d = G at hp'
  generalize hF : a * q.x + c * q.y + d = F at hq'
  have hG0 : 0 < G := lt_of_le_of_ne hp' (fun e => h p hp (by rw [hG]; exact e.symm))
  have hF0 : F < 0 := lt_of_le_of_ne hq' (fun e => h q hq (by rw [hF]; exact e))
  have hd : 0 < G - F := by linarith
  obtain ⟨s, hs⟩ : ∃ s, s = G / (G - F) := ⟨_, rfl⟩
  have hs0 : 0 ≤ s := by rw [hs]; exact div_nonneg hG0.le hd.le
  have hs1 : s ≤ 1 := by rw [hs, div_le_one hd]; linarith
  have hse : s * (G - F) = G := by rw [hs]; exact div_mul_cancel₀ _ (ne_of_gt hd)
  obtain ⟨p1, p2, p3, p4⟩ := hp
  obtain ⟨q1, q2, q3, q4⟩ := hq
  refine h ⟨p.x + s * (q.x - p.x), p.y + s * (q.y - p.y)⟩ ⟨?_, ?_, ?_, ?_⟩ ?_
  · show _ ≤ p.x + s * (q.x - p.x)
    have := mul_nonneg hs0 (sub_nonneg.2 q1); have := mul_nonneg (sub_nonneg.2 hs1) (sub_nonneg.2 p1)
    linarith
  · show p.x + s * (q.x - p.x) ≤ _
    have := mul_nonneg hs0 (sub_nonneg.2 q2); have := mul_nonneg (sub_nonneg.2 hs1) (sub_nonneg.2 p2)
    linarith
  · show _ ≤ p.y + s * (q.y - p.y)
    have := mul_nonneg hs0 (sub_nonneg.2 q3); have := mul_nonneg (sub_nonneg.2 hs1) (sub_nonneg.2 p3)
    linarith
  · show p.y + s * (q.y - p.y) ≤ _
    have := mul_nonneg hs0 (sub_nonneg.2 q4); have := mul_nonneg (sub_nonneg.2 hs1) (sub_nonneg.2 p4)
    linarith
  · simp only
    linear_combination hG + s * (hF - hG) - hse

/-- An affine function that is not negative in the four corners is not negative between them. -/
theorem affine_corners (b : Rect) (a c d : K)
    (h : ∀ x y : Int, (x = b.x0 ∨ x = b.x1 - 1) → (y = b.y0 ∨ y = b.y1 - 1) → 0 ≤ a * (x : K) + c * (y : K) + d)
    (p : Pt K) (hp : Between b p) : 0 ≤ a * p.x + c * p.y + d := by
  obtain ⟨p1, p2, p3, p4⟩ := hp
  rcases le_total 0 a with ha | ha <;> rcases le_total 0 c with hc | hc
  · have := h b.x0 b.y0 (Or.inl rfl) (Or.inl rfl)
    have := mul_nonneg ha (sub_nonneg.2 p1); have := mul_nonneg hc (sub_nonneg.2 p3)
    linarith
  · have := h b.x0 (b.y1 - 1) (Or.inl rfl) (Or.inr rfl)
    have := mul_nonneg ha (sub_nonneg.2 p1); have := mul_nonneg_of_nonpos_of_nonpos hc (sub_nonpos.2 p4)
    linarith
  · have := h (b.x1 - 1) b.y0 (Or.inr rfl) (Or.inl rfl)
    have := mul_nonneg_of_nonpos_of_nonpos ha (sub_nonpos.2 p2); have := mul_nonneg hc (sub_nonneg.2 p3)
    linarith
  · have := h (b.x1 - 1) (b.y1 - 1) (Or.inr rfl) (Or.inr rfl)
    have := mul_nonneg_of_nonpos_of_nonpos ha (sub_nonpos.2 p2)
    have := mul_nonneg_of_nonpos_of_nonpos hc (sub_nonpos.2 p4)
    linarith

/-- Bounds in the corners of a quotient of affine functions are bounds between them. -/
theorem quotient_corners (b : Rect) (hb : b.empty = false) (A : Mat K) (hw : ∀ p, Between b p → weight A p ≠ 0) (r : Nat) (m : K)
    (p : Pt K) (hp : Between b p) :
    ((∀ x y : Int, (x = b.x0 ∨ x = b.x1 - 1) → (y = b.y0 ∨ y = b.y1 - 1) →
        m ≤ (A r 0 * (x : K) + A r 1 * (y : K) + A r 2) / weight A (pixel (x, y))) →
      m ≤ (A r 0 * p.x + A r 1 * p.y + A r 2) / weight A p) ∧
    ((∀ x y : Int, (x = b.x0 ∨ x = b.x1 - 1) → (y = b.y0 ∨ y = b.y1 - 1) →
        (A r 0 * (x : K) + A r 1 * (y : K) + A r 2) / weight A (pixel (x, y)) ≤ m) →
      (A r 0 * p.x + A r 1 * p.y + A r 2) / weight A p ≤ m) := by
  have hb' : b.x0 < b.x1 ∧ b.y0 < b.y1 := by
    simp [Rect.empty] at hb; exact hb
  have hcorner : ∀ x y : Int, (x = b.x0 ∨ x = b.x1 - 1) → (y = b.y0 ∨ y = b.y1 - 1) → Between b (pixel (K := K) (x, y)) := by
    intro x y hx hy
    simp only [Between, pixel]
    refine ⟨?_, ?_, ?_, ?_⟩ <;> apply Int.cast_le.2 <;> omega
  rcases affine_sign b (A 2 0) (A 2 1) (A 2 2) hw with hpos | hneg
  · have hp0 : 0 < weight A p := hpos p hp
    constructor
    · intro h
      rw [le_div_iff₀ hp0]
      have := affine_corners b (A r 0 - m * A 2 0) (A r 1 - m * A 2 1) (A r 2 - m * A 2 2)
        (by
          intro x y hx hy
          have h1 := h x y hx hy
          have h2 : 0 < weight A (pixel (x, y)) := hpos _ (hcorner x y hx hy)
          rw [le_div_iff₀ h2] at h1
          simp only [weight, pixel] at h1
          linarith) p hp
      simp only [weight]; linarith
    · intro h
      rw [div_le_iff₀ hp0]
      have := affine_corners b (m * A 2 0 - A r 0) (m * A 2 1 - A r 1) (m * A 2 2 - A r 2)
        (by
          intro x y hx hy
          have h1 := h x y hx hy
          have h2 : 0 < weight A (pixel (x, y)) := hpos _ (hcorner x y hx hy)
          rw [div_le_iff₀ h2] at h1
          simp only [weight, pixel] at h1
          linarith) p hp
      simp only [weight]; linarith
  · have hp0 : weight A p < 0 := hneg p hp
    constructor
    · intro h
      rw [le_div_iff_of_neg hp0]
      have := affine_corners b (m * A 2 0 - A r 0) (m * A 2 1 - A r 1) (m * A 2 2 - A r 2)
        (by
          intro x y hx hy
          have h1 := h x y hx hy
          have h2 : weight A (pixel (x, y)) < 0 := hneg _ (hcorner x y hx hy)
          rw [le_div_iff_of_neg h2] at h1
          simp only [weight, pixel] at h1
          linarith) p hp
      simp only [weight]; linarith
    · intro h
      rw [div_le_iff_of_neg hp0]
      have := affine_corners b (A r 0 - m * A 2 0) (A r 1 - m * A 2 1) (A r 2 - m * A 2 2)
        (by
          intro x y hx hy
          have h1 := h x y hx hy
          have h2 : weight A (pixel (x, y)) < 0 := hneg _ (hcorner x y hx hy)
          rw [div_le_iff_of_neg h2] at h1
          simp only [weight, pixel] at h1
          linarith) p hp
      simp only [weight]; linarith

/-- A projective map without poles between the pixels keeps every point between the extremes of the corners. -/
theorem proj_in_box (f : Pt K → Pt K) (b : Rect) (hb : b.empty = false) (hf : IsProj f (Between b)) (l : List (Int × Int))
    (hl : ∀ x y : Int, (x = b.x0 ∨ x = b.x1 - 1) → (y = b.y0 ∨ y = b.y1 - 1) → (x, y) ∈ l) (p : Pt K) (hp : Between b p) :
    ∀ i, (growAll f l).min i ≤ (f p).vec i ∧ (f p).vec i ≤ (growAll f l).max i := by
  obtain ⟨A, hA⟩ := hf
  have hw : ∀ p, Between b p → weight A p ≠ 0 := fun p hp => (hA p hp).1
  have hb' : b.x0 < b.x1 ∧ b.y0 < b.y1 := by
    simp [Rect.empty] at hb; exact hb
  have hc : ∀ x y : Int, (x = b.x0 ∨ x = b.x1 - 1) → (y = b.y0 ∨ y = b.y1 - 1) → f (pixel (x, y)) = project A (pixel (x, y)) := by
    intro x y hx hy
    apply (hA _ _).2
    simp only [Between, pixel]
    refine ⟨?_, ?_, ?_, ?_⟩ <;> apply Int.cast_le.2 <;> omega
  rw [(hA p hp).2]
  intro i
  have hv : ∀ q : Pt K, (project A q).vec i = (A i 0 * q.x + A i 1 * q.y + A i 2) / weight A q := by
    intro q; fin_cases i <;> rfl
  rw [hv]
  constructor
  · apply (quotient_corners b hb A hw i _ p hp).1
    intro x y hx hy
    have := (growAll_mem f l (hl x y hx hy) i).1
    rw [hc x y hx hy, hv] at this
    exact this
  · apply (quotient_corners b hb A hw i _ p hp).2
    intro x y hx hy
    have := (growAll_mem f l (hl x y hx hy) i).2
    rw [hc x y hx hy, hv] at this
    exact this

section floor
variable [FloorRing K]

theorem covers_of_closed (c : Box K 2) (p : Pt K) (h : ∀ i, c.min i ≤ p.vec i ∧ p.vec i ≤ c.max i) :
    Covers (toRect (growToInt c)) p := by
  have hle : ∀ i, c.min i ≤ c.max i := fun i => le_trans (h i).1 (h i).2
  have := (BBox.growToInt_encloses c hle).1 p.vec h
  exact ⟨(this 0).1, (this 0).2, (this 1).1, (this 1).2⟩

/-- Every pixel (in fact every point between the pixels) of the box has its transform in the transformed box:
for all functors built of scalings, translations, linear, affine, rotating and projective functors, their
inverses and compositions, as long as none of the projections has a pole between the pixels of the box. -/
theorem bbox_covers_partial (e : Expr K) (t : Tx K) (he : e.build = some t) (fwd : Bool) (b : Rect) (hb : b.empty = false)
    (hok : ∀ p, Between b p → e.Ok fwd p) (p : Pt K) (hp : Between b p) :
    Covers (if fwd then t.forwardBBox b else t.reverseBBox b) (t.dir fwd p) := by
  have ht := expr_type e t he
  have hf := expr_proj e t fwd (Between b) he hok
  have key : Covers (boxOf (t.dir fwd) .convex b) (t.dir fwd p) := by
    unfold boxOf
    rw [hb, if_neg (by simp)]
    apply covers_of_closed
    apply proj_in_box (t.dir fwd) b hb hf _ _ p hp
    intro x y hx hy
    rw [mem_samples _ _ hb, has_iff]
    have hb' : b.x0 < b.x1 ∧ b.y0 < b.y1 := by
      simp [Rect.empty] at hb; exact hb
    exact ⟨by omega, hx, hy⟩
  cases fwd
  · simp only [Tx.reverseBBox, ht.2, Bool.false_eq_true, if_false]; exact key
  · simp only [Tx.forwardBBox, ht.1, if_true]; exact key

/-- Without homographies there is no condition. -/
theorem bbox_covers_affine (e : Expr K) (t : Tx K) (he : e.build = some t) (ha : e.Affine) (b : Rect) (x y : Int)
    (h : b.has x y = true) :
    Covers (t.forwardBBox b) (t.forward (pixel (x, y))) ∧ Covers (t.reverseBBox b) (t.reverse (pixel (x, y))) := by
  have hb := nonempty_of_has h
  have hp : Between b (pixel (K := K) (x, y)) := by
    rw [has_iff] at h
    simp only [Between, pixel]
    refine ⟨?_, ?_, ?_, ?_⟩ <;> apply Int.cast_le.2 <;> omega
  constructor
  · have := bbox_covers_partial e t he true b hb (fun p _ => affine_ok e true p ha) _ hp
    simpa [Tx.dir] using this
  · have := bbox_covers_partial e t he false b hb (fun p _ => affine_ok e false p ha) _ hp
    simpa [Tx.dir] using this

/-- For a function marked discontinuous every pixel is transformed, so any function's box is right. -/
theorem discontinuous_covers (f : Pt K → Pt K) (b : Rect) (x y : Int) (h : b.has x y = true) :
    Covers (boxOf f .discontinuous b) (f (pixel (x, y))) := by
  have hb := nonempty_of_has h
  unfold boxOf
  rw [hb, if_neg (by simp)]
  apply covers_of_closed
  apply growAll_mem
  rw [mem_samples _ _ hb]
  exact ⟨h, trivial⟩

/-- For a function marked continuous the border decides: the box is right for every pixel whose transform is
between transforms of pixels of the border. -/
theorem continuous_covers_partial (f : Pt K → Pt K) (b : Rect) (x y : Int) (h : b.has x y = true)
    (hm : ∀ i, (∃ u v, (u, v) ∈ samples .continuous b ∧ (f (pixel (u, v))).vec i ≤ (f (pixel (x, y))).vec i) ∧
      (∃ u v, (u, v) ∈ samples .continuous b ∧ (f (pixel (x, y))).vec i ≤ (f (pixel (u, v))).vec i)) :
    Covers (boxOf f .continuous b) (f (pixel (x, y))) := by
  have hb := nonempty_of_has h
  unfold boxOf
  rw [hb, if_neg (by simp)]
  apply covers_of_closed
  intro i
  obtain ⟨⟨u, v, h1, h2⟩, ⟨u', v', h3, h4⟩⟩ := hm i
  exact ⟨le_trans (growAll_mem f _ h1 i).1 h2, le_trans h4 (growAll_mem f _ h3 i).2⟩

/-- The box is not too large: on each side it is at most one pixel from the transform of a pixel of the box
(if that is within the range of 32-bit integers). -/
theorem bbox_tight (f : Pt K → Pt K) (ty : FType) (b : Rect) (hb : b.empty = false)
    (hr : ∀ q ∈ samples ty b, ∀ i, -(big32 : K) ≤ (f (pixel q)).vec i ∧ (f (pixel q)).vec i ≤ (big32 : K)) :
    (∃ x y, b.has x y = true ∧ (f (pixel (x, y))).x - ((boxOf f ty b).x0 : K) < 1) ∧
    (∃ x y, b.has x y = true ∧ ((boxOf f ty b).x1 : K) - (f (pixel (x, y))).x ≤ 1) ∧
    (∃ x y, b.has x y = true ∧ (f (pixel (x, y))).y - ((boxOf f ty b).y0 : K) < 1) ∧
    (∃ x y, b.has x y = true ∧ ((boxOf f ty b).y1 : K) - (f (pixel (x, y))).y ≤ 1) := by
  have hb' : b.x0 < b.x1 ∧ b.y0 < b.y1 := by
    simp [Rect.empty] at hb; exact hb
  obtain ⟨s0, hs0⟩ : ∃ q, q ∈ samples ty b := by
    refine ⟨(b.x0, b.y0), ?_⟩
    rw [mem_samples _ _ hb, has_iff]
    refine ⟨by omega, ?_⟩
    cases ty <;> simp
  have hmem := growAll_mem f (samples ty b) hs0
  have hle : ∀ i, (growAll f (samples ty b)).min i ≤ (growAll f (samples ty b)).max i :=
    fun i => le_trans (hmem i).1 (hmem i).2
  have htight := (BBox.growToInt_encloses (growAll f (samples ty b)) hle).2
  have hatt : ∀ i, (∃ q ∈ samples ty b, (growAll f (samples ty b)).min i = (f (pixel q)).vec i) ∧
      (∃ q ∈ samples ty b, (growAll f (samples ty b)).max i = (f (pixel q)).vec i) := by
    intro i
    obtain ⟨g1, g2⟩ := growAll_attained f (samples ty b) i
    constructor
    · rcases g1 with g | g
      · exact ⟨s0, hs0, le_antisymm (hmem i).1 (by rw [g]; exact (hr s0 hs0 i).2)⟩
      · exact g
    · rcases g2 with g | g
      · exact ⟨s0, hs0, le_antisymm (by rw [g]; exact (hr s0 hs0 i).1) (hmem i).2⟩
      · exact g
  have hhas : ∀ q ∈ samples ty b, b.has q.1 q.2 = true := fun q hq => ((mem_samples ty b hb q.1 q.2).1 hq).1
  have e : boxOf f ty b = toRect (growToInt (growAll f (samples ty b))) := by
    unfold boxOf; rw [hb, if_neg (by simp)]
  rw [e]
  obtain ⟨⟨q1, h1, e1⟩, ⟨q2, h2, e2⟩⟩ := hatt 0
  obtain ⟨⟨q3, h3, e3⟩, ⟨q4, h4, e4⟩⟩ := hatt 1
  have t0 := htight 0
  have t1 := htight 1
  rw [e1, e2] at t0
  rw [e3, e4] at t1
  exact ⟨⟨q1.1, q1.2, hhas q1 h1, t0.1⟩, ⟨q2.1, q2.2, hhas q2 h2, t0.2⟩, ⟨q3.1, q3.2, hhas q3 h3, t1.1⟩,
    ⟨q4.1, q4.2, hhas q4 h4, t1.2⟩⟩

/-- The boxes of an inverse are those of the functor exchanged. -/
theorem inverse_bbox (t : Tx K) (b : Rect) :
    t.inverse.forwardBBox b = t.reverseBBox b ∧ t.inverse.reverseBBox b = t.forwardBBox b := ⟨rfl, rfl⟩

/-- The box of an empty box is empty. -/
theorem bbox_empty (f : Pt K → Pt K) (ty : FType) (b : Rect) (hb : b.empty = true) : (boxOf f ty b).empty = true := by
  unfold boxOf
  rw [hb, if_pos rfl]
  decide

end floor

/-! ### Functor laws -/

omit [Field K] [LinearOrder K] [IsStrictOrderedRing K] in
/-- `inverse` and `compose` behave like inverses and composition of functions; composition is associative and the
inverse of a composition is the composition of the inverses the other way round. -/
theorem functor_laws (t u v : Tx K) (p : Pt K) :
    (compose t u).forward p = t.forward (u.forward p) ∧ (compose t u).reverse p = u.reverse (t.reverse p) ∧
    t.inverse.forward p = t.reverse p ∧ t.inverse.reverse p = t.forward p ∧ t.inverse.inverse = t ∧
    compose t (compose u v) = compose (compose t u) v ∧ (compose t u).inverse = compose u.inverse t.inverse ∧
    compose t identity = t ∧ compose identity t = t := by
  refine ⟨rfl, rfl, rfl, rfl, rfl, ?_, ?_, ?_, ?_⟩
  · have hc : ∀ a b c, composeType a (composeType b c) = composeType (composeType a b) c := by
      intro a b c; cases a <;> cases b <;> cases c <;> rfl
    simp only [compose, hc]
  · have hc : ∀ a b, composeType a b = composeType b a := by intro a b; cases a <;> cases b <;> rfl
    simp only [compose, Tx.inverse, hc]
  · obtain ⟨f, r, a, b⟩ := t
    have hc : ∀ a, composeType a .convex = a := by intro a; cases a <;> rfl
    simp only [compose, identity, hc]; rfl
  · obtain ⟨f, r, a, b⟩ := t
    have hc : ∀ a, composeType .convex a = a := by intro a; cases a <;> rfl
    simp only [compose, identity, hc]; rfl

omit [IsStrictOrderedRing K] in
/-- The matrix of an affine functor acts like it (as a homography) and gives it back. -/
theorem affine2mat_correct (M : Mat K) (o : Pt K) (t : Tx K) (h : affine M o = some t) :
    (∀ p, project (affine2mat t) p = t.forward p) ∧
    ∃ t', mat2affine (affine2mat t) = some t' ∧ ∀ p, t'.forward p = t.forward p ∧ t'.reverse p = t.reverse p := by
  have hfwd : ∀ p, t.forward p = ⟨M 0 0 * p.x + M 0 1 * p.y + o.x, M 1 0 * p.x + M 1 1 * p.y + o.y⟩ := by
    unfold affine at h
    simp only [Option.map_eq_some_iff] at h
    obtain ⟨I, _, rfl⟩ := h
    intro p; rfl
  have hmat : ∀ i j, i < 2 → j < 2 → affine2mat t i j = M i j := by
    intro i j hi hj
    have hi' : i = 0 ∨ i = 1 := by omega
    have hj' : j = 0 ∨ j = 1 := by omega
    rcases hi' with rfl | rfl <;> rcases hj' with rfl | rfl <;> simp [affine2mat, hfwd]
  have h02 : affine2mat t 0 2 = o.x := by simp [affine2mat, hfwd]
  have h12 : affine2mat t 1 2 = o.y := by simp [affine2mat, hfwd]
  have h2 : affine2mat t 2 0 = 0 ∧ affine2mat t 2 1 = 0 ∧ affine2mat t 2 2 = 1 := by simp [affine2mat]
  constructor
  · intro p
    simp only [project, weight, h2, hmat 0 0 (by omega) (by omega), hmat 0 1 (by omega) (by omega),
      hmat 1 0 (by omega) (by omega), hmat 1 1 (by omega) (by omega), h02, h12, hfwd]
    simp
  · have hinv : VW.Matrix.inverse2 (affine2mat t) = VW.Matrix.inverse2 M := by
      simp only [VW.Matrix.inverse2, hmat 0 0 (by omega) (by omega), hmat 0 1 (by omega) (by omega),
        hmat 1 0 (by omega) (by omega), hmat 1 1 (by omega) (by omega)]
    refine ⟨t, ?_, fun p => ⟨rfl, rfl⟩⟩
    unfold mat2affine
    rw [h02, h12, ← h]
    unfold affine
    rw [hinv]
    cases VW.Matrix.inverse2 M with
    | none => rfl
    | some I =>
      simp only [Option.map_some, hmat 0 0 (by omega) (by omega), hmat 0 1 (by omega) (by omega),
        hmat 1 0 (by omega) (by omega), hmat 1 1 (by omega) (by omega)]

omit [IsStrictOrderedRing K] in
/-- A rotation (`c`, `s` the cosine and the sine of an angle) exists, keeps its centre and all distances from it. -/
theorem rotate_correct (c s : K) (hcs : c * c + s * s = 1) (o : Pt K) :
    ∃ t, rotate c s o = some t ∧ t.forward o = o ∧
      ∀ p, ((t.forward p).x - o.x) ^ 2 + ((t.forward p).y - o.y) ^ 2 = (p.x - o.x) ^ 2 + (p.y - o.y) ^ 2 := by
  have hdet : ¬ (c * c - -s * s = 0) := by
    intro h
    have : (1 : K) = 0 := by rw [← hcs]; linear_combination h
    exact one_ne_zero this
  have hex : ∃ t, rotate c s o = some t := by
    unfold rotate affine VW.Matrix.inverse2
    simp only [if_true, one_ne_zero, if_false]
    rw [if_neg hdet]
    exact ⟨_, rfl⟩
  obtain ⟨t, ht⟩ := hex
  have hfwd : ∀ p, t.forward p = ⟨c * p.x + -s * p.y + (o.x - (c * o.x + -s * o.y)),
      s * p.x + c * p.y + (o.y - (s * o.x + c * o.y))⟩ := by
    unfold rotate affine at ht
    simp only [Option.map_eq_some_iff] at ht
    obtain ⟨I, _, rfl⟩ := ht
    intro p
    simp [apply2]
  refine ⟨t, ht, ?_, ?_⟩
  · rw [hfwd]
    obtain ⟨x, y⟩ := o
    simp
  · intro p
    rw [hfwd]
    simp only
    linear_combination ((p.x - o.x) ^ 2 + (p.y - o.y) ^ 2) * hcs

/-! ### The size of a transformed image -/

omit [IsStrictOrderedRing K] in
/-- `compute_transformed_bbox` has the transform of every pixel, borders included. -/
theorem transformedBBox_mem (cols rows : Int) (t : Tx K) (x y : Int) (h : 0 ≤ x ∧ x < cols ∧ 0 ≤ y ∧ y < rows) :
    (transformedBBox cols rows t).ClosedMem (t.forward (pixel (x, y))).vec := by
  intro i
  apply growAll_mem
  simp only [List.mem_flatMap, List.mem_map, mem_intRange, Prod.mk.injEq]
  exact ⟨x, by omega, y, by omega, rfl, rfl⟩

omit [IsStrictOrderedRing K] in
theorem growAll_eq_of (f : Pt K → Pt K) (l l' : List (Int × Int))
    (h : ∀ q ∈ l, (growAll f l').ClosedMem (f (pixel q)).vec) (h' : ∀ q ∈ l', (growAll f l).ClosedMem (f (pixel q)).vec) :
    growAll f l = growAll f l' := by
  have key : ∀ l l', (∀ q ∈ l, (growAll f l').ClosedMem (f (pixel q)).vec) →
      ∀ i, (growAll f l').min i ≤ (growAll f l).min i ∧ (growAll f l).max i ≤ (growAll f l').max i := by
    intro l l' hh
    have hd : ∀ i, (growAll f l').min i ≤ (Box.default 2 (big32 : K)).min i ∧
        (Box.default 2 (big32 : K)).max i ≤ (growAll f l').max i := by
      rw [growAll_eq f l']
      exact ((BBox.grow_least (Box.default 2 (big32 : K)) _ _).1 (fun i => ⟨le_refl _, le_refl _⟩)).1
    rw [growAll_eq f l, BBox.grow_least]
    refine ⟨hd, ?_⟩
    intro v hv
    obtain ⟨q, hq, rfl⟩ := List.mem_map.1 hv
    exact hh q hq
  have k1 := key l l' h
  have k2 := key l' l h'
  have e1 : (growAll f l).min = (growAll f l').min := funext fun i => le_antisymm (k2 i).1 (k1 i).1
  have e2 : (growAll f l).max = (growAll f l').max := funext fun i => le_antisymm (k1 i).2 (k2 i).2
  cases hx : growAll f l; cases hy : growAll f l'
  simp_all

/-- The fast version looks at the perimeter only, and returns the same box, for all expressions without poles
between the pixels of the image. -/
theorem fast_eq_full_partial (e : Expr K) (t : Tx K) (he : e.build = some t) (cols rows : Int) (hc : 0 < cols) (hr : 0 < rows)
    (hok : ∀ p, Between ⟨0, 0, cols, rows⟩ p → e.Ok true p) :
    transformedBBoxFast ⟨0, 0, cols, rows⟩ t = transformedBBox cols rows t := by
  have hb : (Rect.mk 0 0 cols rows).empty = false := by simp [Rect.empty]; omega
  have hf := expr_proj e t true _ he hok
  have hfull : ∀ x y : Int, (x, y) ∈ ((intRange 0 cols).flatMap fun x => (intRange 0 rows).map fun y => (x, y)) ↔
      0 ≤ x ∧ x < cols ∧ 0 ≤ y ∧ y < rows := by
    intro x y
    simp only [List.mem_flatMap, List.mem_map, mem_intRange, Prod.mk.injEq]
    constructor
    · rintro ⟨a, ha, c, hc, rfl, rfl⟩; omega
    · intro h; exact ⟨x, by omega, y, by omega, rfl, rfl⟩
  have hper : ∀ x y : Int, (x, y) ∈ perimeter ⟨0, 0, cols, rows⟩ ↔
      (0 ≤ x ∧ x < cols ∧ 0 ≤ y ∧ y < rows) ∧ (x = 0 ∨ x = cols - 1 ∨ y = 0 ∨ y = rows - 1) := by
    intro x y
    simp only [perimeter, List.mem_append, List.mem_map, mem_intRange, Prod.mk.injEq]
    constructor
    · rintro (((⟨a, ha, rfl, rfl⟩ | ⟨a, ha, rfl, rfl⟩) | ⟨a, ha, rfl, rfl⟩) | ⟨a, ha, rfl, rfl⟩) <;> omega
    · rintro ⟨h, h1 | h1 | h1 | h1⟩
      · exact Or.inl (Or.inr ⟨y, by omega, by omega, rfl⟩)
      · exact Or.inr ⟨y, by omega, by omega, rfl⟩
      · exact Or.inl (Or.inl (Or.inl ⟨x, by omega, rfl, by omega⟩))
      · exact Or.inl (Or.inl (Or.inr ⟨x, by omega, rfl, by omega⟩))
  apply growAll_eq_of
  · rintro ⟨x, y⟩ hq
    apply growAll_mem
    rw [hfull]
    exact ((hper x y).1 hq).1
  · rintro ⟨x, y⟩ hq
    rw [hfull] at hq
    have := proj_in_box t.forward ⟨0, 0, cols, rows⟩ hb hf (perimeter ⟨0, 0, cols, rows⟩)
      (by
        intro x y hx hy
        rw [hper]
        simp only at hx hy
        omega) (pixel (x, y))
      (by
        simp only [Between, pixel]
        refine ⟨?_, ?_, ?_, ?_⟩ <;> apply Int.cast_le.2 <;> omega)
    exact this

/-! ### What fails -/

section fails

theorem not_covers [FloorRing K] (f : Pt K → Pt K) (ty : FType) (b : Rect) (hb : b.empty = false) (p : Pt K)
    (h : p.x + 1 ≤ (growAll f (samples ty b)).min 0 ∨ (growAll f (samples ty b)).max 0 + 1 ≤ p.x)
    (hle : ∀ i, (growAll f (samples ty b)).min i ≤ (growAll f (samples ty b)).max i) : ¬ Covers (boxOf f ty b) p := by
  have hn : ¬ ∃ i, (growAll f (samples ty b)).min i > (growAll f (samples ty b)).max i := by
    rintro ⟨i, hi⟩; exact absurd (hle i) (not_le.2 hi)
  unfold boxOf
  rw [hb, if_neg (by simp)]
  simp only [growToInt, hn, if_false, toRect, Covers]
  rintro ⟨h1, h2, _⟩
  have := Int.lt_floor_add_one ((growAll f (samples ty b)).min 0)
  have h3 := Int.floor_le ((growAll f (samples ty b)).max 0)
  push_cast at h2
  rcases h with h | h <;> linarith

/-- A projection with a pole between the pixels: none of the pixels is on the pole, but the transforms of pixels
are outside of the box. -/
def exPole : Mat ℚ := fun i j => if i = 0 then (if j = 0 then 1 else 0) else if i = 1 then (if j = 1 then 1 else 0)
  else (if j = 0 then 1 else if j = 1 then 0 else -5/2)

theorem bbox_pole_wrong : ∃ t b x y, homography exPole = some t ∧ b.has x y = true ∧
    (∀ x y : Int, b.has x y = true → weight exPole (pixel (x, y)) ≠ 0) ∧
    ¬ Covers (t.forwardBBox b) (t.forward (pixel (x, y))) := by
  have hi : (VW.Matrix.inverse 3 exPole).isSome = true := by decide +kernel
  obtain ⟨I, hI⟩ := Option.isSome_iff_exists.1 hi
  refine ⟨⟨project exPole, project I, .convex, .convex⟩, ⟨0, 0, 5, 1⟩, 2, 0, ?_, by decide, ?_, ?_⟩
  · unfold homography; rw [hI]; rfl
  · intro x y _ h
    simp only [weight, exPole, pixel] at h
    norm_num at h
    have h' : (x : ℚ) = 5 / 2 := by linarith
    have h2 : ((2 * x : Int) : ℚ) = ((5 : Int) : ℚ) := by push_cast; rw [h']; norm_num
    have := Int.cast_injective h2
    omega
  · show ¬ Covers (boxOf (project exPole) .convex ⟨0, 0, 5, 1⟩) (project exPole (pixel (2, 0)))
    apply not_covers
    · decide
    · decide +kernel
    · decide +kernel

/-- A continuous function (a polynomial) whose box, computed from the border, misses the transforms of pixels
inside. -/
def bulge (p : Pt ℚ) : Pt ℚ := ⟨p.x + 10 * (p.x * (4 - p.x) * (p.y * (4 - p.y))), p.y⟩

theorem bbox_continuous_wrong :
    ∃ b : Rect, ∃ x y, b.has x y = true ∧ ¬ Covers (boxOf bulge .continuous b) (bulge (pixel (x, y))) := by
  refine ⟨⟨0, 0, 5, 5⟩, 2, 2, by decide, ?_⟩
  apply not_covers
  · decide
  · decide +kernel
  · decide +kernel

/-- Transforming a box there and back can lose pixels: the pixels of the last column and row of a scaled box. -/
theorem bbox_roundtrip_wrong :
    ∃ (t : Tx ℚ) (b : Rect) (x y : Int), t = resample 2 2 ∧ b.has x y = true ∧
      (t.forwardBBox (t.reverseBBox b)).has x y = false := by
  refine ⟨_, ⟨0, 0, 10, 10⟩, 9, 9, rfl, by decide, ?_⟩
  have f1 : ⌊(9 / 2 : ℚ)⌋ = 4 := by rw [Int.floor_eq_iff]; norm_num
  have e1 : (resample (2 : ℚ) 2).reverseBBox ⟨0, 0, 10, 10⟩ = ⟨0, 0, 5, 5⟩ := by
    have a1 : (growAll (resample (2 : ℚ) 2).reverse (samples .convex ⟨0, 0, 10, 10⟩)).min = fun _ => 0 := by
      funext i; revert i; decide +kernel
    have a2 : (growAll (resample (2 : ℚ) 2).reverse (samples .convex ⟨0, 0, 10, 10⟩)).max = fun _ => 9 / 2 := by
      funext i; revert i; decide +kernel
    unfold Tx.reverseBBox boxOf
    rw [if_neg (by decide)]
    show toRect (growToInt (growAll (resample (2 : ℚ) 2).reverse (samples .convex ⟨0, 0, 10, 10⟩))) = _
    unfold growToInt
    rw [a1, a2, if_neg (by rintro ⟨i, hi⟩; norm_num at hi)]
    simp [toRect, f1]
  have e2 : (resample (2 : ℚ) 2).forwardBBox ⟨0, 0, 5, 5⟩ = ⟨0, 0, 9, 9⟩ := by
    have a1 : (growAll (resample (2 : ℚ) 2).forward (samples .convex ⟨0, 0, 5, 5⟩)).min = fun _ => 0 := by
      funext i; revert i; decide +kernel
    have a2 : (growAll (resample (2 : ℚ) 2).forward (samples .convex ⟨0, 0, 5, 5⟩)).max = fun _ => 8 := by
      funext i; revert i; decide +kernel
    unfold Tx.forwardBBox boxOf
    rw [if_neg (by decide)]
    show toRect (growToInt (growAll (resample (2 : ℚ) 2).forward (samples .convex ⟨0, 0, 5, 5⟩))) = _
    unfold growToInt
    rw [a1, a2, if_neg (by rintro ⟨i, hi⟩; norm_num at hi)]
    simp [toRect]
  rw [e1, e2]
  decide

/-- The box of `compute_transformed_bbox` as a half-open box (which is what `crop` and `contains` take it for)
lacks the last column and row: that of the identity of a 10x10 image is 9 wide. -/
theorem transformedBBox_half_open : (transformedBBox 10 10 (identity : Tx ℚ)).extent 0 = 9 ∧
    (transformedBBox 10 10 (identity : Tx ℚ)).contains (pixel (9, 9)).vec = false := by
  decide +kernel

end fails

/-! ### Examples -/

/-- Scaling after a rotation by a (3,4,5) angle, and the inverse of a homography. -/
def exExpr : Expr ℚ := .compose (.resample 2 (1/2)) (.compose (.rotate (3/5) (4/5) ⟨1, 2⟩) (.inverse (.translate 1 (-1))))

example : exExpr.Affine := by simp [exExpr, Expr.Affine]
example : (exExpr.build).map (fun t => t.forward ⟨3, 4⟩) = some ⟨-8/5, 23/10⟩ := by decide +kernel
example : (exExpr.build).map (fun t => t.reverse (t.forward ⟨3, 4⟩)) = some ⟨3, 4⟩ := by decide +kernel

/-- A homography without poles on the first quadrant. -/
def exH : Mat ℚ := fun i j => if i = 2 then (if j = 2 then 1 else 1/10) else if i = j then 2 else 0

example : ((Expr.homography exH).build).isSome = true := by decide +kernel
example (b : Rect) (h0 : 0 ≤ b.x0) (h1 : 0 ≤ b.y0) (p : Pt ℚ) (hp : Between b p) : (Expr.homography exH).Ok true p := by
  show weight exH p ≠ 0
  obtain ⟨h2, _, h3, _⟩ := hp
  have h0' : (0 : ℚ) ≤ b.x0 := by exact_mod_cast h0
  have h1' : (0 : ℚ) ≤ b.y0 := by exact_mod_cast h1
  simp only [weight, exH]
  norm_num
  intro h
  linarith

end VW.Warp
