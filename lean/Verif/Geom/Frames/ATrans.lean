import Mathlib.LinearAlgebra.Matrix.NonsingularInverse
import Mathlib.Tactic.Ring
import Verif.Geom.Frames.Heap

/-
Model of the affine transforms of src/vw/Geometry/ATrans.h over an arbitrary field (exact arithmetic), and of
the functions of src/vw/Geometry/FrameTreeNode.{h,cc} that compute and set relative transforms.
-/

namespace Verif.Geom.Frames

/-- `ATrans<K, 3>`: translation vector and matrix (src/vw/Geometry/ATrans.h:106-110). -/
@[ext] structure ATrans (K : Type) where
  p : Fin 3 → K
  r : Matrix (Fin 3) (Fin 3) K

namespace ATrans

variable {K : Type} [Field K]

/-- `ATrans(identity_matrix(4))` (src/vw/Geometry/ATrans.h:141-151 applied to the identity). -/
instance : One (ATrans K) := ⟨⟨0, 1⟩⟩

/-- `operator*` of two transforms (src/vw/Geometry/ATrans.h:153-159). -/
instance : Mul (ATrans K) := ⟨fun a b => ⟨a.r.mulVec b.p + a.p, a.r * b.r⟩⟩

/-- `operator*` with a position (src/vw/Geometry/ATrans.h:169-176). -/
def apply (a : ATrans K) (v : Fin 3 → K) : Fin 3 → K := a.r.mulVec v + a.p

/-- `inverse(ATrans)` (src/vw/Geometry/ATrans.h:113-119); `math::inverse` is the exact matrix inverse. -/
noncomputable def inverse (a : ATrans K) : ATrans K := ⟨-(a.r⁻¹.mulVec a.p), a.r⁻¹⟩

/-- The constructor from an (N+1)x(N+1) matrix (src/vw/Geometry/ATrans.h:129-139). -/
def ofMatrix (m : Matrix (Fin 4) (Fin 4) K) : ATrans K :=
  ⟨fun i => m i.castSucc 3, fun i j => m i.castSucc j.castSucc⟩

/-- The conversion operator to an (N+1)x(N+1) matrix (src/vw/Geometry/ATrans.h:178-184): the code returns a
default-constructed matrix, which is zero (src/vw/Math/Matrix.h:322-324). -/
def toMatrix (_ : ATrans K) : Matrix (Fin 4) (Fin 4) K := 0

theorem one_p : (1 : ATrans K).p = 0 := rfl
theorem one_r : (1 : ATrans K).r = 1 := rfl
theorem mul_p (a b : ATrans K) : (a * b).p = a.r.mulVec b.p + a.p := rfl
theorem mul_r (a b : ATrans K) : (a * b).r = a.r * b.r := rfl

instance : Monoid (ATrans K) where
  mul_assoc a b c := by
    ext1
    · simp only [mul_p, mul_r, Matrix.mulVec_add, Matrix.mulVec_mulVec, add_assoc]
    · simp only [mul_r, Matrix.mul_assoc]
  one_mul a := by
    ext1
    · simp only [mul_p, one_r, one_p, Matrix.one_mulVec, add_zero]
    · simp only [mul_r, one_r, Matrix.one_mul]
  mul_one a := by
    ext1
    · simp only [mul_p, one_p, Matrix.mulVec_zero, zero_add]
    · simp only [mul_r, one_r, Matrix.mul_one]

/-- The requirement of src/vw/Geometry/FrameTreeNode.h ("the affine transform has an invertable matrix"). -/
def Invertible (a : ATrans K) : Prop := a.r.det ≠ 0

theorem mul_inverse {a : ATrans K} (ha : a.Invertible) : a * a.inverse = 1 := by
  have hu : IsUnit a.r.det := isUnit_iff_ne_zero.2 ha
  ext1
  · simp only [mul_p, inverse, one_p, Matrix.mulVec_neg, Matrix.mulVec_mulVec, Matrix.mul_nonsing_inv _ hu,
      Matrix.one_mulVec, neg_add_cancel]
  · simp only [mul_r, inverse, one_r, Matrix.mul_nonsing_inv _ hu]

theorem inverse_mul {a : ATrans K} (ha : a.Invertible) : a.inverse * a = 1 := by
  have hu : IsUnit a.r.det := isUnit_iff_ne_zero.2 ha
  ext1
  · simp only [mul_p, inverse, one_p, add_neg_cancel]
  · simp only [mul_r, inverse, one_r, Matrix.nonsing_inv_mul _ hu]

theorem invertible_one : (1 : ATrans K).Invertible := by
  show (1 : Matrix (Fin 3) (Fin 3) K).det ≠ 0
  simp

theorem invertible_mul {a b : ATrans K} (ha : a.Invertible) (hb : b.Invertible) : (a * b).Invertible := by
  show (a.r * b.r).det ≠ 0
  rw [Matrix.det_mul]
  exact mul_ne_zero ha hb

theorem apply_mul (a b : ATrans K) (v : Fin 3 → K) : (a * b).apply v = a.apply (b.apply v) := by
  simp only [apply, mul_p, mul_r, Matrix.mulVec_add, Matrix.mulVec_mulVec, add_assoc]

theorem apply_one (v : Fin 3 → K) : (1 : ATrans K).apply v = v := by
  simp only [apply, one_p, one_r, Matrix.one_mulVec, add_zero]

theorem mul_left_cancel {a b c : ATrans K} (ha : a.Invertible) (h : a * b = a * c) : b = c := by
  have := congrArg (a.inverse * ·) h
  simpa only [← mul_assoc, inverse_mul ha, one_mul] using this

end ATrans

variable {K : Type} [Field K]

/-- The loops `loc *= (*iter)->data().transform()` (src/vw/Geometry/FrameTreeNode.cc:55-57, :71-73). -/
def mulAll (h : Heap (ATrans K)) (loc : ATrans K) : List Nat → Option (ATrans K)
  | [] => some loc
  | n :: l => do
    let nd ← h n
    mulAll h (loc * nd.trans) l

/-- The part of an ancestry after the first occurrence of the ancestor: `std::find` and `++iter`
(src/vw/Geometry/FrameTreeNode.cc:47-53, :65-71). -/
def afterNode (c : Nat) (nodes : List Nat) : List Nat := (nodes.dropWhile (fun x => x ≠ c)).tail

/-- `get_transform(target, source)` (src/vw/Geometry/FrameTreeNode.cc:30-80).  NULL arguments are `none`; the
inner value `none` is a computation that does not return. -/
noncomputable def getTransform (h : Heap (ATrans K)) (target source : Option Nat) : Option (ATrans K) :=
  match source with
  | none => some 1
  | some s =>
    match target with
    | none => do
      let nd ← h s
      some nd.trans
    | some t =>
      if t = s then some 1
      else do
        let anc ← lca h t s
        match anc with
        | none => some 1
        | some c => do
          let nt ← ancestry h t
          let up := afterNode c nt
          let loc ← if up = [] then some 1 else do
            let m ← mulAll h 1 up
            some m.inverse
          let ns ← ancestry h s
          mulAll h loc (afterNode c ns)

/-- `get_transform_of` (src/vw/Geometry/FrameTreeNode.h:77-83). -/
noncomputable def getTransformOf (h : Heap (ATrans K)) (target source : Option Nat) (t : ATrans K) :
    Option (ATrans K) := do
  let m ← getTransform h target source
  some (m * t)

/-- `data().set_transform(t)` (src/vw/Geometry/Frame.h:101-103). -/
def putTrans (h : Heap (ATrans K)) (n : Nat) (t : ATrans K) : Heap (ATrans K) :=
  upd h n (fun nd => { nd with trans := t })

/-- `set_transform(frame, source, trans)` (src/vw/Geometry/FrameTreeNode.h:85-98). -/
noncomputable def setTransform (h : Heap (ATrans K)) (frame source : Option Nat) (t : ATrans K) :
    Option (Heap (ATrans K)) :=
  match frame with
  | none => some h
  | some f =>
    match source with
    | none => do
      let _ ← h f
      some (putTrans h f t)
    | some s => do
      let nd ← h f
      let m ← getTransformOf h nd.parent (some s) t
      some (putTrans h f m)

/-- `set_transform_rel(frame, update)` (src/vw/Geometry/FrameStore.cc:437-445). -/
noncomputable def setTransformRel (h : Heap (ATrans K)) (frame : Nat) (t : ATrans K) : Option (Heap (ATrans K)) :=
  setTransform h (some frame) none t

/-- `get_position_of` (src/vw/Geometry/FrameStore.cc:401-410) on non-NULL handles. -/
noncomputable def getPositionOf (h : Heap (ATrans K)) (target source : Nat) (v : Fin 3 → K) :
    Option (Fin 3 → K) := do
  let m ← getTransform h (some target) (some source)
  some (m.apply v)

/-- `get_frame_transforms` (src/vw/Geometry/FrameStore.cc:485-496). -/
def getFrameTransforms (h : Heap (ATrans K)) : List Nat → Option (List (ATrans K))
  | [] => some []
  | f :: fs => do
    let nd ← h f
    let r ← getFrameTransforms h fs
    some (nd.trans :: r)

/-- The loop of `set_frame_transforms` (src/vw/Geometry/FrameStore.cc:505-509). -/
def putFrames (h : Heap (ATrans K)) : List Nat → List (ATrans K) → Option (Heap (ATrans K))
  | f :: fs, t :: ts => do
    let _ ← h f
    putFrames (putTrans h f t) fs ts
  | _, _ => some h

/-- `set_frame_transforms` (src/vw/Geometry/FrameStore.cc:498-510): `inl` if it throws. -/
def setFrameTransforms (h : Heap (ATrans K)) (fs : List Nat) (ts : List (ATrans K)) :
    Option (Unit ⊕ Heap (ATrans K)) :=
  if fs.length = ts.length then do
    let h' ← putFrames h fs ts
    some (.inr h')
  else some (.inl ())

end Verif.Geom.Frames
