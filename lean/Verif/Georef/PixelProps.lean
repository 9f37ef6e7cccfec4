import Verif.Georef.Model
import Verif.Camera.PinholeProps
import Mathlib.Tactic.FieldSimp
import Mathlib.Data.Rat.Floor

/-
C110: pixel coordinates and map coordinates.
-/

set_option linter.unusedSectionVars false

namespace Verif.Georef
open Verif.Camera VW.BBox

variable {K : Type} [Field K] [LinearOrder K] [IsStrictOrderedRing K] [FloorRing K]

/-! ### Specification -/

/-- The matrix has the bottom row of an affine transform. -/
def Affine (M : M3 K) : Prop := M.r2 = ⟨0, 0, 1⟩

/-- The point to which an affine matrix takes a position. -/
def affineAt (M : M3 K) (p : K × K) : K × K :=
  (M.r0.x * p.1 + M.r0.y * p.2 + M.r0.z, M.r1.x * p.1 + M.r1.y * p.2 + M.r1.z)

/-- Rows and columns are parallel to the axes of the map. -/
def NoRotation (M : M3 K) : Prop := M.r0.y = 0 ∧ M.r1.x = 0

/-- The denominator of the homogeneous transform. -/
def denom (M : M3 K) (p : K × K) : K := p.1 * M.r2.x + p.2 * M.r2.y + M.r2.z

/-- The transform in use: shifted by half a pixel when pixels are areas. -/
def Ref.native (g : Ref K) : M3 K := if g.area then g.sh else g.tr

/-! ### The object is consistent -/

/-- The four matrices belong together. -/
structure Good (g : Ref K) : Prop where
  sh : g.sh = shift g.tr
  inv : g.tr.inverse = some g.inv
  invSh : g.sh.inverse = some g.invSh

theorem llBoxFromPix_same (g : Ref K) (b : Box K 2) : ∃ b', (g.llBoxFromPix b).1 = { g with llBox := b' } := by
  unfold Ref.llBoxFromPix
  by_cases h : b.empty = true
  · rw [if_pos h]
    cases g.pixelToLonlat (0, 0) with
    | none => exact ⟨g.llBox, rfl⟩
    | some ll => exact ⟨_, rfl⟩
  · rw [if_neg h]; exact ⟨_, rfl⟩

theorem setTransform_good (g g' : Ref K) (M : M3 K) (h : g.setTransform M = (g', none)) :
    Good g' ∧ g'.tr = M ∧ g'.area = g.area ∧ g'.projected = g.projected ∧ g'.toLL = g.toLL ∧ g'.toProj = g.toProj := by
  unfold Ref.setTransform at h
  dsimp only at h
  cases hi : M.inverse with
  | none => rw [hi] at h; simp at h
  | some i =>
    cases hj : (shift M).inverse with
    | none => rw [hi, hj] at h; simp at h
    | some j =>
      rw [hi, hj] at h
      dsimp only at h
      obtain ⟨b', hb⟩ := llBoxFromPix_same { g with tr := M, sh := shift M, inv := i, invSh := j } (boxXYWH 0 0 0 0)
      rw [h] at hb
      dsimp only at hb
      rw [hb]
      exact ⟨⟨rfl, hi, hj⟩, rfl, rfl, rfl, rfl, rfl⟩

theorem step_good (g g' : Ref K) (o : Op K) (hg : Good g) (h : g.step o = (g', none)) : Good g' := by
  cases o with
  | transform M => exact (setTransform_good g g' M h).1
  | interp a =>
    simp only [Ref.step, Prod.mk.injEq, and_true] at h
    rw [← h]; exact ⟨hg.1, hg.2, hg.3⟩
  | wkt f k b =>
    simp only [Ref.step, Ref.setWkt] at h
    obtain ⟨b', hb⟩ := llBoxFromPix_same { g with toLL := f, toProj := k } (boxXYWH 0 0 0 0)
    cases hr : Ref.llBoxFromPix { g with toLL := f, toProj := k } (boxXYWH 0 0 0 0) with
    | mk g2 e =>
      rw [hr] at h hb
      cases e with
      | some e => simp at h
      | none =>
        simp only [Prod.mk.injEq, and_true] at h
        dsimp only at hb
        rw [← h, hb]; exact ⟨hg.1, hg.2, hg.3⟩
  | llBox b =>
    simp only [Ref.step, Prod.mk.injEq, and_true] at h
    rw [← h]; exact ⟨hg.1, hg.2, hg.3⟩
  | llFromPix b =>
    obtain ⟨b', hb⟩ := llBoxFromPix_same g b
    have h' : g.llBoxFromPix b = (g', none) := h
    rw [h'] at hb
    dsimp only at hb
    rw [hb]; exact ⟨hg.1, hg.2, hg.3⟩
  | crop x y => exact (setTransform_good g g' _ h).1
  | resample sx sy =>
    simp only [Ref.step, Ref.resample] at h
    by_cases ha : g.area = true
    · rw [if_pos ha] at h; exact (setTransform_good g g' _ h).1
    · rw [if_neg ha] at h; exact (setTransform_good g g' _ h).1

theorem make_good (M : M3 K) (a : Bool) (g : Ref K) (h : Ref.make M a = some g) : Good g ∧ g.tr = M ∧ g.area = a := by
  unfold Ref.make at h
  cases hi : M.inverse with
  | none => rw [hi] at h; simp at h
  | some i =>
    cases hj : (shift M).inverse with
    | none => rw [hi, hj] at h; simp at h
    | some j =>
      rw [hi, hj] at h
      dsimp only at h
      obtain ⟨b', hb⟩ := llBoxFromPix_same (⟨a, M, i, shift M, j, false, some, some, noBox⟩ : Ref K) (boxXYWH 0 0 0 0)
      cases hr : Ref.llBoxFromPix (⟨a, M, i, shift M, j, false, some, some, noBox⟩ : Ref K) (boxXYWH 0 0 0 0) with
      | mk g2 e =>
        rw [hr] at h hb
        cases e with
        | some e => simp at h
        | none =>
          simp only [Option.some.injEq] at h
          dsimp only at hb
          rw [← h, hb]
          exact ⟨⟨rfl, hi, hj⟩, rfl, rfl⟩

theorem reach_good (g : Ref K) (h : Reach g) : Good g := by
  induction h with
  | make M a g h => exact (make_good M a g h).1
  | step g g' o _ h ih => exact step_good g g' o ih h

/-! ### Round trip -/

theorem apply_back (M i : M3 K) (hi : ∀ x, i.mulVec (M.mulVec x) = x) (p : K × K) (hd : denom M p ≠ 0) :
    apply i (apply M p) = p := by
  have h := hi ⟨p.1, p.2, 1⟩
  have h1 := congrArg V3.x h
  have h2 := congrArg V3.y h
  have h3 := congrArg V3.z h
  simp only [M3.mulVec, dot] at h1 h2 h3
  unfold apply
  unfold denom at hd
  dsimp only
  have e3 : (p.1 * M.r0.x + p.2 * M.r0.y + M.r0.z) / (p.1 * M.r2.x + p.2 * M.r2.y + M.r2.z) * i.r2.x +
      (p.1 * M.r1.x + p.2 * M.r1.y + M.r1.z) / (p.1 * M.r2.x + p.2 * M.r2.y + M.r2.z) * i.r2.y + i.r2.z =
      1 / (p.1 * M.r2.x + p.2 * M.r2.y + M.r2.z) := by
    field_simp
    linear_combination h3
  rw [e3]
  ext
  · dsimp only
    field_simp
    linear_combination h1
  · dsimp only
    field_simp
    linear_combination h2

theorem native_inverse (g : Ref K) (h : Good g) : g.native.inverse = some (if g.area then g.invSh else g.inv) := by
  unfold Ref.native
  cases g.area
  · exact h.inv
  · exact h.invSh

/-- **C110.** For every georeference a program can build: a pixel taken to the map and back is the same pixel, and a position on
the map taken to the image and back is the same position, wherever the homogeneous coordinate is not zero (for an affine
transform: everywhere, next theorem). -/
theorem pixel_point_round_trip (g : Ref K) (h : Reach g) (p : K × K) :
    (denom g.native p ≠ 0 → g.pointToPixel (g.pixelToPoint p) = p) ∧
    (∀ m, g.native.inverse = some m → denom m p ≠ 0 → g.pixelToPoint (g.pointToPixel p) = p) := by
  have hn := native_inverse g (reach_good g h)
  have hi := (inverse_m3 g.native).2 _ hn
  have ePix : ∀ p, g.pixelToPoint p = apply g.native p := fun p => rfl
  have ePt : ∀ p, g.pointToPixel p = apply (if g.area then g.invSh else g.inv) p := fun p => rfl
  constructor
  · intro hd
    rw [ePt, ePix]
    exact apply_back _ _ (fun x => (hi x).2) p hd
  · intro m hm hd
    rw [hn] at hm
    cases hm
    rw [ePt, ePix]
    exact apply_back _ _ (fun x => (hi x).1) p hd

theorem affine_shift (M : M3 K) (h : Affine M) : Affine (shift M) := h

theorem inverse_affine (M i : M3 K) (h : Affine M) (hi : M.inverse = some i) : Affine i := by
  have key := (inverse_m3 M).2 i hi
  have h' : M.r2 = ⟨0, 0, 1⟩ := h
  have a := congrArg V3.z (key ⟨1, 0, 0⟩).1
  have b := congrArg V3.z (key ⟨0, 1, 0⟩).1
  have c := congrArg V3.z (key ⟨0, 0, 1⟩).1
  simp only [M3.mulVec, dot, h'] at a b c
  show i.r2 = ⟨0, 0, 1⟩
  ext
  · dsimp only; linarith
  · dsimp only; linarith
  · dsimp only; linarith

theorem denom_affine (M : M3 K) (h : Affine M) (p : K × K) : denom M p = 1 := by
  have h' : M.r2 = ⟨0, 0, 1⟩ := h
  simp [denom, h']

theorem apply_affine (M : M3 K) (h : Affine M) (p : K × K) : apply M p = affineAt M p := by
  have h' : M.r2 = ⟨0, 0, 1⟩ := h
  simp only [apply, affineAt, h', mul_zero, add_zero, zero_add, div_one, Prod.mk.injEq]
  constructor <;> ring

theorem native_affine (g : Ref K) (h : Good g) (ha : Affine g.tr) : Affine g.native := by
  unfold Ref.native
  cases g.area
  · exact ha
  · show Affine g.sh
    rw [h.sh]; exact ha

/-- **C110.** With an affine transform the two conversions are inverse to each other, without exception. -/
theorem affine_round_trip (g : Ref K) (h : Reach g) (ha : Affine g.tr) (p : K × K) :
    g.pointToPixel (g.pixelToPoint p) = p ∧ g.pixelToPoint (g.pointToPixel p) = p := by
  have hg := reach_good g h
  have hn := native_inverse g hg
  have hna := native_affine g hg ha
  obtain ⟨h1, h2⟩ := pixel_point_round_trip g h p
  refine ⟨h1 ?_, h2 _ hn ?_⟩
  · rw [denom_affine _ hna]; exact one_ne_zero
  · rw [denom_affine _ (inverse_affine _ _ hna hn)]; exact one_ne_zero

/-! ### Pixel as area, pixel as point -/

/-- **C110.** Where a pixel lies.  Pixels as points: at its image under the transform.  Pixels as areas: the transform is that of
the corner of the pixel, so the centre should be at the image of `(x + ½, y + ½)`; what is computed differs from this by half of
the two rotation terms. -/
theorem pixel_position (g : Ref K) (h : Reach g) (ha : Affine g.tr) (p : K × K) :
    (g.area = false → g.pixelToPoint p = affineAt g.tr p) ∧
    (g.area = true →
      g.pixelToPoint p = ((affineAt g.tr (p.1 + 1 / 2, p.2 + 1 / 2)).1 - g.tr.r0.y / 2,
        (affineAt g.tr (p.1 + 1 / 2, p.2 + 1 / 2)).2 - g.tr.r1.x / 2)) := by
  have hg := reach_good g h
  constructor
  · intro hf
    unfold Ref.pixelToPoint
    rw [hf, if_neg (by simp), apply_affine _ ha]
  · intro ht
    unfold Ref.pixelToPoint
    rw [ht, if_pos rfl, hg.sh, apply_affine _ (affine_shift _ ha)]
    simp only [affineAt, shift, Prod.mk.injEq]
    constructor <;> ring

/-- **C110.** So the half pixel shift is right exactly for transforms without rotation terms. -/
theorem area_shift_iff (g : Ref K) (h : Reach g) (ha : Affine g.tr) (ht : g.area = true) :
    (∀ p : K × K, g.pixelToPoint p = affineAt g.tr (p.1 + 1 / 2, p.2 + 1 / 2)) ↔ NoRotation g.tr := by
  constructor
  · intro hp
    have h1 := hp (0, 0)
    rw [(pixel_position g h ha (0, 0)).2 ht] at h1
    have hx := congrArg Prod.fst h1
    have hy := congrArg Prod.snd h1
    dsimp only at hx hy
    exact ⟨by linarith, by linarith⟩
  · rintro ⟨h1, h2⟩ p
    rw [(pixel_position g h ha p).2 ht, h1, h2]
    simp

/-! ### Setting the transform -/

theorem llBox_geographic (g : Ref K) (hp : g.projected = false) (b : Box K 2) : (g.llBoxFromPix b).2 = none := by
  unfold Ref.llBoxFromPix
  by_cases h : b.empty = true
  · rw [if_pos h]
    have : g.pixelToLonlat (0, 0) = some (g.pixelToPoint (0, 0)) := by
      unfold Ref.pixelToLonlat Ref.pointToLonlat; rw [hp]; simp
    rw [this]
  · rw [if_neg h]

theorem shift_det (M : M3 K) (ha : Affine M) : (shift M).det = M.det := by
  have h' : M.r2 = ⟨0, 0, 1⟩ := ha
  simp only [shift, M3.det, dot, cross, h']
  ring

/-- **C110.** Setting an affine transform: a singular one is refused; a regular one is accepted in geographic coordinates, and in
projected ones exactly if the first pixel can be projected.  After a successful call the transform is the one given and the pixel
interpretation and the projection are as before. -/
theorem setTransform_accepts (g : Ref K) (M : M3 K) (ha : Affine M) :
    (M.det = 0 → (g.setTransform M).2 = some .math) ∧
    (M.det ≠ 0 → g.projected = false → (g.setTransform M).2 = none) ∧
    (M.det ≠ 0 → g.projected = true → ((g.setTransform M).2 = none ↔
      (g.toLL (if g.area then apply (shift M) (0, 0) else apply M (0, 0))).isSome) ∧
      ((g.setTransform M).2 ≠ some .math)) ∧
    (∀ g', g.setTransform M = (g', none) → g'.tr = M ∧ g'.area = g.area ∧ g'.projected = g.projected ∧ g'.toLL = g.toLL ∧
      g'.toProj = g.toProj) := by
  refine ⟨?_, ?_, ?_, fun g' h => (setTransform_good g g' M h).2⟩
  · intro h0
    unfold Ref.setTransform
    dsimp only
    rw [(inverse_m3 M).1.2 h0]
  · intro h0 hp
    unfold Ref.setTransform
    dsimp only
    cases hi : M.inverse with
    | none => exact absurd ((inverse_m3 M).1.1 hi) h0
    | some i =>
      cases hj : (shift M).inverse with
      | none => exact absurd ((inverse_m3 (shift M)).1.1 hj) (by rw [shift_det M ha]; exact h0)
      | some j => exact llBox_geographic { g with tr := M, sh := shift M, inv := i, invSh := j } hp _
  · intro h0 hp
    unfold Ref.setTransform
    dsimp only
    cases hi : M.inverse with
    | none => exact absurd ((inverse_m3 M).1.1 hi) h0
    | some i =>
      cases hj : (shift M).inverse with
      | none => exact absurd ((inverse_m3 (shift M)).1.1 hj) (by rw [shift_det M ha]; exact h0)
      | some j =>
        dsimp only
        have he : (boxXYWH 0 0 0 0 : Box K 2).empty = true := by
          unfold Box.empty boxXYWH vec; simp
        unfold Ref.llBoxFromPix
        rw [if_pos he]
        have e : Ref.pixelToLonlat { g with tr := M, sh := shift M, inv := i, invSh := j } (0, 0) =
            g.toLL (if g.area then apply (shift M) (0, 0) else apply M (0, 0)) := by
          unfold Ref.pixelToLonlat Ref.pointToLonlat Ref.pixelToPoint
          rw [if_neg (show ¬ ((!({ g with tr := M, sh := shift M, inv := i, invSh := j } : Ref K).projected) = true) by
            show ¬ ((!g.projected) = true); rw [hp]; simp)]
          dsimp only
          cases g.area <;> rfl
        rw [e]
        cases g.toLL (if g.area then apply (shift M) (0, 0) else apply M (0, 0)) <;> simp

/-- **C110 (refuted).** A refused transform is stored all the same: the object reports the singular matrix and goes on inverting
with the matrix of the old one. -/
theorem setTransform_failed_state (g : Ref K) (M : M3 K) (h0 : M.det = 0) :
    (g.setTransform M).2 = some .math ∧ (g.setTransform M).1.tr = M ∧ (g.setTransform M).1.inv = g.inv ∧
    (g.setTransform M).1.invSh = g.invSh := by
  unfold Ref.setTransform
  dsimp only
  rw [(inverse_m3 M).1.2 h0]
  exact ⟨rfl, rfl, rfl, rfl⟩

/-! ### Crop and resample -/

/-- **C110.** The georeference of a crop.  Pixels as points: the pixel `p` of the crop lies where the pixel `p + (x, y)` of the
image lies.  Pixels as areas: it is moved from there by half of the two rotation terms. -/
theorem crop_position (g g' : Ref K) (h : Reach g) (ha : Affine g.tr) (x y : K) (hc : g.crop x y = (g', none)) (p : K × K) :
    (g.area = false → g'.pixelToPoint p = g.pixelToPoint (p.1 + x, p.2 + y)) ∧
    (g.area = true → g'.pixelToPoint p =
      ((g.pixelToPoint (p.1 + x, p.2 + y)).1 - g.tr.r0.y / 2, (g.pixelToPoint (p.1 + x, p.2 + y)).2 - g.tr.r1.x / 2)) := by
  have hr : Reach g' := Reach.step g g' (.crop x y) h hc
  obtain ⟨-, htr, harea, -⟩ := setTransform_good g g' _ hc
  have ha' : Affine g'.tr := by rw [htr]; exact ha
  constructor
  · intro hf
    rw [(pixel_position g' hr ha' p).1 (by rw [harea, hf]), (pixel_position g h ha _).1 hf, htr, hf]
    rw [if_neg (by simp), (pixel_position g h ha _).1 hf]
    simp only [affineAt, Prod.mk.injEq]
    constructor <;> ring
  · intro ht
    rw [(pixel_position g' hr ha' p).2 (by rw [harea, ht]), (pixel_position g h ha _).2 ht, htr, ht]
    rw [if_pos rfl, (pixel_position g h ha _).2 ht]
    simp only [affineAt, Prod.mk.injEq]
    constructor <;> ring

/-- **C110.** Without rotation terms, or with pixels as points, a crop keeps every pixel where it is, on the map and back. -/
theorem crop_keeps (g g' : Ref K) (h : Reach g) (ha : Affine g.tr) (hn : g.area = false ∨ NoRotation g.tr) (x y : K)
    (hc : g.crop x y = (g', none)) (p : K × K) :
    g'.pixelToPoint p = g.pixelToPoint (p.1 + x, p.2 + y) ∧
    g'.pointToPixel p = ((g.pointToPixel p).1 - x, (g.pointToPixel p).2 - y) := by
  have key : ∀ p : K × K, g'.pixelToPoint p = g.pixelToPoint (p.1 + x, p.2 + y) := by
    intro p
    obtain ⟨h1, h2⟩ := crop_position g g' h ha x y hc p
    cases hb : g.area with
    | false => exact h1 hb
    | true =>
      rw [h2 hb]
      rcases hn with hn | ⟨n1, n2⟩
      · rw [hb] at hn; cases hn
      · rw [n1, n2]; simp
  refine ⟨key p, ?_⟩
  have hr : Reach g' := Reach.step g g' (.crop x y) h hc
  obtain ⟨-, htr, harea, -⟩ := setTransform_good g g' _ hc
  have ha' : Affine g'.tr := by rw [htr]; exact ha
  have e : p = g'.pixelToPoint ((g.pointToPixel p).1 - x, (g.pointToPixel p).2 - y) := by
    rw [key]
    simp only [sub_add_cancel]
    exact ((affine_round_trip g h ha p).2).symm
  conv_lhs => rw [e]
  exact (affine_round_trip g' hr ha' _).1

/-- **C110.** The georeference of a resampled image, without rotation terms: the pixel `p` lies where the pixel `p / scale` of the
image lies, for both pixel interpretations. -/
theorem resample_position (g g' : Ref K) (h : Reach g) (ha : Affine g.tr) (hn : NoRotation g.tr) (sx sy : K) (hx : sx ≠ 0)
    (hy : sy ≠ 0) (hc : g.resample sx sy = (g', none)) (p : K × K) :
    g'.pixelToPoint p = g.pixelToPoint (p.1 / sx, p.2 / sy) := by
  have hr : Reach g' := Reach.step g g' (.resample sx sy) h hc
  unfold Ref.resample at hc
  dsimp only at hc
  obtain ⟨n1, n2⟩ := hn
  cases hb : g.area with
  | false =>
    rw [hb, if_neg (by simp)] at hc
    obtain ⟨-, htr, harea, -⟩ := setTransform_good g g' _ hc
    have ha' : Affine g'.tr := by rw [htr]; exact ha
    rw [(pixel_position g' hr ha' p).1 (by rw [harea, hb]), (pixel_position g h ha _).1 hb, htr]
    simp only [affineAt, n1, n2, Prod.mk.injEq]
    constructor <;> field_simp <;> ring
  | true =>
    rw [hb, if_pos rfl] at hc
    obtain ⟨-, htr, harea, -⟩ := setTransform_good g g' _ hc
    have ha' : Affine g'.tr := by rw [htr]; exact ha
    rw [(pixel_position g' hr ha' p).2 (by rw [harea, hb]), (pixel_position g h ha _).2 hb, htr]
    rw [(pixel_position g h ha _).2 hb]
    simp only [affineAt, n1, n2, Prod.mk.injEq]
    constructor <;> field_simp <;> ring

/-- **C110 (refuted).** With rotation terms a resampled image is somewhere else: only the diagonal of the transform is scaled. -/
theorem resample_rotated (g g' : Ref K) (h : Reach g) (ha : Affine g.tr) (hf : g.area = false) (sx sy : K) (hx : sx ≠ 0)
    (hy : sy ≠ 0) (hc : g.resample sx sy = (g', none)) (p : K × K) :
    g'.pixelToPoint p = ((g.pixelToPoint (p.1 / sx, p.2 / sy)).1 + g.tr.r0.y * (p.2 - p.2 / sy),
      (g.pixelToPoint (p.1 / sx, p.2 / sy)).2 + g.tr.r1.x * (p.1 - p.1 / sx)) := by
  have hr : Reach g' := Reach.step g g' (.resample sx sy) h hc
  unfold Ref.resample at hc
  dsimp only at hc
  rw [hf, if_neg (by simp)] at hc
  obtain ⟨-, htr, harea, -⟩ := setTransform_good g g' _ hc
  have ha' : Affine g'.tr := by rw [htr]; exact ha
  rw [(pixel_position g' hr ha' p).1 (by rw [harea, hf]), (pixel_position g h ha _).1 hf, htr]
  simp only [affineAt, Prod.mk.injEq]
  constructor <;> field_simp <;> ring

/-! ### These georeferences exist -/

/-- **C110.** Every affine, regular matrix makes a georeference, with the matrix and pixel interpretation asked for. -/
theorem make_exists (M : M3 K) (ha : Affine M) (hd : M.det ≠ 0) (a : Bool) :
    ∃ g, Ref.make M a = some g ∧ Reach g ∧ g.tr = M ∧ g.area = a ∧ g.projected = false := by
  have h : ∃ g, Ref.make M a = some g ∧ g.projected = false := by
    unfold Ref.make
    cases hi : M.inverse with
    | none => exact absurd ((inverse_m3 M).1.1 hi) hd
    | some i =>
      cases hj : (shift M).inverse with
      | none => exact absurd ((inverse_m3 (shift M)).1.1 hj) (by rw [shift_det M ha]; exact hd)
      | some j =>
        dsimp only
        have h2 := llBox_geographic (⟨a, M, i, shift M, j, false, some, some, noBox⟩ : Ref K) rfl (boxXYWH 0 0 0 0)
        obtain ⟨b', hb⟩ := llBoxFromPix_same (⟨a, M, i, shift M, j, false, some, some, noBox⟩ : Ref K) (boxXYWH 0 0 0 0)
        cases hr : Ref.llBoxFromPix (⟨a, M, i, shift M, j, false, some, some, noBox⟩ : Ref K) (boxXYWH 0 0 0 0) with
        | mk g e =>
          rw [hr] at h2 hb
          dsimp only at h2 hb
          subst h2
          exact ⟨g, rfl, by rw [hb]⟩
  obtain ⟨g, hg, hp⟩ := h
  obtain ⟨-, h1, h2⟩ := make_good M a g hg
  exact ⟨g, hg, .make M a g hg, h1, h2, hp⟩

/-- Non-vacuity: an image with rotation terms, pixels as areas: the crop is off by half a pixel's rotation. -/
example : ∃ g g' : Ref ℚ, Reach g ∧ Affine g.tr ∧ g.area = true ∧ g.crop 10 20 = (g', none) ∧
    g'.pixelToPoint (0, 0) ≠ g.pixelToPoint (10, 20) := by
  obtain ⟨g, -, h1, h2, h3, h4⟩ := make_exists (⟨⟨1, 1, 0⟩, ⟨-1, 1, 0⟩, ⟨0, 0, 1⟩⟩ : M3 ℚ) rfl
    (by simp [M3.det, dot, cross]) true
  have ha : Affine g.tr := by rw [h2]; rfl
  have hc : ∃ g', g.crop 10 20 = (g', none) := by
    have h := (setTransform_accepts g ({ g.tr with
        r0 := { g.tr.r0 with z := (if g.area then g.pixelToPoint (10 - 1 / 2, 20 - 1 / 2) else g.pixelToPoint (10, 20)).1 },
        r1 := { g.tr.r1 with z := (if g.area then g.pixelToPoint (10 - 1 / 2, 20 - 1 / 2) else g.pixelToPoint (10, 20)).2 } })
        ha).2.1 (by rw [h2]; simp [M3.det, dot, cross]) h4
    exact ⟨_, Prod.ext rfl h⟩
  obtain ⟨g', hc⟩ := hc
  refine ⟨g, g', h1, ha, h3, hc, ?_⟩
  rw [(crop_position g g' h1 ha 10 20 hc (0, 0)).2 h3, h2]
  intro h
  have := congrArg Prod.fst h
  norm_num at this

end Verif.Georef
