import Verif.Georef.PixelProps
import Verif.BBox.Props
import Verif.Line.Props

/-
C111: bounding boxes of a georeference.
-/

set_option linter.unusedSectionVars false

namespace Verif.Georef
open Verif.Camera VW.BBox

variable {K : Type} [Field K] [LinearOrder K] [IsStrictOrderedRing K] [FloorRing K]

/-! ### Specification -/

/-- The point is in the box, boundary included. -/
def In (b : Box K 2) (p : K × K) : Prop := b.min 0 ≤ p.1 ∧ p.1 ≤ b.max 0 ∧ b.min 1 ≤ p.2 ∧ p.2 ≤ b.max 1

/-- The point is in the integer box: the upper and right ends do not belong to it. -/
def InInt (b : Box Int 2) (p : K × K) : Prop :=
  (b.min 0 : K) ≤ p.1 ∧ p.1 < (b.max 0 : K) ∧ (b.min 1 : K) ≤ p.2 ∧ p.2 < (b.max 1 : K)

/-- The first box is part of the second. -/
def Sub (a b : Box K 2) : Prop := b.min 0 ≤ a.min 0 ∧ a.max 0 ≤ b.max 0 ∧ b.min 1 ≤ a.min 1 ∧ a.max 1 ≤ b.max 1

/-- The coordinates are within the values of the default box. -/
def Fits (p : K × K) : Prop := |p.1| ≤ ((big32 : Int) : K) ∧ |p.2| ≤ ((big32 : Int) : K)

/-- A box of integers. -/
def intBox (x0 y0 x1 y1 : Int) : Box K 2 := ⟨vec (x0, y0), vec (x1, y1)⟩

/-! ### Growing -/

@[simp] theorem vec_zero (p : K × K) : vec p 0 = p.1 := rfl
@[simp] theorem vec_one (p : K × K) : vec p 1 = p.2 := rfl

theorem closed_iff (b : Box K 2) (p : K × K) : b.ClosedMem (vec p) ↔ In b p := by
  unfold Box.ClosedMem In
  constructor
  · intro h
    exact ⟨(h 0).1, (h 0).2, (h 1).1, (h 1).2⟩
  · rintro ⟨h1, h2, h3, h4⟩ i
    match i with
    | 0 => exact ⟨h1, h2⟩
    | 1 => exact ⟨h3, h4⟩

theorem growSome_eq (l : List (Option (K × K))) : growSome l = noBox.growPts ((l.filterMap id).map vec) := by
  unfold growSome Box.growPts
  generalize (noBox : Box K 2) = b
  induction l generalizing b with
  | nil => rfl
  | cons o l ih =>
    cases o with
    | none => simpa using ih b
    | some p => simpa using ih (b.growPt (vec p))

theorem growSome_contains (l : List (Option (K × K))) (p : K × K) (h : some p ∈ l) : In (growSome l) p := by
  rw [← closed_iff, growSome_eq]
  have hm : vec p ∈ (l.filterMap id).map vec := by
    rw [List.mem_map]
    exact ⟨p, by rw [List.mem_filterMap]; exact ⟨some p, h, rfl⟩, rfl⟩
  intro i
  have h1 := growPts_spec (noBox : Box K 2) ((l.filterMap id).map vec) i
  exact ⟨((h1 _).1.1 (le_refl _)).2 _ hm, ((h1 _).2.1 (le_refl _)).2 _ hm⟩

theorem growSome_least (l : List (Option (K × K))) (c : Box K 2) (h : ∀ p, some p ∈ l → In c p)
    (hne : ∃ p, some p ∈ l ∧ Fits p) : Sub (growSome l) c := by
  have hl : ∀ i, c.min i ≤ (growSome l).min i ∧ (growSome l).max i ≤ c.max i := by
    intro i
    rw [growSome_eq]
    have h1 := growPts_spec (noBox : Box K 2) ((l.filterMap id).map vec) i
    obtain ⟨p, hp, hf1, hf2⟩ := hne
    have hc := (closed_iff c p).2 (h p hp) i
    have hr : -((big32 : Int) : K) ≤ vec p i ∧ vec p i ≤ ((big32 : Int) : K) := by
      match i with
      | 0 => exact abs_le.1 hf1
      | 1 => exact abs_le.1 hf2
    have hall : ∀ q ∈ (l.filterMap id).map vec, c.min i ≤ q i ∧ q i ≤ c.max i := by
      intro q hq
      rw [List.mem_map] at hq
      obtain ⟨r, hr', rfl⟩ := hq
      rw [List.mem_filterMap] at hr'
      obtain ⟨o, ho, e⟩ := hr'
      rw [show o = some r from e] at ho
      exact (closed_iff c r).2 (h r ho) i
    constructor
    · rw [(h1 _).1]
      exact ⟨le_trans hc.1 hr.2, fun q hq => (hall q hq).1⟩
    · rw [(h1 _).2]
      exact ⟨le_trans hr.1 hc.2, fun q hq => (hall q hq).2⟩
  exact ⟨(hl 0).1, (hl 0).2, (hl 1).1, (hl 1).2⟩

theorem not_empty (b : Box K 2) (p : K × K) (hb : b.empty = false) : (In b p → b.min 0 < b.max 0 ∧ b.min 1 < b.max 1) := by
  intro _
  have h := ((empty_iff b).1 hb).2
  exact ⟨h 0, h 1⟩

/-! ### Affine images of boxes -/

/-- An affine function on a rectangle lies between its values at two corners. -/
theorem affine_between (a b c x0 x1 y0 y1 x y : K) (hx0 : x0 ≤ x) (hx1 : x ≤ x1) (hy0 : y0 ≤ y) (hy1 : y ≤ y1) :
    (∃ u v, (u = x0 ∨ u = x1) ∧ (v = y0 ∨ v = y1) ∧ a * u + b * v + c ≤ a * x + b * y + c) ∧
    (∃ u v, (u = x0 ∨ u = x1) ∧ (v = y0 ∨ v = y1) ∧ a * x + b * y + c ≤ a * u + b * v + c) := by
  have one : ∀ (k s t r : K), s ≤ r → r ≤ t → (∃ u, (u = s ∨ u = t) ∧ k * u ≤ k * r) ∧ (∃ u, (u = s ∨ u = t) ∧ k * r ≤ k * u) := by
    intro k s t r h1 h2
    rcases le_total 0 k with hk | hk
    · exact ⟨⟨s, Or.inl rfl, mul_le_mul_of_nonneg_left h1 hk⟩, ⟨t, Or.inr rfl, mul_le_mul_of_nonneg_left h2 hk⟩⟩
    · exact ⟨⟨t, Or.inr rfl, mul_le_mul_of_nonpos_left h2 hk⟩, ⟨s, Or.inl rfl, mul_le_mul_of_nonpos_left h1 hk⟩⟩
  obtain ⟨⟨u, hu, hu'⟩, ⟨w, hw, hw'⟩⟩ := one a x0 x1 x hx0 hx1
  obtain ⟨⟨v, hv, hv'⟩, ⟨z, hz, hz'⟩⟩ := one b y0 y1 y hy0 hy1
  exact ⟨⟨u, v, hu, hv, by linarith⟩, ⟨w, z, hw, hz, by linarith⟩⟩

theorem mem_corners (b : Box K 2) (u v : K) (hu : u = b.min 0 ∨ u = b.max 0) (hv : v = b.min 1 ∨ v = b.max 1) :
    (u, v) ∈ corners b := by
  unfold corners
  rcases hu with rfl | rfl <;> rcases hv with rfl | rfl <;> simp

theorem affine_corners (M : M3 K) (hM : Affine M) (b : Box K 2) (p : K × K) (hp : In b p) :
    In (growSome ((corners b).map fun p => some (apply M p))) (apply M p) := by
  obtain ⟨h1, h2, h3, h4⟩ := hp
  have hc : ∀ u v, (u = b.min 0 ∨ u = b.max 0) → (v = b.min 1 ∨ v = b.max 1) →
      In (growSome ((corners b).map fun p => some (apply M p))) (affineAt M (u, v)) := by
    intro u v hu hv
    apply growSome_contains
    rw [List.mem_map]
    exact ⟨(u, v), mem_corners b u v hu hv, by rw [apply_affine M hM]⟩
  rw [apply_affine M hM]
  obtain ⟨⟨u1, v1, a1, b1, c1⟩, ⟨u2, v2, a2, b2, c2⟩⟩ :=
    affine_between M.r0.x M.r0.y M.r0.z (b.min 0) (b.max 0) (b.min 1) (b.max 1) p.1 p.2 h1 h2 h3 h4
  obtain ⟨⟨u3, v3, a3, b3, c3⟩, ⟨u4, v4, a4, b4, c4⟩⟩ :=
    affine_between M.r1.x M.r1.y M.r1.z (b.min 0) (b.max 0) (b.min 1) (b.max 1) p.1 p.2 h1 h2 h3 h4
  exact ⟨le_trans (hc u1 v1 a1 b1).1 c1, le_trans c2 (hc u2 v2 a2 b2).2.1, le_trans (hc u3 v3 a3 b3).2.2.1 c3,
    le_trans c4 (hc u4 v4 a4 b4).2.2.2⟩

/-- **C111.** The box on the map of a box of the image: it contains the map position of every point of the box (boundary
included), and it is part of every box with this property as long as the map coordinates fit in the default box (±(2³¹ − 2)). -/
theorem pixelToPointBox_covers (g : Ref K) (h : Reach g) (ha : Affine g.tr) (b : Box K 2) (hb : b.empty = false) :
    (∀ p, In b p → In (g.pixelToPointBox b) (g.pixelToPoint p)) ∧
    (∀ c, (∀ p, In b p → In c (g.pixelToPoint p)) → (∃ p ∈ corners b, Fits (g.pixelToPoint p)) →
      Sub (g.pixelToPointBox b) c) := by
  have hn := native_affine g (reach_good g h) ha
  have hif : g.pixelToPointBox b = growSome ((corners b).map fun p => some (g.pixelToPoint p)) := by
    unfold Ref.pixelToPointBox; rw [hb]; rfl
  rw [hif]
  constructor
  · intro p hp
    exact affine_corners g.native hn b p hp
  · intro c hc ⟨q, hq, hf⟩
    apply growSome_least
    · intro p hp
      rw [List.mem_map] at hp
      obtain ⟨r, hr, e⟩ := hp
      cases e
      apply hc
      have hm := ((empty_iff b).1 hb).2
      have m0 := le_of_lt (hm 0)
      have m1 := le_of_lt (hm 1)
      unfold corners at hr
      simp only [List.mem_cons, List.not_mem_nil, or_false] at hr
      rcases hr with rfl | rfl | rfl | rfl
      · exact ⟨le_refl _, m0, le_refl _, m1⟩
      · exact ⟨m0, le_refl _, m1, le_refl _⟩
      · exact ⟨le_refl _, m0, m1, le_refl _⟩
      · exact ⟨m0, le_refl _, le_refl _, m1⟩
    · exact ⟨_, List.mem_map.2 ⟨q, hq, rfl⟩, hf⟩

theorem growToInt_in (b : Box K 2) (p : K × K) (hp : In b p) : InInt (growToInt b) p := by
  obtain ⟨h1, h2, h3, h4⟩ := hp
  have hle : ∀ i, b.min i ≤ b.max i := by
    intro i
    match i with
    | 0 => exact le_trans h1 h2
    | 1 => exact le_trans h3 h4
  have h := (growToInt_encloses b hle).1 (vec p) ((closed_iff b p).2 ⟨h1, h2, h3, h4⟩)
  exact ⟨(h 0).1, (h 0).2, (h 1).1, (h 1).2⟩

/-- **C111.** The box of the image for a box on the map: an integer box that contains the pixel of every point of the box,
boundary included. -/
theorem pointToPixelBox_covers (g : Ref K) (h : Reach g) (ha : Affine g.tr) (b : Box K 2) (hb : b.empty = false) (p : K × K)
    (hp : In b p) : InInt (g.pointToPixelBox b) (g.pointToPixel p) := by
  have hg := reach_good g h
  have hn := inverse_affine _ _ (native_affine g hg ha) (native_inverse g hg)
  have hif : g.pointToPixelBox b = growToInt (growSome ((corners b).map fun p => some (g.pointToPixel p))) := by
    unfold Ref.pointToPixelBox; rw [hb]; rfl
  rw [hif]
  apply growToInt_in
  exact affine_corners (if g.area then g.invSh else g.inv) hn b p hp

/-- **C111.** An empty box gives an empty box, in all six conversions. -/
theorem empty_box (g : Ref K) (b : Box K 2) (n : Nat) (hb : b.empty = true) :
    (g.pointToPixelBox b).empty = true ∧ (g.pixelToPointBox b).empty = true ∧ (g.pixelToLonlatBox b).empty = true ∧
    (g.lonlatToPointBox b n).empty = true ∧ (g.pointToLonlatBox b n).empty = true ∧ (g.lonlatToPixelBox b n).empty = true := by
  have hnb : (noBox : Box K 2).empty = true := by
    unfold noBox Box.empty Box.default big32
    simp only [Bool.or_eq_true, decide_eq_true_eq]
    left
    exact ⟨0, by norm_num⟩
  have hib : (Box.default 2 big32 : Box Int 2).empty = true := by decide
  refine ⟨?_, ?_, ?_, ?_, ?_, ?_⟩
  · unfold Ref.pointToPixelBox; rw [if_pos hb]; exact hib
  · unfold Ref.pixelToPointBox; rw [if_pos hb]; exact hnb
  · unfold Ref.pixelToLonlatBox; rw [if_pos hb]; exact hnb
  · unfold Ref.lonlatToPointBox; rw [if_pos hb]; exact hnb
  · unfold Ref.pointToLonlatBox; rw [if_pos hb]; exact hnb
  · unfold Ref.lonlatToPixelBox; rw [if_pos hb]; exact hib

/-! ### The sampled points -/

theorem bres_x (ax ay bx by' : Int) :
    (VW.Line.Bres.mk' ax ay bx by').x1 - (VW.Line.Bres.mk' ax ay bx by').x = max |bx - ax| |by' - ay| := by
  have S := VW.Line.setup_ok ax ay bx by'
  rw [S.x, ← S.deltax_eq, S.dx]

/-- The pixels of the line are those visited by the iterator while it is good. -/
theorem mem_bres (a b p : Int × Int) : p ∈ bresPixels a b ↔
    ∃ k : Nat, (VW.Line.Bres.mk' a.1 a.2 b.1 b.2).goodAt k = true ∧ (VW.Line.Bres.mk' a.1 a.2 b.1 b.2).at k = p := by
  unfold bresPixels
  dsimp only
  rw [List.mem_map]
  constructor
  · rintro ⟨k, hk, e⟩
    rw [List.mem_range, bres_x] at hk
    refine ⟨k, ?_, e⟩
    rw [VW.Line.visits_exactly]; omega
  · rintro ⟨k, hk, e⟩
    rw [VW.Line.visits_exactly] at hk
    refine ⟨k, ?_, e⟩
    rw [List.mem_range, bres_x]; omega

theorem bres_inside (a b p : Int × Int) (h : p ∈ bresPixels a b) :
    min a.1 b.1 ≤ p.1 ∧ p.1 ≤ max a.1 b.1 ∧ min a.2 b.2 ≤ p.2 ∧ p.2 ≤ max a.2 b.2 := by
  rw [mem_bres] at h
  obtain ⟨k, hk, e⟩ := h
  rw [VW.Line.visits_exactly] at hk
  have := VW.Line.inside_box a.1 a.2 b.1 b.2 k hk
  rw [e] at this
  exact this

theorem mem_upTo (a : Int) (b : K) (x : Int) : x ∈ upTo a b ↔ a ≤ x ∧ (x : K) ≤ b := by
  unfold upTo
  rw [List.mem_map]
  constructor
  · rintro ⟨k, hk, rfl⟩
    rw [List.mem_range] at hk
    refine ⟨by omega, ?_⟩
    rw [← Int.le_floor]; omega
  · rintro ⟨h1, h2⟩
    rw [← Int.le_floor] at h2
    refine ⟨(x - a).toNat, ?_, by omega⟩
    rw [List.mem_range]; omega

theorem trunc_int (x : Int) : trunc (x : K) = x := by
  unfold trunc
  by_cases h : (x : K) < 0
  · rw [if_pos h, ← Int.cast_neg, Int.floor_intCast]; omega
  · rw [if_neg h, Int.floor_intCast]

theorem intBox_empty (x0 y0 x1 y1 : Int) (hx : x0 < x1) (hy : y0 < y1) : (intBox x0 y0 x1 y1 : Box K 2).empty = false := by
  rw [empty_iff]
  refine ⟨by norm_num, fun i => ?_⟩
  match i with
  | 0 => exact Int.cast_lt.2 hx
  | 1 => exact Int.cast_lt.2 hy

theorem sampleInt_eq (x0 y0 x1 y1 : Int) (hx : x0 < x1) (hy : y0 < y1) :
    sampleInt (intBox x0 y0 x1 y1 : Box K 2) =
      ((upTo x0 (x1 : K)).flatMap fun (x : Int) => [((x : K), (y0 : K)), ((x : K), (y1 : K))]) ++
      ((upTo y0 (y1 : K)).flatMap fun (y : Int) => [((x0 : K), (y : K)), ((x1 : K), (y : K))]) ++
      ((bresPixels (x0, y0) (x1, y1)).map fun (p : Int × Int) => ((p.1 : K), (p.2 : K))) ++
      ((bresPixels (x1, y0) (x0, y1)).map fun (p : Int × Int) => ((p.1 : K), (p.2 : K))) := by
  have he := intBox_empty (K := K) x0 y0 x1 y1 hx hy
  have hw : (intBox x0 y0 x1 y1 : Box K 2).extent 0 = ((x1 - x0 : Int) : K) := by
    unfold Box.extent; rw [he]
    show (x1 : K) - (x0 : K) = _
    push_cast; ring
  have e0 : (intBox x0 y0 x1 y1 : Box K 2).min 0 = (x0 : K) := rfl
  have e1 : (intBox x0 y0 x1 y1 : Box K 2).min 1 = (y0 : K) := rfl
  have e2 : (intBox x0 y0 x1 y1 : Box K 2).max 0 = (x1 : K) := rfl
  have e3 : (intBox x0 y0 x1 y1 : Box K 2).max 1 = (y1 : K) := rfl
  have a1 : ((x0 : K) + ((x1 - x0 : Int) : K)) = ((x1 : Int) : K) := by push_cast; ring
  have a2 : ((x1 : K) - ((x1 - x0 : Int) : K)) = ((x0 : Int) : K) := by push_cast; ring
  unfold sampleInt
  rw [he, if_neg (by simp)]
  dsimp only
  rw [hw, e0, e1, e2, e3, trunc_int, trunc_int, trunc_int, trunc_int, trunc_int, a1, a2, trunc_int, trunc_int]

/-- **C111.** What `sample_int_box` samples in a box with integer corners: every integer point of the boundary is there, and
every sample is an integer point of the box, boundary included. -/
theorem sampleInt_intBox (x0 y0 x1 y1 : Int) (hx : x0 < x1) (hy : y0 < y1) :
    (∀ x y : Int, x0 ≤ x → x ≤ x1 → y0 ≤ y → y ≤ y1 → (x = x0 ∨ x = x1 ∨ y = y0 ∨ y = y1) →
      ((x : K), (y : K)) ∈ sampleInt (intBox x0 y0 x1 y1 : Box K 2)) ∧
    (∀ p ∈ sampleInt (intBox x0 y0 x1 y1 : Box K 2), ∃ x y : Int, p = ((x : K), (y : K)) ∧ x0 ≤ x ∧ x ≤ x1 ∧ y0 ≤ y ∧ y ≤ y1) := by
  have hs := sampleInt_eq (K := K) x0 y0 x1 y1 hx hy
  rw [hs]
  constructor
  · intro x y h1 h2 h3 h4 h5
    simp only [List.mem_append, List.mem_flatMap, List.mem_cons, List.not_mem_nil, or_false, Prod.mk.injEq, Int.cast_inj,
      mem_upTo, Int.cast_le]
    rcases h5 with h | h | h | h
    · exact Or.inl (Or.inl (Or.inr ⟨y, ⟨h3, h4⟩, Or.inl ⟨h, rfl⟩⟩))
    · exact Or.inl (Or.inl (Or.inr ⟨y, ⟨h3, h4⟩, Or.inr ⟨h, rfl⟩⟩))
    · exact Or.inl (Or.inl (Or.inl ⟨x, ⟨h1, h2⟩, Or.inl ⟨rfl, h⟩⟩))
    · exact Or.inl (Or.inl (Or.inl ⟨x, ⟨h1, h2⟩, Or.inr ⟨rfl, h⟩⟩))
  · intro p hp
    simp only [List.mem_append, List.mem_flatMap, List.mem_cons, List.not_mem_nil, or_false, List.mem_map,
      mem_upTo, Int.cast_le] at hp
    rcases hp with ((⟨x, hx', rfl | rfl⟩ | ⟨y, hy', rfl | rfl⟩) | ⟨q, hq, rfl⟩) | ⟨q, hq, rfl⟩
    · exact ⟨x, y0, rfl, hx'.1, hx'.2, le_refl _, le_of_lt hy⟩
    · exact ⟨x, y1, rfl, hx'.1, hx'.2, le_of_lt hy, le_refl _⟩
    · exact ⟨x0, y, rfl, le_refl _, le_of_lt hx, hy'.1, hy'.2⟩
    · exact ⟨x1, y, rfl, le_of_lt hx, le_refl _, hy'.1, hy'.2⟩
    · obtain ⟨b1, b2, b3, b4⟩ := bres_inside _ _ _ hq
      exact ⟨q.1, q.2, rfl, by omega, by omega, by omega, by omega⟩
    · obtain ⟨b1, b2, b3, b4⟩ := bres_inside _ _ _ hq
      exact ⟨q.1, q.2, rfl, by omega, by omega, by omega, by omega⟩

theorem trunc_zero_neg (x : K) (h0 : -1 < x) (h1 : x < 0) : trunc x = 0 := by
  unfold trunc
  rw [if_pos h1]
  have : ⌊-x⌋ = 0 := by rw [Int.floor_eq_iff]; constructor <;> push_cast <;> linarith
  rw [this]; rfl

/-- **C111 (refuted).** "Ensure even boxes less than one pixel wide are sampled": a box inside the open square between the pixels
(−1, −1) and (0, 0) has no samples at all, because its corners are rounded towards zero. -/
theorem sampleInt_misses (b : Box K 2) (h0 : -1 < b.min 0) (h1 : b.min 0 < b.max 0) (h2 : b.max 0 < 0) (h3 : -1 < b.min 1)
    (h4 : b.min 1 < b.max 1) (h5 : b.max 1 < 0) : b.empty = false ∧ sampleInt b = [] := by
  have he : b.empty = false := by
    rw [empty_iff]
    refine ⟨by norm_num, fun i => ?_⟩
    match i with
    | 0 => exact h1
    | 1 => exact h4
  refine ⟨he, ?_⟩
  have hw : trunc (b.extent 0) = 0 := by
    unfold Box.extent; rw [he, if_neg (by simp)]
    unfold trunc
    rw [if_neg (by linarith)]
    rw [Int.floor_eq_iff]; constructor <;> push_cast <;> linarith
  have u0 : upTo 0 (b.max 0) = [] := by
    rw [List.eq_nil_iff_forall_not_mem]
    intro x hx
    rw [mem_upTo] at hx
    have : (0 : K) ≤ (x : K) := by exact_mod_cast hx.1
    linarith [hx.2]
  have u1 : upTo 0 (b.max 1) = [] := by
    rw [List.eq_nil_iff_forall_not_mem]
    intro x hx
    rw [mem_upTo] at hx
    have : (0 : K) ≤ (x : K) := by exact_mod_cast hx.1
    linarith [hx.2]
  unfold sampleInt
  rw [he, if_neg (by simp)]
  dsimp only
  rw [hw, Int.cast_zero, add_zero, sub_zero, trunc_zero_neg _ h0 (by linarith), trunc_zero_neg _ h3 (by linarith),
    trunc_zero_neg _ (by linarith) h2, trunc_zero_neg _ (by linarith) h5, u0, u1]
  have : bresPixels (0, 0) (0, 0) = [] := by decide
  rw [this]; rfl

/-! ### Longitude and latitude boxes of a box of the image -/

/-- **C111.** In geographic coordinates the longitude-latitude box of an image box contains the longitude and latitude of every
point of it. -/
theorem pixelToLonlatBox_geographic (g : Ref K) (h : Reach g) (ha : Affine g.tr) (hp : g.projected = false) (b : Box K 2)
    (hb : b.empty = false) (p : K × K) (hin : In b p) :
    ∃ ll, g.pixelToLonlat p = some ll ∧ In (g.pixelToLonlatBox b) ll := by
  refine ⟨g.pixelToPoint p, ?_, ?_⟩
  · unfold Ref.pixelToLonlat Ref.pointToLonlat; rw [hp]; rfl
  · have hif : g.pixelToLonlatBox b = g.pixelToPointBox b := by
      unfold Ref.pixelToLonlatBox; rw [hb, hp]; rfl
    rw [hif]
    exact (pixelToPointBox_covers g h ha b hb).1 p hin

theorem pixelToLonlatBox_sample (g : Ref K) (hp : g.projected = true) (b : Box K 2) (hb : b.empty = false) (p ll : K × K)
    (hs : p ∈ sampleInt b) (hl : g.pixelToLonlat p = some ll) : In (g.pixelToLonlatBox b) ll := by
  have hif : g.pixelToLonlatBox b = growSome ((sampleInt b).map g.pixelToLonlat) := by
    unfold Ref.pixelToLonlatBox; rw [hb, hp]; rfl
  rw [hif]
  apply growSome_contains
  rw [List.mem_map]
  exact ⟨p, hs, hl⟩

/-- **C111.** With a projection, for an integer box: the longitude and latitude of every pixel on the boundary of the box that
can be projected are in the box; pixels that cannot be projected are skipped. -/
theorem pixelToLonlatBox_boundary (g : Ref K) (hp : g.projected = true) (x0 y0 x1 y1 : Int) (hx : x0 < x1) (hy : y0 < y1)
    (x y : Int) (h1 : x0 ≤ x) (h2 : x ≤ x1) (h3 : y0 ≤ y) (h4 : y ≤ y1) (h5 : x = x0 ∨ x = x1 ∨ y = y0 ∨ y = y1) (ll : K × K)
    (hl : g.pixelToLonlat ((x : K), (y : K)) = some ll) : In (g.pixelToLonlatBox (intBox x0 y0 x1 y1)) ll :=
  pixelToLonlatBox_sample g hp _ (intBox_empty x0 y0 x1 y1 hx hy) _ ll
    ((sampleInt_intBox x0 y0 x1 y1 hx hy).1 x y h1 h2 h3 h4 h5) hl

/-- **C111.** If the projection is cylindrical (longitude depends on the first map coordinate only, latitude on the second, both
monotone) and the transform has no rotation terms, this is enough: the box contains the longitude and latitude of every point of
the image box, not only of those sampled. -/
theorem pixelToLonlatBox_cylindrical (g : Ref K) (h : Reach g) (ha : Affine g.tr) (hn : NoRotation g.tr) (hp : g.projected = true)
    (f k : K → K) (hf : Monotone f) (hk : Monotone k) (hcyl : ∀ q : K × K, g.toLL q = some (f q.1, k q.2))
    (x0 y0 x1 y1 : Int) (hx : x0 < x1) (hy : y0 < y1) (p : K × K) (hin : In (intBox x0 y0 x1 y1) p) :
    ∃ ll, g.pixelToLonlat p = some ll ∧ In (g.pixelToLonlatBox (intBox x0 y0 x1 y1)) ll := by
  have hg := reach_good g h
  have hna := native_affine g hg ha
  have hnr : NoRotation g.native := by
    unfold Ref.native
    cases g.area
    · exact hn
    · show NoRotation g.sh
      rw [hg.sh]; exact hn
  have hll : ∀ q : K × K, g.pixelToLonlat q = some (f (g.native.r0.x * q.1 + g.native.r0.z), k (g.native.r1.y * q.2 + g.native.r1.z)) := by
    intro q
    unfold Ref.pixelToLonlat Ref.pointToLonlat
    rw [hp, if_neg (by simp), hcyl]
    have e : g.pixelToPoint q = affineAt g.native q := apply_affine g.native hna q
    rw [e]
    simp only [affineAt, hnr.1, hnr.2, zero_mul, add_zero, zero_add]
  refine ⟨_, hll p, ?_⟩
  have hc : ∀ x y : Int, (x = x0 ∨ x = x1) → (y = y0 ∨ y = y1) → In (g.pixelToLonlatBox (intBox x0 y0 x1 y1))
      (f (g.native.r0.x * (x : K) + g.native.r0.z), k (g.native.r1.y * (y : K) + g.native.r1.z)) := by
    intro x y h1 h2
    exact pixelToLonlatBox_boundary g hp x0 y0 x1 y1 hx hy x y (by omega) (by omega) (by omega) (by omega)
      (by rcases h1 with h | h <;> simp [h]) _ (hll _)
  obtain ⟨i1, i2, i3, i4⟩ := hin
  have i1' : (x0 : K) ≤ p.1 := i1
  have i2' : p.1 ≤ (x1 : K) := i2
  have i3' : (y0 : K) ≤ p.2 := i3
  have i4' : p.2 ≤ (y1 : K) := i4
  have c00 := hc x0 y0 (Or.inl rfl) (Or.inl rfl)
  have c11 := hc x1 y1 (Or.inr rfl) (Or.inr rfl)
  have mono : ∀ (u : K → K) (hu : Monotone u) (a c s t r lo hi : K), s ≤ r → r ≤ t → lo ≤ u (a * s + c) → lo ≤ u (a * t + c) →
      u (a * s + c) ≤ hi → u (a * t + c) ≤ hi → lo ≤ u (a * r + c) ∧ u (a * r + c) ≤ hi := by
    intro u hu a c s t r lo hi h1 h2 l1 l2 u1 u2
    rcases le_total 0 a with h0 | h0
    · have m1 := mul_le_mul_of_nonneg_left h1 h0
      have m2 := mul_le_mul_of_nonneg_left h2 h0
      exact ⟨le_trans l1 (hu (by linarith)), le_trans (hu (by linarith)) u2⟩
    · have m1 := mul_le_mul_of_nonpos_left h1 h0
      have m2 := mul_le_mul_of_nonpos_left h2 h0
      exact ⟨le_trans l2 (hu (by linarith)), le_trans (hu (by linarith)) u1⟩
  have mx := mono f hf g.native.r0.x g.native.r0.z x0 x1 p.1 _ _ i1' i2' c00.1 c11.1 c00.2.1 c11.2.1
  have my := mono k hk g.native.r1.y g.native.r1.z y0 y1 p.2 _ _ i3' i4' c00.2.2.1 c11.2.2.1 c00.2.2.2 c11.2.2.2
  exact ⟨mx.1, mx.2, my.1, my.2⟩

end Verif.Georef
