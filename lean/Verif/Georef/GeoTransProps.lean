import Verif.Georef.LonProps
import Verif.Georef.GeoTrans

/-
C113: converting between two georeferenced images.
-/

set_option linter.unusedSectionVars false

namespace Verif.Georef
open Verif.Camera VW.BBox

variable {K : Type} [Field K] [LinearOrder K] [IsStrictOrderedRing K] [FloorRing K]

/-! ### Specification -/

/-- The two longitudes name the same meridian. -/
def SameLon (a b : K) : Prop := ∃ k : Int, b = a + 360 * (k : K)

/-- A conversion between two images made by a program, with affine transforms. -/
structure GTOk (t : GT K) : Prop where
  rs : Reach t.src
  rd : Reach t.dst
  as : Affine t.src.tr
  ad : Affine t.dst.tr

/-! ### The shortcut -/

/-- **C113.** When the constructor succeeds it keeps the two georeferences and it refuses different datums; it takes the shortcut
exactly if the WKT strings are equal, both images know their longitude-latitude box, and the lower corner of the first box comes
back within the tolerance from a trip through the second georeference. -/
theorem make_spec (src dst : Ref K) (w d : Bool) (tol : K) (t : GT K) (h : GT.make src dst w d tol = some t) :
    t.src = src ∧ t.dst = dst ∧ d = true ∧ (t.skip = true ↔ w = true ∧ src.llBox.empty = false ∧ dst.llBox.empty = false ∧
      ∃ pt ll, dst.lonlatToPoint (src.llBox.min 0, src.llBox.min 1) = some pt ∧ dst.pointToLonlat pt = some ll ∧
        (src.llBox.min 0 - ll.1) ^ 2 + (src.llBox.min 1 - ll.2) ^ 2 ≤ tol ^ 2) := by
  unfold GT.make at h
  rw [Option.bind_eq_some_iff] at h
  obtain ⟨s, hs, h⟩ := h
  cases d with
  | false => simp at h
  | true =>
    simp only [if_true, Option.some.injEq] at h
    subst h
    refine ⟨rfl, rfl, rfl, ?_⟩
    dsimp only
    unfold decideSkip at hs
    by_cases hc : (w && !src.llBox.empty && !dst.llBox.empty) = true
    · rw [if_pos hc] at hs
      simp only [Bool.and_eq_true, Bool.not_eq_true'] at hc
      unfold cornerSurvives at hs
      rw [Option.bind_eq_some_iff] at hs
      obtain ⟨pt, h1, hs⟩ := hs
      rw [Option.map_eq_some_iff] at hs
      obtain ⟨ll, h2, hs⟩ := hs
      have key : s = true ↔ (src.llBox.min 0 - ll.1) ^ 2 + (src.llBox.min 1 - ll.2) ^ 2 ≤ tol ^ 2 := by
        rw [← hs]
        unfold distSq
        dsimp only
        rw [pow_two, pow_two, pow_two]
        split_ifs with hd
        · simp only [false_iff]; exact not_le.2 hd
        · simp only [true_iff]; exact not_lt.1 hd
      rw [key]
      constructor
      · intro hk; exact ⟨hc.1.1, hc.1.2, hc.2, pt, ll, h1, h2, hk⟩
      · rintro ⟨-, -, -, pt', ll', h1', h2', hk⟩
        rw [h1] at h1'; cases h1'
        rw [h2] at h2'; cases h2'
        exact hk
    · rw [if_neg hc] at hs
      cases hs
      simp only [Bool.false_eq_true, false_iff]
      rintro ⟨a, b, c, -⟩
      exact hc (by rw [a, b, c]; rfl)

/-- **C113.** With the shortcut, the pixel found is the one at the same map position, and the two directions are inverse to each
other. -/
theorem skip_round_trip (t : GT K) (h : GTOk t) (hs : t.skip = true) (p : K × K) :
    (∃ q, t.forward p = some q ∧ t.dst.pixelToPoint q = t.src.pixelToPoint p ∧ t.reverse q = some p) ∧
    (∃ q, t.reverse p = some q ∧ t.src.pixelToPoint q = t.dst.pixelToPoint p ∧ t.forward q = some p) := by
  have ef : ∀ v, t.forward v = some (t.dst.pointToPixel (t.src.pixelToPoint v)) := by
    intro v; unfold GT.forward; rw [hs]; rfl
  have er : ∀ v, t.reverse v = some (t.src.pointToPixel (t.dst.pixelToPoint v)) := by
    intro v; unfold GT.reverse; rw [hs]; rfl
  constructor
  · refine ⟨_, ef p, (affine_round_trip t.dst h.rd h.ad _).2, ?_⟩
    rw [er, (affine_round_trip t.dst h.rd h.ad _).2, (affine_round_trip t.src h.rs h.as _).1]
  · refine ⟨_, er p, (affine_round_trip t.src h.rs h.as _).2, ?_⟩
    rw [ef, (affine_round_trip t.src h.rs h.as _).2, (affine_round_trip t.dst h.rd h.ad _).1]

/-! ### The general way -/

theorem wrap_sameLon (g : Ref K) (lon : K) : ∃ k : Int, (k = -1 ∨ k = 0 ∨ k = 1) ∧ g.wrap lon = lon + 360 * (k : K) := by
  by_cases he : g.llBox.empty = true
  · exact ⟨0, by simp, by rw [(wrap_spec g lon).1 he]; simp⟩
  · rw [Bool.not_eq_true] at he
    obtain ⟨h1, h2, h3⟩ := wrap_cases g he lon
    by_cases a : g.mid + 180 < lon
    · exact ⟨-1, by simp, by rw [h1 a]; push_cast; ring⟩
    · by_cases b : lon < g.mid - 180
      · exact ⟨1, by simp, by rw [h2 b]; push_cast; ring⟩
      · exact ⟨0, by simp, by rw [h3 (by linarith) (by linarith)]; simp⟩

theorem wrapLon_sameLon (lon : K) : SameLon lon (wrapLon lon) := by
  unfold wrapLon
  by_cases a : lon > 180
  · rw [if_pos a]
    dsimp only
    by_cases b : lon - 360 < -180
    · rw [if_pos b]; exact ⟨0, by push_cast; ring⟩
    · rw [if_neg b]; exact ⟨-1, by push_cast; ring⟩
  · rw [if_neg a]
    dsimp only
    by_cases b : lon < -180
    · rw [if_pos b]; exact ⟨1, by push_cast; ring⟩
    · rw [if_neg b]; exact ⟨0, by push_cast; ring⟩

theorem SameLon.trans {a b c : K} (h1 : SameLon a b) (h2 : SameLon b c) : SameLon a c := by
  obtain ⟨k, rfl⟩ := h1
  obtain ⟨m, rfl⟩ := h2
  exact ⟨k + m, by push_cast; ring⟩

/-- The projection of a georeference inverts itself. -/
def ProjOk (g : Ref K) : Prop := g.projected = true → ∀ ll q, g.toProj ll = some q → g.toLL q = some ll

/-- **C113.** Without the shortcut, the pixel found has the same latitude and the same longitude, up to a multiple of 360
degrees, in the other image (whose projection is assumed to invert itself), in both directions. -/
theorem forward_sameplace (t : GT K) (h : GTOk t) (hs : t.skip = false) (p q : K × K) :
    (ProjOk t.dst → t.forward p = some q →
      ∃ a b, t.src.pixelToLonlat p = some a ∧ t.dst.pixelToLonlat q = some b ∧ SameLon a.1 b.1 ∧ b.2 = a.2) ∧
    (ProjOk t.src → t.reverse p = some q →
      ∃ a b, t.dst.pixelToLonlat p = some a ∧ t.src.pixelToLonlat q = some b ∧ SameLon a.1 b.1 ∧ b.2 = a.2) := by
  have key : ∀ (s d : Ref K), Reach d → Affine d.tr → ProjOk d →
      ((s.pixelToLonlat p).bind fun ll => d.lonlatToPixel (if d.projected then (wrapLon ll.1, ll.2) else ll)) = some q →
      ∃ a b, s.pixelToLonlat p = some a ∧ d.pixelToLonlat q = some b ∧ SameLon a.1 b.1 ∧ b.2 = a.2 := by
    intro s d hr ha hpo hq
    rw [Option.bind_eq_some_iff] at hq
    obtain ⟨a, ea, hq⟩ := hq
    have gen : ∀ ll : K × K, d.lonlatToPixel ll = some q → d.pixelToLonlat q = some (d.wrap ll.1, ll.2) := by
      intro ll hll
      unfold Ref.lonlatToPixel at hll
      rw [Option.map_eq_some_iff] at hll
      obtain ⟨pt, hpt, rfl⟩ := hll
      unfold Ref.pixelToLonlat
      rw [(affine_round_trip d hr ha pt).2]
      unfold Ref.lonlatToPoint at hpt
      dsimp only at hpt
      unfold Ref.pointToLonlat
      cases hp : d.projected with
      | false =>
        rw [hp] at hpt
        simp only [Bool.not_false, if_true, Option.some.injEq] at hpt
        rw [← hpt]; rfl
      | true =>
        rw [hp, if_neg (by simp)] at hpt
        rw [if_neg (by simp)]
        exact hpo hp _ _ hpt
    obtain ⟨k, -, hk⟩ := wrap_sameLon d (if d.projected then (wrapLon a.1, a.2) else a).1
    refine ⟨a, _, ea, gen _ hq, ?_, ?_⟩
    · have h2 : SameLon (if d.projected then (wrapLon a.1, a.2) else a).1
          (d.wrap (if d.projected then (wrapLon a.1, a.2) else a).1) := ⟨k, hk⟩
      refine SameLon.trans ?_ h2
      cases d.projected
      · exact ⟨0, by simp⟩
      · exact wrapLon_sameLon a.1
    · cases d.projected <;> rfl
  constructor
  · intro hpo hq
    unfold GT.forward at hq
    rw [hs, if_neg (by simp)] at hq
    exact key t.src t.dst h.rd h.ad hpo hq
  · intro hpo hq
    unfold GT.reverse at hq
    rw [hs, if_neg (by simp)] at hq
    exact key t.dst t.src h.rs h.as hpo hq

/-- **C113.** Two images in geographic coordinates, without the shortcut: a pixel whose longitude is less than 180 degrees from
the middle of its image comes back from the other image. -/
theorem geographic_forward_reverse (t : GT K) (h : GTOk t) (hs : t.skip = false) (p1 : t.src.projected = false)
    (p2 : t.dst.projected = false) (he : t.src.llBox.empty = false) (p : K × K)
    (hp : |(t.src.pixelToPoint p).1 - t.src.mid| < 180) :
    ∃ q, t.forward p = some q ∧ t.reverse q = some p := by
  have ef : t.forward p = some (t.dst.pointToPixel (t.dst.wrap (t.src.pixelToPoint p).1, (t.src.pixelToPoint p).2)) := by
    unfold GT.forward
    rw [hs, if_neg (by simp), pixelToLonlat_geo _ p1, p2]
    show t.dst.lonlatToPixel (t.src.pixelToPoint p) = _
    rw [lonlatToPixel_geo _ p2]
  refine ⟨_, ef, ?_⟩
  unfold GT.reverse
  rw [hs, if_neg (by simp), pixelToLonlat_geo _ p2, (affine_round_trip t.dst h.rd h.ad _).2, p1]
  show t.src.lonlatToPixel (_, _) = _
  rw [lonlatToPixel_geo _ p1]
  dsimp only
  obtain ⟨k, hk, e⟩ := wrap_sameLon t.dst (t.src.pixelToPoint p).1
  rw [abs_lt] at hp
  obtain ⟨w1, w2, w3⟩ := wrap_cases t.src he (t.dst.wrap (t.src.pixelToPoint p).1)
  have hw : t.src.wrap (t.dst.wrap (t.src.pixelToPoint p).1) = (t.src.pixelToPoint p).1 := by
    rcases hk with rfl | rfl | rfl
    · push_cast at e
      rw [w2 (by rw [e]; linarith), e]; ring
    · push_cast at e
      rw [w3 (by rw [e]; linarith) (by rw [e]; linarith), e]; ring
    · push_cast at e
      rw [w1 (by rw [e]; linarith), e]; ring
  rw [hw]
  show some (t.src.pointToPixel (t.src.pixelToPoint p)) = some p
  rw [(affine_round_trip t.src h.rs h.as p).1]

/-- **C113.** The conversions of map positions agree with that of pixels: going to the map position in the other image and then to
its pixel is `forward`, if the other image is in geographic coordinates or the shortcut is taken. -/
theorem point_conversions_agree (t : GT K) (hd : t.skip = true ∨ t.dst.projected = false) (p : K × K) :
    t.forward p = (t.pixelToPoint p).map t.dst.pointToPixel ∧ t.pixelToPoint p = t.pointToPoint (t.src.pixelToPoint p) ∧
    t.forward p = t.pointToPixel (t.src.pixelToPoint p) ∧ t.pointToPixel p = (t.pointToPoint p).map t.dst.pointToPixel := by
  have comp : ∀ o : Option (K × K), (o.bind t.dst.lonlatToPixel) = (o.bind t.dst.lonlatToPoint).map t.dst.pointToPixel := by
    intro o; cases o with
    | none => rfl
    | some ll => rfl
  unfold GT.forward GT.pixelToPoint GT.pointToPoint GT.pointToPixel
  cases hsk : t.skip with
  | true => simp
  | false =>
    have hd' : t.dst.projected = false := by
      rcases hd with hd | hd
      · rw [hsk] at hd; cases hd
      · exact hd
    have ef : (fun ll : K × K => t.dst.lonlatToPixel (if t.dst.projected then (wrapLon ll.1, ll.2) else ll)) =
        t.dst.lonlatToPixel := by
      funext ll; rw [hd']; rfl
    simp only [Bool.false_eq_true, if_false]
    rw [ef]
    exact ⟨comp _, trivial, rfl, comp _⟩

/-! ### Boxes -/

theorem affine_fun_covers (f : K × K → K × K) (M : M3 K) (hf : ∀ p, f p = affineAt M p) (b : Box K 2) (l : List (K × K))
    (hl : ∀ p ∈ corners b, p ∈ l) (p : K × K) (hp : In b p) : In (growSome (l.map fun q => some (f q))) (f p) := by
  obtain ⟨h1, h2, h3, h4⟩ := hp
  have hc : ∀ u v, (u = b.min 0 ∨ u = b.max 0) → (v = b.min 1 ∨ v = b.max 1) →
      In (growSome (l.map fun q => some (f q))) (affineAt M (u, v)) := by
    intro u v hu hv
    apply growSome_contains
    rw [List.mem_map]
    exact ⟨(u, v), hl _ (mem_corners b u v hu hv), by rw [hf]⟩
  rw [hf p]
  obtain ⟨⟨u1, v1, a1, b1, c1⟩, ⟨u2, v2, a2, b2, c2⟩⟩ :=
    affine_between M.r0.x M.r0.y M.r0.z (b.min 0) (b.max 0) (b.min 1) (b.max 1) p.1 p.2 h1 h2 h3 h4
  obtain ⟨⟨u3, v3, a3, b3, c3⟩, ⟨u4, v4, a4, b4, c4⟩⟩ :=
    affine_between M.r1.x M.r1.y M.r1.z (b.min 0) (b.max 0) (b.min 1) (b.max 1) p.1 p.2 h1 h2 h3 h4
  exact ⟨le_trans (hc u1 v1 a1 b1).1 c1, le_trans c2 (hc u2 v2 a2 b2).2.1, le_trans (hc u3 v3 a3 b3).2.2.1 c3,
    le_trans c4 (hc u4 v4 a4 b4).2.2.2⟩

theorem affine_comp (M N : M3 K) (hM : Affine M) (p : K × K) : affineAt N (affineAt M p) = affineAt (N.mul M) p := by
  have h' : M.r2 = ⟨0, 0, 1⟩ := hM
  simp only [affineAt, M3.mul, M3.mulVec, M3.transpose, dot, h', Prod.mk.injEq]
  constructor <;> ring

theorem skip_affine (s d : Ref K) (hs : Reach s) (as : Affine s.tr) (hd : Reach d) (ad : Affine d.tr) :
    ∃ M : M3 K, ∀ p, d.pointToPixel (s.pixelToPoint p) = affineAt M p := by
  have h1 := native_affine s (reach_good s hs) as
  have h2 := native_affine d (reach_good d hd) ad
  have h3 := inverse_affine _ _ h2 (native_inverse d (reach_good d hd))
  refine ⟨(if d.area then d.invSh else d.inv).mul s.native, fun p => ?_⟩
  rw [← affine_comp _ _ h1, ← apply_affine _ h1, ← apply_affine _ h3]
  rfl

theorem int_corners (x0 y0 x1 y1 : Int) (hx : x0 < x1) (hy : y0 < y1) (p : K × K) (hp : p ∈ corners (intBox x0 y0 x1 y1)) :
    p ∈ sampleInt (intBox x0 y0 x1 y1 : Box K 2) := by
  have h := (sampleInt_intBox (K := K) x0 y0 x1 y1 hx hy).1
  unfold corners at hp
  simp only [List.mem_cons, List.not_mem_nil, or_false] at hp
  rcases hp with rfl | rfl | rfl | rfl
  · exact h x0 y0 (le_refl _) (le_of_lt hx) (le_refl _) (le_of_lt hy) (by omega)
  · exact h x1 y1 (le_of_lt hx) (le_refl _) (le_of_lt hy) (le_refl _) (by omega)
  · exact h x0 y1 (le_refl _) (le_of_lt hx) (le_of_lt hy) (le_refl _) (by omega)
  · exact h x1 y0 (le_of_lt hx) (le_refl _) (le_refl _) (le_of_lt hy) (by omega)

/-- **C113.** `forward_bbox` and `reverse_bbox`, with the shortcut: the box found contains the image of every point of the box,
boundary included. -/
theorem skip_boxes_cover (t : GT K) (h : GTOk t) (hs : t.skip = true) (x0 y0 x1 y1 : Int) (hx : x0 < x1) (hy : y0 < y1)
    (p : K × K) (hp : In (intBox x0 y0 x1 y1) p) :
    (∃ q, t.forward p = some q ∧ InInt (t.forwardBox (intBox x0 y0 x1 y1)) q) ∧
    (∃ q, t.reverse p = some q ∧ InInt (t.reverseBox (intBox x0 y0 x1 y1)) q) := by
  have he := intBox_empty (K := K) x0 y0 x1 y1 hx hy
  have ef : t.forward = fun v => some (t.dst.pointToPixel (t.src.pixelToPoint v)) := by
    funext v; unfold GT.forward; rw [hs]; rfl
  have er : t.reverse = fun v => some (t.src.pointToPixel (t.dst.pixelToPoint v)) := by
    funext v; unfold GT.reverse; rw [hs]; rfl
  constructor
  · obtain ⟨M, hM⟩ := skip_affine t.src t.dst h.rs h.as h.rd h.ad
    refine ⟨_, by rw [ef], ?_⟩
    unfold GT.forwardBox
    rw [he, if_neg (by simp), ef]
    apply growToInt_in
    exact affine_fun_covers _ M hM _ _ (int_corners x0 y0 x1 y1 hx hy) p hp
  · obtain ⟨M, hM⟩ := skip_affine t.dst t.src h.rd h.ad h.rs h.as
    refine ⟨_, by rw [er], ?_⟩
    unfold GT.reverseBox
    rw [he, if_neg (by simp), er]
    apply growToInt_in
    exact affine_fun_covers _ M hM _ _ (int_corners x0 y0 x1 y1 hx hy) p hp

/-- **C113.** In general the boxes contain the images of the pixels on the boundary of the box that have one; pixels that cannot
be converted are skipped. -/
theorem boxes_boundary (t : GT K) (x0 y0 x1 y1 : Int) (hx : x0 < x1) (hy : y0 < y1)
    (x y : Int) (h1 : x0 ≤ x) (h2 : x ≤ x1) (h3 : y0 ≤ y) (h4 : y ≤ y1) (h5 : x = x0 ∨ x = x1 ∨ y = y0 ∨ y = y1) (q : K × K) :
    (t.forward ((x : K), (y : K)) = some q → InInt (t.forwardBox (intBox x0 y0 x1 y1)) q) ∧
    (t.reverse ((x : K), (y : K)) = some q → InInt (t.reverseBox (intBox x0 y0 x1 y1)) q) ∧
    (t.pixelToPoint ((x : K), (y : K)) = some q → In (t.pixelToPointBox (intBox x0 y0 x1 y1)) q) := by
  have he := intBox_empty (K := K) x0 y0 x1 y1 hx hy
  have hm := (sampleInt_intBox (K := K) x0 y0 x1 y1 hx hy).1 x y h1 h2 h3 h4 h5
  refine ⟨fun hq => ?_, fun hq => ?_, fun hq => ?_⟩
  · unfold GT.forwardBox
    rw [he, if_neg (by simp)]
    exact growToInt_in _ _ (growSome_contains _ _ (List.mem_map.2 ⟨_, hm, hq⟩))
  · unfold GT.reverseBox
    rw [he, if_neg (by simp)]
    exact growToInt_in _ _ (growSome_contains _ _ (List.mem_map.2 ⟨_, hm, hq⟩))
  · unfold GT.pixelToPointBox
    rw [he, if_neg (by simp)]
    exact growSome_contains _ _ (List.mem_map.2 ⟨_, hm, hq⟩)

/-- **C113.** The boxes of map positions contain what becomes of the corners of the box (and of the points that divide its edges
and diagonals in 100 parts). -/
theorem point_boxes_cover (t : GT K) (b : Box K 2) (hb : b.empty = false) (p q : K × K) (hp : p ∈ sampleFloat b 100) :
    (t.pointToPoint p = some q → In (t.pointToPointBox b) q) ∧ (t.pointToPixel p = some q → InInt (t.pointToPixelBox b) q) := by
  constructor
  · intro hq
    unfold GT.pointToPointBox
    rw [hb, if_neg (by simp)]
    exact growSome_contains _ _ (List.mem_map.2 ⟨_, hp, hq⟩)
  · intro hq
    unfold GT.pointToPixelBox
    rw [hb, if_neg (by simp)]
    exact growToInt_in _ _ (growSome_contains _ _ (List.mem_map.2 ⟨_, hp, hq⟩))

/-! ### Refutations -/

/-- A geographic image, one pixel per degree, pixels as points, first column at longitude `x`, with the given longitude box. -/
theorem image_exists (x : ℚ) (a b : Int) : ∃ g : Ref ℚ, Reach g ∧ Affine g.tr ∧ g.projected = false ∧
    (∀ p : ℚ × ℚ, g.pixelToPoint p = (p.1 + x, 90 - p.2)) ∧ g.llBox = intBox a (-90) b 90 := by
  obtain ⟨g', -, h1, h2, h3, h4⟩ := make_exists (⟨⟨1, 0, x⟩, ⟨0, -1, 90⟩, ⟨0, 0, 1⟩⟩ : M3 ℚ) rfl
    (by norm_num [M3.det, dot, cross]) false
  obtain ⟨g, e2⟩ : ∃ g'', g'.step (.llBox (intBox a (-90) b 90)) = (g'', none) := ⟨_, rfl⟩
  have e2' : g = { g' with llBox := intBox a (-90) b 90 } := by
    simp only [Ref.step, Prod.mk.injEq, and_true] at e2; exact e2.symm
  have hr : Reach g := .step g' g _ h1 e2
  have htr : g.tr = ⟨⟨1, 0, x⟩, ⟨0, -1, 90⟩, ⟨0, 0, 1⟩⟩ := by rw [e2']; exact h2
  have har : g.area = false := by rw [e2']; exact h3
  have ha : Affine g.tr := by rw [htr]; rfl
  refine ⟨g, hr, ha, by rw [e2']; exact h4, ?_, by rw [e2']⟩
  intro p
  rw [(pixel_position g hr ha p).1 har, htr]
  simp only [affineAt, Prod.mk.injEq]
  constructor <;> ring

/-- **C113 (refuted).** The shortcut is decided by one corner of the source image only.  Source with longitudes 0 to 360,
destination −180 to 180, both in geographic coordinates: the shortcut is taken, and the source pixel at longitude 270 is sent to
column 450 of the destination, outside its 360 columns, although the destination shows this place at column 90. -/
theorem skip_wrong : ∃ t : GT ℚ, GTOk t ∧ t.src.llBox = intBox 0 (-90) 360 90 ∧ t.dst.llBox = intBox (-180) (-90) 180 90 ∧
    GT.make t.src t.dst true true (1 / 100000000) = some t ∧ t.skip = true ∧
    t.src.pixelToLonlat (270, 90) = some (270, 0) ∧ t.forward (270, 90) = some (450, 90) ∧
    t.dst.lonlatToPixel (270, 0) = some (90, 90) := by
  obtain ⟨s, s1, s2, s3, s4, s5⟩ := image_exists 0 0 360
  obtain ⟨d, d1, d2, d3, d4, d5⟩ := image_exists (-180) (-180) 180
  have hse : s.llBox.empty = false := by rw [s5]; exact intBox_empty _ _ _ _ (by norm_num) (by norm_num)
  have hde : d.llBox.empty = false := by rw [d5]; exact intBox_empty _ _ _ _ (by norm_num) (by norm_num)
  have hmid : d.mid = 0 := by
    unfold Ref.mid; rw [d5]
    show (((-180 : Int) : ℚ) + ((180 : Int) : ℚ)) / 2 = 0
    norm_num
  have hdpix : ∀ q : ℚ × ℚ, d.pointToPixel q = (q.1 + 180, 90 - q.2) := by
    intro q
    have e : q = d.pixelToPoint (q.1 + 180, 90 - q.2) := by rw [d4]; ext <;> simp
    conv_lhs => rw [e]
    exact (affine_round_trip d d1 d2 _).1
  refine ⟨⟨s, d, true⟩, ⟨s1, d1, s2, d2⟩, s5, d5, ?_, rfl, ?_, ?_, ?_⟩
  · unfold GT.make decideSkip cornerSurvives
    dsimp only
    have hm0 : s.llBox.min 0 = 0 := by rw [s5]; exact Int.cast_zero
    have hpt : d.lonlatToPoint (s.llBox.min 0, s.llBox.min 1) = some (s.llBox.min 0, s.llBox.min 1) := by
      unfold Ref.lonlatToPoint
      dsimp only
      rw [d3, (wrap_cases d hde _).2.2 (by rw [hmid, hm0]; norm_num) (by rw [hmid, hm0]; norm_num)]
      rfl
    have hll : ∀ q : ℚ × ℚ, d.pointToLonlat q = some q := by
      intro q; unfold Ref.pointToLonlat; rw [d3]; rfl
    rw [hse, hde]
    simp only [Bool.not_false, Bool.and_true, if_true]
    rw [hpt]
    simp only [Option.bind_some]
    rw [hll]
    simp only [Option.map_some, Option.bind_some]
    rw [if_neg]
    unfold distSq
    norm_num
  · rw [pixelToLonlat_geo _ s3, s4]; norm_num
  · unfold GT.forward
    dsimp only
    rw [if_pos rfl, s4, hdpix]; norm_num
  · rw [lonlatToPixel_geo _ d3, (wrap_cases d hde _).1 (by rw [hmid]; norm_num), hdpix]; norm_num

/-- **C113 (refuted).** `reproject_point_image` converts map positions as if they were pixels: for two images of the same
projection, where map positions are to stay as they are (`point_to_point`), the position (10, 20) becomes (30, 20). -/
theorem reproject_wrong : ∃ t : GT ℚ, GTOk t ∧ t.skip = true ∧ t.pointToPoint (10, 20) = some (10, 20) ∧
    t.reproject ⟨10, 20, 5⟩ = some ⟨30, 20, 5⟩ := by
  obtain ⟨s, s1, s2, s3, s4, s5⟩ := image_exists 0 0 360
  obtain ⟨d, d1, d2, d3, d4, d5⟩ := image_exists (-20) (-180) 180
  have hdpix : ∀ q : ℚ × ℚ, d.pointToPixel q = (q.1 + 20, 90 - q.2) := by
    intro q
    have e : q = d.pixelToPoint (q.1 + 20, 90 - q.2) := by rw [d4]; ext <;> simp
    conv_lhs => rw [e]
    exact (affine_round_trip d d1 d2 _).1
  refine ⟨⟨s, d, true⟩, ⟨s1, d1, s2, d2⟩, rfl, rfl, ?_⟩
  unfold GT.reproject GT.forward
  dsimp only
  rw [if_neg (by norm_num), if_pos rfl, s4, hdpix]
  norm_num

/-- **C113.** Points without data (all zero) and heights are left alone by `reproject_point_image`. -/
theorem reproject_keeps (t : GT K) (v w : V3 K) (h : t.reproject v = some w) : w.z = v.z ∧ (v = 0 → w = 0) := by
  unfold GT.reproject at h
  by_cases hz : v.x = 0 ∧ v.y = 0 ∧ v.z = 0
  · rw [if_pos hz] at h
    cases h
    exact ⟨rfl, id⟩
  · rw [if_neg hz, Option.map_eq_some_iff] at h
    obtain ⟨o, -, rfl⟩ := h
    refine ⟨rfl, ?_⟩
    rintro rfl
    exact absurd ⟨rfl, rfl, rfl⟩ hz

/-- Non-vacuity: two global images with different longitude ranges and different WKT strings; the pixel at longitude 270 goes to
the other image and comes back. -/
example : ∃ t : GT ℚ, GTOk t ∧ GT.make t.src t.dst false true (1 / 100000000) = some t ∧ t.skip = false ∧
    t.src.pixelToLonlat (270, 90) = some (270, 0) ∧ ∃ q, t.forward (270, 90) = some q ∧ t.reverse q = some (270, 90) := by
  obtain ⟨s, s1, s2, s3, s4, s5⟩ := image_exists 0 0 360
  obtain ⟨d, d1, d2, d3, d4, d5⟩ := image_exists (-180) (-180) 180
  have hse : s.llBox.empty = false := by rw [s5]; exact intBox_empty _ _ _ _ (by norm_num) (by norm_num)
  have hmid : s.mid = 180 := by
    unfold Ref.mid; rw [s5]
    show (((0 : Int) : ℚ) + ((360 : Int) : ℚ)) / 2 = 180
    norm_num
  refine ⟨⟨s, d, false⟩, ⟨s1, d1, s2, d2⟩, rfl, rfl, ?_, ?_⟩
  · rw [pixelToLonlat_geo _ s3, s4]; norm_num
  · refine geographic_forward_reverse ⟨s, d, false⟩ ⟨s1, d1, s2, d2⟩ rfl s3 d3 hse (270, 90) ?_
    dsimp only
    rw [s4, hmid, abs_lt]
    norm_num

end Verif.Georef
