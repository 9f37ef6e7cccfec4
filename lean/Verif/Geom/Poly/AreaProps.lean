import Verif.Geom.Poly.PolyProps

/-
C122, continued: distances to segments, areas, boxes, transforms.  C123: the area of the parts of a cut polygon.
-/

namespace Verif.Geom.Poly

variable {K : Type} [Field K] [LinearOrder K] [IsStrictOrderedRing K]

/-! ### Distance to a segment -/

/-- The square of the distance. -/
def dist2 (p q : Pt K) : K := (p.1 - q.1) ^ 2 + (p.2 - q.2) ^ 2

/-- C122.  `minDistFromPtToSeg` gives a point of the segment, and no point of the segment is closer. -/
theorem minPt_spec (q p0 p1 : Pt K) : OnSeg (p0, p1) (minPt q p0 p1) ∧ ∀ p, OnSeg (p0, p1) p → dist2 q (minPt q p0 p1) ≤ dist2 q p := by
  unfold minPt
  dsimp only
  set a := (p1.1 - p0.1) * (p1.1 - p0.1) + (p1.2 - p0.2) * (p1.2 - p0.2) with ha
  set b := (q.1 - p0.1) * (p1.1 - p0.1) + (q.2 - p0.2) * (p1.2 - p0.2) with hb
  set u := if a = 0 then 0 else b / a with hu
  set t := min (max u 0) 1 with ht
  have ha0 : 0 ≤ a := by
    have := mul_self_nonneg (p1.1 - p0.1)
    have := mul_self_nonneg (p1.2 - p0.2)
    rw [ha]; linarith
  have t0 : 0 ≤ t := le_min (le_max_right _ _) zero_le_one
  have t1 : t ≤ 1 := min_le_right _ _
  refine ⟨⟨t, t0, t1, Prod.ext (by dsimp only; ring) (by dsimp only; ring)⟩, ?_⟩
  rintro p ⟨s, s0, s1, rfl⟩
  have key : (s - t) * (a * t - b) ≥ 0 := by
    by_cases h0 : a = 0
    · have e1 : p1.1 - p0.1 = 0 := by
        have h1 := mul_self_nonneg (p1.1 - p0.1)
        have h2 := mul_self_nonneg (p1.2 - p0.2)
        exact mul_self_eq_zero.1 (by linarith)
      have e2 : p1.2 - p0.2 = 0 := by
        have h1 := mul_self_nonneg (p1.1 - p0.1)
        have h2 := mul_self_nonneg (p1.2 - p0.2)
        exact mul_self_eq_zero.1 (by linarith)
      rw [hb, h0, e1, e2]
      simp
    · have hpos : 0 < a := lt_of_le_of_ne ha0 (Ne.symm h0)
      rw [if_neg h0] at hu
      have hua : b = u * a := by rw [hu]; field_simp
      rcases le_total u 0 with h | h
      · have e : t = 0 := by rw [ht, max_eq_right h]; simp
        rw [e, hua]
        nlinarith [mul_nonneg s0 (mul_nonneg (neg_nonneg.2 h) ha0)]
      · rcases le_total u 1 with h' | h'
        · have e : t = u := by rw [ht, max_eq_left h, min_eq_left h']
          rw [e, hua, show a * u - u * a = 0 by ring]
          simp
        · have e : t = 1 := by rw [ht, max_eq_left h, min_eq_right h']
          rw [e, hua]
          nlinarith [mul_nonneg (sub_nonneg.2 s1) (mul_nonneg (sub_nonneg.2 h') ha0)]
  have e : dist2 q ((1 - s) * p0.1 + s * p1.1, (1 - s) * p0.2 + s * p1.2)
      - dist2 q (p0.1 + t * (p1.1 - p0.1), p0.2 + t * (p1.2 - p0.2)) = (s - t) ^ 2 * a + 2 * ((s - t) * (a * t - b)) := by
    rw [ha, hb]
    unfold dist2
    dsimp only
    ring
  have := mul_nonneg (sq_nonneg (s - t)) ha0
  linarith

/-- C122.  `minDist` is the smallest of the distances from the point to the points of the segment. -/
theorem minDist_spec (q p0 p1 : Pt ℝ) : (∃ p, OnSeg (p0, p1) p ∧ minDist q p0 p1 = distance q p)
    ∧ ∀ p, OnSeg (p0, p1) p → minDist q p0 p1 ≤ distance q p := by
  have hd : ∀ p, distance q p = Real.sqrt (dist2 q p) := by
    intro p; unfold distance dist2; congr 1; ring
  have hm : minDist q p0 p1 = Real.sqrt (dist2 q (minPt q p0 p1)) := by
    unfold minDist dist2; dsimp only; congr 1; ring
  obtain ⟨h1, h2⟩ := minPt_spec q p0 p1
  refine ⟨⟨_, h1, by rw [hm, hd]⟩, fun p hp => ?_⟩
  rw [hm, hd]
  exact Real.sqrt_le_sqrt (h2 p hp)

/-! ### Areas -/

/-- Twice the area of the triangle from `o` to an edge, positive counterclockwise. -/
def cross (o : Pt K) (e : Pt K × Pt K) : K := (e.1.1 - o.1) * (e.2.2 - o.2) - (e.2.1 - o.1) * (e.1.2 - o.2)

theorem foldl_add (L : List Nat) (f : Nat → K) (a : K) : L.foldl (fun x i => x + f i) a = a + (L.map f).sum := by
  induction L generalizing a with
  | nil => simp
  | cons i t ih => rw [List.foldl_cons, ih, List.map_cons, List.sum_cons]; ring

/-- The origin of the triangles does not matter for a closed polygon. -/
theorem cross_origin (l : List (Pt K)) (o o' : Pt K) : ((edges l).map (cross o)).sum = ((edges l).map (cross o')).sum := by
  have h := sum_closed l fun p => p.1 * (o'.2 - o.2) - p.2 * (o'.1 - o.1)
  have e : ∀ L : List (Pt K × Pt K), (L.map (cross o)).sum = (L.map (cross o')).sum
      - (L.map fun e => (e.2.1 * (o'.2 - o.2) - e.2.2 * (o'.1 - o.1)) - (e.1.1 * (o'.2 - o.2) - e.1.2 * (o'.1 - o.1))).sum := by
    intro L
    induction L with
    | nil => simp
    | cons x t ih =>
      simp only [List.map_cons, List.sum_cons, ih]
      unfold cross
      ring
  rw [e, h, sub_zero]

/-- C122.  `signedPolyArea` is half of the sum of the cross products along the edges, whatever the origin is; for clockwise
polygons the sign is changed. -/
theorem area_shoelace (l : List (Pt K)) (cc : Bool) (o : Pt K) :
    signedPolyArea l cc = (if cc then 1 else -1) * ((edges l).map (cross o)).sum / 2 := by
  unfold signedPolyArea
  dsimp only
  rw [cross_origin l o (vert l 0), foldl_add, zero_add]
  congr 1
  unfold edges
  rw [List.map_map, ← List.sum_map_mul_left]
  rfl

/-- C122.  A linear transform multiplies the area with its determinant. -/
theorem area_transform (l : List (Pt K)) (cc : Bool) (T : LinTrans K) :
    signedPolyArea (l.map T.app) cc = (T.a11 * T.a22 - T.a12 * T.a21) * signedPolyArea l cc := by
  rw [area_shoelace _ _ (T.app (0, 0)), area_shoelace l cc (0, 0)]
  have hv : ∀ i, i < l.length → vert (l.map T.app) i = T.app (vert l i) := by
    intro i hi
    unfold vert
    rw [List.getD_eq_getElem _ _ (by simpa using hi), List.getElem_map, List.getD_eq_getElem _ _ hi]
  have e : (edges (l.map T.app)).map (cross (T.app (0, 0))) = (edges l).map fun e => (T.a11 * T.a22 - T.a12 * T.a21) * cross (0, 0) e := by
    unfold edges
    rw [List.map_map, List.map_map, List.length_map]
    refine List.map_congr_left fun i hi => ?_
    have hi := List.mem_range.1 hi
    simp only [Function.comp]
    rw [hv i hi, hv _ (Nat.mod_lt _ (by omega))]
    unfold cross LinTrans.app
    dsimp only
    ring
  rw [e, List.sum_map_mul_left]
  ring

/-- The edges of the reversed polygon. -/
theorem edges_reverse (l : List (Pt K)) : (edges l.reverse).Perm ((edges l).map Prod.swap) := by
  have hv : ∀ i, i < l.length → vert l.reverse i = vert l (l.length - 1 - i) := by
    intro i hi
    unfold vert
    rw [List.getD_eq_getElem _ _ (by simpa using hi), List.getElem_reverse, List.getD_eq_getElem _ _ (by omega)]
  have h1 : ∀ g : Nat → Pt K × Pt K, ((List.range l.length).map fun i => g (l.length - 1 - i)).Perm ((List.range l.length).map g) := by
    intro g
    refine List.Perm.trans (List.Perm.of_eq ?_) (List.reverse_perm _)
    apply List.ext_getElem
    · simp
    · intro i h1 h2
      simp
  -- edge `i` of the reversed polygon is edge `n - 1 - (i + 1) % n`, swapped
  have h2 := (map_rot l.length fun i => Prod.swap (vert l (l.length - 1 - i), vert l ((l.length - 1 - i + 1) % l.length)))
  have h3 := h1 fun i => Prod.swap (vert l i, vert l ((i + 1) % l.length))
  refine List.Perm.trans (List.Perm.of_eq ?_) (h2.trans (h3.trans (List.Perm.of_eq ?_)))
  · unfold edges
    rw [List.length_reverse]
    refine List.map_congr_left fun i hi => ?_
    have hi := List.mem_range.1 hi
    have hr := Nat.mod_lt (i + 1) (show l.length > 0 by omega)
    rw [hv i hi, hv _ hr]
    refine Prod.ext ?_ rfl
    simp only [Prod.swap]
    congr 1
    by_cases h : i + 1 < l.length
    · rw [Nat.mod_eq_of_lt h, Nat.mod_eq_of_lt (by omega)]; omega
    · have : i + 1 = l.length := by omega
      rw [this, Nat.mod_self]
      have : l.length - 1 - 0 + 1 = l.length := by omega
      rw [this, Nat.mod_self]
      omega
  · unfold edges
    rw [List.map_map]
    rfl

/-- C122.  Going around the other way changes the sign of the area. -/
theorem area_reverse (l : List (Pt K)) (cc : Bool) : signedPolyArea l.reverse cc = -signedPolyArea l cc := by
  rw [area_shoelace _ _ (0, 0), area_shoelace _ _ (0, 0), ((edges_reverse l).map _).sum_eq, List.map_map]
  have : ((edges l).map (cross (0, 0) ∘ Prod.swap)).sum = -((edges l).map (cross (0, 0))).sum := by
    induction edges l with
    | nil => simp
    | cons e t ih =>
      simp only [List.map_cons, List.sum_cons, ih, Function.comp]
      unfold cross
      simp only [Prod.swap]
      ring
  rw [this]
  ring

/-- C122.  Reversing a polygon also changes the sign of the winding number. -/
theorem wind_reverse (l : List (Pt K)) (q : Pt K) : wind q [l.reverse] = -wind q [l] := by
  unfold wind
  simp only [List.flatMap_cons, List.flatMap_nil, List.append_nil]
  rw [windRay_perm 0 q (edges_reverse l)]
  unfold windRay
  rw [List.map_map]
  induction edges l with
  | nil => simp
  | cons e t ih =>
    simp only [List.map_cons, List.sum_cons, ih, Function.comp, Prod.fst_swap, Prod.snd_swap]
    have h : ∀ a b : Pt K, up b a = -up a b := by
      intro a b
      unfold up
      have e2 : b.1 * a.2 - b.2 * a.1 = -(a.1 * b.2 - a.2 * b.1) := by ring
      rw [e2]
      by_cases h1 : a.1 ≤ 0 ∧ 0 < b.1 ∧ a.1 * b.2 - a.2 * b.1 < 0
      · rw [if_pos h1, if_neg, if_pos]
        · rfl
        · exact ⟨h1.1, h1.2.1, by linarith [h1.2.2]⟩
        · rintro ⟨g1, g2, _⟩; linarith [h1.1]
      · rw [if_neg h1]
        by_cases h2 : b.1 ≤ 0 ∧ 0 < a.1 ∧ 0 < a.1 * b.2 - a.2 * b.1
        · rw [if_pos h2, if_pos]
          exact ⟨h2.1, h2.2.1, by linarith [h2.2.2]⟩
        · rw [if_neg h2, if_neg, if_neg]
          · rfl
          · rintro ⟨g1, g2, g3⟩; exact h1 ⟨g1, g2, by linarith⟩
          · rintro ⟨g1, g2, g3⟩; exact h2 ⟨g1, g2, by linarith⟩
    rw [h]
    omega

/-! ### The areas of the two parts of a cut polygon -/

theorem cross_seg (o a b c : Pt K) (h : OnSeg (a, b) c) : cross o (a, b) = cross o (a, c) + cross o (c, b) := by
  obtain ⟨t, _, _, rfl⟩ := h
  unfold cross
  dsimp only
  ring

theorem cross_on_line (n o a b : Pt K) (H : K) (hn : n ≠ (0, 0)) (ho : dot n o = H) (ha : dot n a = H) (hb : dot n b = H) :
    cross o (a, b) = 0 := by
  unfold dot at *
  unfold cross
  dsimp only
  have e1 : n.1 * (a.1 - o.1) + n.2 * (a.2 - o.2) = 0 := by linear_combination ha - ho
  have e2 : n.1 * (b.1 - o.1) + n.2 * (b.2 - o.2) = 0 := by linear_combination hb - ho
  by_cases h1 : n.1 = 0
  · have h2 : n.2 ≠ 0 := fun h2 => hn (Prod.ext h1 h2)
    apply mul_left_cancel₀ h2
    linear_combination (a.1 - o.1) * e2 - (b.1 - o.1) * e1
  · apply mul_left_cancel₀ h1
    linear_combination (b.2 - o.2) * e1 - (a.2 - o.2) * e2

theorem cut_unique (n a b c c' : Pt K) (h : dot n a ≠ dot n b) (hc : OnSeg (a, b) c) (hc' : OnSeg (a, b) c') (he : dot n c = dot n c') :
    c = c' := by
  obtain ⟨t, _, _, rfl⟩ := hc
  obtain ⟨s, _, _, rfl⟩ := hc'
  dsimp only at he
  rw [dot_seg, dot_seg] at he
  have : t = s := by
    apply mul_right_cancel₀ (sub_ne_zero.2 h)
    linear_combination -he
  rw [this]

theorem dot_neg (n p : Pt K) : dot (-n.1, -n.2) p = -dot n p := by unfold dot; ring

/-- An edge is made of its parts on the two sides. -/
theorem clip_both (n o : Pt K) (H : K) (hn : n ≠ (0, 0)) (ho : dot n o = H) (e : Pt K × Pt K) :
    ((clip n H e).map (cross o)).sum + ((clip (-n.1, -n.2) (-H) e).map (cross o)).sum = cross o e := by
  obtain ⟨a, b⟩ := e
  unfold clip
  simp only [dot_neg, neg_lt_neg_iff, neg_le_neg_iff, neg_inj]
  rcases lt_trichotomy (dot n a) H with ha | ha | ha <;> rcases lt_trichotomy (dot n b) H with hb | hb | hb
  · rw [if_pos ha, if_pos hb.le, if_neg ha.not_gt, if_neg hb.not_gt]; simp
  · rw [if_pos ha, if_pos hb.le, if_neg ha.not_gt, if_neg hb.not_gt]; simp
  · rw [if_pos ha, if_neg (not_le.2 hb), if_neg ha.not_gt, if_pos hb, if_neg ha.ne]
    have s1 := cutEdge_spec a b n H (Or.inl ⟨ha, hb⟩)
    have s2 := cutEdge_spec a b (-n.1, -n.2) (-H) (Or.inr ⟨by rw [dot_neg]; linarith, by rw [dot_neg]; linarith⟩)
    rw [dot_neg, neg_inj] at s2
    rw [cut_unique n a b _ _ (by linarith) s2.2 s1.2 (by rw [s2.1, s1.1])]
    simp only [List.map_cons, List.map_nil, List.sum_cons, List.sum_nil, add_zero]
    exact (cross_seg o a b _ s1.2).symm
  · rw [if_neg ha.not_lt, if_pos hb, if_pos ha, if_neg ha.not_gt, if_neg hb.not_gt]; simp
  · rw [if_neg ha.not_lt, if_neg hb.not_lt, if_neg ha.not_gt, if_neg hb.not_gt]
    simpa using (cross_on_line n o a b H hn ho ha hb).symm
  · rw [if_neg ha.not_lt, if_neg hb.not_gt, if_neg ha.not_gt, if_pos hb, if_pos ha]; simp
  · rw [if_neg ha.not_gt, if_pos hb, if_neg ha.ne', if_pos ha, if_neg (not_le.2 hb)]
    have s1 := cutEdge_spec a b n H (Or.inr ⟨hb, ha⟩)
    have s2 := cutEdge_spec a b (-n.1, -n.2) (-H) (Or.inl ⟨by rw [dot_neg]; linarith, by rw [dot_neg]; linarith⟩)
    rw [dot_neg, neg_inj] at s2
    rw [cut_unique n a b _ _ (by linarith) s2.2 s1.2 (by rw [s2.1, s1.1])]
    simp only [List.map_cons, List.map_nil, List.sum_cons, List.sum_nil, add_zero]
    rw [add_comm]
    exact (cross_seg o a b _ s1.2).symm
  · rw [if_neg ha.not_gt, if_neg hb.not_lt, if_pos ha, if_pos hb.ge]; simp
  · rw [if_neg ha.not_gt, if_neg hb.not_gt, if_pos ha, if_pos hb.le]; simp

theorem sum_flatMap {α β : Type} (L : List α) (f : α → List β) (g : β → K) :
    ((L.flatMap f).map g).sum = (L.map fun x => ((f x).map g).sum).sum := by
  induction L with
  | nil => rfl
  | cons x t ih => simp [ih]

/-- C123.  Cutting a polygon along a line splits its area: the areas of the parts on both sides add up to that of the polygon. -/
theorem cutToHalf_area (sort : List (ValIndex K) → List (ValIndex K)) (hsort : ∀ p, (sort p).Perm p) (n : Pt K) (hn : n ≠ (0, 0))
    (H : K) (l : List (Pt K)) (hl : l ≠ []) (cc : Bool) :
    ((cutToHalf sort n H l).map fun c => signedPolyArea c cc).sum
      + ((cutToHalf sort (-n.1, -n.2) (-H) l).map fun c => signedPolyArea c cc).sum = signedPolyArea l cc := by
  -- a point on the line
  obtain ⟨o, ho⟩ : ∃ o, dot n o = H := by
    by_cases h1 : n.1 = 0
    · have h2 : n.2 ≠ 0 := fun h2 => hn (Prod.ext h1 h2)
      exact ⟨(0, H / n.2), by unfold dot; field_simp; ring⟩
    · exact ⟨(H / n.1, 0), by unfold dot; field_simp; ring⟩
  have hn' : ((-n.1, -n.2) : Pt K) ≠ (0, 0) := by
    intro h
    have e1 := congrArg Prod.fst h
    have e2 := congrArg Prod.snd h
    simp only [neg_eq_zero] at e1 e2
    exact hn (Prod.ext e1 e2)
  have hA : ∀ P : List (List (Pt K)), (P.map fun c => signedPolyArea c cc).sum
      = (if cc then 1 else -1) * (((P.flatMap edges).map (cross o)).sum) / 2 := by
    intro P
    induction P with
    | nil => simp
    | cons c t ih =>
      rw [List.map_cons, List.sum_cons, ih, area_shoelace c cc o, List.flatMap_cons, List.map_append, List.sum_append]
      ring
  have hH : ∀ (m : Pt K) (M : K), m ≠ (0, 0) → dot m o = M →
      (((cutToHalf sort m M l).flatMap edges).map (cross o)).sum = ((edges l).map fun e => ((clip m M e).map (cross o)).sum).sum := by
    intro m M hm hmo
    obtain ⟨cl, hcl, hperm⟩ := cutToHalf_edges sort hsort m M l hl
    rw [(hperm.map _).sum_eq, List.map_append, List.sum_append, sum_flatMap]
    have : (cl.map (cross o)).sum = 0 := by
      apply List.sum_eq_zero
      intro x hx
      obtain ⟨e, he, rfl⟩ := List.mem_map.1 hx
      exact cross_on_line m o e.1 e.2 M hm hmo (hcl e he).1 (hcl e he).2
    rw [this, add_zero]
  rw [hA, hA, hH n H hn ho, hH (-n.1, -n.2) (-H) hn' (by rw [dot_neg, ho]), area_shoelace l cc o]
  have : ((edges l).map fun e => ((clip n H e).map (cross o)).sum).sum
      + ((edges l).map fun e => ((clip (-n.1, -n.2) (-H) e).map (cross o)).sum).sum = ((edges l).map (cross o)).sum := by
    induction edges l with
    | nil => simp
    | cons e t ih =>
      simp only [List.map_cons, List.sum_cons]
      rw [← clip_both n o H hn ho e, ← ih]
      ring
  rw [← this]
  ring

/-! ### Boxes and transforms -/

/-- C122.  `boxesIntersect` tells exactly whether the boxes share a point. -/
theorem boxesIntersect_iff (xl1 yl1 xh1 yh1 xl2 yl2 xh2 yh2 : K) (h1 : xl1 ≤ xh1) (h2 : yl1 ≤ yh1) (h3 : xl2 ≤ xh2) (h4 : yl2 ≤ yh2) :
    boxesIntersect xl1 yl1 xh1 yh1 xl2 yl2 xh2 yh2 = true ↔ ∃ p, InBox xl1 yl1 xh1 yh1 p ∧ InBox xl2 yl2 xh2 yh2 p := by
  unfold boxesIntersect InBox
  simp only [Bool.and_eq_true, decide_eq_true_eq, max_le_iff, le_min_iff]
  constructor
  · rintro ⟨⟨⟨a1, a3⟩, a2, a4⟩, ⟨b1, b3⟩, b2, b4⟩
    refine ⟨(max xl1 xl2, max yl1 yl2), ⟨le_max_left _ _, max_le a1 a3, le_max_left _ _, max_le b1 b3⟩,
      le_max_right _ _, max_le a2 a4, le_max_right _ _, max_le b2 b4⟩
  · rintro ⟨p, ⟨a1, a2, a3, a4⟩, b1, b2, b3, b4⟩
    exact ⟨⟨⟨a1.trans a2, b1.trans a2⟩, a1.trans b2, b1.trans b2⟩, ⟨a3.trans a4, b3.trans a4⟩, a3.trans b4, b3.trans b4⟩

/-- C122.  `expandBoxToRatio` gives, for a box that is not empty, the smallest box around the same centre that contains the box and
has the aspect ratio. -/
theorem expandBox_spec (b : Bx K) (r : K) (hr : 0 < r) (h1 : b.min.1 < b.max.1) (h2 : b.min.2 < b.max.2) :
    ∃ c, expandBoxToRatio b r = some c
      ∧ c.max.1 - c.min.1 = r * (c.max.2 - c.min.2)
      ∧ (c.min.1 + c.max.1 = b.min.1 + b.max.1 ∧ c.min.2 + c.max.2 = b.min.2 + b.max.2)
      ∧ (c.min.1 ≤ b.min.1 ∧ b.max.1 ≤ c.max.1 ∧ c.min.2 ≤ b.min.2 ∧ b.max.2 ≤ c.max.2)
      ∧ ((c.min.1 = b.min.1 ∧ c.max.1 = b.max.1) ∨ (c.min.2 = b.min.2 ∧ c.max.2 = b.max.2)) := by
  have hw : 0 < b.max.1 - b.min.1 := by linarith
  have hh : 0 < b.max.2 - b.min.2 := by linarith
  unfold expandBoxToRatio
  rw [if_neg (not_le.2 hr)]
  have he : ¬ (b.min.1 ≥ b.max.1 ∨ b.min.2 ≥ b.max.2) := by rintro (h | h) <;> linarith
  simp only [if_neg he]
  rcases lt_trichotomy ((b.max.1 - b.min.1) / (b.max.2 - b.min.2)) r with h | h | h
  · rw [if_pos h]
    rw [div_lt_iff₀ hh] at h
    refine ⟨_, rfl, ?_, ⟨?_, ?_⟩, ⟨?_, ?_, ?_, ?_⟩, Or.inr ⟨rfl, rfl⟩⟩ <;> dsimp only <;> linarith
  · rw [if_neg h.not_lt, if_neg h.not_gt]
    rw [div_eq_iff hh.ne'] at h
    exact ⟨_, rfl, h, ⟨rfl, rfl⟩, ⟨le_rfl, le_rfl, le_rfl, le_rfl⟩, Or.inl ⟨rfl, rfl⟩⟩
  · rw [if_neg h.not_gt, if_pos h]
    have h' := (lt_div_iff₀ hh).1 h
    have h'' : b.max.2 - b.min.2 < (b.max.1 - b.min.1) / r := by rw [lt_div_iff₀ hr]; linarith
    have e : r * ((b.max.1 - b.min.1) / r) = b.max.1 - b.min.1 := by field_simp
    refine ⟨_, rfl, ?_, ⟨?_, ?_⟩, ⟨?_, ?_, ?_, ?_⟩, Or.inl ⟨rfl, rfl⟩⟩ <;> dsimp only <;> linarith

/-- C122.  For an empty box `expandBoxToRatio` expands the unit box, and an aspect ratio that is not positive is refused. -/
theorem expandBox_other (b : Bx K) (r : K) : (r ≤ 0 → expandBoxToRatio b r = none)
    ∧ (b.min.1 ≥ b.max.1 ∨ b.min.2 ≥ b.max.2 → expandBoxToRatio b r = expandBoxToRatio ⟨(0, 0), (1, 1)⟩ r) := by
  constructor
  · intro h
    unfold expandBoxToRatio
    rw [if_pos h]
  · intro h
    unfold expandBoxToRatio
    have he : ¬ ((0 : K) ≥ 1 ∨ (0 : K) ≥ 1) := by
      rintro (h | h) <;> exact absurd h (not_le.2 zero_lt_one)
    simp only [if_pos h, if_neg he]

/-- C122.  `composeTransforms` applies the second transform first; `transAroundPt` keeps the point and acts on differences as the
matrix does. -/
theorem transforms_spec : (∀ (P Q : LinTrans K) (p : Pt K), (composeTransforms P Q).app p = P.app (Q.app p))
    ∧ ∀ (m11 m12 m21 m22 : K) (P p : Pt K), (transAroundPt m11 m12 m21 m22 P).app P = P
      ∧ (transAroundPt m11 m12 m21 m22 P).app p = (P.1 + (m11 * (p.1 - P.1) + m12 * (p.2 - P.2)), P.2 + (m21 * (p.1 - P.1) + m22 * (p.2 - P.2))) := by
  refine ⟨fun P Q p => ?_, fun m11 m12 m21 m22 P p => ⟨?_, ?_⟩⟩
  · unfold composeTransforms LinTrans.app
    exact Prod.ext (by dsimp only; ring) (by dsimp only; ring)
  · unfold transAroundPt LinTrans.app
    exact Prod.ext (by dsimp only; ring) (by dsimp only; ring)
  · unfold transAroundPt LinTrans.app
    exact Prod.ext (by dsimp only; ring) (by dsimp only; ring)

/-! ### Concrete cases -/

example : signedPolyArea letterU true = 18 := by decide +kernel

example : isPointInPolyOrOnEdges (5 : ℚ) 3 letterU = true ∧ isPointInPolyOrOnEdges (3 : ℚ) 3 letterU = false
    ∧ isPointInPolyOrOnEdges (4 : ℚ) 3 letterU = true := by decide +kernel

example : edgeBox (0 : ℚ) 3 3 0 1 1 2 2 = true ∧ edgeBox (0 : ℚ) 3 3 (1 / 2) 0 0 1 1 = false := by decide +kernel

/-- The edge `(0, 3) -- (3, 0)` meets the box `[1, 2] x [1, 2]`. -/
example : ∃ p : Pt ℚ, OnSeg ((0, 3), (3, 0)) p ∧ InBox 1 1 2 2 p :=
  (edgeBox_iff (0, 3) (3, 0) 1 1 2 2 (by norm_num) (by norm_num)).1 (by decide +kernel)

example : minPt ((1, 1) : Pt ℚ) (0, 0) (4, 0) = (1, 0) ∧ minPt ((-1, 1) : Pt ℚ) (0, 0) (4, 0) = (0, 0) := by decide +kernel

example : (cutToHalf insSort (0, 1) 2 letterU).map (signedPolyArea · true) = [10]
    ∧ ((cutToHalf insSort (0, -1) (-2) letterU).map (signedPolyArea · true)).sum = 8 := by decide +kernel

end Verif.Geom.Poly
