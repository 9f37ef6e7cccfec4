import Mathlib.Tactic.SplitIfs
import Verif.Geom.Poly.EdgeProps

/-
C122, continued: crossing edges, points in polygons, distances to segments, areas, boxes, transforms.
-/

namespace Verif.Geom.Poly

variable {K : Type} [Field K] [LinearOrder K] [IsStrictOrderedRing K]

/-! ### Crossing edges -/

theorem det_seg (p0 p1 a b : Pt K) (t : K) :
    det p0 p1 ((1 - t) * a.1 + t * b.1, (1 - t) * a.2 + t * b.2) = (1 - t) * det p0 p1 a + t * det p0 p1 b := by
  unfold det; ring

theorem det_line (p0 p1 : Pt K) (t : K) : det p0 p1 ((1 - t) * p0.1 + t * p1.1, (1 - t) * p0.2 + t * p1.2) = 0 := by
  unfold det; ring

theorem not_same_side (u v t : K) (h0 : 0 ≤ t) (h1 : t ≤ 1) (h : (1 - t) * u + t * v = 0) : ¬ ((u > 0 ∧ v > 0) ∨ (u < 0 ∧ v < 0)) := by
  rintro (⟨g1, g2⟩ | ⟨g1, g2⟩)
  · rcases lt_or_eq_of_le h0 with h' | h'
    · nlinarith [mul_pos h' g2, mul_nonneg (sub_nonneg.2 h1) (le_of_lt g1)]
    · rw [← h'] at h; linarith
  · rcases lt_or_eq_of_le h0 with h' | h'
    · nlinarith [mul_pos h' (neg_pos.2 g2), mul_nonneg (sub_nonneg.2 h1) (neg_pos.2 g1).le]
    · rw [← h'] at h; linarith

theorem distance_scale (a b : Pt ℝ) (p q : Pt ℝ) (t : ℝ) (ht : 0 ≤ t) (h1 : q.1 - p.1 = t * (b.1 - a.1)) (h2 : q.2 - p.2 = t * (b.2 - a.2)) :
    distance p q = t * distance a b := by
  unfold distance
  rw [h1, h2]
  have e : t * (b.1 - a.1) * (t * (b.1 - a.1)) + t * (b.2 - a.2) * (t * (b.2 - a.2))
    = t ^ 2 * ((b.1 - a.1) * (b.1 - a.1) + (b.2 - a.2) * (b.2 - a.2)) := by ring
  rw [e, Real.sqrt_mul (sq_nonneg t), Real.sqrt_sq ht]

theorem distance_nonneg (a b : Pt ℝ) : 0 ≤ distance a b := Real.sqrt_nonneg _

/-- `isPointOnEdge` is true of the points of the edge. -/
theorem isPointOnEdge_of_onSeg (p0 p1 p : Pt ℝ) (h : OnSeg (p0, p1) p) : isPointOnEdge p0 p1 p = true := by
  obtain ⟨t, h0, h1, rfl⟩ := h
  unfold isPointOnEdge
  dsimp only
  apply decide_eq_true
  have d1 := distance_scale p0 p1 p0 ((1 - t) * p0.1 + t * p1.1, (1 - t) * p0.2 + t * p1.2) t h0 (by dsimp only; ring) (by dsimp only; ring)
  have d2 := distance_scale p0 p1 ((1 - t) * p0.1 + t * p1.1, (1 - t) * p0.2 + t * p1.2) p1 (1 - t) (by linarith)
    (by dsimp only; ring) (by dsimp only; ring)
  rw [d1, d2]
  have := distance_nonneg p0 p1
  have e : (0 : ℝ) ≤ 1 / 10 ^ 12 := by positivity
  nlinarith

/-- A point on the line through two different points. -/
theorem on_line (b0 b1 a : Pt K) (hb : b0 ≠ b1) (h : det b0 b1 a = 0) :
    ∃ α : K, a = ((1 - α) * b0.1 + α * b1.1, (1 - α) * b0.2 + α * b1.2) := by
  unfold det at h
  by_cases hx : b1.1 - b0.1 = 0
  · have hy : b1.2 - b0.2 ≠ 0 := by
      intro hy
      exact hb (Prod.ext (by linarith) (by linarith))
    refine ⟨(a.2 - b0.2) / (b1.2 - b0.2), Prod.ext ?_ ?_⟩
    · rw [hx, mul_zero, sub_zero] at h
      have := (mul_eq_zero.1 h).resolve_right hy
      have e : b1.1 = b0.1 := by linarith
      dsimp only
      rw [e]; linear_combination this
    · dsimp only; field_simp; ring
  · refine ⟨(a.1 - b0.1) / (b1.1 - b0.1), Prod.ext ?_ ?_⟩
    · dsimp only; field_simp; ring
    · dsimp only
      field_simp
      linear_combination -h

/-- C122.  If two edges share a point, `edgesIntersect` finds that they do. -/
theorem edgesIntersect_complete (a0 a1 b0 b1 : Pt ℝ) (h : Meet (a0, a1) (b0, b1)) : ∃ p, edgesIntersect a0 a1 b0 b1 = some p := by
  obtain ⟨p, ⟨t, t0, t1, ht⟩, s, s0, s1, hs⟩ := h
  dsimp only at ht hs
  have ha : (1 - s) * det a0 a1 b0 + s * det a0 a1 b1 = 0 := by rw [← det_seg, ← hs, ht, det_line]
  have hb : (1 - t) * det b0 b1 a0 + t * det b0 b1 a1 = 0 := by rw [← det_seg, ← ht, hs, det_line]
  unfold edgesIntersect
  rw [if_neg (not_same_side _ _ s s0 s1 ha)]
  dsimp only
  rw [if_neg (not_same_side _ _ t t0 t1 hb)]
  by_cases hd : det b0 b1 a0 = det b0 b1 a1
  · rw [if_pos hd]
    have hz : det b0 b1 a0 = 0 := by rw [← hd] at hb; linarith
    have hz1 : det b0 b1 a1 = 0 := by rw [← hd, hz]
    -- an endpoint of one edge is on the other edge
    have hex : OnSeg (b0, b1) a0 ∨ OnSeg (b0, b1) a1 ∨ OnSeg (a0, a1) b0 := by
      by_cases hbb : b0 = b1
      · right; right
        refine ⟨t, t0, t1, ?_⟩
        dsimp only
        rw [← ht, hs, ← hbb]
        exact Prod.ext (by dsimp only; ring) (by dsimp only; ring)
      · obtain ⟨α, hα⟩ := on_line b0 b1 a0 hbb hz
        obtain ⟨β, hβ⟩ := on_line b0 b1 a1 hbb hz1
        by_cases h1 : 0 ≤ α ∧ α ≤ 1
        · exact Or.inl ⟨α, h1.1, h1.2, hα⟩
        by_cases h2 : 0 ≤ β ∧ β ≤ 1
        · exact Or.inr (Or.inl ⟨β, h2.1, h2.2, hβ⟩)
        right; right
        -- the common point, along the second edge
        have hx : (1 - t) * α + t * β = s := by
          have e : ((1 - s) * b0.1 + s * b1.1, (1 - s) * b0.2 + s * b1.2) = ((1 - t) * a0.1 + t * a1.1, (1 - t) * a0.2 + t * a1.2) := by
            rw [← hs, ← ht]
          rw [hα, hβ] at e
          have e1 := congrArg Prod.fst e
          have e2 := congrArg Prod.snd e
          dsimp only at e1 e2
          by_contra hne
          apply hbb
          have hne' : (1 - t) * α + t * β - s ≠ 0 := sub_ne_zero.2 hne
          refine Prod.ext ?_ ?_
          · apply mul_left_cancel₀ hne'
            linear_combination e1
          · apply mul_left_cancel₀ hne'
            linear_combination e2
        have hmm := (seg_num α β s).2 ⟨t, t0, t1, hx.symm⟩
        have hlo : min α β ≤ 0 := by
          by_contra g
          rw [not_le, lt_min_iff] at g
          have e1 : 1 < α := not_le.1 fun g' => h1 ⟨g.1.le, g'⟩
          have e2 : 1 < β := not_le.1 fun g' => h2 ⟨g.2.le, g'⟩
          exact absurd (hmm.1.trans s1) (not_le.2 (lt_min e1 e2))
        obtain ⟨r, r0, r1, hr⟩ := (seg_num α β 0).1 ⟨hlo, s0.trans hmm.2⟩
        refine ⟨r, r0, r1, ?_⟩
        dsimp only
        rw [hα, hβ]
        exact Prod.ext (by dsimp only; linear_combination (b1.1 - b0.1) * hr) (by dsimp only; linear_combination (b1.2 - b0.2) * hr)
    unfold collinearEdges
    rcases hex with h | h | h
    · rw [if_pos (isPointOnEdge_of_onSeg _ _ _ h)]; exact ⟨_, rfl⟩
    · split
      · exact ⟨_, rfl⟩
      · rw [if_pos (isPointOnEdge_of_onSeg _ _ _ h)]; exact ⟨_, rfl⟩
    · split
      · exact ⟨_, rfl⟩
      · split
        · exact ⟨_, rfl⟩
        · rw [if_pos (isPointOnEdge_of_onSeg _ _ _ h)]; exact ⟨_, rfl⟩
  · rw [if_neg hd]
    exact ⟨_, rfl⟩

/-- C122.  If `edgesIntersect` gives a point for edges that are not parallel, the point is on both edges. -/
theorem edgesIntersect_point (a0 a1 b0 b1 p : Pt ℝ) (h : edgesIntersect a0 a1 b0 b1 = some p)
    (hpar : (a1.1 - a0.1) * (b1.2 - b0.2) - (a1.2 - a0.2) * (b1.1 - b0.1) ≠ 0) : OnSeg (a0, a1) p ∧ OnSeg (b0, b1) p := by
  have hD : det b0 b1 a1 - det b0 b1 a0 = (a1.1 - a0.1) * (b1.2 - b0.2) - (a1.2 - a0.2) * (b1.1 - b0.1) := by unfold det; ring
  unfold edgesIntersect at h
  split at h
  · simp at h
  rename_i c1
  dsimp only at h
  split at h
  · simp at h
  rename_i c2
  split at h
  · rename_i hd
    rw [hd, sub_self] at hD
    exact absurd hD.symm hpar
  · rename_i hd
    simp only [Option.some.injEq] at h
    obtain ⟨t, t0, t1, ht⟩ := between_of_dets _ _ (1 : ℝ) one_ne_zero (fun g => c2 (Or.inl g)) (fun g => c2 (Or.inr g))
    obtain ⟨s, s0, s1, hs⟩ := between_of_dets _ _ (1 : ℝ) one_ne_zero (fun g => c1 (Or.inl g)) (fun g => c1 (Or.inr g))
    have hne : det b0 b1 a1 - det b0 b1 a0 ≠ 0 := sub_ne_zero.2 (Ne.symm hd)
    have et : -det b0 b1 a0 / (det b0 b1 a1 - det b0 b1 a0) = t := by
      rw [div_eq_iff hne]; linear_combination -ht
    rw [et] at h
    refine ⟨⟨t, t0, t1, h.symm⟩, s, s0, s1, ?_⟩
    dsimp only
    rw [← h]
    rw [← det_seg] at ht hs
    set u : Pt ℝ := ((1 - t) * a0.1 + t * a1.1, (1 - t) * a0.2 + t * a1.2)
    set v : Pt ℝ := ((1 - s) * b0.1 + s * b1.1, (1 - s) * b0.2 + s * b1.2)
    have hu : det a0 a1 u = 0 := det_line a0 a1 t
    have hv : det b0 b1 v = 0 := det_line b0 b1 s
    unfold det at ht hs hu hv
    refine Prod.ext ?_ ?_
    · apply mul_left_cancel₀ hpar
      linear_combination (a1.1 - a0.1) * (ht - hv) - (b1.1 - b0.1) * (hu - hs)
    · apply mul_left_cancel₀ hpar
      linear_combination (a1.2 - a0.2) * (ht - hv) - (b1.2 - b0.2) * (hu - hs)

/-- C122.  If `edgesIntersect` gives a point for parallel edges, it is an end of one edge, and going through it makes the other
edge longer by at most a part of `1e-12`. -/
theorem edgesIntersect_parallel (a0 a1 b0 b1 p : Pt ℝ) (h : edgesIntersect a0 a1 b0 b1 = some p)
    (hpar : (a1.1 - a0.1) * (b1.2 - b0.2) - (a1.2 - a0.2) * (b1.1 - b0.1) = 0) :
    ((p = a0 ∨ p = a1) ∧ distance b0 p + distance p b1 ≤ (1 + 1 / 10 ^ 12) * distance b0 b1)
    ∨ ((p = b0 ∨ p = b1) ∧ distance a0 p + distance p a1 ≤ (1 + 1 / 10 ^ 12) * distance a0 a1) := by
  have hD : det b0 b1 a1 - det b0 b1 a0 = (a1.1 - a0.1) * (b1.2 - b0.2) - (a1.2 - a0.2) * (b1.1 - b0.1) := by unfold det; ring
  unfold edgesIntersect at h
  split at h
  · simp at h
  dsimp only at h
  split at h
  · simp at h
  rw [hpar] at hD
  rw [if_pos (by linarith)] at h
  unfold collinearEdges at h
  split at h
  · rename_i g
    simp only [Option.some.injEq] at h
    subst h
    exact Or.inl ⟨Or.inl rfl, of_decide_eq_true g⟩
  split at h
  · rename_i g
    simp only [Option.some.injEq] at h
    subst h
    exact Or.inl ⟨Or.inr rfl, of_decide_eq_true g⟩
  split at h
  · rename_i g
    simp only [Option.some.injEq] at h
    subst h
    exact Or.inr ⟨Or.inl rfl, of_decide_eq_true g⟩
  split at h
  · rename_i g
    simp only [Option.some.injEq] at h
    subst h
    exact Or.inr ⟨Or.inr rfl, of_decide_eq_true g⟩
  · simp at h

/-- C122 (refutation).  On a common line, edges with a small gap between them are said to intersect. -/
theorem edgesIntersect_gap : ¬ Meet (((0 : ℝ), (0 : ℝ)), (1, 0)) ((1 + 1 / 10 ^ 13, 0), (2, 0))
    ∧ ∃ p, edgesIntersect (0, 0) (1, 0) (1 + 1 / 10 ^ 13, 0) (2, 0) = some p := by
  have hpos : (0 : ℝ) < 1 / 10 ^ 13 := by positivity
  constructor
  · rintro ⟨p, ⟨t, t0, t1, rfl⟩, s, s0, s1, h⟩
    have e := congrArg Prod.fst h
    dsimp only at e
    have h2 : (1 : ℝ) / 10 ^ 13 ≤ 1 := by
      rw [div_le_one (by positivity)]; norm_num
    nlinarith
  · have hz : ∀ x y u v : ℝ, det ((x, 0) : Pt ℝ) (y, 0) (u, v) = -v * (y - x) := by intro x y u v; unfold det; dsimp only; ring
    unfold edgesIntersect
    simp only [hz, neg_zero, zero_mul, lt_irrefl, gt_iff_lt, and_self, or_self, if_false, if_true]
    unfold collinearEdges
    split
    · exact ⟨_, rfl⟩
    · split
      · exact ⟨_, rfl⟩
      · rw [if_pos]
        · exact ⟨_, rfl⟩
        · unfold isPointOnEdge
          apply decide_eq_true
          have d1 : distance (0, 0) (1, 0) = 1 := by unfold distance; norm_num
          have d2 : distance (0, 0) (1 + 1 / 10 ^ 13, 0) = 1 + 1 / 10 ^ 13 := by
            rw [distance_scale (0, 0) (1, 0) (0, 0) (1 + 1 / 10 ^ 13, 0) (1 + 1 / 10 ^ 13) (by positivity) (by ring) (by ring), d1, mul_one]
          have d3 : distance (1 + 1 / 10 ^ 13, 0) (1, 0) = 1 / 10 ^ 13 := by
            unfold distance
            have : ((1 : ℝ) - (1 + 1 / 10 ^ 13)) * (1 - (1 + 1 / 10 ^ 13)) + (0 - 0) * (0 - 0) = (1 / 10 ^ 13) ^ 2 := by ring
            dsimp only
            rw [this, Real.sqrt_sq hpos.le]
          rw [d1, d2, d3]
          norm_num

/-! ### Points in polygons -/

theorem onSeg_vertical (a b q : Pt K) (hab : a.1 = b.1) (hx : q.1 = a.1) :
    OnSeg (a, b) q ↔ min a.2 b.2 ≤ q.2 ∧ q.2 ≤ max a.2 b.2 := by
  rw [seg_num]
  constructor
  · rintro ⟨t, h0, h1, h⟩
    exact ⟨t, h0, h1, congrArg Prod.snd h⟩
  · rintro ⟨t, h0, h1, h⟩
    refine ⟨t, h0, h1, Prod.ext ?_ h⟩
    dsimp only
    rw [hx, ← hab]; ring

/-- A point on the line through `a` and `b` between them in `x`. -/
theorem onSeg_between (a b q : Pt K) (hab : a.1 < b.1) (h1 : a.1 ≤ q.1) (h2 : q.1 ≤ b.1)
    (hd : (q.2 - a.2) * (b.1 - a.1) - (q.1 - a.1) * (b.2 - a.2) = 0) : OnSeg (a, b) q := by
  have hpos : 0 < b.1 - a.1 := by linarith
  refine ⟨(q.1 - a.1) / (b.1 - a.1), div_nonneg (by linarith) hpos.le, (div_le_one hpos).2 (by linarith), Prod.ext ?_ ?_⟩
  · dsimp only; field_simp; ring
  · dsimp only; field_simp; linear_combination hd

theorem onSeg_x (a b q : Pt K) (hab : a.1 ≤ b.1) (h : OnSeg (a, b) q) : a.1 ≤ q.1 ∧ q.1 ≤ b.1 := by
  obtain ⟨t, h0, h1, rfl⟩ := h
  have := (seg_num a.1 b.1 _).2 ⟨t, h0, h1, rfl⟩
  rw [min_eq_left hab, max_eq_right hab] at this
  exact this

/-- What the loop does with one edge. -/
theorem inPoly_step (q : Pt K) (acc : Bool) (e : Pt K × Pt K) (rest : List (Pt K × Pt K)) :
    (OnSeg e q → inPolyLoop q.1 q.2 acc (e :: rest) = true)
    ∧ (¬ OnSeg e q → inPolyLoop q.1 q.2 acc (e :: rest) = inPolyLoop q.1 q.2 (if up (rel q e.1) (rel q e.2) = 0 then acc else !acc) rest) := by
  -- first for edges to the right
  have key : ∀ a b : Pt K, a.1 ≤ b.1 → ∀ r : Bool → Bool,
      (OnSeg (a, b) q → (if q.1 < a.1 ∨ q.1 > b.1 then r acc else if a.1 = b.1 then
        if q.2 ≥ min a.2 b.2 ∧ q.2 ≤ max a.2 b.2 then true else r acc
        else if (q.2 - a.2) * (b.1 - a.1) - (q.1 - a.1) * (b.2 - a.2) = 0 then true
        else if q.1 < b.1 ∧ (q.2 - a.2) * (b.1 - a.1) - (q.1 - a.1) * (b.2 - a.2) < 0 then r (!acc) else r acc) = true)
      ∧ (¬ OnSeg (a, b) q → (if q.1 < a.1 ∨ q.1 > b.1 then r acc else if a.1 = b.1 then
        if q.2 ≥ min a.2 b.2 ∧ q.2 ≤ max a.2 b.2 then true else r acc
        else if (q.2 - a.2) * (b.1 - a.1) - (q.1 - a.1) * (b.2 - a.2) = 0 then true
        else if q.1 < b.1 ∧ (q.2 - a.2) * (b.1 - a.1) - (q.1 - a.1) * (b.2 - a.2) < 0 then r (!acc) else r acc)
          = r (if a.1 ≤ q.1 ∧ q.1 < b.1 ∧ (q.2 - a.2) * (b.1 - a.1) - (q.1 - a.1) * (b.2 - a.2) < 0 then !acc else acc)) := by
    intro a b hab r
    constructor
    · intro hs
      have hx := onSeg_x a b q hab hs
      rw [if_neg (by rintro (h | h) <;> linarith [hx.1, hx.2])]
      by_cases hv : a.1 = b.1
      · rw [if_pos hv, if_pos ((onSeg_vertical a b q hv (le_antisymm (hv ▸ hx.2) hx.1)).1 hs)]
      · rw [if_neg hv, if_pos]
        obtain ⟨t, h0, h1, rfl⟩ := hs
        dsimp only
        ring
    · intro hs
      by_cases h1 : q.1 < a.1 ∨ q.1 > b.1
      · rw [if_pos h1, if_neg]
        rintro ⟨g1, g2, _⟩
        rcases h1 with h | h <;> linarith
      · rw [if_neg h1]
        have hx : a.1 ≤ q.1 ∧ q.1 ≤ b.1 := ⟨not_lt.1 fun h => h1 (Or.inl h), not_lt.1 fun h => h1 (Or.inr h)⟩
        by_cases hv : a.1 = b.1
        · rw [if_pos hv, if_neg (fun g => hs ((onSeg_vertical a b q hv (le_antisymm (hv ▸ hx.2) hx.1)).2 g)), if_neg]
          rintro ⟨g1, g2, _⟩
          linarith
        · rw [if_neg hv, if_neg (fun g => hs (onSeg_between a b q (lt_of_le_of_ne hab hv) hx.1 hx.2 g))]
          by_cases g : q.1 < b.1 ∧ (q.2 - a.2) * (b.1 - a.1) - (q.1 - a.1) * (b.2 - a.2) < 0
          · rw [if_pos g, if_pos ⟨hx.1, g⟩]
          · rw [if_neg g, if_neg (fun g' => g g'.2)]
  obtain ⟨a, b⟩ := e
  rw [inPolyLoop]
  dsimp only
  by_cases hab : a.1 > b.1
  · rw [if_pos hab]
    dsimp only
    obtain ⟨k1, k2⟩ := key b a (le_of_lt hab) fun c => inPolyLoop q.1 q.2 c rest
    refine ⟨fun hs => k1 (seg_symm _ _ _ hs), fun hs => (k2 fun h => hs (seg_symm _ _ _ h)).trans ?_⟩
    congr 1
    have e2 : (q.2 - b.2) * (a.1 - b.1) - (q.1 - b.1) * (a.2 - b.2)
        = -((rel q a).1 * (rel q b).2 - (rel q a).2 * (rel q b).1) := by unfold rel; dsimp only; ring
    rw [e2]
    unfold up
    have e3 : ¬ ((rel q a).1 ≤ 0 ∧ 0 < (rel q b).1 ∧ (rel q a).1 * (rel q b).2 - (rel q a).2 * (rel q b).1 < 0) := by
      rintro ⟨g1, g2, _⟩
      simp only [rel] at g1 g2
      linarith
    rw [if_neg e3]
    by_cases g : b.1 ≤ q.1 ∧ q.1 < a.1 ∧ -((rel q a).1 * (rel q b).2 - (rel q a).2 * (rel q b).1) < 0
    · rw [if_pos g, if_pos (show (rel q b).1 ≤ 0 ∧ 0 < (rel q a).1 ∧ 0 < (rel q a).1 * (rel q b).2 - (rel q a).2 * (rel q b).1 from
        ⟨by have := g.1; simp only [rel]; linarith, by have := g.2.1; simp only [rel]; linarith, by linarith [g.2.2]⟩)]
      rfl
    · rw [if_neg g, if_neg (show ¬ ((rel q b).1 ≤ 0 ∧ 0 < (rel q a).1 ∧ 0 < (rel q a).1 * (rel q b).2 - (rel q a).2 * (rel q b).1) from
        fun g' => g ⟨by have := g'.1; simp only [rel] at this; linarith, by have := g'.2.1; simp only [rel] at this; linarith, by linarith [g'.2.2]⟩)]
      rfl
  · rw [if_neg hab]
    dsimp only
    obtain ⟨k1, k2⟩ := key a b (not_lt.1 hab) fun c => inPolyLoop q.1 q.2 c rest
    refine ⟨fun hs => k1 hs, fun hs => (k2 hs).trans ?_⟩
    congr 1
    have e2 : (q.2 - a.2) * (b.1 - a.1) - (q.1 - a.1) * (b.2 - a.2)
        = (rel q a).1 * (rel q b).2 - (rel q a).2 * (rel q b).1 := by unfold rel; dsimp only; ring
    rw [e2]
    unfold up
    have e3 : ¬ ((rel q b).1 ≤ 0 ∧ 0 < (rel q a).1 ∧ 0 < (rel q a).1 * (rel q b).2 - (rel q a).2 * (rel q b).1) := by
      rintro ⟨g1, g2, _⟩
      simp only [rel] at g1 g2
      linarith
    rw [if_neg e3]
    by_cases g : a.1 ≤ q.1 ∧ q.1 < b.1 ∧ (rel q a).1 * (rel q b).2 - (rel q a).2 * (rel q b).1 < 0
    · rw [if_pos g, if_pos (show (rel q a).1 ≤ 0 ∧ 0 < (rel q b).1 ∧ (rel q a).1 * (rel q b).2 - (rel q a).2 * (rel q b).1 < 0 from
        ⟨by have := g.1; simp only [rel]; linarith, by have := g.2.1; simp only [rel]; linarith, g.2.2⟩)]
      rfl
    · rw [if_neg g, if_neg (show ¬ ((rel q a).1 ≤ 0 ∧ 0 < (rel q b).1 ∧ (rel q a).1 * (rel q b).2 - (rel q a).2 * (rel q b).1 < 0) from
        fun g' => g ⟨by have := g'.1; simp only [rel] at this; linarith, by have := g'.2.1; simp only [rel] at this; linarith, g'.2.2⟩)]
      rfl

theorem up_vals (a b : Pt K) : up a b = 0 ∨ up a b = 1 ∨ up a b = -1 := by
  unfold up
  split
  · exact Or.inr (Or.inr rfl)
  · split
    · exact Or.inr (Or.inl rfl)
    · exact Or.inl rfl

theorem inPoly_loop (q : Pt K) (es : List (Pt K × Pt K)) (acc : Bool) :
    inPolyLoop q.1 q.2 acc es = true ↔ (∃ e ∈ es, OnSeg e q) ∨ (acc = true ↔ windRay 0 q es % 2 = 0) := by
  induction es generalizing acc with
  | nil => simp [inPolyLoop, windRay]
  | cons e t ih =>
    obtain ⟨h1, h2⟩ := inPoly_step q acc e t
    by_cases hs : OnSeg e q
    · exact ⟨fun _ => Or.inl ⟨e, List.mem_cons_self .., hs⟩, fun _ => h1 hs⟩
    · rw [h2 hs, ih]
      have e1 : windRay 0 q (e :: t) = up (rel q e.1) (rel q e.2) + windRay 0 q t := by
        simp [windRay, turn]
      rw [e1]
      have e2 : (∃ x ∈ e :: t, OnSeg x q) ↔ ∃ x ∈ t, OnSeg x q := by
        simp [hs]
      rw [e2]
      refine or_congr Iff.rfl ?_
      generalize windRay 0 q t = w
      rcases up_vals (rel q e.1) (rel q e.2) with h | h | h
      · rw [if_pos h, h, zero_add]
      · rw [if_neg (by rw [h]; decide), h]
        cases acc <;> simp <;> omega
      · rw [if_neg (by rw [h]; decide), h]
        cases acc <;> simp <;> omega

/-- C122.  `isPointInPolyOrOnEdges` tells exactly whether the point is on an edge, or the polygon winds around it an odd number
of times. -/
theorem inPoly_iff (q : Pt K) (l : List (Pt K)) :
    isPointInPolyOrOnEdges q.1 q.2 l = true ↔ (∃ e ∈ edges l, OnSeg e q) ∨ wind q [l] % 2 = 1 := by
  unfold isPointInPolyOrOnEdges
  by_cases hl : l.length = 0
  · rw [if_pos hl]
    have : l = [] := List.length_eq_zero_iff.1 hl
    subst this
    simp [edges, wind, windRay]
  · rw [if_neg hl]
    have h := inPoly_loop q (edges l) false
    have e : windRay 0 q (edges l) = wind q [l] := by simp [wind]
    rw [e] at h
    unfold edges at h ⊢
    rw [h]
    refine or_congr Iff.rfl ?_
    simp
    omega

/-- C122.  Clipping to the window does not change which points inside of the window and on no edge are in a polygon: the polygon
contains the point exactly if an odd number of the clipped ones contain it. -/
theorem cutPoly_contains (sort : List (ValIndex K) → List (ValIndex K)) (hsort : ∀ p, (sort p).Perm p) (xll yll xur yur : K)
    (l : List (Pt K)) (q : Pt K) (hx : xll < q.1 ∧ q.1 < xur) (hy : yll < q.2 ∧ q.2 < yur) (hoff : Off (edges l) q) :
    (isPointInPolyOrOnEdges q.1 q.2 l = true)
      ↔ ((cutPoly sort xll yll xur yur [l]).filter fun c => isPointInPolyOrOnEdges q.1 q.2 c).length % 2 = 1 := by
  obtain ⟨h1, h2⟩ := cutPoly_inside sort hsort xll yll xur yur [l] q hx hy (by simpa using hoff)
  rw [inPoly_iff, ← h1]
  have hno : ¬ ∃ e ∈ edges l, OnSeg e q := by rintro ⟨e, he, hs⟩; exact hoff e he hs
  rw [or_iff_right hno]
  generalize cutPoly sort xll yll xur yur [l] = P at h2
  clear h1
  have key : ∀ P : List (List (Pt K)), Off (P.flatMap edges) q →
      wind q P % 2 = (((P.filter fun c => isPointInPolyOrOnEdges q.1 q.2 c).length : ℕ) : ℤ) % 2 := by
    intro P
    induction P with
    | nil => intro _; rfl
    | cons c t ih =>
      intro ho
      rw [List.flatMap_cons] at ho
      have ih := ih fun e he => ho e (List.mem_append_right _ he)
      have e1 : wind q (c :: t) = wind q [c] + wind q t := wind_append q [c] t
      have hc : isPointInPolyOrOnEdges q.1 q.2 c = true ↔ wind q [c] % 2 = 1 := by
        rw [inPoly_iff, or_iff_right]
        rintro ⟨e, he, hs⟩
        exact ho e (List.mem_append_left _ he) hs
      rw [e1, List.filter_cons]
      by_cases h : isPointInPolyOrOnEdges q.1 q.2 c = true
      · rw [if_pos h, List.length_cons]
        have := hc.1 h
        push_cast
        omega
      · rw [if_neg h]
        have : ¬ wind q [c] % 2 = 1 := fun g => h (hc.2 g)
        omega
  rw [key P h2]
  omega

end Verif.Geom.Poly
