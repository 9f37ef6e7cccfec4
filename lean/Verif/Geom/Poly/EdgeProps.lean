import Mathlib.Tactic.Positivity
import Mathlib.Tactic.NormNum
import Verif.Geom.Poly.Edge
import Verif.Geom.Poly.CutProps

/-
C122: tests of edges, boxes, points and polygons.
-/

namespace Verif.Geom.Poly

variable {K : Type} [Field K] [LinearOrder K] [IsStrictOrderedRing K]

/-- Two segments share a point. -/
def Meet (e f : Pt K × Pt K) : Prop := ∃ p, OnSeg e p ∧ OnSeg f p

/-- A closed interval is what a segment of numbers covers. -/
theorem seg_num (u v x : K) : (min u v ≤ x ∧ x ≤ max u v) ↔ ∃ t, 0 ≤ t ∧ t ≤ 1 ∧ x = (1 - t) * u + t * v := by
  constructor
  · rintro ⟨h1, h2⟩
    by_cases huv : u = v
    · subst huv
      rw [min_self] at h1
      rw [max_self] at h2
      exact ⟨0, le_rfl, zero_le_one, by rw [le_antisymm h2 h1]; ring⟩
    · have hne : v - u ≠ 0 := sub_ne_zero.2 (Ne.symm huv)
      refine ⟨(x - u) / (v - u), ?_, ?_, ?_⟩
      · rcases lt_or_gt_of_ne huv with h | h
        · rw [min_eq_left h.le] at h1
          exact div_nonneg (by linarith) (by linarith)
        · rw [max_eq_left h.le] at h2
          exact div_nonneg_of_nonpos (by linarith) (by linarith)
      · rcases lt_or_gt_of_ne huv with h | h
        · rw [max_eq_right h.le] at h2
          rw [div_le_one (by linarith)]; linarith
        · rw [min_eq_right h.le] at h1
          rw [div_le_one_of_neg (by linarith)]; linarith
      · field_simp
        ring
  · rintro ⟨t, h0, h1, rfl⟩
    constructor
    · rcases le_total u v with h | h
      · rw [min_eq_left h]; nlinarith
      · rw [min_eq_right h]; nlinarith
    · rcases le_total u v with h | h
      · rw [max_eq_right h]; nlinarith
      · rw [max_eq_left h]; nlinarith

/-- A number between the values of an affine function at the ends is a value in between. -/
theorem between_of_dets (a b d : K) (hd : d ≠ 0) (h1 : ¬ (a > 0 ∧ b > 0)) (h2 : ¬ (a < 0 ∧ b < 0)) :
    ∃ s, 0 ≤ s ∧ s ≤ 1 ∧ (1 - s) * a + s * b = 0 := by
  have h : min a b ≤ 0 ∧ 0 ≤ max a b := by
    constructor
    · by_contra h
      rw [not_le, lt_min_iff] at h
      exact h1 h
    · by_contra h
      rw [not_le, max_lt_iff] at h
      exact h2 h
  obtain ⟨s, g0, g1, g⟩ := (seg_num a b 0).1 h
  exact ⟨s, g0, g1, g.symm⟩

/-- C122.  `edgeIntersectsHorizontalEdge` tells exactly whether the two edges share a point. -/
theorem horizEdge_iff (x0 y0 x1 y1 begx endx yval : K) :
    horizEdge x0 y0 x1 y1 begx endx yval = true ↔ Meet ((x0, y0), (x1, y1)) ((begx, yval), (endx, yval)) := by
  unfold horizEdge
  constructor
  · intro h
    split at h
    · exact absurd h (by simp)
    · rename_i c1
      split at h
      · exact absurd h (by simp)
      · rename_i c2
        split at h
        · rename_i hd
          have hy : y1 = y0 := by linarith
          have hyv : y0 = yval := by
            rw [hy] at c1 c2
            exact le_antisymm (not_lt.1 fun g => c1 ⟨g, g⟩) (not_lt.1 fun g => c2 ⟨g, g⟩)
          have h := of_decide_eq_true h
          set m := max (min x0 x1) (min begx endx) with hm
          obtain ⟨t, t0, t1, ht⟩ := (seg_num x0 x1 m).1 ⟨le_max_left _ _, le_trans h (min_le_left _ _)⟩
          obtain ⟨s, s0, s1, hs⟩ := (seg_num begx endx m).1 ⟨le_max_right _ _, le_trans h (min_le_right _ _)⟩
          refine ⟨(m, yval), ⟨t, t0, t1, Prod.ext ht ?_⟩, s, s0, s1, Prod.ext hs ?_⟩
          · simp only; rw [hy, hyv]; ring
          · simp only; ring
        · rename_i hd
          dsimp only at h
          split at h
          · exact absurd h (by simp)
          · rename_i c3
            split at h
            · exact absurd h (by simp)
            · rename_i c4
              obtain ⟨s, s0, s1, hs⟩ := between_of_dets _ _ (1 : K) one_ne_zero c3 c4
              have hyb : min y0 y1 ≤ yval ∧ yval ≤ max y0 y1 := by
                constructor
                · by_contra g
                  rw [not_le, lt_min_iff] at g
                  exact c1 g
                · by_contra g
                  rw [not_le, max_lt_iff] at g
                  exact c2 g
              obtain ⟨t, t0, t1, ht⟩ := (seg_num y0 y1 yval).1 hyb
              refine ⟨((1 - s) * begx + s * endx, yval), ⟨t, t0, t1, Prod.ext ?_ ht⟩, s, s0, s1, Prod.ext rfl (by simp only; ring)⟩
              simp only
              apply mul_right_cancel₀ hd
              have e : (yval - y0) = t * (y1 - y0) := by rw [ht]; ring
              linear_combination hs + (x1 - x0) * e
  · rintro ⟨p, ⟨t, t0, t1, rfl⟩, s, s0, s1, hp⟩
    have ex := congrArg Prod.fst hp
    have ey := congrArg Prod.snd hp
    simp only at ex ey
    have ey' : (1 - t) * y0 + t * y1 = yval := by rw [ey]; ring
    rw [if_neg, if_neg]
    · split
      · apply decide_eq_true
        have h1 := (seg_num x0 x1 _).2 ⟨t, t0, t1, rfl⟩
        have h2 := (seg_num begx endx _).2 ⟨s, s0, s1, rfl⟩
        rw [← ex] at h2
        exact (max_le h1.1 h2.1).trans (le_min h1.2 h2.2)
      · dsimp only
        have e : (1 - s) * ((begx - x0) * (y1 - y0) - (yval - y0) * (x1 - x0))
            + s * ((endx - x0) * (y1 - y0) - (yval - y0) * (x1 - x0)) = 0 := by
          have : (1 - s) * ((begx - x0) * (y1 - y0) - (yval - y0) * (x1 - x0))
            + s * ((endx - x0) * (y1 - y0) - (yval - y0) * (x1 - x0))
            = ((1 - s) * begx + s * endx - x0) * (y1 - y0) - (yval - y0) * (x1 - x0) := by ring
          rw [this, ← ex, ← ey']
          ring
        rw [if_neg, if_neg]
        · rintro ⟨g1, g2⟩
          rcases lt_or_eq_of_le s0 with h | h
          · nlinarith [mul_pos h (neg_pos.2 g2), mul_nonneg (sub_nonneg.2 s1) (neg_pos.2 g1).le]
          · rw [← h] at e; linarith
        · rintro ⟨g1, g2⟩
          rcases lt_or_eq_of_le s0 with h | h
          · nlinarith [mul_pos h g2, mul_nonneg (sub_nonneg.2 s1) (le_of_lt g1)]
          · rw [← h] at e; linarith
    · rintro ⟨g1, g2⟩
      have := ((seg_num y0 y1 _).2 ⟨t, t0, t1, rfl⟩).2
      rw [ey'] at this
      exact absurd this (not_le.2 (max_lt g1 g2))
    · rintro ⟨g1, g2⟩
      have := ((seg_num y0 y1 _).2 ⟨t, t0, t1, rfl⟩).1
      rw [ey'] at this
      exact absurd this (not_le.2 (lt_min g1 g2))

/-- The point is in the box. -/
def InBox (xl yl xh yh : K) (p : Pt K) : Prop := xl ≤ p.1 ∧ p.1 ≤ xh ∧ yl ≤ p.2 ∧ p.2 ≤ yh

/-- A segment exchanged in `x` and `y`. -/
theorem onSeg_swap (a b p : Pt K) : OnSeg (a, b) p ↔ OnSeg ((a.2, a.1), (b.2, b.1)) (p.2, p.1) := by
  constructor
  · rintro ⟨t, h0, h1, rfl⟩; exact ⟨t, h0, h1, rfl⟩
  · rintro ⟨t, h0, h1, h⟩
    exact ⟨t, h0, h1, Prod.ext (congrArg Prod.snd h) (congrArg Prod.fst h)⟩

/-- A segment from a point not in the box to a point in it crosses a side. -/
theorem enter_box (a b : Pt K) (xl yl xh yh : K) (hx : xl ≤ xh) (hy : yl ≤ yh) (hb : InBox xl yl xh yh b) (ha : ¬ InBox xl yl xh yh a) :
    ∃ p, OnSeg (a, b) p ∧ InBox xl yl xh yh p ∧ (p.1 = xl ∨ p.1 = xh ∨ p.2 = yl ∨ p.2 = yh) := by
  obtain ⟨b1, b2, b3, b4⟩ := hb
  -- the last of the up to four crossings of side lines
  have key : ∀ (n : Pt K) (H : K), dot n b ≤ H → H < dot n a → ∃ t, 0 ≤ t ∧ t ≤ 1 ∧
      dot n ((1 - t) * a.1 + t * b.1, (1 - t) * a.2 + t * b.2) = H ∧
      ∀ s, t ≤ s → s ≤ 1 → dot n ((1 - s) * a.1 + s * b.1, (1 - s) * a.2 + s * b.2) ≤ H := by
    intro n H h1 h2
    have hd : 0 < dot n a - dot n b := by linarith
    refine ⟨(dot n a - H) / (dot n a - dot n b), div_nonneg (by linarith) hd.le, (div_le_one hd).2 (by linarith), ?_, ?_⟩
    · rw [dot_seg]
      field_simp
      ring
    · intro s hs1 hs2
      rw [dot_seg]
      rw [div_le_iff₀ hd] at hs1
      linarith
  have key' : ∀ (n : Pt K) (H : K), dot n b ≤ H → ∃ t, 0 ≤ t ∧ t ≤ 1 ∧
      (dot n ((1 - t) * a.1 + t * b.1, (1 - t) * a.2 + t * b.2) = H ∨ (t = 0 ∧ dot n a ≤ H)) ∧
      ∀ s, t ≤ s → s ≤ 1 → dot n ((1 - s) * a.1 + s * b.1, (1 - s) * a.2 + s * b.2) ≤ H := by
    intro n H h1
    rcases lt_or_ge H (dot n a) with h | h
    · obtain ⟨t, g0, g1, g2, g3⟩ := key n H h1 h
      exact ⟨t, g0, g1, Or.inl g2, g3⟩
    · refine ⟨0, le_rfl, zero_le_one, Or.inr ⟨rfl, h⟩, fun s hs hs1 => ?_⟩
      rw [dot_seg]
      nlinarith
  obtain ⟨t1, p1, q1, r1, u1⟩ := key' (-1, 0) (-xl) (by simp only [dot]; linarith)
  obtain ⟨t2, p2, q2, r2, u2⟩ := key' (1, 0) xh (by simp only [dot]; linarith)
  obtain ⟨t3, p3, q3, r3, u3⟩ := key' (0, -1) (-yl) (by simp only [dot]; linarith)
  obtain ⟨t4, p4, q4, r4, u4⟩ := key' (0, 1) yh (by simp only [dot]; linarith)
  set t := max (max t1 t2) (max t3 t4) with ht
  have ht1 : t ≤ 1 := max_le (max_le q1 q2) (max_le q3 q4)
  have c1 := u1 t (le_trans (le_max_left _ _) (le_max_left _ _)) ht1
  have c2 := u2 t (le_trans (le_max_right _ _) (le_max_left _ _)) ht1
  have c3 := u3 t (le_trans (le_max_left _ _) (le_max_right _ _)) ht1
  have c4 := u4 t (le_trans (le_max_right _ _) (le_max_right _ _)) ht1
  have hin : InBox xl yl xh yh ((1 - t) * a.1 + t * b.1, (1 - t) * a.2 + t * b.2) := by
    simp only [dot] at c1 c2 c3 c4
    exact ⟨by dsimp only; linarith, by dsimp only; linarith, by dsimp only; linarith, by dsimp only; linarith⟩
  refine ⟨_, ⟨t, le_trans p1 (le_trans (le_max_left _ _) (le_max_left _ _)), ht1, rfl⟩, hin, ?_⟩
  have hone : t = t1 ∨ t = t2 ∨ t = t3 ∨ t = t4 := by
    rcases max_choice (max t1 t2) (max t3 t4) with h | h
    · rcases max_choice t1 t2 with h' | h'
      · left; rw [ht, h, h']
      · right; left; rw [ht, h, h']
    · rcases max_choice t3 t4 with h' | h'
      · right; right; left; rw [ht, h, h']
      · right; right; right; rw [ht, h, h']
  have hzero : t ≠ 0 := by
    intro h0
    apply ha
    rw [h0] at hin
    simpa using hin
  rcases hone with h | h | h | h
  · rcases r1 with g | ⟨g, _⟩
    · rw [← h] at g; simp only [dot] at g; left; dsimp only; linarith
    · exact absurd (h.trans g) hzero
  · rcases r2 with g | ⟨g, _⟩
    · rw [← h] at g; simp only [dot] at g; right; left; dsimp only; linarith
    · exact absurd (h.trans g) hzero
  · rcases r3 with g | ⟨g, _⟩
    · rw [← h] at g; simp only [dot] at g; right; right; left; dsimp only; linarith
    · exact absurd (h.trans g) hzero
  · rcases r4 with g | ⟨g, _⟩
    · rw [← h] at g; simp only [dot] at g; right; right; right; dsimp only; linarith
    · exact absurd (h.trans g) hzero

/-- C122.  `edgeIntersectsBox` tells exactly whether a point of the edge is in the box. -/
theorem edgeBox_iff (b e : Pt K) (xl yl xh yh : K) (hx : xl ≤ xh) (hy : yl ≤ yh) :
    edgeBox b.1 b.2 e.1 e.2 xl yl xh yh = true ↔ ∃ p, OnSeg (b, e) p ∧ InBox xl yl xh yh p := by
  constructor
  · intro h
    unfold edgeBox at h
    split at h
    · exact absurd h (by simp)
    split at h
    · exact absurd h (by simp)
    split at h
    · exact absurd h (by simp)
    split at h
    · exact absurd h (by simp)
    split at h
    · rename_i g
      exact ⟨b, ⟨0, le_rfl, zero_le_one, by simp⟩, g⟩
    split at h
    · rename_i g
      exact ⟨e, ⟨1, zero_le_one, le_rfl, by simp⟩, g⟩
    split at h
    · rename_i g
      obtain ⟨p, hp, s, s0, s1, rfl⟩ := (horizEdge_iff ..).1 g
      exact ⟨_, hp, by dsimp only; nlinarith, by dsimp only; nlinarith, by dsimp only; linarith, by dsimp only; linarith⟩
    split at h
    · rename_i g
      obtain ⟨p, hp, s, s0, s1, rfl⟩ := (horizEdge_iff ..).1 g
      exact ⟨_, hp, by dsimp only; nlinarith, by dsimp only; nlinarith, by dsimp only; linarith, by dsimp only; linarith⟩
    split at h
    · rename_i g
      obtain ⟨p, hp, s, s0, s1, rfl⟩ := (horizEdge_iff ..).1 g
      exact ⟨_, (onSeg_swap (b.2, b.1) (e.2, e.1) _).1 hp, by dsimp only; linarith, by dsimp only; linarith, by dsimp only; nlinarith, by dsimp only; nlinarith⟩
    split at h
    · rename_i g
      obtain ⟨p, hp, s, s0, s1, rfl⟩ := (horizEdge_iff ..).1 g
      exact ⟨_, (onSeg_swap (b.2, b.1) (e.2, e.1) _).1 hp, by dsimp only; linarith, by dsimp only; linarith, by dsimp only; nlinarith, by dsimp only; nlinarith⟩
    · exact absurd h (by simp)
  · rintro ⟨p, hp, hin⟩
    have hmm : (min b.1 e.1 ≤ p.1 ∧ p.1 ≤ max b.1 e.1) ∧ (min b.2 e.2 ≤ p.2 ∧ p.2 ≤ max b.2 e.2) := by
      obtain ⟨t, t0, t1, rfl⟩ := hp
      exact ⟨(seg_num _ _ _).2 ⟨t, t0, t1, rfl⟩, (seg_num _ _ _).2 ⟨t, t0, t1, rfl⟩⟩
    unfold edgeBox
    rw [if_neg fun g => absurd (hmm.1.1.trans hin.2.1) (not_le.2 (lt_min g.1 g.2)),
      if_neg fun g => absurd (hin.1.trans hmm.1.2) (not_le.2 (max_lt g.1 g.2)),
      if_neg fun g => absurd (hmm.2.1.trans hin.2.2.2) (not_le.2 (lt_min g.1 g.2)),
      if_neg fun g => absurd (hin.2.2.1.trans hmm.2.2) (not_le.2 (max_lt g.1 g.2))]
    by_cases hb : InBox xl yl xh yh b
    · rw [if_pos (show xl ≤ b.1 ∧ b.1 ≤ xh ∧ yl ≤ b.2 ∧ b.2 ≤ yh from hb)]
    · rw [if_neg (show ¬ (xl ≤ b.1 ∧ b.1 ≤ xh ∧ yl ≤ b.2 ∧ b.2 ≤ yh) from hb)]
      obtain ⟨r, hr, hrin, hside⟩ := enter_box b p xl yl xh yh hx hy hin hb
      have hre := seg_left b e p r hp hr
      have hxs := (seg_num xl xh r.1).1 ⟨by rw [min_eq_left hx]; exact hrin.1, by rw [max_eq_right hx]; exact hrin.2.1⟩
      have hys := (seg_num yl yh r.2).1 ⟨by rw [min_eq_left hy]; exact hrin.2.2.1, by rw [max_eq_right hy]; exact hrin.2.2.2⟩
      split
      · rfl
      · split
        · rfl
        · rename_i g1
          split
          · rfl
          · rename_i g2
            split
            · rfl
            · rename_i g3
              split
              · rfl
              · rename_i g4
                exfalso
                rcases hside with h | h | h | h
                · obtain ⟨s, s0, s1, hs⟩ := hys
                  exact g3 ((horizEdge_iff ..).2 ⟨(r.2, r.1), (onSeg_swap b e r).1 hre, s, s0, s1, Prod.ext hs (by dsimp only; rw [h]; ring)⟩)
                · obtain ⟨s, s0, s1, hs⟩ := hys
                  exact g4 ((horizEdge_iff ..).2 ⟨(r.2, r.1), (onSeg_swap b e r).1 hre, s, s0, s1, Prod.ext hs (by dsimp only; rw [h]; ring)⟩)
                · obtain ⟨s, s0, s1, hs⟩ := hxs
                  exact g1 ((horizEdge_iff ..).2 ⟨r, hre, s, s0, s1, Prod.ext hs (by dsimp only; rw [h]; ring)⟩)
                · obtain ⟨s, s0, s1, hs⟩ := hxs
                  exact g2 ((horizEdge_iff ..).2 ⟨r, hre, s, s0, s1, Prod.ext hs (by dsimp only; rw [h]; ring)⟩)

end Verif.Geom.Poly
