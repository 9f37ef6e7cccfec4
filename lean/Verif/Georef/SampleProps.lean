import Verif.Georef.BoxProps

/-
C111 (continued): the sampled boxes.
-/

set_option linter.unusedSectionVars false

namespace Verif.Georef
open Verif.Camera VW.BBox

variable {K : Type} [Field K] [LinearOrder K] [IsStrictOrderedRing K] [FloorRing K]

/-- The middle of the longitudes of the stored box. -/
def Ref.mid (g : Ref K) : K := (g.llBox.min 0 + g.llBox.max 0) / 2

/-! ### `sample_float_box` -/

theorem frac_le (i n : Nat) (hn : 0 < n) (hi : i ≤ n) : 0 ≤ (i : K) / (n : K) ∧ (i : K) / (n : K) ≤ 1 := by
  have h0 : (0 : K) < (n : K) := by exact_mod_cast hn
  have h1 : (i : K) ≤ (n : K) := by exact_mod_cast hi
  exact ⟨div_nonneg (by positivity) (le_of_lt h0), (div_le_one h0).2 h1⟩

theorem between (a b r : K) (hab : a ≤ b) (h0 : 0 ≤ r) (h1 : r ≤ 1) :
    a ≤ a + r * (b - a) ∧ a + r * (b - a) ≤ b ∧ a ≤ b - r * (b - a) ∧ b - r * (b - a) ≤ b := by
  have hd : 0 ≤ b - a := by linarith
  have p1 : 0 ≤ r * (b - a) := mul_nonneg h0 hd
  have p2 : r * (b - a) ≤ b - a := by nlinarith
  exact ⟨by linarith, by linarith, by linarith, by linarith⟩

/-- **C111.** What `sample_float_box` samples (with at least one step): only points of the box, boundary included; the four
corners are among them, and on each of the edges and diagonals the points that divide it into `n` equal parts. -/
theorem sampleFloat_spec (b : Box K 2) (hb : b.empty = false) (n : Nat) (hn : 0 < n) :
    (∀ p ∈ sampleFloat b n, In b p) ∧ (∀ p ∈ corners b, p ∈ sampleFloat b n) ∧
    (∀ i : Nat, i ≤ n → ∀ p : K × K,
      (p = (b.min 0, b.min 1 + (i : K) / n * (b.max 1 - b.min 1)) ∨
       p = (b.max 0, b.min 1 + (i : K) / n * (b.max 1 - b.min 1)) ∨
       p = (b.min 0 + (i : K) / n * (b.max 0 - b.min 0), b.min 1) ∨
       p = (b.min 0 + (i : K) / n * (b.max 0 - b.min 0), b.max 1) ∨
       p = (b.min 0 + (i : K) / n * (b.max 0 - b.min 0), b.min 1 + (i : K) / n * (b.max 1 - b.min 1)) ∨
       p = (b.max 0 - (i : K) / n * (b.max 0 - b.min 0), b.min 1 + (i : K) / n * (b.max 1 - b.min 1))) →
      p ∈ sampleFloat b n) := by
  have hm := ((empty_iff b).1 hb).2
  have m0 := le_of_lt (hm 0)
  have m1 := le_of_lt (hm 1)
  have h3 : (∀ i : Nat, i ≤ n → ∀ p : K × K,
      (p = (b.min 0, b.min 1 + (i : K) / n * (b.max 1 - b.min 1)) ∨
       p = (b.max 0, b.min 1 + (i : K) / n * (b.max 1 - b.min 1)) ∨
       p = (b.min 0 + (i : K) / n * (b.max 0 - b.min 0), b.min 1) ∨
       p = (b.min 0 + (i : K) / n * (b.max 0 - b.min 0), b.max 1) ∨
       p = (b.min 0 + (i : K) / n * (b.max 0 - b.min 0), b.min 1 + (i : K) / n * (b.max 1 - b.min 1)) ∨
       p = (b.max 0 - (i : K) / n * (b.max 0 - b.min 0), b.min 1 + (i : K) / n * (b.max 1 - b.min 1))) →
      p ∈ sampleFloat b n) := by
    intro i hi p hp
    unfold sampleFloat
    rw [hb, if_neg (by simp)]
    dsimp only
    rw [List.mem_flatMap]
    exact ⟨i, List.mem_range.2 (by omega), by simpa using hp⟩
  refine ⟨?_, ?_, h3⟩
  · intro p hp
    unfold sampleFloat at hp
    rw [hb, if_neg (by simp)] at hp
    dsimp only at hp
    rw [List.mem_flatMap] at hp
    obtain ⟨i, hi, hp⟩ := hp
    rw [List.mem_range] at hi
    obtain ⟨r0, r1⟩ := frac_le (K := K) i n hn (by omega)
    obtain ⟨x1, x2, x3, x4⟩ := between (b.min 0) (b.max 0) _ m0 r0 r1
    obtain ⟨y1, y2, -, -⟩ := between (b.min 1) (b.max 1) _ m1 r0 r1
    simp only [List.mem_cons, List.not_mem_nil, or_false] at hp
    rcases hp with rfl | rfl | rfl | rfl | rfl | rfl
    · exact ⟨le_refl _, m0, y1, y2⟩
    · exact ⟨m0, le_refl _, y1, y2⟩
    · exact ⟨x1, x2, le_refl _, m1⟩
    · exact ⟨x1, x2, m1, le_refl _⟩
    · exact ⟨x1, x2, y1, y2⟩
    · exact ⟨x3, x4, y1, y2⟩
  · intro p hp
    have hn' : (n : K) ≠ 0 := by exact_mod_cast (Nat.pos_iff_ne_zero.1 hn)
    unfold corners at hp
    simp only [List.mem_cons, List.not_mem_nil, or_false] at hp
    rcases hp with rfl | rfl | rfl | rfl
    · exact h3 0 (by omega) _ (Or.inl (by simp))
    · exact h3 n (le_refl _) _ (Or.inr (Or.inl (by rw [div_self hn']; simp)))
    · exact h3 n (le_refl _) _ (Or.inl (by rw [div_self hn']; simp))
    · exact h3 0 (by omega) _ (Or.inr (Or.inl (by simp)))

/-! ### The samples of `lonlat_to_point_bbox` and `point_to_lonlat_bbox` -/

theorem next_steep (b : VW.Line.Bres) (k : Nat) : (VW.Line.Bres.next^[k] b).steep = b.steep := by
  induction k with
  | zero => rfl
  | succ k ih =>
    rw [Function.iterate_succ_apply', ← ih]
    unfold VW.Line.Bres.next; dsimp only; split <;> rfl

theorem next_x (b : VW.Line.Bres) (k : Nat) : (VW.Line.Bres.next^[k] b).x = b.x + k := by
  induction k with
  | zero => simp
  | succ k ih =>
    rw [Function.iterate_succ_apply', VW.Line.next_x, ih]; push_cast; ring

theorem diag_x (n : Nat) (p : Int × Int) (h : p ∈ bresPixels (0, 0) (n, n) ++ bresPixels (n, 0) (0, n)) :
    0 ≤ p.1 ∧ p.1 < n ∧ 0 ≤ p.2 ∧ p.2 ≤ n := by
  rw [List.mem_append] at h
  have hx : p.1 < n := by
    rcases h with h | h
    · rw [mem_bres] at h
      obtain ⟨k, hk, e⟩ := h
      rw [VW.Line.visits_exactly] at hk
      have h1 : (VW.Line.Bres.mk' 0 0 n n).steep = false := by
        unfold VW.Line.Bres.mk' VW.Line.iabs; simp
      have h2 : (VW.Line.Bres.mk' 0 0 n n).x = 0 := by
        unfold VW.Line.Bres.mk' VW.Line.iabs
        dsimp only
        rw [if_neg (show ¬ (decide ((if (n : Int) - 0 < 0 then -((n : Int) - 0) else (n : Int) - 0) > (if (n : Int) - 0 < 0 then -((n : Int) - 0) else (n : Int) - 0)) = true) by simp)]
        dsimp only
        rw [if_neg (show ¬ ((0 : Int) > n) by omega)]
      unfold VW.Line.Bres.at VW.Line.Bres.pixel at e
      dsimp only at e
      rw [next_steep, h1, if_neg (by simp), next_x, h2] at e
      rw [← e]
      dsimp only at hk ⊢
      have hN : |(n : Int) - 0| = n := by rw [sub_zero]; exact abs_of_nonneg (by omega)
      have hN' : |0 - (n : Int)| = n := by rw [abs_sub_comm]; exact hN
      omega
    · rw [mem_bres] at h
      obtain ⟨k, hk, e⟩ := h
      rw [VW.Line.visits_exactly] at hk
      have hab : VW.Line.iabs ((n : Int) - 0) = VW.Line.iabs (0 - (n : Int)) := by
        rw [VW.Line.iabs_eq, VW.Line.iabs_eq, abs_sub_comm]
      have h1 : (VW.Line.Bres.mk' n 0 0 n).steep = false := by
        unfold VW.Line.Bres.mk'
        dsimp only
        rw [hab]; simp
      have h2 : (VW.Line.Bres.mk' n 0 0 n).x = 0 := by
        unfold VW.Line.Bres.mk'
        dsimp only
        rw [hab, if_neg (show ¬ (decide (VW.Line.iabs (0 - (n : Int)) > VW.Line.iabs (0 - (n : Int))) = true) by simp)]
        dsimp only
        by_cases hn : (n : Int) > 0
        · rw [if_pos hn]
        · rw [if_neg hn]
          show (n : Int) = 0
          omega
      unfold VW.Line.Bres.at VW.Line.Bres.pixel at e
      dsimp only at e
      rw [next_steep, h1, if_neg (by simp), next_x, h2] at e
      rw [← e]
      dsimp only at hk ⊢
      have hN : |(n : Int) - 0| = n := by rw [sub_zero]; exact abs_of_nonneg (by omega)
      have hN' : |0 - (n : Int)| = n := by rw [abs_sub_comm]; exact hN
      omega
  rcases h with h | h
  · have := bres_inside _ _ _ h
    dsimp only at this
    refine ⟨by omega, hx, by omega, by omega⟩
  · have := bres_inside _ _ _ h
    dsimp only at this
    refine ⟨by omega, hx, by omega, by omega⟩

theorem samples_form (b : Box K 2) (hb : b.empty = false) (n : Nat) (hn : 0 < n) (p : K × K) (hp : p ∈ samples b n) :
    ∃ i j : Nat, i ≤ n ∧ j ≤ n ∧ ¬ (i = n ∧ j = n) ∧
      p = (b.min 0 + (i : K) / n * (b.max 0 - b.min 0), b.min 1 + (j : K) / n * (b.max 1 - b.min 1)) := by
  have hn' : (n : K) ≠ 0 := by exact_mod_cast (Nat.pos_iff_ne_zero.1 hn)
  have ex : ∀ i : Fin 2, b.extent i = b.max i - b.min i := by
    intro i; unfold Box.extent; rw [hb, if_neg (by simp)]
  unfold samples at hp
  dsimp only at hp
  rw [ex, ex, List.mem_append] at hp
  rcases hp with hp | hp
  · rw [List.mem_flatMap] at hp
    obtain ⟨i, hi, hp⟩ := hp
    rw [List.mem_range] at hi
    simp only [List.mem_cons, List.not_mem_nil, or_false] at hp
    rcases hp with rfl | rfl | rfl | rfl
    · exact ⟨i, 0, by omega, by omega, by omega, by ext <;> dsimp only <;> field_simp <;> push_cast <;> ring⟩
    · exact ⟨i, n, by omega, by omega, by omega, by ext <;> dsimp only <;> field_simp <;> ring⟩
    · exact ⟨0, i, by omega, by omega, by omega, by ext <;> dsimp only <;> field_simp <;> push_cast <;> ring⟩
    · exact ⟨n, i, by omega, by omega, by omega, by ext <;> dsimp only <;> field_simp <;> ring⟩
  · rw [List.mem_map] at hp
    obtain ⟨q, hq, rfl⟩ := hp
    obtain ⟨h1, h2, h3, h4⟩ := diag_x n q hq
    refine ⟨q.1.toNat, q.2.toNat, by omega, by omega, by omega, ?_⟩
    have e1 : (q.1 : K) = ((q.1.toNat : Nat) : K) := by
      have : q.1 = ((q.1.toNat : Nat) : Int) := by omega
      conv_lhs => rw [this]
      norm_cast
    have e2 : (q.2 : K) = ((q.2.toNat : Nat) : K) := by
      have : q.2 = ((q.2.toNat : Nat) : Int) := by omega
      conv_lhs => rw [this]
      norm_cast
    rw [e1, e2]
    ext <;> dsimp only <;> field_simp <;> ring

/-- **C111.** The samples of a longitude-latitude box or map box (for at least one sample): they are points of the box; the four
edges are reached, and three of the corners; **the corner with the largest coordinates is never sampled**, whatever the number of
samples. -/
theorem samples_spec (b : Box K 2) (hb : b.empty = false) (n : Nat) (hn : 0 < n) :
    (∀ p ∈ samples b n, In b p) ∧
    ((b.min 0, b.min 1) ∈ samples b n ∧ (b.max 0, b.min 1) ∈ samples b n ∧ (b.min 0, b.max 1) ∈ samples b n) ∧
    (b.max 0, b.max 1) ∉ samples b n := by
  have hm := ((empty_iff b).1 hb).2
  have m0 := hm 0
  have m1 := hm 1
  have hn' : (0 : K) < (n : K) := by exact_mod_cast hn
  refine ⟨?_, ⟨?_, ?_, ?_⟩, ?_⟩
  · intro p hp
    obtain ⟨i, j, hi, hj, -, rfl⟩ := samples_form b hb n hn p hp
    obtain ⟨r0, r1⟩ := frac_le (K := K) i n hn hi
    obtain ⟨s0, s1⟩ := frac_le (K := K) j n hn hj
    obtain ⟨x1, x2, -, -⟩ := between (b.min 0) (b.max 0) _ (le_of_lt m0) r0 r1
    obtain ⟨y1, y2, -, -⟩ := between (b.min 1) (b.max 1) _ (le_of_lt m1) s0 s1
    exact ⟨x1, x2, y1, y2⟩
  · unfold samples
    dsimp only
    rw [List.mem_append, List.mem_flatMap]
    exact Or.inl ⟨0, List.mem_range.2 hn, by simp⟩
  · unfold samples
    dsimp only
    rw [List.mem_append, List.mem_flatMap]
    exact Or.inl ⟨0, List.mem_range.2 hn, by simp⟩
  · unfold samples
    dsimp only
    rw [List.mem_append, List.mem_flatMap]
    exact Or.inl ⟨0, List.mem_range.2 hn, by simp⟩
  · intro hp
    obtain ⟨i, j, hi, hj, hne, e⟩ := samples_form b hb n hn _ hp
    have e1 := congrArg Prod.fst e
    have e2 := congrArg Prod.snd e
    dsimp only at e1 e2
    have f1 : (i : K) / n = 1 := by
      have : ((i : K) / n - 1) * (b.max 0 - b.min 0) = 0 := by linear_combination -e1
      rcases mul_eq_zero.1 this with h | h
      · linarith
      · exact absurd h (by linarith)
    have f2 : (j : K) / n = 1 := by
      have : ((j : K) / n - 1) * (b.max 1 - b.min 1) = 0 := by linear_combination -e2
      rcases mul_eq_zero.1 this with h | h
      · linarith
      · exact absurd h (by linarith)
    rw [div_eq_one_iff_eq (ne_of_gt hn')] at f1 f2
    exact hne ⟨by exact_mod_cast f1, by exact_mod_cast f2⟩

theorem growSamples (f : K × K → Option (K × K)) (u v : K → K) (hu : MonotoneOn u (Set.univ)) (hv : MonotoneOn v (Set.univ))
    (b : Box K 2) (hb : b.empty = false) (n : Nat) (hn : 0 < n) (hf : ∀ q, In b q → f q = some (u q.1, v q.2)) (p : K × K)
    (hp : In b p) : In (growSome ((samples b n).map f)) (u p.1, v p.2) := by
  have hm := ((empty_iff b).1 hb).2
  obtain ⟨hin, ⟨c1, c2, c3⟩, -⟩ := samples_spec b hb n hn
  have key : ∀ q ∈ samples b n, In (growSome ((samples b n).map f)) (u q.1, v q.2) := by
    intro q hq
    apply growSome_contains
    rw [List.mem_map]
    exact ⟨q, hq, hf q (hin q hq)⟩
  have k1 := key _ c1
  have k2 := key _ c2
  have k3 := key _ c3
  obtain ⟨h1, h2, h3, h4⟩ := hp
  exact ⟨le_trans k1.1 (hu trivial trivial h1), le_trans (hu trivial trivial h2) k2.2.1,
    le_trans k1.2.2.1 (hv trivial trivial h3), le_trans (hv trivial trivial h4) k3.2.2.2⟩

/-- **C111.** For cylindrical projections that is enough: the longitude-latitude box of a map box contains the longitude and
latitude of every point of it. -/
theorem pointToLonlatBox_cylindrical (g : Ref K) (hp : g.projected = true) (f k : K → K) (hf : Monotone f) (hk : Monotone k)
    (hcyl : ∀ q : K × K, g.toLL q = some (f q.1, k q.2)) (b : Box K 2) (hb : b.empty = false) (n : Nat) (hn : 0 < n) (p : K × K)
    (hin : In b p) : ∃ ll, g.pointToLonlat p = some ll ∧ In (g.pointToLonlatBox b n) ll := by
  have hif : g.pointToLonlatBox b n = growSome ((samples b n).map g.pointToLonlat) := by
    unfold Ref.pointToLonlatBox; rw [hb]; rfl
  have e : ∀ q, g.pointToLonlat q = some (f q.1, k q.2) := by
    intro q; unfold Ref.pointToLonlat; rw [hp, if_neg (by simp), hcyl]
  refine ⟨_, e p, ?_⟩
  rw [hif]
  exact growSamples _ f k (fun _ _ _ _ h => hf h) (fun _ _ _ _ h => hk h) b hb n hn (fun q _ => e q) p hin

/-- No longitude of the box is more than 180 degrees away from the middle of the image. -/
def NoWrap (g : Ref K) (b : Box K 2) : Prop := g.mid - 180 ≤ b.min 0 ∧ b.max 0 ≤ g.mid + 180

theorem down_iff (mid lon : K) : |lon - mid - 360| < |lon - mid| ↔ mid + 180 < lon := by
  rw [← sq_lt_sq]
  constructor <;> intro h <;> nlinarith

theorem up_iff (mid lon : K) : |lon - mid + 360| < |lon - mid| ↔ lon < mid - 180 := by
  rw [← sq_lt_sq]
  constructor <;> intro h <;> nlinarith

theorem wrap_cases (g : Ref K) (he : g.llBox.empty = false) (lon : K) :
    (g.mid + 180 < lon → g.wrap lon = lon - 360) ∧ (lon < g.mid - 180 → g.wrap lon = lon + 360) ∧
    (g.mid - 180 ≤ lon → lon ≤ g.mid + 180 → g.wrap lon = lon) := by
  have e : g.wrap lon = wrapUp g.mid (wrapDown g.mid lon) := by
    unfold Ref.wrap; rw [he]; rfl
  rw [e]
  unfold wrapUp wrapDown
  refine ⟨fun h => ?_, fun h => ?_, fun h1 h2 => ?_⟩
  · rw [if_pos ((down_iff _ _).2 h), if_neg]
    rw [up_iff]; linarith
  · have hd : ¬ |lon - g.mid - 360| < |lon - g.mid| := by rw [down_iff]; linarith
    rw [if_neg hd, if_pos ((up_iff _ _).2 h)]
  · have hd : ¬ |lon - g.mid - 360| < |lon - g.mid| := by rw [down_iff]; linarith
    have hu : ¬ |lon - g.mid + 360| < |lon - g.mid| := by rw [up_iff]; linarith
    rw [if_neg hd, if_neg hu]

theorem wrap_near (g : Ref K) (lon : K) (h1 : g.mid - 180 ≤ lon) (h2 : lon ≤ g.mid + 180) : g.wrap lon = lon := by
  by_cases he : g.llBox.empty = true
  · unfold Ref.wrap; rw [he]; rfl
  · rw [Bool.not_eq_true] at he
    exact (wrap_cases g he lon).2.2 h1 h2

/-- **C111.** For cylindrical projections, and a box no longitude of which is more than 180 degrees from the middle of the image:
the map box of a longitude-latitude box contains the map position of every point of it, and the image box its pixel. -/
theorem lonlatBoxes_cylindrical (g : Ref K) (h : Reach g) (ha : Affine g.tr) (hp : g.projected = true) (f k : K → K)
    (hf : Monotone f) (hk : Monotone k) (hcyl : ∀ q : K × K, g.toProj q = some (f q.1, k q.2)) (b : Box K 2)
    (hb : b.empty = false) (hw : NoWrap g b) (n : Nat) (hn : 0 < n) (p : K × K) (hin : In b p) :
    (∃ q, g.lonlatToPoint p = some q ∧ In (g.lonlatToPointBox b n) q) ∧
    ((g.lonlatToPointBox b n).empty = false → ∃ q, g.lonlatToPixel p = some q ∧ InInt (g.lonlatToPixelBox b n) q) := by
  have hif : g.lonlatToPointBox b n = growSome ((samples b n).map g.lonlatToPoint) := by
    unfold Ref.lonlatToPointBox; rw [hb]; rfl
  have e : ∀ q, In b q → g.lonlatToPoint q = some (f q.1, k q.2) := by
    intro q hq
    unfold Ref.lonlatToPoint
    dsimp only
    rw [hp, if_neg (by simp), hcyl, wrap_near g q.1 (le_trans hw.1 hq.1) (le_trans hq.2.1 hw.2)]
  have h1 : In (g.lonlatToPointBox b n) (f p.1, k p.2) := by
    rw [hif]
    exact growSamples _ f k (fun _ _ _ _ h => hf h) (fun _ _ _ _ h => hk h) b hb n hn e p hin
  refine ⟨⟨_, e p hin, h1⟩, fun hne => ⟨g.pointToPixel (f p.1, k p.2), ?_, ?_⟩⟩
  · unfold Ref.lonlatToPixel; rw [e p hin]; rfl
  · have hif2 : g.lonlatToPixelBox b n = g.pointToPixelBox (g.lonlatToPointBox b n) := by
      unfold Ref.lonlatToPixelBox; rw [hb, hp]; rfl
    rw [hif2]
    exact pointToPixelBox_covers g h ha _ hne _ h1

/-- **C111.** In geographic coordinates the image box of a longitude-latitude box contains the pixel of every point of the box, as
long as no longitude of it is more than 180 degrees from the middle of the image. -/
theorem lonlatToPixelBox_geographic (g : Ref K) (h : Reach g) (ha : Affine g.tr) (hp : g.projected = false) (b : Box K 2)
    (hb : b.empty = false) (hw : NoWrap g b) (n : Nat) (p : K × K) (hin : In b p) :
    ∃ q, g.lonlatToPixel p = some q ∧ InInt (g.lonlatToPixelBox b n) q := by
  refine ⟨g.pointToPixel p, ?_, ?_⟩
  · unfold Ref.lonlatToPixel Ref.lonlatToPoint
    dsimp only
    rw [hp, wrap_near g p.1 (le_trans hw.1 hin.1) (le_trans hin.2.1 hw.2)]
    rfl
  · have hif : g.lonlatToPixelBox b n = g.pointToPixelBox b := by
      unfold Ref.lonlatToPixelBox; rw [hb, hp]; rfl
    rw [hif]
    exact pointToPixelBox_covers g h ha b hb p hin

/-! ### Refutations -/

/-- The identity, pixels as points. -/
theorem identity_exists : ∃ g : Ref ℚ, Reach g ∧ g.tr = ⟨⟨1, 0, 0⟩, ⟨0, 1, 0⟩, ⟨0, 0, 1⟩⟩ ∧ g.area = false ∧ g.projected = false := by
  obtain ⟨g, -, h1, h2, h3, h4⟩ := make_exists (⟨⟨1, 0, 0⟩, ⟨0, 1, 0⟩, ⟨0, 0, 1⟩⟩ : M3 ℚ) rfl
    (by simp [M3.det, dot, cross]) false
  exact ⟨g, h1, h2, h3, h4⟩

theorem setWkt_ok (g : Ref K) (f k : K × K → Option (K × K)) (hp : g.projected = false) (b : Bool) :
    ∃ g', g.setWkt f k b = (g', none) ∧ g'.projected = b ∧ g'.toLL = f ∧ g'.toProj = k ∧ g'.tr = g.tr ∧ g'.area = g.area := by
  unfold Ref.setWkt
  have h2 := llBox_geographic { g with toLL := f, toProj := k } hp (boxXYWH 0 0 0 0)
  obtain ⟨b', hb⟩ := llBoxFromPix_same { g with toLL := f, toProj := k } (boxXYWH 0 0 0 0)
  cases hr : Ref.llBoxFromPix { g with toLL := f, toProj := k } (boxXYWH 0 0 0 0) with
  | mk g2 e =>
    rw [hr] at h2 hb
    dsimp only at h2 hb
    subst h2
    exact ⟨_, rfl, rfl, by dsimp only; rw [hb], by dsimp only; rw [hb], by dsimp only; rw [hb], by dsimp only; rw [hb]⟩

/-- **C111 (refuted).** In general the sampled points are not enough, in both directions.  A map with the pole off the centre: the
pixel at the pole is in the image box, and its latitude (90) is not in the box found (which ends at latitude 88). -/
theorem pole_missed : ∃ g : Ref ℚ, Reach g ∧ g.projected = true ∧
    g.pixelToLonlat (3, 5) = some (0, 90) ∧ In (intBox 0 0 10 10) ((3, 5) : ℚ × ℚ) ∧
    ∀ p : ℚ × ℚ, In (g.pixelToLonlatBox (intBox 0 0 10 10)) p → p.2 ≤ 88 := by
  obtain ⟨g, h1, h2, h3, h4⟩ := identity_exists
  obtain ⟨g', e, p1, p2, p3, p4, p5⟩ := setWkt_ok g (fun q => some (0, 90 - |q.1 - 3| - |q.2 - 5|)) some h4 true
  have hr : Reach g' := .step g g' (.wkt _ _ _) h1 e
  have ha : Affine g'.tr := by rw [p4, h2]; rfl
  have hll : ∀ q : ℚ × ℚ, g'.pixelToLonlat q = some (0, 90 - |q.1 - 3| - |q.2 - 5|) := by
    intro q
    unfold Ref.pixelToLonlat Ref.pointToLonlat
    rw [p1, if_neg (by simp), p2, (pixel_position g' hr ha q).1 (by rw [p5, h3]), p4, h2]
    simp [affineAt]
  refine ⟨g', hr, p1, ?_, ?_, ?_⟩
  · rw [hll]; norm_num
  · unfold In intBox; norm_num
  · intro p hp
    have hne := intBox_empty (K := ℚ) 0 0 10 10 (by norm_num) (by norm_num)
    have hif : g'.pixelToLonlatBox (intBox 0 0 10 10) = growSome ((sampleInt (intBox 0 0 10 10)).map g'.pixelToLonlat) := by
      unfold Ref.pixelToLonlatBox; rw [hne, p1]; rfl
    have hs : ∀ q ∈ sampleInt (intBox 0 0 10 10 : Box ℚ 2), |q.1 - 3| + |q.2 - 5| ≥ 2 ∧ |q.1 - 3| + |q.2 - 5| ≤ 12 := by
      intro q hq
      rw [sampleInt_eq 0 0 10 10 (by norm_num) (by norm_num)] at hq
      have d1 : bresPixels (0, 0) (10, 10) = (List.range 10).map fun (k : Nat) => ((k : Int), (k : Int)) := by decide
      have d2 : bresPixels (10, 0) (0, 10) = (List.range 10).map fun (k : Nat) => ((k : Int), (10 - k : Int)) := by decide
      have hk : ∀ k : Nat, k < 10 → (0 : ℚ) ≤ k ∧ (k : ℚ) ≤ 10 := by
        intro k h
        exact ⟨by positivity, by exact_mod_cast (le_of_lt h)⟩
      rw [d1, d2] at hq
      simp only [List.mem_append, List.mem_flatMap, List.mem_cons, List.not_mem_nil, or_false, List.mem_map,
        mem_upTo, Int.cast_le, List.mem_range] at hq
      have ab : ∀ x : ℚ, (x ≤ |x| ∧ -x ≤ |x|) ∧ (|x| = x ∨ |x| = -x) :=
        fun x => ⟨⟨le_abs_self x, neg_le_abs x⟩, abs_choice x⟩
      rcases hq with ((⟨x, hx', rfl | rfl⟩ | ⟨y, hy', rfl | rfl⟩) | ⟨_, ⟨k, hk', rfl⟩, rfl⟩) | ⟨_, ⟨k, hk', rfl⟩, rfl⟩
      · have : (0 : ℚ) ≤ x ∧ (x : ℚ) ≤ 10 := by exact_mod_cast hx'
        obtain ⟨⟨a1, a2⟩, a3⟩ := ab ((x : ℚ) - 3)
        have hc : |((0 : Int) : ℚ) - 5| = 5 := by norm_num
        dsimp only
        rw [hc]
        constructor <;> rcases a3 with a3 | a3 <;> linarith [abs_nonneg ((x : ℚ) - 3)]
      · have : (0 : ℚ) ≤ x ∧ (x : ℚ) ≤ 10 := by exact_mod_cast hx'
        obtain ⟨⟨a1, a2⟩, a3⟩ := ab ((x : ℚ) - 3)
        have hc : |((10 : Int) : ℚ) - 5| = 5 := by norm_num
        dsimp only
        rw [hc]
        constructor <;> rcases a3 with a3 | a3 <;> linarith [abs_nonneg ((x : ℚ) - 3)]
      · have : (0 : ℚ) ≤ y ∧ (y : ℚ) ≤ 10 := by exact_mod_cast hy'
        obtain ⟨⟨a1, a2⟩, a3⟩ := ab ((y : ℚ) - 5)
        have hc : |((0 : Int) : ℚ) - 3| = 3 := by norm_num
        dsimp only
        rw [hc]
        constructor <;> rcases a3 with a3 | a3 <;> linarith [abs_nonneg ((y : ℚ) - 5)]
      · have : (0 : ℚ) ≤ y ∧ (y : ℚ) ≤ 10 := by exact_mod_cast hy'
        obtain ⟨⟨a1, a2⟩, a3⟩ := ab ((y : ℚ) - 5)
        have hc : |((10 : Int) : ℚ) - 3| = 7 := by norm_num
        dsimp only
        rw [hc]
        constructor <;> rcases a3 with a3 | a3 <;> linarith [abs_nonneg ((y : ℚ) - 5)]
      · have := hk k hk'
        push_cast
        obtain ⟨⟨a1, a2⟩, a3⟩ := ab ((k : ℚ) - 3)
        obtain ⟨⟨b1, b2⟩, b3⟩ := ab ((k : ℚ) - 5)
        constructor
        · linarith
        · rcases a3 with a3 | a3 <;> rcases b3 with b3 | b3 <;> linarith
      · have := hk k hk'
        push_cast
        obtain ⟨⟨a1, a2⟩, a3⟩ := ab ((k : ℚ) - 3)
        obtain ⟨⟨b1, b2⟩, b3⟩ := ab (10 - (k : ℚ) - 5)
        constructor
        · linarith
        · rcases a3 with a3 | a3 <;> rcases b3 with b3 | b3 <;> linarith
    have hsub : Sub (growSome ((sampleInt (intBox 0 0 10 10)).map g'.pixelToLonlat)) (⟨vec (0, 78), vec (0, 88)⟩ : Box ℚ 2) := by
      apply growSome_least
      · intro q hq
        rw [List.mem_map] at hq
        obtain ⟨r, hr', e'⟩ := hq
        rw [hll] at e'
        cases e'
        obtain ⟨s1, s2⟩ := hs r hr'
        refine ⟨le_refl _, le_refl _, ?_, ?_⟩
        · show (78 : ℚ) ≤ 90 - |r.1 - 3| - |r.2 - 5|; linarith
        · show 90 - |r.1 - 3| - |r.2 - 5| ≤ (88 : ℚ); linarith
      · refine ⟨_, List.mem_map.2 ⟨(((0 : Int) : ℚ), ((0 : Int) : ℚ)), (sampleInt_intBox 0 0 10 10 (by norm_num) (by norm_num)).1 0 0 (by norm_num) (by norm_num) (by norm_num) (by norm_num) (Or.inl rfl), hll _⟩, ?_⟩
        unfold Fits big32
        norm_num
    rw [hif] at hp
    exact le_trans hp.2.2.2 hsub.2.2.2

theorem growSome_upper (l : List (Option (K × K))) (c : K) (h : ∀ p, some p ∈ l → p.1 ≤ c) (hc : -((big32 : Int) : K) ≤ c) :
    (growSome l).max 0 ≤ c := by
  rw [growSome_eq, (growPts_spec (noBox : Box K 2) _ 0 c).2]
  refine ⟨hc, ?_⟩
  intro q hq
  rw [List.mem_map] at hq
  obtain ⟨r, hr', rfl⟩ := hq
  rw [List.mem_filterMap] at hr'
  obtain ⟨o, ho, e⟩ := hr'
  rw [show o = some r from e] at ho
  exact h r ho

theorem growSome_lower (l : List (Option (K × K))) (c : K) (h : ∀ p, some p ∈ l → c ≤ p.1) (hc : c ≤ ((big32 : Int) : K)) :
    c ≤ (growSome l).min 0 := by
  rw [growSome_eq, (growPts_spec (noBox : Box K 2) _ 0 c).1]
  refine ⟨hc, ?_⟩
  intro q hq
  rw [List.mem_map] at hq
  obtain ⟨r, hr', rfl⟩ := hq
  rw [List.mem_filterMap] at hr'
  obtain ⟨o, ho, e⟩ := hr'
  rw [show o = some r from e] at ho
  exact h r ho

/-- **C111 (refuted).** Because one corner is never sampled, the map box of a longitude-latitude box can miss the map position of
a corner, for every number of samples: here with a map sheared by 45 degrees, and the box between (0, 0) and (10, 10). -/
theorem corner_missed (n : Nat) (hn : 0 < n) : ∃ g : Ref ℚ, Reach g ∧ g.projected = true ∧
    g.lonlatToPoint (10, 10) = some (20, 10) ∧ In (intBox 0 0 10 10) ((10, 10) : ℚ × ℚ) ∧
    ¬ In (g.lonlatToPointBox (intBox 0 0 10 10) n) (20, 10) := by
  obtain ⟨g, h1, h2, h3, h4⟩ := identity_exists
  obtain ⟨g', e, p1, p2, p3, p4, p5⟩ := setWkt_ok g some (fun q => some (q.1 + q.2, q.2)) h4 true
  obtain ⟨g'', e2⟩ : ∃ g'', g'.step (.llBox noBox) = (g'', none) := ⟨_, rfl⟩
  have e2' : g'' = { g' with llBox := noBox } := by
    simp only [Ref.step, Prod.mk.injEq, and_true] at e2; exact e2.symm
  have hr : Reach g'' := .step g' g'' _ (.step g g' (.wkt _ _ _) h1 e) e2
  have hnb : (noBox : Box ℚ 2).empty = true := by
    unfold noBox Box.empty Box.default big32
    simp only [Bool.or_eq_true, decide_eq_true_eq]
    left
    exact ⟨0, by norm_num⟩
  have hpt : ∀ q : ℚ × ℚ, g''.lonlatToPoint q = some (q.1 + q.2, q.2) := by
    intro q
    unfold Ref.lonlatToPoint Ref.wrap
    rw [e2']
    dsimp only
    rw [hnb, p1, p3]
    rfl
  refine ⟨g'', hr, by rw [e2']; exact p1, ?_, ?_, ?_⟩
  · rw [hpt]; norm_num
  · unfold In intBox; norm_num
  · have hne := intBox_empty (K := ℚ) 0 0 10 10 (by norm_num) (by norm_num)
    have hif : g''.lonlatToPointBox (intBox 0 0 10 10) n = growSome ((samples (intBox 0 0 10 10) n).map g''.lonlatToPoint) := by
      unfold Ref.lonlatToPointBox; rw [hne]; rfl
    rw [hif]
    have hn' : (0 : ℚ) < (n : ℚ) := by exact_mod_cast hn
    have hlt : (20 : ℚ) - 10 / n < 20 := by
      have : (0 : ℚ) < 10 / n := by positivity
      linarith
    have hmx : (growSome ((samples (intBox 0 0 10 10) n).map g''.lonlatToPoint)).max 0 ≤ (20 : ℚ) - 10 / n := by
      apply growSome_upper
      · intro p hp
        rw [List.mem_map] at hp
        obtain ⟨q, hq, e'⟩ := hp
        rw [hpt] at e'
        cases e'
        obtain ⟨i, j, hi, hj, hne', rfl⟩ := samples_form _ hne n hn q hq
        show ((0 : Int) : ℚ) + (i : ℚ) / n * (((10 : Int) : ℚ) - ((0 : Int) : ℚ)) +
          (((0 : Int) : ℚ) + (j : ℚ) / n * (((10 : Int) : ℚ) - ((0 : Int) : ℚ))) ≤ 20 - 10 / n
        have hs : (i : ℚ) + j ≤ 2 * n - 1 := by
          have h' : i + j + 1 ≤ 2 * n := by omega
          have h'' : ((i + j + 1 : Nat) : ℚ) ≤ ((2 * n : Nat) : ℚ) := Nat.cast_le.2 h'
          push_cast at h''; linarith
        have e3 : ((0 : Int) : ℚ) + (i : ℚ) / n * (((10 : Int) : ℚ) - ((0 : Int) : ℚ)) +
          (((0 : Int) : ℚ) + (j : ℚ) / n * (((10 : Int) : ℚ) - ((0 : Int) : ℚ))) = 10 * ((i : ℚ) + j) / n := by
          push_cast; field_simp; ring
        rw [e3, div_le_iff₀ hn']
        have e4 : ((20 : ℚ) - 10 / n) * n = 20 * n - 10 := by field_simp
        rw [e4]; linarith
      · have : (10 : ℚ) / n ≤ 10 := by
          rw [div_le_iff₀ hn']
          have : (1 : ℚ) ≤ n := by exact_mod_cast hn
          linarith
        unfold big32; push_cast; linarith
    intro hin
    linarith [hin.2.1]

/-- **C111 (refuted).** In geographic coordinates `lonlat_to_pixel` adjusts a longitude by 360 degrees and `lonlat_to_pixel_bbox`
does not: the pixel of longitude 355 of an image around longitude 0 is not in the image box of the longitudes from 350 to 360. -/
theorem lonlatToPixelBox_unwrapped (n : Nat) : ∃ g : Ref ℚ, Reach g ∧ g.projected = false ∧ g.mid = 0 ∧
    g.lonlatToPixel (355, 5) = some (-5, 5) ∧ In (intBox 350 0 360 10) ((355, 5) : ℚ × ℚ) ∧
    ¬ InInt (g.lonlatToPixelBox (intBox 350 0 360 10) n) ((-5, 5) : ℚ × ℚ) := by
  obtain ⟨g', h1, h2, h3, h4⟩ := identity_exists
  obtain ⟨g, e2⟩ : ∃ g'', g'.step (.llBox (intBox (-180) (-90) 180 90)) = (g'', none) := ⟨_, rfl⟩
  have e2' : g = { g' with llBox := intBox (-180) (-90) 180 90 } := by
    simp only [Ref.step, Prod.mk.injEq, and_true] at e2; exact e2.symm
  have hr : Reach g := .step g' g _ h1 e2
  have htr : g.tr = ⟨⟨1, 0, 0⟩, ⟨0, 1, 0⟩, ⟨0, 0, 1⟩⟩ := by rw [e2']; exact h2
  have har : g.area = false := by rw [e2']; exact h3
  have hpr : g.projected = false := by rw [e2']; exact h4
  have ha : Affine g.tr := by rw [htr]; rfl
  have hmid : g.mid = 0 := by
    unfold Ref.mid; rw [e2']
    show (((-180 : Int) : ℚ) + ((180 : Int) : ℚ)) / 2 = 0
    norm_num
  have hid : ∀ q : ℚ × ℚ, g.pixelToPoint q = q := by
    intro q
    rw [(pixel_position g hr ha q).1 har, htr]
    simp [affineAt]
  have hback : ∀ q : ℚ × ℚ, g.pointToPixel q = q := by
    intro q
    have := (affine_round_trip g hr ha q).1
    rw [hid] at this; exact this
  have hne : g.llBox.empty = false := by rw [e2']; exact intBox_empty _ _ _ _ (by norm_num) (by norm_num)
  refine ⟨g, hr, hpr, hmid, ?_, ?_, ?_⟩
  · unfold Ref.lonlatToPixel Ref.lonlatToPoint
    dsimp only
    rw [hpr, (wrap_cases g hne 355).1 (by rw [hmid]; norm_num)]
    show some (g.pointToPixel _) = _
    rw [hback]; norm_num
  · unfold In intBox; norm_num
  · have hbe := intBox_empty (K := ℚ) 350 0 360 10 (by norm_num) (by norm_num)
    have hif : g.lonlatToPixelBox (intBox 350 0 360 10) n =
        growToInt (growSome ((corners (intBox 350 0 360 10)).map fun p => some (g.pointToPixel p))) := by
      unfold Ref.lonlatToPixelBox Ref.pointToPixelBox; rw [hbe, hpr]; rfl
    rw [hif]
    have hlow : (350 : ℚ) ≤ (growSome ((corners (intBox 350 0 360 10)).map fun p => some (g.pointToPixel p))).min 0 := by
      apply growSome_lower
      · intro p hp
        rw [List.mem_map] at hp
        obtain ⟨q, hq, e'⟩ := hp
        rw [hback] at e'
        cases e'
        unfold corners at hq
        simp only [List.mem_cons, List.not_mem_nil, or_false] at hq
        rcases hq with rfl | rfl | rfl | rfl <;> norm_num [intBox]
      · unfold big32; norm_num
    generalize growSome ((corners (intBox 350 0 360 10)).map fun p => some (g.pointToPixel p)) = bb at hlow ⊢
    intro hin
    have h0 := hin.1
    unfold growToInt at h0
    by_cases hc : ∃ i, bb.min i > bb.max i
    · rw [if_pos hc] at h0
      simp only [Box.default, big32] at h0
      norm_num at h0
    · rw [if_neg hc] at h0
      dsimp only at h0
      have : (350 : Int) ≤ ⌊bb.min 0⌋ := Int.le_floor.2 (by exact_mod_cast hlow)
      have h' : ((350 : Int) : ℚ) ≤ ((⌊bb.min 0⌋ : Int) : ℚ) := Int.cast_le.2 this
      norm_num at h'
      linarith

end Verif.Georef
