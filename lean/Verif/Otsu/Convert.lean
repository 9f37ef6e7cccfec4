import Verif.Otsu.Props

/-! C154: conversions to 8 bits, src/vw/Image/ImageThresh.h:241-289, for images of `float` or `double` pixels that are all valid
(the clamp and the normalisation of an integer image would first cut the bounds to integers). -/

namespace VW.Otsu

open VW.Stats (Hist)
open Finset

/-- `ChannelClampFunctor`, Image/Algorithms.h:43-47. -/
def clampTo (lo hi v : Rat) : Rat := if v > hi then hi else if v < lo then lo else v

/-- `ChannelNormalizeFunctor`, Image/Algorithms.h:111-125. -/
def normalizeTo (oldMin oldMax newMin newMax v : Rat) : Rat :=
  let ratio := if oldMax = oldMin then 0 else (newMax - newMin) / (oldMax - oldMin)
  (v - oldMin) * ratio + newMin

/-- `pixel_cast<uint8>`, Image/PixelTypeInfo.h:264-277: the fraction is cut off; a value that then does not fit is undefined. -/
def castU8 (v : Rat) : Option Nat := if 0 ≤ v ∧ v < 256 then some ⌊v⌋.toNat else if -1 < v ∧ v < 0 then some 0 else none

/-- The expression in ImageThresh.h:266-267, 286-287. -/
def stretch (lo hi v : Rat) : Option Nat := castU8 (normalizeTo lo hi 0 255 (clampTo lo hi v))

/-- `u8_convert`, ImageThresh.h:274-288, of an image with the values `vs`: what becomes of a pixel `v`. -/
def u8Convert (vs : List Rat) (v : Rat) : Option Nat :=
  match minMax vs with
  | none => none
  | some (lo, hi) =>
    let hi := if hi = lo then lo + 1 else hi
    stretch lo hi v

/-- The two values of `percentile_scale_convert`, ImageThresh.h:250-263. The histogram widens the range of a constant image by itself
(ImageThresh.h:58-59); `none` is an exception. -/
def percentileBounds (n : Nat) (lowP highP : Rat) (vs : List Rat) : Option (Rat × Rat) :=
  match minMax vs with
  | none => none
  | some (lo, hi) => do
    let h ← histOf n lo (if hi = lo then lo + 1 else hi) vs
    let lowBin ← h.percentile lowP
    let highBin ← h.percentile highP
    let w := (h.hi - h.lo) / h.n
    pure (((lowBin : Rat) + 1) * w + lo, ((highBin : Rat) + 1) * w + lo)

/-- `percentile_scale_convert`, ImageThresh.h:244-268: what becomes of a pixel `v`. -/
def percentileConvert (n : Nat) (lowP highP : Rat) (vs : List Rat) (v : Rat) : Option Nat := do
  let b ← percentileBounds n lowP highP vs
  stretch b.1 b.2 v

/-! ### Theorems -/

theorem castU8_spec (x : Rat) (h0 : 0 ≤ x) (h1 : x ≤ 255) : ∃ u, castU8 x = some u ∧ u ≤ 255 ∧ (u : Rat) ≤ x ∧ x < u + 1 := by
  refine ⟨⌊x⌋.toNat, ?_, ?_, ?_, ?_⟩
  · unfold castU8; rw [if_pos ⟨h0, by linarith⟩]
  · have : ⌊x⌋ ≤ 255 := by
      have := Int.floor_le x
      by_contra hc
      have : (256 : Int) ≤ ⌊x⌋ := by omega
      have : (256 : Rat) ≤ (⌊x⌋ : Rat) := by exact_mod_cast this
      linarith
    omega
  · have hf : 0 ≤ ⌊x⌋ := Int.floor_nonneg.2 h0
    have : ((⌊x⌋.toNat : Nat) : Rat) = (⌊x⌋ : Rat) := by
      have := Int.toNat_of_nonneg hf
      exact_mod_cast this
    rw [this]; exact Int.floor_le x
  · have hf : 0 ≤ ⌊x⌋ := Int.floor_nonneg.2 h0
    have : ((⌊x⌋.toNat : Nat) : Rat) = (⌊x⌋ : Rat) := by
      have := Int.toNat_of_nonneg hf
      exact_mod_cast this
    rw [this]; exact Int.lt_floor_add_one x

/-- The stretch between two values: up to the lower one everything becomes 0, from the upper one on 255, between them the part of 255 that
corresponds, cut to an integer. -/
theorem stretch_spec (lo hi v : Rat) (h : lo < hi) :
    ∃ u, stretch lo hi v = some u ∧ u ≤ 255 ∧ (v ≤ lo → u = 0) ∧ (hi ≤ v → u = 255) ∧
      (lo ≤ v → v ≤ hi → (u : Rat) ≤ 255 * ((v - lo) / (hi - lo)) ∧ 255 * ((v - lo) / (hi - lo)) < u + 1) := by
  have hd : 0 < hi - lo := by linarith
  have hc : lo ≤ clampTo lo hi v ∧ clampTo lo hi v ≤ hi ∧ (v ≤ lo → clampTo lo hi v = lo) ∧ (hi ≤ v → clampTo lo hi v = hi) ∧
      (lo ≤ v → v ≤ hi → clampTo lo hi v = v) := by
    unfold clampTo
    refine ⟨?_, ?_, ?_, ?_, ?_⟩
    · split_ifs <;> linarith
    · split_ifs <;> linarith
    · intro hv; rw [if_neg (by linarith)]; split_ifs <;> linarith
    · intro hv; split_ifs <;> linarith
    · intro h1 h2; rw [if_neg (by linarith), if_neg (by linarith)]
  obtain ⟨c1, c2, c3, c4, c5⟩ := hc
  have hx : normalizeTo lo hi 0 255 (clampTo lo hi v) = 255 * ((clampTo lo hi v - lo) / (hi - lo)) := by
    unfold normalizeTo
    dsimp only
    rw [if_neg h.ne']
    ring
  have t0 : 0 ≤ (clampTo lo hi v - lo) / (hi - lo) := div_nonneg (by linarith) hd.le
  have t1 : (clampTo lo hi v - lo) / (hi - lo) ≤ 1 := (div_le_one hd).2 (by linarith)
  obtain ⟨u, e1, e2, e3, e4⟩ := castU8_spec (255 * ((clampTo lo hi v - lo) / (hi - lo))) (by linarith) (by linarith)
  refine ⟨u, by unfold stretch; rw [hx]; exact e1, e2, ?_, ?_, ?_⟩
  · intro hv
    rw [c3 hv, sub_self, zero_div, mul_zero] at e3
    have : (u : Rat) ≤ 0 := e3
    have : u ≤ 0 := by exact_mod_cast this
    omega
  · intro hv
    rw [c4 hv, div_self hd.ne', mul_one] at e4
    have : (255 : Rat) < ((u + 1 : Nat) : Rat) := by push_cast; exact e4
    have : 255 < u + 1 := by exact_mod_cast this
    omega
  · intro h1 h2
    rw [c5 h1 h2] at e3 e4
    exact ⟨e3, e4⟩

/-- The stretch keeps the order. -/
theorem stretch_mono (lo hi v w : Rat) (h : lo < hi) (hvw : v ≤ w) (a b : Nat) (ha : stretch lo hi v = some a) (hb : stretch lo hi w = some b) :
    a ≤ b := by
  obtain ⟨a', x1, x2, x3, x4, x5⟩ := stretch_spec lo hi v h
  obtain ⟨b', y1, y2, y3, y4, y5⟩ := stretch_spec lo hi w h
  obtain rfl : a' = a := Option.some.inj (x1.symm.trans ha)
  obtain rfl : b' = b := Option.some.inj (y1.symm.trans hb)
  by_cases h1 : v ≤ lo
  · rw [x3 h1]; omega
  · by_cases h2 : hi ≤ w
    · rw [y4 h2]; exact x2
    · obtain ⟨p1, _⟩ := x5 (by linarith) (by linarith)
      obtain ⟨_, p2⟩ := y5 (by linarith) (by linarith)
      have : (v - lo) / (hi - lo) ≤ (w - lo) / (hi - lo) := (div_le_div_iff_of_pos_right (by linarith)).2 (by linarith)
      have : (a' : Rat) < ((b' + 1 : Nat) : Rat) := by push_cast; linarith
      have : a' < b' + 1 := by exact_mod_cast this
      omega

/-- With equal values everything becomes 0. -/
theorem stretch_equal (lo v : Rat) : stretch lo lo v = some 0 := by
  unfold stretch normalizeTo castU8
  simp

/-- **C154 (minimum to maximum)**: every pixel becomes the part of 255 that corresponds to its place between the least and the greatest value,
cut to an integer; the least becomes 0, the greatest 255 (unless all are equal: then all become 0), and the order is kept. -/
theorem u8_spec (vs : List Rat) (lo hi : Rat) (h1 : lo ∈ vs) (h2 : hi ∈ vs) (h3 : ∀ v ∈ vs, lo ≤ v ∧ v ≤ hi) :
    (lo < hi → u8Convert vs lo = some 0 ∧ u8Convert vs hi = some 255 ∧
      ∀ v ∈ vs, ∃ u, u8Convert vs v = some u ∧ u ≤ 255 ∧ (u : Rat) ≤ 255 * ((v - lo) / (hi - lo)) ∧ 255 * ((v - lo) / (hi - lo)) < u + 1) ∧
    (lo = hi → ∀ v ∈ vs, u8Convert vs v = some 0) ∧
    ∀ v ∈ vs, ∀ w ∈ vs, v ≤ w → ∃ a b, u8Convert vs v = some a ∧ u8Convert vs w = some b ∧ a ≤ b := by
  have hm : minMax vs = some (lo, hi) := by
    rcases minMax_spec vs with ⟨e, _⟩ | ⟨l, k, e, a1, a2, a3⟩
    · rw [e] at h1; simp at h1
    · rw [e, le_antisymm (a3 lo h1).1 (h3 l a1).1, le_antisymm (h3 k a2).2 (a3 hi h2).2]
  have hc : ∀ v, u8Convert vs v = stretch lo (if hi = lo then lo + 1 else hi) v := by
    intro v; unfold u8Convert; rw [hm]
  have hlt : lo < (if hi = lo then lo + 1 else hi) := by
    split_ifs with e
    · linarith
    · exact lt_of_le_of_ne (h3 lo h1).2 (Ne.symm e)
  refine ⟨fun h => ?_, fun h v hv => ?_, fun v hv w hw hvw => ?_⟩
  · have e : (if hi = lo then lo + 1 else hi) = hi := if_neg h.ne'
    simp only [hc, e]
    refine ⟨?_, ?_, fun v hv => ?_⟩
    · obtain ⟨u, x1, _, x3, _⟩ := stretch_spec lo hi lo h
      rw [x1, x3 (le_refl _)]
    · obtain ⟨u, x1, _, _, x4, _⟩ := stretch_spec lo hi hi h
      rw [x1, x4 (le_refl _)]
    · obtain ⟨u, x1, x2, _, _, x5⟩ := stretch_spec lo hi v h
      exact ⟨u, x1, x2, x5 (h3 v hv).1 (h3 v hv).2⟩
  · rw [hc]
    obtain ⟨u, x1, _, x3, _⟩ := stretch_spec lo (if hi = lo then lo + 1 else hi) v hlt
    rw [x1, x3 (by rw [h]; exact (h3 v hv).2)]
  · obtain ⟨a, x1, _⟩ := stretch_spec lo (if hi = lo then lo + 1 else hi) v hlt
    obtain ⟨b, y1, _⟩ := stretch_spec lo (if hi = lo then lo + 1 else hi) w hlt
    rw [hc, hc]
    exact ⟨a, b, x1, y1, stretch_mono _ _ v w hlt hvw a b x1 y1⟩

example : u8Convert [3, 7, 5] 3 = some 0 ∧ u8Convert [3, 7, 5] 7 = some 255 := by
  have := (u8_spec [3, 7, 5] 3 7 (by simp) (by simp) (by intro v hv; simp at hv; rcases hv with rfl | rfl | rfl <;> norm_num)).1 (by norm_num)
  exact ⟨this.1, this.2.1⟩

/-- The first bin up to which at least a part `p` of the values lies. -/
def FirstBin (n : Nat) (b : Nat → Rat) (total p : Rat) (i : Nat) : Prop :=
  i < n ∧ p * total ≤ ∑ k ∈ range (i + 1), b k ∧ ∀ j, j < i → ∑ k ∈ range (j + 1), b k < p * total

/-- **C154 (percentiles)**: the two values are the upper ends, in `n` equal parts of the range, of the parts with the numbers of the two
percentile bins; the lower one is not above the upper one. -/
theorem percentileBounds_spec (n : Nat) (hn : 0 < n) (lowP highP : Rat) (p0 : 0 ≤ lowP) (p1 : lowP ≤ highP) (p2 : highP ≤ 1) (vs : List Rat)
    (lo hi : Rat) (h1 : lo ∈ vs) (h2 : hi ∈ vs) (h3 : ∀ v ∈ vs, lo ≤ v ∧ v ≤ hi) :
    ∃ i j, FirstBin n (counts n lo (upper lo hi) vs) vs.length lowP i ∧ FirstBin n (counts n lo (upper lo hi) vs) vs.length highP j ∧ i ≤ j ∧
      percentileBounds n lowP highP vs = some (lo + ((i : Rat) + 1) / n * (upper lo hi - lo), lo + ((j : Rat) + 1) / n * (upper lo hi - lo)) := by
  have hm : minMax vs = some (lo, hi) := by
    rcases minMax_spec vs with ⟨e, _⟩ | ⟨l, k, e, a1, a2, a3⟩
    · rw [e] at h1; simp at h1
    · rw [e, le_antisymm (a3 lo h1).1 (h3 l a1).1, le_antisymm (h3 k a2).2 (a3 hi h2).2]
  obtain ⟨u1, u2⟩ := upper_gt lo hi (h3 lo h1).2
  have hv : ∀ v ∈ vs, lo ≤ v ∧ v ≤ upper lo hi := fun v hv => ⟨(h3 v hv).1, le_trans (h3 v hv).2 u2⟩
  obtain ⟨H, e1, e2, e3⟩ := histOf_spec n hn lo (upper lo hi) u1 vs hv
  have hlen : 0 < vs.length := List.length_pos_of_mem h1
  have e1' := e1
  unfold histOf at e1
  have hi0 : Stats.Hist.init n lo (upper lo hi) = some { n, total := 0, lo, hi := upper lo hi, centers := fun i => lo + i * ((upper lo hi - lo) / n) + (upper lo hi - lo) / n / 2, bins := fun _ => 0 } := by
    unfold Stats.Hist.init; rw [if_neg (by omega)]
  rw [hi0] at e1
  have eH := Option.some.inj e1
  dsimp only at eH
  have hfr := (Stats.fill_bins { n, total := 0, lo, hi := upper lo hi, centers := fun i => lo + i * ((upper lo hi - lo) / n) + (upper lo hi - lo) / n / 2, bins := fun _ => 0 } hn true vs).2.2
  obtain ⟨i, x1, x2, x3, x4⟩ := Stats.percentile_bin hi0 true vs p0 (le_trans p1 p2) (by rw [eH, e2]; exact hlen)
  obtain ⟨j, y1, y2, y3, y4⟩ := Stats.percentile_bin hi0 true vs (le_trans p0 p1) p2 (by rw [eH, e2]; exact hlen)
  rw [eH] at x1 x3 x4 y1 y3 y4 hfr
  rw [e2] at x3 x4 y3 y4
  have hsum : ∀ m, ((∑ k ∈ range (m + 1), H.bins k : Nat) : Rat) = ∑ k ∈ range (m + 1), counts n lo (upper lo hi) vs k := by
    intro m; push_cast; exact sum_congr rfl fun k _ => e3 k
  have fi : FirstBin n (counts n lo (upper lo hi) vs) vs.length lowP i := ⟨x2, by rw [← hsum]; exact x3, fun t ht => by rw [← hsum]; exact x4 t ht⟩
  have fj : FirstBin n (counts n lo (upper lo hi) vs) vs.length highP j := ⟨y2, by rw [← hsum]; exact y3, fun t ht => by rw [← hsum]; exact y4 t ht⟩
  refine ⟨i, j, fi, fj, ?_, ?_⟩
  · by_contra hc
    have a := fi.2.2 j (by omega)
    have b := fj.2.1
    have : lowP * vs.length ≤ highP * vs.length := mul_le_mul_of_nonneg_right p1 (Nat.cast_nonneg _)
    linarith
  · unfold percentileBounds
    rw [hm]
    dsimp only
    rw [show (if hi = lo then lo + 1 else hi) = upper lo hi from rfl, e1']
    simp only [Option.bind_eq_bind, Option.bind_some, Option.pure_def, x1, y1, hfr.1, hfr.2.1, hfr.2.2.1]
    congr 1
    refine Prod.ext ?_ ?_ <;> dsimp only <;> ring

/-- **C154 (percentile conversion)**: with two different bins, everything up to the lower value becomes 0, everything from the upper value on
255, and the order is kept; with one bin for both percentiles the whole image becomes 0. -/
theorem percentileConvert_spec (n : Nat) (lowP highP lv hv : Rat) (vs : List Rat) (hb : percentileBounds n lowP highP vs = some (lv, hv)) :
    (lv < hv → (∀ v, v ≤ lv → percentileConvert n lowP highP vs v = some 0) ∧ (∀ v, hv ≤ v → percentileConvert n lowP highP vs v = some 255) ∧
      (∀ v w, v ≤ w → ∃ a b, percentileConvert n lowP highP vs v = some a ∧ percentileConvert n lowP highP vs w = some b ∧ a ≤ b ∧ b ≤ 255) ∧
      ∀ v, lv ≤ v → v ≤ hv → ∃ u : Nat, percentileConvert n lowP highP vs v = some u ∧ (u : Rat) ≤ 255 * ((v - lv) / (hv - lv)) ∧
        255 * ((v - lv) / (hv - lv)) < u + 1) ∧
    (lv = hv → ∀ v, percentileConvert n lowP highP vs v = some 0) := by
  have hc : ∀ v, percentileConvert n lowP highP vs v = stretch lv hv v := by
    intro v; unfold percentileConvert; rw [hb]; rfl
  simp only [hc]
  refine ⟨fun h => ⟨fun v hv' => ?_, fun v hv' => ?_, fun v w hvw => ?_, fun v h1 h2 => ?_⟩, fun h v => by rw [h]; exact stretch_equal _ _⟩
  · obtain ⟨u, x1, _, x3, _⟩ := stretch_spec lv hv v h
    rw [x1, x3 hv']
  · obtain ⟨u, x1, _, _, x4, _⟩ := stretch_spec lv hv v h
    rw [x1, x4 hv']
  · obtain ⟨a, x1, _⟩ := stretch_spec lv hv v h
    obtain ⟨b, y1, y2, _⟩ := stretch_spec lv hv w h
    exact ⟨a, b, x1, y1, stretch_mono _ _ v w h hvw a b x1 y1, y2⟩
  · obtain ⟨u, x1, _, _, _, x5⟩ := stretch_spec lv hv v h
    exact ⟨u, x1, x5 h1 h2⟩

/-- **C154 (mostly one value)**: if at least 98 percent of the pixels have the least value, the image becomes black: even its greatest value
becomes 0. -/
theorem mostly_one_value (n : Nat) (hn : 0 < n) (vs : List Rat) (lo hi : Rat) (h1 : lo ∈ vs) (h2 : hi ∈ vs) (h3 : ∀ v ∈ vs, lo ≤ v ∧ v ≤ hi)
    (hm : (98 / 100 : Rat) * vs.length ≤ (vs.countP fun v => v = lo : Nat)) (v : Rat) :
    percentileConvert n (2 / 100) (98 / 100) vs v = some 0 := by
  obtain ⟨i, j, ⟨x1, x2, x3⟩, ⟨y1, y2, y3⟩, hij, e⟩ := percentileBounds_spec n hn (2 / 100) (98 / 100) (by norm_num) (by norm_num) (by norm_num) vs lo hi h1 h2 h3
  have c0 : ((vs.countP fun v => v = lo : Nat) : Rat) ≤ counts n lo (upper lo hi) vs 0 := by
    unfold counts
    have : (vs.countP fun v => v = lo) ≤ vs.countP fun v => nearest n lo (upper lo hi) v = (0 : Nat) := by
      apply List.countP_mono_left
      intro w _ hw
      have : w = lo := by simpa using hw
      rw [this, nearest_lo]; rfl
    exact_mod_cast this
  have hj : j = 0 := by
    by_contra hne
    have := y3 0 (by omega)
    rw [zero_add, sum_range_one] at this
    linarith
  have hi0 : i = 0 := by omega
  rw [hi0, hj] at e
  exact (percentileConvert_spec n _ _ _ _ vs e).2 rfl v

/-- 49 dark pixels and a bright one, which disappears. -/
example : percentileConvert 256 (2 / 100) (98 / 100) (List.replicate 49 0 ++ [1]) 1 = some 0 :=
  mostly_one_value 256 (by omega) _ 0 1 (by decide +kernel) (by decide +kernel) (by decide +kernel) (by decide +kernel) 1

end VW.Otsu
