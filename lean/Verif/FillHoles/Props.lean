import Verif.FillHoles.Model

/-! Filling of holes (C133). -/

namespace VW.FillHoles

/-! ### Specification -/

/-- There is a valid pixel on the line before and after the place, both at most `half` away and on the line. -/
def Between (line : ℤ → Option ℚ) (half : ℕ) (len p : ℤ) : Prop :=
  (∃ k, p - half ≤ k ∧ k < p ∧ 0 ≤ k ∧ (line k).isSome) ∧ (∃ k, p < k ∧ k ≤ p + half ∧ k < len ∧ (line k).isSome)

/-- The pixel is surrounded by valid pixels in its row or in its column. -/
def Surrounded (img : Img) (half : ℕ) (x y : ℤ) : Prop :=
  Between (fun k => img.px k y) half img.w x ∨ Between (fun k => img.px x k) half img.h y

/-- The box is in the image. -/
def Inside (img : Img) (b : Box) : Prop := 0 ≤ b.x0 ∧ 0 ≤ b.y0 ∧ b.x1 ≤ img.w ∧ b.y1 ≤ img.h

/-- The pixel is in the box. -/
def In (b : Box) (x y : ℤ) : Prop := b.x0 ≤ x ∧ x < b.x1 ∧ b.y0 ≤ y ∧ y < b.y1

/-- The box of the whole image. -/
def whole (img : Img) : Box := ⟨0, 0, img.w, img.h⟩

/-! ### The search -/

theorem scan_some {line : ℤ → Option ℚ} {start step : ℤ} {n : ℕ} {k : ℤ} (h : scan line start step n = some k) :
    (line k).isSome ∧ ∃ i : ℕ, i < n ∧ k = start + step * i ∧ ∀ j : ℕ, j < i → line (start + step * j) = none := by
  unfold scan at h
  rw [List.find?_map, Option.map_eq_some_iff] at h
  obtain ⟨i, hi, rfl⟩ := h
  rw [List.find?_range_eq_some] at hi
  obtain ⟨h1, h2, h3⟩ := hi
  refine ⟨h1, i, by simpa using h2, rfl, fun j hj => ?_⟩
  have := h3 j hj
  simpa using this

theorem scan_none {line : ℤ → Option ℚ} {start step : ℤ} {n : ℕ} :
    scan line start step n = none ↔ ∀ i : ℕ, i < n → line (start + step * i) = none := by
  unfold scan
  rw [List.find?_map, Option.map_eq_none_iff, List.find?_range_eq_none]
  simp

/-- What `around` finds: the nearest valid places on both sides. -/
theorem around_some {line : ℤ → Option ℚ} {half : ℕ} {len p k0 k1 : ℤ} (h : around line half len p = some (k0, k1)) :
    (p - half ≤ k0 ∧ 0 ≤ k0 ∧ k0 < p ∧ (line k0).isSome ∧ ∀ j, k0 < j → j < p → line j = none) ∧
    (p < k1 ∧ k1 ≤ p + half ∧ k1 < len ∧ (line k1).isSome ∧ ∀ j, p < j → j < k1 → line j = none) := by
  unfold around at h
  cases h0 : scan line (p - 1) (-1) (p - max (p - half) 0).toNat with
  | none => rw [h0] at h; cases h
  | some a =>
    rw [h0] at h
    simp only [Option.map_eq_some_iff, Prod.mk.injEq] at h
    obtain ⟨b, h1, rfl, rfl⟩ := h
    obtain ⟨v0, i, hi, rfl, hn0⟩ := scan_some h0
    obtain ⟨v1, i1, hi1, rfl, hn1⟩ := scan_some h1
    refine ⟨⟨by omega, by omega, by omega, v0, fun j hj hj' => ?_⟩, ⟨by omega, by omega, by omega, v1, fun j hj hj' => ?_⟩⟩
    · have := hn0 (p - 1 - j).toNat (by omega)
      rw [show p - 1 + -1 * (((p - 1 - j).toNat : ℕ) : ℤ) = j by omega] at this
      exact this
    · have := hn1 (j - (p + 1)).toNat (by omega)
      rw [show p + 1 + 1 * (((j - (p + 1)).toNat : ℕ) : ℤ) = j by omega] at this
      exact this

theorem around_isSome {line : ℤ → Option ℚ} {half : ℕ} {len p : ℤ} (h0 : 0 ≤ p) (hl : p < len) :
    (around line half len p).isSome ↔ Between line half len p := by
  constructor
  · intro h
    rw [Option.isSome_iff_exists] at h
    obtain ⟨⟨k0, k1⟩, h⟩ := h
    obtain ⟨⟨a1, a2, a3, a4, -⟩, b1, b2, b3, b4, -⟩ := around_some h
    exact ⟨⟨k0, a1, a3, a2, a4⟩, k1, b1, b2, b3, b4⟩
  · rintro ⟨⟨k0, a1, a2, a3, a4⟩, k1, b1, b2, b3, b4⟩
    unfold around
    cases h0 : scan line (p - 1) (-1) (p - max (p - half) 0).toNat with
    | none =>
      exfalso
      have := (scan_none.1 h0) (p - 1 - k0).toNat (by omega)
      rw [show p - 1 + -1 * (((p - 1 - k0).toNat : ℕ) : ℤ) = k0 by omega] at this
      rw [this] at a4; cases a4
    | some a =>
      cases h1 : scan line (p + 1) 1 (min (p + half) (len - 1) - p).toNat with
      | none =>
        exfalso
        have := (scan_none.1 h1) (k1 - (p + 1)).toNat (by omega)
        rw [show p + 1 + 1 * (((k1 - (p + 1)).toNat : ℕ) : ℤ) = k1 by omega] at this
        rw [this] at b4; cases b4
      | some b => simp

/-! ### Crops -/

theorem scan_shift (line : ℤ → Option ℚ) (start step d : ℤ) (n : ℕ) :
    scan (fun k => line (k + d)) (start - d) step n = (scan line start step n).map (· - d) := by
  unfold scan
  rw [List.find?_map, List.find?_map]
  simp only [Function.comp_def, Option.map_map]
  have e : ∀ i : ℕ, start - d + step * i + d = start + step * i := fun i => by ring
  simp only [e]
  congr 1
  funext i
  ring

theorem around_shift (line : ℤ → Option ℚ) (half : ℕ) (len p d len' : ℤ)
    (h1 : (p - d - max (p - d - half) 0).toNat = (p - max (p - half) 0).toNat)
    (h2 : (min (p - d + half) (len' - 1) - (p - d)).toNat = (min (p + half) (len - 1) - p).toNat) :
    around (fun k => line (k + d)) half len' (p - d) = (around line half len p).map (fun k => (k.1 - d, k.2 - d)) := by
  unfold around
  rw [h1, h2, show p - d - 1 = p - 1 - d by ring, show p - d + 1 = p + 1 - d by ring, scan_shift, scan_shift]
  cases scan line (p - 1) (-1) (p - max (p - half) 0).toNat with
  | none => rfl
  | some a =>
    simp only [Option.map_some]
    cases scan line (p + 1) 1 (min (p + half) (len - 1) - p).toNat <;> rfl

theorem lerp_shift (line : ℤ → Option ℚ) (p d : ℤ) (k : ℤ × ℤ) :
    lerp (fun j => line (j + d)) (p - d) (k.1 - d, k.2 - d) = lerp line p k := by
  unfold lerp
  simp only [sub_add_cancel]
  push_cast
  congr 1
  · ring
  · ring

theorem span_shift (lo hi d : ℤ) : span (lo - d) (hi - d) = (span lo hi).map (· - d) := by
  unfold span
  rw [List.map_map, show hi - d - (lo - d) + 1 = hi - lo + 1 by ring]
  congr 1
  funext i
  simp only [Function.comp]
  ring

theorem terms_shift (img : ℤ → ℤ → Option ℚ) (kernel : ℤ → ℤ → ℚ) (half : ℕ) (nc nr nc' nr' col row dx dy : ℤ)
    (h1 : max (col - dx - half) 0 = max (col - half) 0 - dx) (h2 : min (col - dx + half) (nc' - 1) = min (col + half) (nc - 1) - dx)
    (h3 : max (row - dy - half) 0 = max (row - half) 0 - dy) (h4 : min (row - dy + half) (nr' - 1) = min (row + half) (nr - 1) - dy) :
    terms (fun c r => img (c + dx) (r + dy)) kernel half nc' nr' (col - dx) (row - dy) = terms img kernel half nc nr col row := by
  unfold terms
  rw [h1, h2, h3, h4, span_shift, span_shift, List.flatMap_map]
  congr 1
  funext c
  rw [List.filterMap_map]
  congr 1
  funext r
  simp only [Function.comp, sub_add_cancel]
  rw [show c - dx - (col - dx) = c - col by ring, show r - dy - (row - dy) = r - row by ring]

/-- Without smoothing, a pixel of the box is what it is when the whole image is filled at once. -/
theorem filled_crop (cfg : Cfg) (img : Img) (b : Box) (hb : Inside img b) (x y : ℤ) (hin : In b x y) :
    filled cfg (fun c r => img.px (c + (biased img cfg.half b).x0) (r + (biased img cfg.half b).y0))
      ((biased img cfg.half b).x1 - (biased img cfg.half b).x0) ((biased img cfg.half b).y1 - (biased img cfg.half b).y0)
      (x - (biased img cfg.half b).x0) (y - (biased img cfg.half b).y0) = filled cfg img.px img.w img.h x y := by
  obtain ⟨i1, i2, i3, i4⟩ := hb
  obtain ⟨j1, j2, j3, j4⟩ := hin
  generalize hB : biased img cfg.half b = B
  have e0 : B.x0 = max (b.x0 - (cfg.half + 1)) 0 := by rw [← hB]; rfl
  have e1 : B.y0 = max (b.y0 - (cfg.half + 1)) 0 := by rw [← hB]; rfl
  have e2 : B.x1 = min (b.x1 + (cfg.half + 1)) img.w := by rw [← hB]; rfl
  have e3 : B.y1 = min (b.y1 + (cfg.half + 1)) img.h := by rw [← hB]; rfl
  unfold filled
  simp only [sub_add_cancel]
  cases img.px x y with
  | some v => rfl
  | none =>
    simp only []
    unfold fillAt
    simp only [sub_add_cancel]
    rw [around_shift (fun k => img.px x k) cfg.half img.h y B.y0 (B.y1 - B.y0) (by omega) (by omega),
      around_shift (fun k => img.px k y) cfg.half img.w x B.x0 (B.x1 - B.x0) (by omega) (by omega),
      terms_shift img.px cfg.dist cfg.half img.w img.h (B.x1 - B.x0) (B.y1 - B.y0) x y B.x0 B.y0 (by omega) (by omega) (by omega) (by omega)]
    rcases around (fun k => img.px x k) cfg.half img.h y with _ | k <;> rcases around (fun k => img.px k y) cfg.half img.w x with _ | k' <;>
      simp only [Option.map_none, Option.map_some, lerp_shift (fun j => img.px x j), lerp_shift (fun j => img.px j y)]

/-- **C133 (tiles).** Without smoothing passes the result does not depend on the tiles: each pixel is what it is when the whole image is
filled at once. -/
theorem raster_transparent (cfg : Cfg) (img : Img) (b : Box) (hb : Inside img b) (x y : ℤ) (hin : In b x y) (hi : cfg.iters = 0) :
    raster cfg img b x y = filled cfg img.px img.w img.h x y ∧ raster cfg img (whole img) x y = raster cfg img b x y := by
  have key : ∀ b, Inside img b → In b x y → raster cfg img b x y = filled cfg img.px img.w img.h x y := by
    intro b hb hin
    unfold raster
    simp only []
    rw [hi]
    exact filled_crop cfg img b hb x y hin
  refine ⟨key b hb hin, ?_⟩
  obtain ⟨i1, i2, i3, i4⟩ := hb
  obtain ⟨j1, j2, j3, j4⟩ := hin
  rw [key b ⟨i1, i2, i3, i4⟩ ⟨j1, j2, j3, j4⟩, key (whole img) ⟨le_refl _, le_refl _, le_refl _, le_refl _⟩ ⟨by simp [whole]; omega, by simp [whole]; omega, by simp [whole]; omega, by simp [whole]; omega⟩]

/-! ### What is filled, and with what -/

theorem wsum_pos (l : List (ℚ × ℚ)) (h : ∀ t ∈ l, 0 < t.1) (hne : l ≠ []) : 0 < (wsum l).1 := by
  unfold wsum
  apply List.sum_pos
  · intro x hx
    rw [List.mem_map] at hx
    obtain ⟨t, ht, rfl⟩ := hx
    exact h t ht
  · simpa using hne

theorem wsum_bounds (l : List (ℚ × ℚ)) (lo hi : ℚ) (h : ∀ t ∈ l, 0 < t.1 ∧ lo ≤ t.2 ∧ t.2 ≤ hi) :
    lo * (wsum l).1 ≤ (wsum l).2 ∧ (wsum l).2 ≤ hi * (wsum l).1 := by
  unfold wsum
  induction l with
  | nil => simp
  | cons t l ih =>
    obtain ⟨h1, h2⟩ := ih (fun u hu => h u (by simp [hu]))
    obtain ⟨p, q, r⟩ := h t (by simp)
    simp only [List.map_cons, List.sum_cons] at h1 h2 ⊢
    have a := mul_le_mul_of_nonneg_left q p.le
    have b := mul_le_mul_of_nonneg_left r p.le
    constructor <;> linarith

theorem mem_span {lo hi k : ℤ} : k ∈ span lo hi ↔ lo ≤ k ∧ k ≤ hi := by
  unfold span
  rw [List.mem_map]
  constructor
  · rintro ⟨i, hi', rfl⟩
    rw [List.mem_range] at hi'
    omega
  · rintro ⟨h1, h2⟩
    exact ⟨(k - lo).toNat, List.mem_range.2 (by omega), by omega⟩

theorem mem_terms {img : ℤ → ℤ → Option ℚ} {kernel : ℤ → ℤ → ℚ} {half : ℕ} {nc nr col row : ℤ} {t : ℚ × ℚ} :
    t ∈ terms img kernel half nc nr col row ↔ ∃ c r v, (max (col - half) 0 ≤ c ∧ c ≤ min (col + half) (nc - 1)) ∧
      (max (row - half) 0 ≤ r ∧ r ≤ min (row + half) (nr - 1)) ∧ img c r = some v ∧ t = (kernel (c - col) (r - row), v) := by
  unfold terms
  simp only [List.mem_flatMap, List.mem_filterMap, mem_span, Option.map_eq_some_iff]
  constructor
  · rintro ⟨c, hc, r, hr, v, hv, rfl⟩
    exact ⟨c, r, v, hc, hr, hv, rfl⟩
  · rintro ⟨c, r, v, hc, hr, hv, rfl⟩
    exact ⟨c, hc, r, hr, v, hv, rfl⟩

theorem lerp_bounds {line : ℤ → Option ℚ} {p : ℤ} {k : ℤ × ℤ} {lo hi : ℚ} (h1 : k.1 < p) (h2 : p < k.2)
    (hb : ∀ j v, line j = some v → lo ≤ v ∧ v ≤ hi) (v1 : (line k.1).isSome) (v2 : (line k.2).isSome) :
    lo ≤ lerp line p k ∧ lerp line p k ≤ hi := by
  obtain ⟨a, ha⟩ := Option.isSome_iff_exists.1 v1
  obtain ⟨b, hb'⟩ := Option.isSome_iff_exists.1 v2
  unfold lerp
  rw [ha, hb']
  simp only [Option.getD_some]
  have A := hb _ _ ha
  have B := hb _ _ hb'
  have q1 : (k.1 : ℚ) < p := by exact_mod_cast h1
  have q2 : (p : ℚ) < k.2 := by exact_mod_cast h2
  have hd : (0 : ℚ) < k.2 - k.1 := by linarith
  rw [le_div_iff₀ hd, div_le_iff₀ hd]
  constructor
  · have x := mul_le_mul_of_nonneg_left A.1 (by linarith : (0 : ℚ) ≤ k.2 - p)
    have y := mul_le_mul_of_nonneg_left B.1 (by linarith : (0 : ℚ) ≤ p - k.1)
    nlinarith
  · have x := mul_le_mul_of_nonneg_left A.2 (by linarith : (0 : ℚ) ≤ k.2 - p)
    have y := mul_le_mul_of_nonneg_left B.2 (by linarith : (0 : ℚ) ≤ p - k.1)
    nlinarith

/-- **C133 (what is filled).** A valid pixel is unchanged. A pixel that is not valid is filled exactly if there are valid pixels on both
sides in its row, or on both sides in its column, at most half the length of a hole away. -/
theorem filled_iff (cfg : Cfg) (img : Img) (x y : ℤ) (hx : 0 ≤ x ∧ x < img.w) (hy : 0 ≤ y ∧ y < img.h) (hk : ∀ c r, 0 < cfg.dist c r) :
    (∀ v, img.px x y = some v → filled cfg img.px img.w img.h x y = some v) ∧
      (img.px x y = none → ((filled cfg img.px img.w img.h x y).isSome ↔ Surrounded img cfg.half x y)) := by
  refine ⟨fun v hv => by unfold filled; rw [hv], fun hn => ?_⟩
  have hu := around_isSome (line := fun k => img.px k y) (half := cfg.half) hx.1 hx.2
  have hv := around_isSome (line := fun k => img.px x k) (half := cfg.half) hy.1 hy.2
  unfold filled Surrounded
  rw [hn, ← hu, ← hv]
  simp only []
  unfold fillAt
  rcases ev : around (fun k => img.px x k) cfg.half img.h y with _ | k
  · rcases eu : around (fun k => img.px k y) cfg.half img.w x with _ | k'
    · simp
    · have hne : terms img.px cfg.dist cfg.half img.w img.h x y ≠ [] := by
          obtain ⟨⟨a1, a2, a3, a4, -⟩, -⟩ := around_some (k0 := k'.1) (k1 := k'.2) eu
          obtain ⟨v, hv⟩ := Option.isSome_iff_exists.1 a4
          exact List.ne_nil_of_mem (mem_terms.2 ⟨k'.1, y, v, by omega, by omega, hv, rfl⟩)
      have hpos := wsum_pos _ (fun t ht => by obtain ⟨c, r, v, -, -, -, rfl⟩ := mem_terms.1 ht; exact hk _ _) hne
      by_cases hm : cfg.mode = 1
      · simp [hm]
      · simp [hm, hpos]
  · have hne : terms img.px cfg.dist cfg.half img.w img.h x y ≠ [] := by
      obtain ⟨⟨a1, a2, a3, a4, -⟩, -⟩ := around_some (k0 := k.1) (k1 := k.2) ev
      obtain ⟨v, hv⟩ := Option.isSome_iff_exists.1 a4
      exact List.ne_nil_of_mem (mem_terms.2 ⟨x, k.1, v, by omega, by omega, hv, rfl⟩)
    have hpos := wsum_pos _ (fun t ht => by obtain ⟨c, r, v, -, -, -, rfl⟩ := mem_terms.1 ht; exact hk _ _) hne
    by_cases hm : cfg.mode = 1
    · rcases around (fun k => img.px k y) cfg.half img.w x with _ | k' <;> simp [hm]
    · simp [hm, hpos]

/-- **C133 (range of the values).** In both modes the values filled in are between the least and the greatest valid value. -/
theorem filled_bounds (cfg : Cfg) (img : ℤ → ℤ → Option ℚ) (nc nr x y : ℤ) (lo hi : ℚ) (hk : ∀ c r, 0 < cfg.dist c r)
    (hb : ∀ c r v, img c r = some v → lo ≤ v ∧ v ≤ hi) (v : ℚ) (h : filled cfg img nc nr x y = some v) : lo ≤ v ∧ v ≤ hi := by
  unfold filled at h
  cases hp : img x y with
  | some u => rw [hp] at h; cases h; exact hb _ _ _ hp
  | none =>
    rw [hp] at h
    simp only [] at h
    unfold fillAt at h
    have L1 : ∀ k, around (fun k => img x k) cfg.half nr y = some k → lo ≤ lerp (fun j => img x j) y k ∧ lerp (fun j => img x j) y k ≤ hi := by
      intro k hk'
      obtain ⟨⟨-, -, a3, a4, -⟩, b1, -, -, b4, -⟩ := around_some (k0 := k.1) (k1 := k.2) hk'
      exact lerp_bounds a3 b1 (fun j v hj => hb _ _ _ hj) a4 b4
    have L2 : ∀ k, around (fun k => img k y) cfg.half nc x = some k → lo ≤ lerp (fun j => img j y) x k ∧ lerp (fun j => img j y) x k ≤ hi := by
      intro k hk'
      obtain ⟨⟨-, -, a3, a4, -⟩, b1, -, -, b4, -⟩ := around_some (k0 := k.1) (k1 := k.2) hk'
      exact lerp_bounds a3 b1 (fun j v hj => hb _ _ _ hj) a4 b4
    have W : ∀ v, (if (wsum (terms img cfg.dist cfg.half nc nr x y)).1 > 0 then
        some ((wsum (terms img cfg.dist cfg.half nc nr x y)).2 / (wsum (terms img cfg.dist cfg.half nc nr x y)).1) else none) = some v →
        lo ≤ v ∧ v ≤ hi := by
      intro v hv
      by_cases hs : (wsum (terms img cfg.dist cfg.half nc nr x y)).1 > 0
      · rw [if_pos hs] at hv
        cases hv
        have := wsum_bounds (terms img cfg.dist cfg.half nc nr x y) lo hi (fun t ht => by
          obtain ⟨c, r, v, -, -, hv, rfl⟩ := mem_terms.1 ht
          exact ⟨hk _ _, hb _ _ _ hv⟩)
        rw [le_div_iff₀ hs, div_le_iff₀ hs]
        exact this
      · rw [if_neg hs] at hv; cases hv
    rcases ev : around (fun k => img x k) cfg.half nr y with _ | k
    · rcases eu : around (fun k => img k y) cfg.half nc x with _ | k'
      · rw [ev, eu] at h; cases h
      · rw [ev, eu] at h
        simp only [] at h
        by_cases hm : cfg.mode = 1
        · rw [if_pos hm] at h
          simp only [Option.map_none, Option.toList_none, Option.map_some, Option.toList_some, List.nil_append, List.length_singleton,
            List.sum_cons, List.sum_nil, add_zero, Nat.cast_one, div_one, gt_iff_lt, zero_lt_one, if_true, Option.some.injEq] at h
          rw [← h]; exact L2 k' eu
        · rw [if_neg hm] at h; exact W v h
    · rcases eu : around (fun k => img k y) cfg.half nc x with _ | k'
      · rw [ev, eu] at h
        simp only [] at h
        by_cases hm : cfg.mode = 1
        · rw [if_pos hm] at h
          simp only [Option.map_none, Option.toList_none, Option.map_some, Option.toList_some, List.append_nil, List.length_singleton,
            List.sum_cons, List.sum_nil, add_zero, Nat.cast_one, div_one, gt_iff_lt, zero_lt_one, if_true, Option.some.injEq] at h
          rw [← h]; exact L1 k ev
        · rw [if_neg hm] at h; exact W v h
      · rw [ev, eu] at h
        simp only [] at h
        by_cases hm : cfg.mode = 1
        · rw [if_pos hm] at h
          simp at h
          have a := L1 k ev
          have b := L2 k' eu
          rw [← h]
          constructor
          · rw [le_div_iff₀ (by norm_num)]; linarith
          · rw [div_le_iff₀ (by norm_num)]; linarith
        · rw [if_neg hm] at h; exact W v h

/-- **C133 (mode 1 is exact on planes).** If the valid pixels are the values of a plane, so are the pixels filled in. -/
theorem filled_plane (cfg : Cfg) (img : ℤ → ℤ → Option ℚ) (nc nr x y : ℤ) (hm : cfg.mode = 1) (a b c : ℚ)
    (hp : ∀ i j v, img i j = some v → v = a * i + b * j + c) (v : ℚ) (h : filled cfg img nc nr x y = some v) : v = a * x + b * y + c := by
  have L : ∀ (line : ℤ → Option ℚ) (p : ℤ) (k : ℤ × ℤ) (s t : ℚ), k.1 < p → p < k.2 → (∀ j v, line j = some v → v = s * j + t) →
      (line k.1).isSome → (line k.2).isSome → lerp line p k = s * p + t := by
    intro line p k s t h1 h2 hl v1 v2
    obtain ⟨u, hu⟩ := Option.isSome_iff_exists.1 v1
    obtain ⟨w, hw⟩ := Option.isSome_iff_exists.1 v2
    unfold lerp
    rw [hu, hw]
    simp only [Option.getD_some]
    rw [hl _ _ hu, hl _ _ hw]
    have : ((k.2 : ℚ) - k.1) ≠ 0 := by
      have : (k.1 : ℚ) < k.2 := by exact_mod_cast h1.trans h2
      linarith
    field_simp
    ring
  unfold filled at h
  cases hpx : img x y with
  | some u => rw [hpx] at h; cases h; exact hp _ _ _ hpx
  | none =>
    rw [hpx] at h
    simp only [] at h
    unfold fillAt at h
    have L1 : ∀ k, around (fun k => img x k) cfg.half nr y = some k → lerp (fun j => img x j) y k = a * x + b * y + c := by
      intro k hk'
      obtain ⟨⟨-, -, a3, a4, -⟩, b1, -, -, b4, -⟩ := around_some (k0 := k.1) (k1 := k.2) hk'
      rw [L _ _ _ b (a * x + c) a3 b1 (fun j v hj => by rw [hp _ _ _ hj]; ring) a4 b4]; ring
    have L2 : ∀ k, around (fun k => img k y) cfg.half nc x = some k → lerp (fun j => img j y) x k = a * x + b * y + c := by
      intro k hk'
      obtain ⟨⟨-, -, a3, a4, -⟩, b1, -, -, b4, -⟩ := around_some (k0 := k.1) (k1 := k.2) hk'
      rw [L _ _ _ a (b * y + c) a3 b1 (fun j v hj => by rw [hp _ _ _ hj]; ring) a4 b4]; ring
    rcases ev : around (fun k => img x k) cfg.half nr y with _ | k <;> rcases eu : around (fun k => img k y) cfg.half nc x with _ | k' <;>
      rw [ev, eu] at h
    · cases h
    · simp [hm] at h
      rw [← h]; exact L2 k' eu
    · simp [hm] at h
      rw [← h]; exact L1 k ev
    · simp [hm] at h
      rw [← h, L1 k ev, L2 k' eu]; ring

/-! ### Smoothing -/

/-- **C133 (smoothing).** Smoothing changes no valid pixel, makes no pixel valid or invalid, and keeps the values in range. -/
theorem smoothed_spec (cfg : Cfg) (img : ℤ → ℤ → Option ℚ) (nc nr : ℤ) (hk : ∀ c r, 0 < cfg.dist c r) (hg : ∀ c r, 0 < cfg.gauss c r)
    (n : ℕ) (x y : ℤ) :
    (∀ v, img x y = some v → smoothed cfg img nc nr n x y = some v) ∧
      ((smoothed cfg img nc nr n x y).isSome ↔ (filled cfg img nc nr x y).isSome) ∧
      (∀ lo hi, (∀ c r v, img c r = some v → lo ≤ v ∧ v ≤ hi) → ∀ v, smoothed cfg img nc nr n x y = some v → lo ≤ v ∧ v ≤ hi) := by
  induction n generalizing x y with
  | zero =>
    refine ⟨fun v hv => by show filled _ _ _ _ _ _ = _; unfold filled; rw [hv], Iff.rfl, ?_⟩
    intro lo hi hb v hv
    exact filled_bounds cfg img nc nr x y lo hi hk hb v hv
  | succ n ih =>
    show (∀ v, img x y = some v → smooth cfg img (smoothed cfg img nc nr n) nc nr x y = some v) ∧
      ((smooth cfg img (smoothed cfg img nc nr n) nc nr x y).isSome ↔ _) ∧
      (∀ lo hi, _ → ∀ v, smooth cfg img (smoothed cfg img nc nr n) nc nr x y = some v → lo ≤ v ∧ v ≤ hi)
    obtain ⟨i1, i2, i3⟩ := ih x y
    unfold smooth
    cases hp : img x y with
    | some u =>
      simp only []
      refine ⟨fun v hv => by cases hv; exact i1 u hp, i2, i3⟩
    | none =>
      cases hc : smoothed cfg img nc nr n x y with
      | none =>
        rw [hc] at i2
        refine ⟨fun v hv => (by cases hv), i2, fun lo hi _ v hv => (by cases hv)⟩
      | some u =>
        rw [hc] at i2
        simp only []
        refine ⟨fun v hv => (by cases hv), ?_, ?_⟩
        · rw [← i2]
          split <;> simp
        · intro lo hi hb v hv
          by_cases hs : (wsum (terms (smoothed cfg img nc nr n) cfg.gauss cfg.smoothHalf nc nr x y)).1 > 0
          · rw [if_pos hs] at hv
            cases hv
            have := wsum_bounds (terms (smoothed cfg img nc nr n) cfg.gauss cfg.smoothHalf nc nr x y) lo hi (fun t ht => by
              obtain ⟨c, r, w, -, -, hw, rfl⟩ := mem_terms.1 ht
              exact ⟨hg _ _, (ih c r).2.2 lo hi hb w hw⟩)
            rw [le_div_iff₀ hs, div_le_iff₀ hs]
            exact this
          · rw [if_neg hs] at hv
            exact i3 lo hi hb v (by rw [hc]; exact hv)

/-- **C133 (with smoothing, tile by tile).** For any tile: valid pixels of the image are unchanged, a pixel of the tile is filled exactly if
it is surrounded, and the values are in range. -/
theorem raster_spec (cfg : Cfg) (img : Img) (b : Box) (hb : Inside img b) (x y : ℤ) (hin : In b x y) (hk : ∀ c r, 0 < cfg.dist c r)
    (hg : ∀ c r, 0 < cfg.gauss c r) :
    (∀ v, img.px x y = some v → raster cfg img b x y = some v) ∧
      (img.px x y = none → ((raster cfg img b x y).isSome ↔ Surrounded img cfg.half x y)) ∧
      (∀ lo hi, (∀ c r v, img.px c r = some v → lo ≤ v ∧ v ≤ hi) → ∀ v, raster cfg img b x y = some v → lo ≤ v ∧ v ≤ hi) := by
  obtain ⟨s1, s2, s3⟩ := smoothed_spec cfg (fun c r => img.px (c + (biased img cfg.half b).x0) (r + (biased img cfg.half b).y0))
    ((biased img cfg.half b).x1 - (biased img cfg.half b).x0) ((biased img cfg.half b).y1 - (biased img cfg.half b).y0) hk hg cfg.iters
    (x - (biased img cfg.half b).x0) (y - (biased img cfg.half b).y0)
  rw [filled_crop cfg img b hb x y hin] at s2
  simp only [sub_add_cancel] at s1
  refine ⟨s1, fun hn => ?_, fun lo hi h => s3 lo hi (fun c r v hv => h _ _ _ hv)⟩
  rw [← (filled_iff cfg img x y ⟨by have := hb.1; have := hin.1; omega, by have := hb.2.2.1; have := hin.2.1; omega⟩
    ⟨by have := hb.2.1; have := hin.2.2.1; omega, by have := hb.2.2.2; have := hin.2.2.2; omega⟩ hk).2 hn]
  exact s2

/-! ### Cases -/

/-- One row of pixels, valid at both ends of a hole of three. -/
def exImg : Img := ⟨9, 1, fun c r => if r = 0 ∧ (c = 0 ∨ c = 1 ∨ c = 2) then some 0 else if r = 0 ∧ (c = 6 ∨ c = 7 ∨ c = 8) then some 8 else none⟩

/-- Any positive weights; here equal ones. -/
def exCfg (mode iters len : ℕ) : Cfg := Cfg.create mode iters len (fun _ _ => 1)

example : (List.range 9).map (fun i : ℕ => raster (exCfg 1 0 7) exImg (whole exImg) i 0) =
    [some 0, some 0, some 0, some 2, some 4, some 6, some 8, some 8, some 8] := by decide +kernel

example : Surrounded exImg 4 4 0 ∧ exImg.px 4 0 = none ∧ ¬ Surrounded exImg 1 4 0 := by
  refine ⟨Or.inl ⟨⟨2, by decide, by decide, by decide, by decide⟩, 6, by decide, by decide, by decide, by decide⟩, by decide, ?_⟩
  rintro (⟨⟨k, h1, h2, h3, h4⟩, -⟩ | ⟨⟨k, h1, h2, h3, h4⟩, -⟩)
  · have : k = 3 := by omega
    subst this
    revert h4; decide
  · omega

example : ∀ c r, 0 < (exCfg 2 1 7).dist c r := by
  intro c r
  show 0 < 1 / max ((c : ℚ) * c + r * r) 1
  have : (0 : ℚ) < max ((c : ℚ) * c + r * r) 1 := lt_of_lt_of_le one_pos (le_max_right _ _)
  positivity

/-- A row with an isolated valid pixel before a hole, for the dependence on tiles. -/
def exImg2 : Img := ⟨8, 1, fun c _ => if c = 0 then some 0 else if c = 4 then some 8 else if c = 7 then some 8 else none⟩

/-- **Refuted (C133).** With smoothing the result depends on the tiles: the margin of a tile is enough for the filling of its own pixels, but
not for that of the pixels read by the smoothing. -/
theorem smoothing_depends_on_tiles :
    ∃ (cfg : Cfg) (b : Box) (x y : ℤ), (∀ c r, 0 < cfg.dist c r) ∧ (∀ c r, 0 < cfg.gauss c r) ∧ Inside exImg2 b ∧ In b x y ∧
      raster cfg exImg2 b x y ≠ raster cfg exImg2 (whole exImg2) x y := by
  refine ⟨exCfg 1 1 5, ⟨5, 0, 8, 1⟩, 5, 0, ?_, fun _ _ => one_pos, (by unfold Inside; decide), (by unfold In; decide), by decide +kernel⟩
  intro c r
  show 0 < 1 / max ((c : ℚ) * c + r * r) 1
  have : (0 : ℚ) < max ((c : ℚ) * c + r * r) 1 := lt_of_lt_of_le one_pos (le_max_right _ _)
  positivity

end VW.FillHoles
