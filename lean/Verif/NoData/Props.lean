import Verif.NoData.Model

/-! Filling of pixels without data (C138: averages over a window; C139: search in a radius). -/

namespace VW.NoData

/-! ### Specification -/

/-- The place is one of the image. -/
def In (img : Img) (i j : ℤ) : Prop := 0 ≤ i ∧ i < img.w ∧ 0 ≤ j ∧ j < img.h

/-- The places of the image with a valid pixel. -/
def valid (img : Img) : Finset (ℤ × ℤ) :=
  (Finset.Ico 0 img.w ×ˢ Finset.Ico 0 img.h).filter (fun p => (img.px p.1 p.2).isSome)

/-- The value at a place. -/
def value (img : Img) (p : ℤ × ℤ) : ℚ := (img.px p.1 p.2).getD 0

/-- The valid places of the square of `2·m + 1` columns and rows around a place. -/
def window (img : Img) (m : ℤ) (i j : ℤ) : Finset (ℤ × ℤ) := (valid img).filter (fun p => |p.1 - i| ≤ m ∧ |p.2 - j| ≤ m)

/-- The square of the distance of two places. -/
def dist2 (p : ℤ × ℤ) (i j : ℤ) : ℚ := ((p.1 - i : ℤ) : ℚ) ^ 2 + ((p.2 - j : ℤ) : ℚ) ^ 2

/-- The places of the image within a distance. -/
def disk (img : Img) (s : ℚ) (i j : ℤ) : Finset (ℤ × ℤ) :=
  (Finset.Ico 0 img.w ×ˢ Finset.Ico 0 img.h).filter (fun p => dist2 p i j ≤ s ^ 2)

/-- Those with a valid pixel. -/
def validDisk (img : Img) (s : ℚ) (i j : ℤ) : Finset (ℤ × ℤ) := (valid img).filter (fun p => dist2 p i j ≤ s ^ 2)

/-! ### Loops -/

theorem mem_span {lo hi k : ℤ} : k ∈ span lo hi ↔ lo ≤ k ∧ k ≤ hi := by
  unfold span
  rw [List.mem_map]
  constructor
  · rintro ⟨i, hi', rfl⟩
    rw [List.mem_range] at hi'; omega
  · intro h
    exact ⟨(k - lo).toNat, by rw [List.mem_range]; omega, by omega⟩

theorem span_nodup (lo hi : ℤ) : (span lo hi).Nodup := by
  unfold span
  refine List.Nodup.map (fun a b h => ?_) List.nodup_range
  simpa using h

/-- The places of two loops. -/
def grid (a b c d : ℤ) : List (ℤ × ℤ) := (span a b).flatMap (fun x => (span c d).map (fun y => (x, y)))

theorem grid_nodup (a b c d : ℤ) : (grid a b c d).Nodup := by
  unfold grid
  rw [List.nodup_flatMap]
  refine ⟨fun x _ => (span_nodup c d).map (fun a b h => by simpa using h), ?_⟩
  refine (span_nodup a b).imp (fun {x y} hxy => ?_)
  intro p hp hq
  simp only [List.mem_map] at hp hq
  obtain ⟨_, _, rfl⟩ := hp
  obtain ⟨_, _, h⟩ := hq
  exact hxy (by simpa using (congrArg Prod.fst h).symm)

theorem mem_grid {a b c d : ℤ} {p : ℤ × ℤ} : p ∈ grid a b c d ↔ (a ≤ p.1 ∧ p.1 ≤ b) ∧ c ≤ p.2 ∧ p.2 ≤ d := by
  unfold grid
  rw [List.mem_flatMap]
  constructor
  · rintro ⟨x, hx, hp⟩
    rw [List.mem_map] at hp
    obtain ⟨y, hy, rfl⟩ := hp
    exact ⟨mem_span.1 hx, mem_span.1 hy⟩
  · rintro ⟨h1, h2⟩
    exact ⟨p.1, mem_span.2 h1, List.mem_map.2 ⟨p.2, mem_span.2 h2, rfl⟩⟩

theorem foldl_grid {β : Type} (f : β → ℤ → ℤ → β) (a b c d : ℤ) (z : β) :
    (span a b).foldl (fun acc x => (span c d).foldl (fun acc y => f acc x y) acc) z = (grid a b c d).foldl (fun acc p => f acc p.1 p.2) z := by
  unfold grid
  rw [List.foldl_flatMap]
  congr 1
  funext acc x
  rw [List.foldl_map]

theorem foldl_sum {β M : Type} [AddCommMonoid M] (l : List (ℤ × ℤ)) (step : β → ℤ × ℤ → β) (π : β → M) (f : ℤ × ℤ → M)
    (h : ∀ a p, π (step a p) = π a + f p) (z : β) : π (l.foldl step z) = π z + (l.map f).sum := by
  induction l generalizing z with
  | nil => simp
  | cons p t ih => rw [List.foldl_cons, ih, h, List.map_cons, List.sum_cons, add_assoc]

theorem grid_sum {M : Type} [AddCommMonoid M] (a b c d : ℤ) (f g : ℤ × ℤ → M) (S : Finset (ℤ × ℤ)) (hS : ∀ p ∈ S, p ∈ grid a b c d)
    (h0 : ∀ p ∈ grid a b c d, p ∉ S → f p = 0) (hf : ∀ p ∈ S, f p = g p) : ((grid a b c d).map f).sum = ∑ p ∈ S, g p := by
  rw [← List.sum_toFinset f (grid_nodup a b c d), ← Finset.sum_congr rfl hf]
  symm
  refine Finset.sum_subset (fun p hp => List.mem_toFinset.2 (hS p hp)) (fun p hp hn => h0 p (List.mem_toFinset.1 hp) hn)

theorem mem_valid {img : Img} {p : ℤ × ℤ} : p ∈ valid img ↔ In img p.1 p.2 ∧ (img.px p.1 p.2).isSome := by
  unfold valid In
  simp only [Finset.mem_filter, Finset.mem_product, Finset.mem_Ico]
  tauto

theorem mem_window {img : Img} {m i j : ℤ} {p : ℤ × ℤ} : p ∈ window img m i j ↔ p ∈ valid img ∧ |p.1 - i| ≤ m ∧ |p.2 - j| ≤ m := by
  unfold window; rw [Finset.mem_filter]

/-! ### Averages -/

theorem gather_spec (img : Img) (k i j : ℤ) :
    (gather img k i j).1 = ∑ p ∈ window img (k / 2) i j, value img p ∧ (gather img k i j).2 = ((window img (k / 2) i j).card : ℤ) := by
  unfold gather
  rw [foldl_grid (collect img)]
  have hmem : ∀ p ∈ window img (k / 2) i j,
      p ∈ grid (max 0 (i - k / 2)) (min (img.w - 1) (i + k / 2)) (max 0 (j - k / 2)) (min (img.h - 1) (j + k / 2)) := by
    intro p hp
    rw [mem_window, mem_valid] at hp
    obtain ⟨⟨⟨a, b, c, d⟩, _⟩, h1, h2⟩ := hp
    rw [abs_le] at h1 h2
    rw [mem_grid]; omega
  have hnot : ∀ p ∈ grid (max 0 (i - k / 2)) (min (img.w - 1) (i + k / 2)) (max 0 (j - k / 2)) (min (img.h - 1) (j + k / 2)),
      p ∉ window img (k / 2) i j → img.px p.1 p.2 = none := by
    intro p hp hn
    by_contra hc
    apply hn
    rw [mem_grid] at hp
    rw [mem_window, mem_valid, abs_le, abs_le]
    refine ⟨⟨⟨by omega, by omega, by omega, by omega⟩, Option.isSome_iff_ne_none.2 hc⟩, by omega, by omega⟩
  constructor
  · rw [foldl_sum _ _ Prod.fst (fun p => value img p)]
    · rw [zero_add]
      refine grid_sum _ _ _ _ _ _ _ hmem (fun p hp hn => ?_) (fun _ _ => rfl)
      unfold value; rw [hnot p hp hn]; rfl
    · intro a p
      unfold value collect
      cases img.px p.1 p.2 <;> simp
  · rw [foldl_sum _ _ Prod.snd (fun p => if (img.px p.1 p.2).isSome then (1 : ℤ) else 0)]
    · rw [zero_add, grid_sum _ _ _ _ _ (fun _ => (1 : ℤ)) _ hmem (fun p hp hn => by rw [hnot p hp hn]; rfl)]
      · simp
      · intro p hp
        rw [mem_window, mem_valid] at hp
        rw [if_pos hp.1.2]
    · intro a p
      unfold collect
      cases img.px p.1 p.2 <;> simp

/-- C138: a valid pixel is kept; another one becomes the mean of the valid pixels of the square around it, and stays without data exactly when
there is none. -/
theorem average_spec (img : Img) (k i j : ℤ) :
    (∀ v, img.px i j = some v → average img k i j = some v) ∧
    (img.px i j = none → window img (k / 2) i j = ∅ → average img k i j = none) ∧
    (img.px i j = none → window img (k / 2) i j ≠ ∅ →
      average img k i j = some ((∑ p ∈ window img (k / 2) i j, value img p) / ((window img (k / 2) i j).card : ℚ))) := by
  obtain ⟨g1, g2⟩ := gather_spec img k i j
  refine ⟨fun v hv => ?_, fun hn he => ?_, fun hn he => ?_⟩
  · unfold average; rw [hv]
  · unfold average; rw [hn]
    show (if (gather img k i j).2 = 0 then none else _) = none
    rw [if_pos (by rw [g2, he]; rfl)]
  · unfold average; rw [hn]
    show (if (gather img k i j).2 = 0 then none else some _) = _
    rw [if_neg, g1, g2]
    · simp
    · rw [g2]
      simpa using he

theorem average_isSome (img : Img) (k i j : ℤ) (hn : img.px i j = none) :
    (average img k i j).isSome ↔ ∃ c r, In img c r ∧ (img.px c r).isSome ∧ |c - i| ≤ k / 2 ∧ |r - j| ≤ k / 2 := by
  obtain ⟨_, h1, h2⟩ := average_spec img k i j
  constructor
  · intro h
    by_cases he : window img (k / 2) i j = ∅
    · rw [h1 hn he] at h; simp at h
    · obtain ⟨p, hp⟩ := Finset.nonempty_iff_ne_empty.2 he
      rw [mem_window, mem_valid] at hp
      exact ⟨p.1, p.2, hp.1.1, hp.1.2, hp.2⟩
  · rintro ⟨c, r, a, b, d⟩
    have : window img (k / 2) i j ≠ ∅ := Finset.nonempty_iff_ne_empty.1 ⟨(c, r), by rw [mem_window, mem_valid]; exact ⟨⟨a, b⟩, d⟩⟩
    rw [h2 hn this]; rfl

/-- C138: a filled value is between bounds of the valid ones around. -/
theorem average_bounds (img : Img) (k i j : ℤ) (lo hi v : ℚ) (h : ∀ p ∈ window img (k / 2) i j, lo ≤ value img p ∧ value img p ≤ hi)
    (hn : img.px i j = none) (hv : average img k i j = some v) : lo ≤ v ∧ v ≤ hi := by
  obtain ⟨_, h1, h2⟩ := average_spec img k i j
  by_cases he : window img (k / 2) i j = ∅
  · rw [h1 hn he] at hv; simp at hv
  · rw [h2 hn he] at hv
    have hc : (0 : ℚ) < ((window img (k / 2) i j).card : ℚ) := by
      have := Finset.card_pos.2 (Finset.nonempty_iff_ne_empty.2 he)
      exact_mod_cast this
    have e := Option.some.inj hv
    subst e
    constructor
    · rw [le_div_iff₀ hc]
      have := Finset.card_nsmul_le_sum (window img (k / 2) i j) (value img) lo (fun p hp => (h p hp).1)
      rw [nsmul_eq_mul] at this; linarith
    · rw [div_le_iff₀ hc]
      have := Finset.sum_le_card_nsmul (window img (k / 2) i j) (value img) hi (fun p hp => (h p hp).2)
      rw [nsmul_eq_mul] at this; linarith

/-- C138: the result does not depend on the tiles, whatever is outside of the copied part. -/
theorem avgRaster_eq (img : Img) (k : ℤ) (hk : 0 < k) (b : Box) (junk : ℤ → ℤ → Option ℚ) (i j : ℤ) (hi : In img i j)
    (hb : b.x0 ≤ i ∧ i < b.x1 ∧ b.y0 ≤ j ∧ j < b.y1) : avgRaster img k b junk i j = average img k i j := by
  have h2 : 0 ≤ k / 2 := by omega
  obtain ⟨a0, a1, a2, a3⟩ := hi
  have key : ∀ c r, In img c r → |c - i| ≤ k / 2 → |r - j| ≤ k / 2 → (copied img (biased img k b) junk).px c r = img.px c r := by
    intro c r ⟨c0, c1, c2, c3⟩ d1 d2
    rw [abs_le] at d1 d2
    unfold copied biased
    show (if _ then _ else _) = _
    rw [if_pos (by simp only; omega)]
  have hw : window (copied img (biased img k b) junk) (k / 2) i j = window img (k / 2) i j := by
    ext p
    rw [mem_window, mem_window, mem_valid, mem_valid]
    constructor
    · rintro ⟨⟨q1, q2⟩, q3, q4⟩
      have q1' : In img p.1 p.2 := q1
      rw [key _ _ q1' q3 q4] at q2
      exact ⟨⟨q1', q2⟩, q3, q4⟩
    · rintro ⟨⟨q1, q2⟩, q3, q4⟩
      refine ⟨⟨q1, ?_⟩, q3, q4⟩
      rw [key _ _ q1 q3 q4]; exact q2
  have hp := key i j ⟨a0, a1, a2, a3⟩ (by simpa using h2) (by simpa using h2)
  unfold avgRaster
  obtain ⟨s1, s2, s3⟩ := average_spec img k i j
  obtain ⟨t1, t2, t3⟩ := average_spec (copied img (biased img k b) junk) k i j
  rw [hp, hw] at t2 t3
  rw [hp] at t1
  cases hv : img.px i j with
  | some v => rw [s1 v hv, t1 v hv]
  | none =>
    by_cases he : window img (k / 2) i j = ∅
    · rw [s2 hv he, t2 hv he]
    · rw [s3 hv he, t3 hv he]
      congr 2
      refine Finset.sum_congr rfl (fun p hp => ?_)
      rw [mem_window, mem_valid] at hp
      unfold value
      rw [key _ _ hp.1.1 hp.2.1 hp.2.2]

/-- C138: the sizes accepted are the odd positive ones; then the window has that many columns. -/
theorem accepted_iff (k : ℤ) : accepted k = true ↔ 0 < k ∧ ∃ m, k = 2 * m + 1 := by
  unfold accepted
  simp only [Bool.and_eq_true, decide_eq_true_eq]
  constructor
  · rintro ⟨h1, h2⟩
    rw [Int.tmod_eq_emod_of_nonneg (by omega)] at h1
    exact ⟨h2, k / 2, by omega⟩
  · rintro ⟨h1, m, rfl⟩
    rw [Int.tmod_eq_emod_of_nonneg (by omega)]
    omega

theorem accepted_half (k m : ℤ) (h : k = 2 * m + 1) : k / 2 = m := by omega

/-! ### Search in a radius -/

theorem mem_disk {img : Img} {s : ℚ} {i j : ℤ} {p : ℤ × ℤ} : p ∈ disk img s i j ↔ In img p.1 p.2 ∧ dist2 p i j ≤ s ^ 2 := by
  unfold disk In
  simp only [Finset.mem_filter, Finset.mem_product, Finset.mem_Ico]
  tauto

theorem mem_validDisk {img : Img} {s : ℚ} {i j : ℤ} {p : ℤ × ℤ} :
    p ∈ validDisk img s i j ↔ p ∈ disk img s i j ∧ (img.px p.1 p.2).isSome := by
  unfold validDisk
  rw [Finset.mem_filter, mem_valid, mem_disk]; tauto

theorem dist2_ceil {s : ℚ} (hs : 0 ≤ s) {p : ℤ × ℤ} {i j : ℤ} (h : dist2 p i j ≤ s ^ 2) : |p.1 - i| ≤ ⌈s⌉ ∧ |p.2 - j| ≤ ⌈s⌉ := by
  unfold dist2 at h
  have hc : s ≤ (⌈s⌉ : ℚ) := Int.le_ceil s
  constructor
  · have : ((p.1 - i : ℤ) : ℚ) ^ 2 ≤ s ^ 2 := by nlinarith [sq_nonneg ((p.2 - j : ℤ) : ℚ)]
    have := abs_le_of_sq_le_sq this hs
    have h3 : ((|p.1 - i| : ℤ) : ℚ) ≤ (⌈s⌉ : ℤ) := by rw [Int.cast_abs]; linarith
    exact_mod_cast h3
  · have : ((p.2 - j : ℤ) : ℚ) ^ 2 ≤ s ^ 2 := by nlinarith [sq_nonneg ((p.1 - i : ℤ) : ℚ)]
    have := abs_le_of_sq_le_sq this hs
    have h3 : ((|p.2 - j| : ℤ) : ℚ) ≤ (⌈s⌉ : ℤ) := by rw [Int.cast_abs]; linarith
    exact_mod_cast h3

/-- What a place adds. -/
theorem visit_spec (img : Img) (s : ℚ) (pow : ℚ → ℚ) (i j : ℤ) (a : Acc) (p : ℤ × ℤ) :
    (visit img s pow i j a p.1 p.2).val =
        a.val + (if p ∈ validDisk img s i j then 1 / (1 + pow (dist2 p i j)) * value img p else 0) ∧
    (visit img s pow i j a p.1 p.2).weightSum = a.weightSum + (if p ∈ validDisk img s i j then 1 / (1 + pow (dist2 p i j)) else 0) ∧
    (visit img s pow i j a p.1 p.2).validCount = a.validCount + (if p ∈ validDisk img s i j then 1 else 0) ∧
    (visit img s pow i j a p.1 p.2).totalCount = a.totalCount + (if p ∈ disk img s i j then 1 else 0) := by
  have hd : (((p.1 - i : ℤ) : ℚ) * (p.1 - i : ℤ) + ((p.2 - j : ℤ) : ℚ) * (p.2 - j : ℤ)) = dist2 p i j := by unfold dist2; ring
  unfold visit
  by_cases h1 : p.1 < 0 ∨ p.1 ≥ img.w ∨ p.2 < 0 ∨ p.2 ≥ img.h
  · have hn : p ∉ disk img s i j := by rw [mem_disk]; unfold In; omega
    have hv : p ∉ validDisk img s i j := fun h => hn (mem_validDisk.1 h).1
    rw [if_pos h1]
    simp [hn, hv]
  · rw [if_neg h1]
    simp only [hd]
    by_cases h2 : dist2 p i j > s * s
    · have hn : p ∉ disk img s i j := by rw [mem_disk]; intro h; have := h.2; rw [pow_two] at this; linarith
      have hv : p ∉ validDisk img s i j := fun h => hn (mem_validDisk.1 h).1
      rw [if_pos h2]
      simp [hn, hv]
    · have hy : p ∈ disk img s i j := by
        rw [mem_disk]; unfold In
        refine ⟨by omega, ?_⟩
        rw [pow_two]; linarith
      rw [if_neg h2]
      cases hp : img.px p.1 p.2 with
      | none =>
        have hv : p ∉ validDisk img s i j := fun h => by have := (mem_validDisk.1 h).2; rw [hp] at this; simp at this
        simp [hy, hv]
      | some v =>
        have hv : p ∈ validDisk img s i j := mem_validDisk.2 ⟨hy, by rw [hp]; rfl⟩
        have he : value img p = v := by unfold value; rw [hp]; rfl
        simp [hy, hv, he]

/-- The search collects the sums over the valid places within the radius, and the numbers of places. -/
theorem search_spec (img : Img) (s : ℚ) (hs : 0 ≤ s) (pow : ℚ → ℚ) (i j : ℤ) :
    (search img s pow i j).val = ∑ p ∈ validDisk img s i j, 1 / (1 + pow (dist2 p i j)) * value img p ∧
    (search img s pow i j).weightSum = ∑ p ∈ validDisk img s i j, 1 / (1 + pow (dist2 p i j)) ∧
    (search img s pow i j).validCount = ((validDisk img s i j).card : ℚ) ∧
    (search img s pow i j).totalCount = ((disk img s i j).card : ℚ) := by
  unfold search
  rw [foldl_grid (fun a c r => visit img s pow i j a c r)]
  have hd : ∀ p ∈ disk img s i j, p ∈ grid (i - ⌈s⌉) (i + ⌈s⌉) (j - ⌈s⌉) (j + ⌈s⌉) := by
    intro p hp
    obtain ⟨h1, h2⟩ := dist2_ceil hs (mem_disk.1 hp).2
    rw [abs_le] at h1 h2
    rw [mem_grid]; omega
  have hv : ∀ p ∈ validDisk img s i j, p ∈ grid (i - ⌈s⌉) (i + ⌈s⌉) (j - ⌈s⌉) (j + ⌈s⌉) := fun p hp => hd p (mem_validDisk.1 hp).1
  refine ⟨?_, ?_, ?_, ?_⟩
  · rw [foldl_sum _ _ Acc.val _ (fun a p => (visit_spec img s pow i j a p).1), zero_add]
    exact grid_sum _ _ _ _ _ _ _ hv (fun p _ hn => if_neg hn) (fun p hp => if_pos hp)
  · rw [foldl_sum _ _ Acc.weightSum _ (fun a p => (visit_spec img s pow i j a p).2.1), zero_add]
    exact grid_sum _ _ _ _ _ _ _ hv (fun p _ hn => if_neg hn) (fun p hp => if_pos hp)
  · rw [foldl_sum _ _ Acc.validCount _ (fun a p => (visit_spec img s pow i j a p).2.2.1), zero_add,
      grid_sum _ _ _ _ _ (fun _ => (1 : ℚ)) _ hv (fun p _ hn => if_neg hn) (fun p hp => if_pos hp)]
    simp
  · rw [foldl_sum _ _ Acc.totalCount _ (fun a p => (visit_spec img s pow i j a p).2.2.2), zero_add,
      grid_sum _ _ _ _ _ (fun _ => (1 : ℚ)) _ hd (fun p _ hn => if_neg hn) (fun p hp => if_pos hp)]
    simp

theorem weights_pos (img : Img) (s : ℚ) (pow : ℚ → ℚ) (hp : ∀ d, 0 ≤ pow d) (i j : ℤ) (hne : validDisk img s i j ≠ ∅) :
    0 < ∑ p ∈ validDisk img s i j, 1 / (1 + pow (dist2 p i j)) := by
  refine Finset.sum_pos (fun p _ => ?_) (Finset.nonempty_iff_ne_empty.2 hne)
  have := hp (dist2 p i j)
  positivity

/-- C139: one pass. A valid pixel is kept; another one is filled exactly when there is a valid pixel within the radius, and those are at least the
given part of the pixels within the radius; its value is then the weighted mean. -/
theorem passAt_spec (img : Img) (s : ℚ) (hs : 0 ≤ s) (pow : ℚ → ℚ) (hp : ∀ d, 0 ≤ pow d) (percent : ℚ) (i j : ℤ) :
    (∀ v, img.px i j = some v → passAt img s pow percent i j = some v) ∧
    (img.px i j = none → (validDisk img s i j = ∅ ∨ ((validDisk img s i j).card : ℚ) < percent / 100 * ((disk img s i j).card : ℚ)) →
      passAt img s pow percent i j = none) ∧
    (img.px i j = none → validDisk img s i j ≠ ∅ → percent / 100 * ((disk img s i j).card : ℚ) ≤ ((validDisk img s i j).card : ℚ) →
      passAt img s pow percent i j = some ((∑ p ∈ validDisk img s i j, 1 / (1 + pow (dist2 p i j)) * value img p) /
        ∑ p ∈ validDisk img s i j, 1 / (1 + pow (dist2 p i j)))) := by
  obtain ⟨s1, s2, s3, s4⟩ := search_spec img s hs pow i j
  have hcard : validDisk img s i j ≠ ∅ → (0 : ℚ) < ((disk img s i j).card : ℚ) := by
    intro hne
    obtain ⟨p, hp⟩ := Finset.nonempty_iff_ne_empty.2 hne
    have := Finset.card_pos.2 ⟨p, (mem_validDisk.1 hp).1⟩
    exact_mod_cast this
  refine ⟨fun v hv => ?_, fun hn ho => ?_, fun hn hne hq => ?_⟩
  · unfold passAt; rw [hv]
  · unfold passAt; rw [hn]
    simp only [s1, s2, s3, s4]
    by_cases he : validDisk img s i j = ∅
    · rw [if_pos (by right; rw [he]; rfl)]
    · have h2 := ho.resolve_left he
      have hw := weights_pos img s pow hp i j he
      rw [if_neg (by rintro (h | h); exacts [(hcard he).ne' h, hw.ne' h]), if_pos]
      rw [div_lt_iff₀ (hcard he)]; exact h2
  · unfold passAt; rw [hn]
    simp only [s1, s2, s3, s4]
    have hw := weights_pos img s pow hp i j hne
    rw [if_neg (by rintro (h | h); exacts [(hcard hne).ne' h, hw.ne' h]), if_neg]
    rw [div_lt_iff₀ (hcard hne)]; exact not_lt.2 hq

/-- C139: a filled value is between bounds of the valid ones within the radius. -/
theorem passAt_bounds (img : Img) (s : ℚ) (hs : 0 ≤ s) (pow : ℚ → ℚ) (hp : ∀ d, 0 ≤ pow d) (percent : ℚ) (i j : ℤ) (lo hi v : ℚ)
    (h : ∀ p ∈ validDisk img s i j, lo ≤ value img p ∧ value img p ≤ hi) (hn : img.px i j = none)
    (hv : passAt img s pow percent i j = some v) : lo ≤ v ∧ v ≤ hi := by
  obtain ⟨_, h1, h2⟩ := passAt_spec img s hs pow hp percent i j
  by_cases he : validDisk img s i j = ∅
  · rw [h1 hn (Or.inl he)] at hv; simp at hv
  · by_cases hq : ((validDisk img s i j).card : ℚ) < percent / 100 * ((disk img s i j).card : ℚ)
    · rw [h1 hn (Or.inr hq)] at hv; simp at hv
    · rw [h2 hn he (not_lt.1 hq)] at hv
      have hw := weights_pos img s pow hp i j he
      have e := Option.some.inj hv
      subst e
      have hpos : ∀ p, (0 : ℚ) ≤ 1 / (1 + pow (dist2 p i j)) := fun p => by have := hp (dist2 p i j); positivity
      constructor
      · rw [le_div_iff₀ hw, Finset.mul_sum]
        refine Finset.sum_le_sum (fun p hp' => ?_)
        have := mul_le_mul_of_nonneg_left (h p hp').1 (hpos p); linarith
      · rw [div_le_iff₀ hw, Finset.mul_sum]
        refine Finset.sum_le_sum (fun p hp' => ?_)
        have := mul_le_mul_of_nonneg_left (h p hp').2 (hpos p); linarith

/-- C139: with a radius that is not positive nothing is filled. -/
theorem passAt_negative (img : Img) (s : ℚ) (hs : s ≤ 0) (pow : ℚ → ℚ) (percent : ℚ) (i j : ℤ) : passAt img s pow percent i j = img.px i j := by
  have hc : ⌈s⌉ ≤ 0 := Int.ceil_le.2 (by simpa using hs)
  unfold passAt
  cases hp : img.px i j with
  | some v => rfl
  | none =>
    have hw : (search img s pow i j).weightSum = 0 := by
      unfold search
      rw [foldl_grid (fun a c r => visit img s pow i j a c r)]
      rw [foldl_sum _ _ Acc.weightSum _ (fun a p => (visit_spec img s pow i j a p).2.1), zero_add]
      refine List.sum_eq_zero (fun x hx => ?_)
      obtain ⟨p, hpg, rfl⟩ := List.mem_map.1 hx
      rw [mem_grid] at hpg
      have e1 : p.1 = i := by omega
      have e2 : p.2 = j := by omega
      rw [if_neg]
      intro h
      have := (mem_validDisk.1 h).2
      rw [e1, e2, hp] at this; simp at this
    simp only [hw]
    rw [if_pos (Or.inr trivial)]

/-- C139: all passes. What is valid after a pass is kept by the next one. -/
theorem passes_keep (img : Img) (s : ℚ) (pow : ℚ → ℚ) (percent : ℚ) (m n : ℕ) (h : m ≤ n) (i j : ℤ) (v : ℚ)
    (hv : (passes img s pow percent m).px i j = some v) : (passes img s pow percent n).px i j = some v := by
  induction n, h using Nat.le_induction with
  | base => exact hv
  | succ n _ ih =>
    show passAt _ s pow percent i j = some v
    unfold passAt; rw [ih]

theorem passes_size (img : Img) (s : ℚ) (pow : ℚ → ℚ) (percent : ℚ) (n : ℕ) :
    (passes img s pow percent n).w = img.w ∧ (passes img s pow percent n).h = img.h := by
  induction n with
  | zero => exact ⟨rfl, rfl⟩
  | succ n ih => exact ih

/-- C139: the values after any number of passes are between bounds of the valid ones of the input. -/
theorem passes_bounds (img : Img) (s : ℚ) (hs : 0 ≤ s) (pow : ℚ → ℚ) (hp : ∀ d, 0 ≤ pow d) (percent : ℚ) (lo hi : ℚ)
    (h : ∀ c r v, In img c r → img.px c r = some v → lo ≤ v ∧ v ≤ hi) (n : ℕ) (i j : ℤ) (hi' : In img i j) (v : ℚ)
    (hv : (passes img s pow percent n).px i j = some v) : lo ≤ v ∧ v ≤ hi := by
  induction n generalizing i j v with
  | zero => exact h i j v hi' hv
  | succ n ih =>
    cases hc : (passes img s pow percent n).px i j with
    | some u =>
      have := passes_keep img s pow percent n (n + 1) (by omega) i j u hc
      rw [this] at hv
      have e := Option.some.inj hv
      subst e
      exact ih i j hi' u hc
    | none =>
      refine passAt_bounds (passes img s pow percent n) s hs pow hp percent i j lo hi v (fun p hpd => ?_) hc hv
      obtain ⟨q1, q2⟩ := mem_validDisk.1 hpd
      obtain ⟨q3, _⟩ := mem_disk.1 q1
      unfold In at q3
      rw [(passes_size img s pow percent n).1, (passes_size img s pow percent n).2] at q3
      obtain ⟨u, hu⟩ := Option.isSome_iff_exists.1 q2
      have := ih p.1 p.2 q3 u hu
      unfold value; rw [hu]; exact this

/-- C139: data does not spread further than the radius, rounded up, per pass. -/
theorem passes_reach (img : Img) (s : ℚ) (hs : 0 ≤ s) (pow : ℚ → ℚ) (hp : ∀ d, 0 ≤ pow d) (percent : ℚ) (n : ℕ) (i j : ℤ) (hi' : In img i j)
    (hv : ((passes img s pow percent n).px i j).isSome) :
    ∃ c r, In img c r ∧ (img.px c r).isSome ∧ |c - i| ≤ n * ⌈s⌉ ∧ |r - j| ≤ n * ⌈s⌉ := by
  induction n generalizing i j with
  | zero => exact ⟨i, j, hi', hv, by simp, by simp⟩
  | succ n ih =>
    have hc0 : 0 ≤ ⌈s⌉ := Int.ceil_nonneg hs
    cases hc : (passes img s pow percent n).px i j with
    | some u =>
      obtain ⟨c, r, a, b, d, e⟩ := ih i j hi' (by rw [hc]; rfl)
      refine ⟨c, r, a, b, ?_, ?_⟩ <;> push_cast <;> nlinarith
    | none =>
      by_cases he : validDisk (passes img s pow percent n) s i j = ∅
      · have := (passAt_spec (passes img s pow percent n) s hs pow hp percent i j).2.1 hc (Or.inl he)
        have hv' : (passAt (passes img s pow percent n) s pow percent i j).isSome := hv
        rw [this] at hv'; simp at hv'
      · obtain ⟨p, hpd⟩ := Finset.nonempty_iff_ne_empty.2 he
        obtain ⟨q1, q2⟩ := mem_validDisk.1 hpd
        obtain ⟨q3, q4⟩ := mem_disk.1 q1
        unfold In at q3
        rw [(passes_size img s pow percent n).1, (passes_size img s pow percent n).2] at q3
        obtain ⟨c, r, a, b, d, e⟩ := ih p.1 p.2 q3 q2
        obtain ⟨f1, f2⟩ := dist2_ceil hs q4
        refine ⟨c, r, a, b, ?_, ?_⟩
        · have := abs_sub_le c p.1 i
          push_cast; linarith
        · have := abs_sub_le r p.2 j
          push_cast; linarith

/-! ### Concrete cases -/

/-- Five columns and one row, valid at both ends. -/
def five : Img := ⟨5, 1, fun c r => if r = 0 ∧ c = 0 then some 2 else if r = 0 ∧ c = 4 then some 6 else none⟩

example : average five 3 1 0 = some 2 ∧ average five 3 2 0 = none ∧ average five 5 2 0 = some 4 ∧ average five 3 0 0 = some 2 := by decide +kernel
example : avgRaster five 5 ⟨2, 0, 3, 1⟩ (fun _ _ => some 100) 2 0 = some 4 := by decide +kernel
example : accepted 5 = true ∧ accepted 4 = false ∧ accepted (-3) = false := by decide +kernel
example : In five 2 0 := by unfold In five; decide

/-- The place in the middle has two valid ones of five within the radius 2, each with the weight 1/5. -/
example : passAt five 2 (fun d => d) 40 2 0 = some 4 ∧ passAt five 2 (fun d => d) 41 2 0 = none := by
  have hc : ⌈(2 : ℚ)⌉ = 2 := by norm_num
  unfold passAt search
  rw [hc]
  decide +kernel

end VW.NoData
