import Verif.DMap.MaskProps
import Mathlib.Tactic.FieldSimp
import Mathlib.Tactic.LinearCombination

/-
C94, first part.  Halving and doubling of disparity maps.
-/

namespace Verif.DMap

set_option linter.unusedSectionVars false

/-- The sum over the nine neighbours of what is valid, with weights ten, five and two. -/
theorem subSums_eq {A : Type} [CommRing A] (I : Img (Disp A)) (ci cj : Int) :
    subSums I ci cj =
      ((subWeights.map (fun w => if (I (ci + w.1) (cj + w.2.1)).valid then (w.2.2 : A) * (I (ci + w.1) (cj + w.2.1)).dx else 0)).sum,
       (subWeights.map (fun w => if (I (ci + w.1) (cj + w.2.1)).valid then (w.2.2 : A) * (I (ci + w.1) (cj + w.2.1)).dy else 0)).sum,
       (subWeights.map (fun w => if (I (ci + w.1) (cj + w.2.1)).valid then w.2.2 else 0)).sum) := by
  unfold subSums
  have key : ∀ (l : List (Int × Int × Nat)) (s : A × A × Nat),
      l.foldl (fun s w => if (I (ci + w.1) (cj + w.2.1)).valid then
        (s.1 + (w.2.2 : A) * (I (ci + w.1) (cj + w.2.1)).dx, s.2.1 + (w.2.2 : A) * (I (ci + w.1) (cj + w.2.1)).dy, s.2.2 + w.2.2)
        else s) s =
      (s.1 + (l.map (fun w => if (I (ci + w.1) (cj + w.2.1)).valid then (w.2.2 : A) * (I (ci + w.1) (cj + w.2.1)).dx else 0)).sum,
       s.2.1 + (l.map (fun w => if (I (ci + w.1) (cj + w.2.1)).valid then (w.2.2 : A) * (I (ci + w.1) (cj + w.2.1)).dy else 0)).sum,
       s.2.2 + (l.map (fun w => if (I (ci + w.1) (cj + w.2.1)).valid then w.2.2 else 0)).sum) := by
    intro l
    induction l with
    | nil => intro s; simp
    | cons w l ih =>
      intro s
      rw [List.foldl_cons, ih]
      simp only [List.map_cons, List.sum_cons]
      cases (I (ci + w.1) (cj + w.2.1)).valid
      · simp
      · simp only [if_true]
        refine Prod.ext ?_ (Prod.ext ?_ ?_)
        · simp only; ring
        · simp only; ring
        · simp only; omega
  rw [key]
  simp

theorem mem_subWeights (w : Int × Int × Nat) : w ∈ subWeights ↔
    (w.1 = -1 ∨ w.1 = 0 ∨ w.1 = 1) ∧ (w.2.1 = -1 ∨ w.2.1 = 0 ∨ w.2.1 = 1) ∧
      w.2.2 = if w.1 = 0 ∧ w.2.1 = 0 then 10 else if w.1 = 0 ∨ w.2.1 = 0 then 5 else 2 := by
  obtain ⟨a, b, n⟩ := w
  simp only [subWeights, List.mem_cons, List.not_mem_nil, or_false, Prod.mk.injEq]
  constructor
  · rintro (⟨rfl, rfl, rfl⟩ | ⟨rfl, rfl, rfl⟩ | ⟨rfl, rfl, rfl⟩ | ⟨rfl, rfl, rfl⟩ | ⟨rfl, rfl, rfl⟩ | ⟨rfl, rfl, rfl⟩ |
      ⟨rfl, rfl, rfl⟩ | ⟨rfl, rfl, rfl⟩ | ⟨rfl, rfl, rfl⟩) <;> decide
  · rintro ⟨rfl | rfl | rfl, rfl | rfl | rfl, h⟩ <;> simpa using h

/-- The weights are positive. -/
theorem sum_pos_iff (l : List (Int × Int × Nat)) (hl : ∀ w ∈ l, 0 < w.2.2) (v : Int × Int × Nat → Bool) :
    0 < (l.map (fun w => if v w then w.2.2 else 0)).sum ↔ ∃ w ∈ l, v w = true := by
  induction l with
  | nil => simp
  | cons w l ih =>
    have ih := ih (fun x hx => hl x (List.mem_cons_of_mem _ hx))
    have hw := hl w List.mem_cons_self
    simp only [List.map_cons, List.sum_cons, List.mem_cons, exists_eq_or_imp]
    rw [← ih]
    cases v w
    · simp
    · simp only [if_true, true_or, iff_true]; omega

theorem subWeights_pos : ∀ w ∈ subWeights, 0 < w.2.2 := by decide

/-- **C94.** A pixel of the halved map is valid exactly if one of the nine pixels around its place in the map is. -/
theorem sub_valid {A : Type} [CommRing A] (dv : A → Nat → A) (I : Img (Disp A)) (i j : Int) :
    (subsample dv I i j).valid = true ↔ ∃ x y : Int, |x - 2 * i| ≤ 1 ∧ |y - 2 * j| ≤ 1 ∧ (I x y).valid = true := by
  unfold subsample
  simp only [subSums_eq]
  have h := sum_pos_iff subWeights subWeights_pos (fun w => (I (2 * i + w.1) (2 * j + w.2.1)).valid)
  have h' : (∃ w ∈ subWeights, (I (2 * i + w.1) (2 * j + w.2.1)).valid = true) ↔
      ∃ x y : Int, |x - 2 * i| ≤ 1 ∧ |y - 2 * j| ≤ 1 ∧ (I x y).valid = true := by
    constructor
    · rintro ⟨w, hw, hv⟩
      obtain ⟨h1, h2, -⟩ := (mem_subWeights w).1 hw
      refine ⟨_, _, ?_, ?_, hv⟩ <;> rw [abs_le] <;> omega
    · rintro ⟨x, y, hx, hy, hv⟩
      rw [abs_le] at hx hy
      refine ⟨(x - 2 * i, y - 2 * j, if x - 2 * i = 0 ∧ y - 2 * j = 0 then 10 else if x - 2 * i = 0 ∨ y - 2 * j = 0 then 5 else 2),
        (mem_subWeights _).2 ⟨?_, ?_, rfl⟩, ?_⟩
      · simp only; omega
      · simp only; omega
      · simp only
        rw [show 2 * i + (x - 2 * i) = x by omega, show 2 * j + (y - 2 * j) = y by omega]
        exact hv
  rw [← h', ← h]
  by_cases hp : 0 < (subWeights.map (fun w => if (I (2 * i + w.1) (2 * j + w.2.1)).valid then w.2.2 else 0)).sum
  · rw [if_pos hp]; simp [hp]
  · rw [if_neg hp]
    constructor
    · intro h; cases h
    · intro h; exact absurd h hp

/-- The weighted mean of values within bounds is within bounds. -/
theorem wsum_bounds {R : Type} [CommRing R] [LinearOrder R] [IsStrictOrderedRing R] (l : List (Int × Int × Nat))
    (v : Int × Int × Nat → Bool) (f : Int × Int × Nat → R) (lo hi : R) (h : ∀ w ∈ l, v w = true → lo ≤ f w ∧ f w ≤ hi) :
    ((l.map (fun w => if v w then w.2.2 else 0)).sum : R) * lo ≤ (l.map (fun w => if v w then (w.2.2 : R) * f w else 0)).sum ∧
    (l.map (fun w => if v w then (w.2.2 : R) * f w else 0)).sum ≤ ((l.map (fun w => if v w then w.2.2 else 0)).sum : R) * hi := by
  induction l with
  | nil => simp
  | cons w l ih =>
    obtain ⟨i1, i2⟩ := ih (fun x hx => h x (List.mem_cons_of_mem _ hx))
    simp only [List.map_cons, List.sum_cons]
    cases hv : v w
    · simpa using ⟨i1, i2⟩
    · obtain ⟨h1, h2⟩ := h w List.mem_cons_self hv
      have hw : (0 : R) ≤ (w.2.2 : R) := Nat.cast_nonneg _
      simp only [if_true]
      push_cast
      constructor <;> nlinarith

variable {K : Type} [Field K] [LinearOrder K] [IsStrictOrderedRing K] [FloorRing K]

/-- Division of floating point channels. -/
def fdiv (x : K) (n : Nat) : K := x / n

/-- **C94.** The disparity of a pixel of the halved map is half a mean of the valid disparities around it: between half
their smallest and half their largest value, in each coordinate. -/
theorem sub_bounds (I : Img (Disp K)) (i j : Int) (lo hi lo' hi' : K)
    (h : ∀ x y : Int, |x - 2 * i| ≤ 1 → |y - 2 * j| ≤ 1 → (I x y).valid = true →
      lo ≤ (I x y).dx ∧ (I x y).dx ≤ hi ∧ lo' ≤ (I x y).dy ∧ (I x y).dy ≤ hi')
    (hv : (subsample fdiv I i j).valid = true) :
    lo / 2 ≤ (subsample fdiv I i j).dx ∧ (subsample fdiv I i j).dx ≤ hi / 2 ∧
    lo' / 2 ≤ (subsample fdiv I i j).dy ∧ (subsample fdiv I i j).dy ≤ hi' / 2 := by
  have near : ∀ w ∈ subWeights, |2 * i + w.1 - 2 * i| ≤ 1 ∧ |2 * j + w.2.1 - 2 * j| ≤ 1 := by
    intro w hw
    obtain ⟨h1, h2, -⟩ := (mem_subWeights w).1 hw
    constructor <;> rw [abs_le] <;> omega
  obtain ⟨b1, b2⟩ := wsum_bounds (R := K) subWeights (fun w => (I (2 * i + w.1) (2 * j + w.2.1)).valid)
    (fun w => (I (2 * i + w.1) (2 * j + w.2.1)).dx) lo hi
    (fun w hw hv => ⟨(h _ _ (near w hw).1 (near w hw).2 hv).1, (h _ _ (near w hw).1 (near w hw).2 hv).2.1⟩)
  obtain ⟨b3, b4⟩ := wsum_bounds (R := K) subWeights (fun w => (I (2 * i + w.1) (2 * j + w.2.1)).valid)
    (fun w => (I (2 * i + w.1) (2 * j + w.2.1)).dy) lo' hi'
    (fun w hw hv => ⟨(h _ _ (near w hw).1 (near w hw).2 hv).2.2.1, (h _ _ (near w hw).1 (near w hw).2 hv).2.2.2⟩)
  unfold subsample at hv ⊢
  simp only [subSums_eq] at hv ⊢
  by_cases hp : 0 < (subWeights.map (fun w => if (I (2 * i + w.1) (2 * j + w.2.1)).valid then w.2.2 else 0)).sum
  · rw [if_pos hp]
    simp only [fdiv]
    have hp' : (0 : K) < ((subWeights.map (fun w => if (I (2 * i + w.1) (2 * j + w.2.1)).valid then w.2.2 else 0)).sum : Nat) := by
      exact_mod_cast hp
    generalize (subWeights.map (fun w => if (I (2 * i + w.1) (2 * j + w.2.1)).valid then w.2.2 else 0)).sum = n at hp' b1 b2 b3 b4 ⊢
    generalize (subWeights.map (fun w => if (I (2 * i + w.1) (2 * j + w.2.1)).valid then
      (w.2.2 : K) * (I (2 * i + w.1) (2 * j + w.2.1)).dx else 0)).sum = sx at b1 b2 ⊢
    generalize (subWeights.map (fun w => if (I (2 * i + w.1) (2 * j + w.2.1)).valid then
      (w.2.2 : K) * (I (2 * i + w.1) (2 * j + w.2.1)).dy else 0)).sum = sy at b3 b4 ⊢
    have h2 : (0 : K) < ((n * 2 : Nat) : K) := by push_cast; linarith
    refine ⟨?_, ?_, ?_, ?_⟩
    · rw [le_div_iff₀ h2]; push_cast; linarith
    · rw [div_le_iff₀ h2]; push_cast; linarith
    · rw [le_div_iff₀ h2]; push_cast; linarith
    · rw [div_le_iff₀ h2]; push_cast; linarith
  · rw [if_neg hp] at hv; cases hv

/-- Division of integer channels: towards zero. -/
def idiv (x : Int) (n : Nat) : Int := Int.tdiv x n

/-- **C94.** The same for integer disparities: the quotients are rounded towards zero. -/
theorem sub_bounds_int (I : Img (Disp Int)) (i j lo hi lo' hi' : Int)
    (h : ∀ x y : Int, |x - 2 * i| ≤ 1 → |y - 2 * j| ≤ 1 → (I x y).valid = true →
      lo ≤ (I x y).dx ∧ (I x y).dx ≤ hi ∧ lo' ≤ (I x y).dy ∧ (I x y).dy ≤ hi')
    (hv : (subsample idiv I i j).valid = true) :
    Int.tdiv lo 2 ≤ (subsample idiv I i j).dx ∧ (subsample idiv I i j).dx ≤ Int.tdiv hi 2 ∧
    Int.tdiv lo' 2 ≤ (subsample idiv I i j).dy ∧ (subsample idiv I i j).dy ≤ Int.tdiv hi' 2 := by
  have near : ∀ w ∈ subWeights, |2 * i + w.1 - 2 * i| ≤ 1 ∧ |2 * j + w.2.1 - 2 * j| ≤ 1 := by
    intro w hw
    obtain ⟨h1, h2, -⟩ := (mem_subWeights w).1 hw
    constructor <;> rw [abs_le] <;> omega
  obtain ⟨b1, b2⟩ := wsum_bounds (R := Int) subWeights (fun w => (I (2 * i + w.1) (2 * j + w.2.1)).valid)
    (fun w => (I (2 * i + w.1) (2 * j + w.2.1)).dx) lo hi
    (fun w hw hv => ⟨(h _ _ (near w hw).1 (near w hw).2 hv).1, (h _ _ (near w hw).1 (near w hw).2 hv).2.1⟩)
  obtain ⟨b3, b4⟩ := wsum_bounds (R := Int) subWeights (fun w => (I (2 * i + w.1) (2 * j + w.2.1)).valid)
    (fun w => (I (2 * i + w.1) (2 * j + w.2.1)).dy) lo' hi'
    (fun w hw hv => ⟨(h _ _ (near w hw).1 (near w hw).2 hv).2.2.1, (h _ _ (near w hw).1 (near w hw).2 hv).2.2.2⟩)
  -- rounding towards zero is monotone
  have mono : ∀ (n : Nat) (a b : Int), 0 < n → (n : Int) * a ≤ b → Int.tdiv a 2 ≤ Int.tdiv b ((n * 2 : Nat) : Int) := by
    intro n a b hn hab
    have hn' : (0 : Int) < n := by exact_mod_cast hn
    rw [show Int.tdiv a 2 = Int.tdiv ((n : Int) * a) ((n : Int) * 2) from (Int.mul_tdiv_mul_of_pos a 2 hn').symm]
    push_cast
    exact Int.tdiv_le_tdiv (by omega) hab
  have mono' : ∀ (n : Nat) (a b : Int), 0 < n → b ≤ (n : Int) * a → Int.tdiv b ((n * 2 : Nat) : Int) ≤ Int.tdiv a 2 := by
    intro n a b hn hab
    have hn' : (0 : Int) < n := by exact_mod_cast hn
    rw [show Int.tdiv a 2 = Int.tdiv ((n : Int) * a) ((n : Int) * 2) from (Int.mul_tdiv_mul_of_pos a 2 hn').symm]
    push_cast
    exact Int.tdiv_le_tdiv (by omega) hab
  unfold subsample at hv ⊢
  simp only [subSums_eq] at hv ⊢
  by_cases hp : 0 < (subWeights.map (fun w => if (I (2 * i + w.1) (2 * j + w.2.1)).valid then w.2.2 else 0)).sum
  · rw [if_pos hp]
    exact ⟨mono _ _ _ hp b1, mono' _ _ _ hp b2, mono _ _ _ hp b3, mono' _ _ _ hp b4⟩
  · rw [if_neg hp] at hv; cases hv

/-- **C94.** Where the valid disparities around a pixel are all the same, its disparity is half of them. -/
theorem sub_constant (I : Img (Disp K)) (i j : Int) (a b : K)
    (h : ∀ x y : Int, |x - 2 * i| ≤ 1 → |y - 2 * j| ≤ 1 → (I x y).valid = true → (I x y).dx = a ∧ (I x y).dy = b)
    (hv : (subsample fdiv I i j).valid = true) :
    (subsample fdiv I i j).dx = a / 2 ∧ (subsample fdiv I i j).dy = b / 2 := by
  obtain ⟨h1, h2, h3, h4⟩ := sub_bounds I i j a a b b
    (fun x y hx hy hv => by obtain ⟨e, f⟩ := h x y hx hy hv; exact ⟨e.ge, e.le, f.ge, f.le⟩) hv
  exact ⟨le_antisymm h2 h1, le_antisymm h4 h3⟩

/-- **C94.** A tile of the halved map reads only pixels of the box that it asks its child for. -/
theorem subBox_covers (b : Box) (i j x y : Int) (hb : b.has i j) (hx : |x - 2 * i| ≤ 1) (hy : |y - 2 * j| ≤ 1) :
    (subBox b).has x y := by
  rw [abs_le] at hx hy
  obtain ⟨h1, h2, h3, h4⟩ := hb
  unfold subBox Box.has
  simp only
  omega

/-- **C94.** The size: half, rounded up; every pixel of the map is around one of the halved map; but an empty map gets a
size of one. -/
theorem subSize_spec : (∀ n : Int, 1 ≤ n → subSize n = (n + 1) / 2 ∧
      ∀ x, 0 ≤ x → x < n → ∃ i, 0 ≤ i ∧ i < subSize n ∧ |x - 2 * i| ≤ 1) ∧ subSize 0 = 1 := by
  refine ⟨fun n hn => ?_, by decide⟩
  have h : subSize n = (n + 1) / 2 := by
    unfold subSize
    rw [Int.tdiv_eq_ediv_of_nonneg (by omega)]
    omega
  refine ⟨h, fun x h0 h1 => ⟨x / 2, by omega, by omega, ?_⟩⟩
  rw [abs_le]; omega

/-- **C94.** Doubling: the disparity of a pixel is twice that of the pixel it lies in. -/
theorem up_spec {A : Type} [CommRing A] (I : Img (Disp A)) (x y : Int) (u v : Int) (hu : 0 ≤ u ∧ u ≤ 1) (hv : 0 ≤ v ∧ v ≤ 1) :
    upsample I (2 * x + u) (2 * y + v) = ⟨2 * (I x y).dx, 2 * (I x y).dy, (I x y).valid⟩ := by
  unfold upsample
  rw [show (2 * x + u) / 2 = x by omega, show (2 * y + v) / 2 = y by omega]
  simp only [mul_comm]

/-- **C94.** Doubling and halving again: each pixel of the result is a mean over the pixel and those left of it and above
it; so a map that is constant and valid there is given back. -/
theorem sub_up (I : Img (Disp K)) (i j : Int) (h : ∀ x y : Int, i - 1 ≤ x → x ≤ i → j - 1 ≤ y → y ≤ j → I x y = I i j)
    (hv : (I i j).valid = true) : subsample fdiv (upsample I) i j = I i j := by
  have hnear : ∀ x y : Int, |x - 2 * i| ≤ 1 → |y - 2 * j| ≤ 1 → upsample I x y = ⟨(I i j).dx * 2, (I i j).dy * 2, true⟩ := by
    intro x y hx hy
    rw [abs_le] at hx hy
    unfold upsample
    rw [h (x / 2) (y / 2) (by omega) (by omega) (by omega) (by omega)]
    simp only [hv]
  have hval : (subsample fdiv (upsample I) i j).valid = true := by
    rw [sub_valid]
    refine ⟨2 * i, 2 * j, by simp, by simp, ?_⟩
    rw [hnear _ _ (by simp) (by simp)]
  obtain ⟨h1, h2⟩ := sub_constant (upsample I) i j ((I i j).dx * 2) ((I i j).dy * 2)
    (fun x y hx hy _ => by rw [hnear x y hx hy]; exact ⟨rfl, rfl⟩) hval
  have e1 : (I i j).dx * 2 / 2 = (I i j).dx := by field_simp
  have e2 : (I i j).dy * 2 / 2 = (I i j).dy := by field_simp
  rw [e1] at h1
  rw [e2] at h2
  cases hs : subsample fdiv (upsample I) i j
  cases hI : I i j
  rw [hs] at h1 h2 hval
  rw [hI] at h1 h2 hv
  simp_all

/-- **C94, refuted part.** A tile of the doubled map asks its child for the box of the tile, not for half of it: what it
reads is in that box exactly for tiles that start at the origin. -/
theorem upBox_covers (b : Box) (hx : 0 ≤ b.x0) (hx' : b.x0 < b.x1) (hy : 0 ≤ b.y0) (hy' : b.y0 < b.y1) :
    (∀ i j, b.has i j → (upBox b).has (i / 2) (j / 2)) ↔ b.x0 = 0 ∧ b.y0 = 0 := by
  unfold upBox Box.has
  constructor
  · intro h
    have := h b.x0 b.y0 ⟨le_rfl, hx', le_rfl, hy'⟩
    omega
  · rintro ⟨h1, h2⟩ i j ⟨a, b', c, d⟩
    omega

/-- Cases: a map with a hole, whose pixel is still valid; all three conditions on it hold. -/
example : (subsample fdiv (fun x _ => ⟨(x : ℚ), 1, decide (x ≠ 4)⟩) 2 0).valid = true ∧
    (subsample idiv (fun x _ => ⟨x, -3, decide (x = 5)⟩) 2 0) = ⟨2, -1, true⟩ := by decide +kernel

end Verif.DMap
