import Verif.Surface.Normals
import Verif.VecUtil.Props
/-
C172: normals and shading; C173: filling of transparent pixels.
-/
namespace VW.Surface

open VW.VecUtil

/-- The pixel is in the image. -/
def Dem.has (d : Dem) (x y : Int) : Prop := 0 ≤ x ∧ x < d.cols ∧ 0 ≤ y ∧ y < d.rows

theorem cross_norm (u v b c : ℝ) (hu : u ≠ 0) (hv : v ≠ 0) : (V3.cross ⟨u, 0, b⟩ ⟨0, v, c⟩).norm ≠ 0 := by
  refine norm_ne (Or.inr (Or.inr ?_))
  simp [V3.cross, hu, hv]

/-- **C172 (normals)**: for all scales other than 0, the normal is never a division by 0; it is invalid exactly if the pixel,
its right or its lower neighbour is; and else it is a unit vector at right angles to the steps to both neighbours, with the
third component of the sign of the product of the scales. -/
theorem normal_spec (d : Dem) (u v : ℝ) (hu : u ≠ 0) (hv : v ≠ 0) (x y : Int) :
    (normalAt d u v x y = .invalid ↔ d.ext x y = none ∨ d.ext (x + 1) y = none ∨ d.ext x (y + 1) = none) ∧
    normalAt d u v x y ≠ .nan ∧
    ∀ a1 a2 a3, d.ext x y = some a1 → d.ext (x + 1) y = some a2 → d.ext x (y + 1) = some a3 →
      ∃ n, normalAt d u v x y = .vec n ∧ dot n n = 1 ∧ dot n ⟨u, 0, a2 - a1⟩ = 0 ∧ dot n ⟨0, v, a3 - a1⟩ = 0 ∧
        0 < n.z * (u * v) := by
  unfold normalAt
  rw [show x + 1 - 1 = x by omega]
  cases h1 : d.ext x y with
  | none => exact ⟨by simp, by simp, by simp⟩
  | some a1 =>
    cases h2 : d.ext (x + 1) y with
    | none => exact ⟨by simp, by simp, by simp⟩
    | some a2 =>
      cases h3 : d.ext x (y + 1) with
      | none => exact ⟨by simp, by simp, by simp⟩
      | some a3 =>
        have hn := cross_norm u v (a2 - a1) (a3 - a1) hu hv
        dsimp only
        unfold normalize
        rw [if_neg hn]
        refine ⟨by simp, by simp, ?_⟩
        intro b1 b2 b3 e1 e2 e3
        obtain rfl := Option.some.inj e1
        obtain rfl := Option.some.inj e2
        obtain rfl := Option.some.inj e3
        refine ⟨_, rfl, unit_over hn, ?_, ?_, ?_⟩
        · simp only [dot, V3.over, V3.cross]; field_simp; ring
        · simp only [dot, V3.over, V3.cross]; field_simp; ring
        · have hp := lt_of_le_of_ne (norm_nonneg (V3.cross ⟨u, 0, a2 - a1⟩ ⟨0, v, a3 - a1⟩)) (Ne.symm hn)
          have e : (V3.over (V3.cross ⟨u, 0, a2 - a1⟩ ⟨0, v, a3 - a1⟩)
              (V3.cross ⟨u, 0, a2 - a1⟩ ⟨0, v, a3 - a1⟩).norm).z * (u * v) =
              (u * v) ^ 2 / (V3.cross ⟨u, 0, a2 - a1⟩ ⟨0, v, a3 - a1⟩).norm := by
            simp only [V3.over, V3.cross]; ring
          rw [e]
          exact div_pos (by positivity) hp

/-- **C172 (planes)**: on a plane of slopes b and c, the normal is along (-b, -c, 1) at every pixel that has both neighbours;
it points up if the scales have the same sign and down if not (as for maps with north up). -/
theorem plane_normal (cols rows : Int) (a b c u v : ℝ) (hu : u ≠ 0) (hv : v ≠ 0) (x y : Int) (hx : 0 ≤ x ∧ x + 1 < cols)
    (hy : 0 ≤ y ∧ y + 1 < rows) :
    ∃ n k, normalAt ⟨cols, rows, fun x y => some (a + b * (u * x) + c * (v * y))⟩ u v x y = .vec n ∧
      n = V3.times ⟨-b, -c, 1⟩ k ∧ 0 < k * (u * v) := by
  have c1 : clampTo cols x = x := by unfold clampTo; rw [if_neg (by omega), if_neg (by omega)]
  have c2 : clampTo cols (x + 1) = x + 1 := by unfold clampTo; rw [if_neg (by omega), if_neg (by omega)]
  have c3 : clampTo rows y = y := by unfold clampTo; rw [if_neg (by omega), if_neg (by omega)]
  have c4 : clampTo rows (y + 1) = y + 1 := by unfold clampTo; rw [if_neg (by omega), if_neg (by omega)]
  obtain ⟨_, _, h⟩ := normal_spec ⟨cols, rows, fun x y => some (a + b * (u * x) + c * (v * y))⟩ u v hu hv x y
  obtain ⟨n, hn, _, p1, p2, p3⟩ := h (a + b * (u * x) + c * (v * y)) (a + b * (u * (x + 1)) + c * (v * y))
    (a + b * (u * x) + c * (v * (y + 1))) (by simp [Dem.ext, c1, c3]) (by simp [Dem.ext, c2, c3]) (by simp [Dem.ext, c1, c4])
  refine ⟨n, n.z, hn, ?_, p3⟩
  simp only [dot] at p1 p2
  have q1 : u * (n.x + n.z * b) = 0 := by linarith
  have q2 : v * (n.y + n.z * c) = 0 := by linarith
  have r1 := (mul_eq_zero.mp q1).resolve_left hu
  have r2 := (mul_eq_zero.mp q2).resolve_left hv
  ext <;> simp only [V3.times] <;> linarith

/-- **C172 (border)**: in the last column and row the missing neighbour counts as equally high: there is no slope across it. -/
theorem border_flat (d : Dem) (u v : ℝ) (hu : u ≠ 0) (hv : v ≠ 0) (x y : Int) (h : d.has x y) (n : V3)
    (hn : normalAt d u v x y = .vec n) : (x = d.cols - 1 → n.x = 0) ∧ (y = d.rows - 1 → n.y = 0) := by
  unfold Dem.has at h
  obtain ⟨hi, _, hs⟩ := normal_spec d u v hu hv x y
  have hni : ¬ (d.ext x y = none ∨ d.ext (x + 1) y = none ∨ d.ext x (y + 1) = none) := by
    rw [← hi, hn]; simp
  obtain ⟨a1, e1⟩ := Option.ne_none_iff_exists'.mp (fun e => hni (Or.inl e))
  obtain ⟨a2, e2⟩ := Option.ne_none_iff_exists'.mp (fun e => hni (Or.inr (Or.inl e)))
  obtain ⟨a3, e3⟩ := Option.ne_none_iff_exists'.mp (fun e => hni (Or.inr (Or.inr e)))
  obtain ⟨n', e, _, p1, p2, _⟩ := hs a1 a2 a3 e1 e2 e3
  rw [hn] at e
  obtain rfl := Normal.vec.inj e
  simp only [dot] at p1 p2
  constructor
  · intro hx
    have : d.ext (x + 1) y = d.ext x y := by
      have e : clampTo d.cols (x + 1) = clampTo d.cols x := by
        unfold clampTo
        rw [if_neg (c := x + 1 < 0) (by omega), if_pos (c := d.cols - 1 < x + 1) (by omega), if_neg (c := x < 0) (by omega),
          if_neg (c := d.cols - 1 < x) (by omega), hx]
      unfold Dem.ext; rw [e]
    rw [this, e1] at e2
    have := Option.some.inj e2
    have q : u * n.x = 0 := by rw [this] at p1; linarith
    exact (mul_eq_zero.mp q).resolve_left hu
  · intro hy
    have : d.ext x (y + 1) = d.ext x y := by
      have e : clampTo d.rows (y + 1) = clampTo d.rows y := by
        unfold clampTo
        rw [if_neg (c := y + 1 < 0) (by omega), if_pos (c := d.rows - 1 < y + 1) (by omega), if_neg (c := y < 0) (by omega),
          if_neg (c := d.rows - 1 < y) (by omega), hy]
      unfold Dem.ext; rw [e]
    rw [this, e1] at e3
    have := Option.some.inj e3
    have q : v * n.y = 0 := by rw [this] at p2; linarith
    exact (mul_eq_zero.mp q).resolve_left hv

/-- **C172 (shading)**: the shade of a unit normal is between -1 and 1, 1 exactly if the normal points at the light, and does
not depend on the length of the light vector. -/
theorem shade_spec (light n : V3) (hl : light.norm ≠ 0) (hn : dot n n = 1) :
    -1 ≤ shade light n ∧ shade light n ≤ 1 ∧ (shade light n = 1 ↔ n = light.over light.norm) ∧
    ∀ k : ℝ, 0 < k → shade (light.times k) n = shade light n := by
  have hu := unit_over hl
  have es : shade light n = dot n (light.over light.norm) := rfl
  generalize hL : light.over light.norm = l at *
  simp only [dot] at hu hn es
  have sq1 : (n.x - l.x) ^ 2 + (n.y - l.y) ^ 2 + (n.z - l.z) ^ 2 = 2 - 2 * shade light n := by rw [es]; linarith
  have sq2 : (n.x + l.x) ^ 2 + (n.y + l.y) ^ 2 + (n.z + l.z) ^ 2 = 2 + 2 * shade light n := by rw [es]; linarith
  refine ⟨by nlinarith [sq_nonneg (n.x + l.x), sq_nonneg (n.y + l.y), sq_nonneg (n.z + l.z)],
    by nlinarith [sq_nonneg (n.x - l.x), sq_nonneg (n.y - l.y), sq_nonneg (n.z - l.z)], ?_, ?_⟩
  · constructor
    · intro h
      rw [h] at sq1
      have a := sq_nonneg (n.x - l.x)
      have b := sq_nonneg (n.y - l.y)
      have c := sq_nonneg (n.z - l.z)
      have a0 : (n.x - l.x) ^ 2 = 0 := by linarith
      have b0 : (n.y - l.y) ^ 2 = 0 := by linarith
      have c0 : (n.z - l.z) ^ 2 = 0 := by linarith
      ext
      · have := pow_eq_zero_iff (two_ne_zero) |>.mp a0; linarith
      · have := pow_eq_zero_iff (two_ne_zero) |>.mp b0; linarith
      · have := pow_eq_zero_iff (two_ne_zero) |>.mp c0; linarith
    · intro h
      rw [es, h]; exact hu
  · intro k hk
    have e : (light.times k).norm = k * light.norm := by
      unfold V3.norm V3.times
      dsimp only
      rw [show light.x * k * (light.x * k) + light.y * k * (light.y * k) + light.z * k * (light.z * k) =
        k ^ 2 * (light.x * light.x + light.y * light.y + light.z * light.z) by ring, Real.sqrt_mul (sq_nonneg k),
        Real.sqrt_sq hk.le]
    have e2 : (light.times k).over (light.times k).norm = light.over light.norm := by
      rw [e]
      ext <;> simp only [V3.over, V3.times] <;> field_simp
    unfold shade
    rw [e2]

/-- The hypotheses are met: a slope, lit from above. -/
example : ∃ n, normalAt ⟨4, 4, fun x y => some (5 + 2 * (1 * x) + 0 * (-1 * y))⟩ 1 (-1) 1 1 = .vec n ∧ dot n n = 1 := by
  obtain ⟨_, _, h⟩ := normal_spec ⟨4, 4, fun x y => some (5 + 2 * (1 * x) + 0 * (-1 * y))⟩ 1 (-1) (by norm_num) (by norm_num) 1 1
  obtain ⟨n, h1, h2, _⟩ := h _ _ _ rfl rfl rfl
  exact ⟨n, h1, h2⟩

example : (⟨0, 0, 2⟩ : V3).norm ≠ 0 := norm_ne (Or.inr (Or.inr (by norm_num)))

/-- The eight neighbours of a pixel. -/
def around (x y : Int) : List (Int × Int) :=
  [(x - 1, y - 1), (x, y - 1), (x + 1, y - 1), (x - 1, y), (x + 1, y), (x - 1, y + 1), (x, y + 1), (x + 1, y + 1)]

/-- The alphas of the neighbours, and their colours weighted with them. -/
noncomputable def alphaSum (m : AImg) (x y : Int) : ℝ := ((around x y).map fun q => (m.ext q.1 q.2).alpha).sum
noncomputable def colSum (m : AImg) (x y : Int) : ℝ :=
  ((around x y).map fun q => (m.ext q.1 q.2).col * (m.ext q.1 q.2).alpha).sum

theorem moves_sum (get : Int → Int → APx) (x y : Int) :
    (moves.foldl (accStep get) ⟨x, y, 0, 0⟩).sum = ((around x y).map fun q => (get q.1 q.2).col * (get q.1 q.2).alpha).sum ∧
    (moves.foldl (accStep get) ⟨x, y, 0, 0⟩).weight = ((around x y).map fun q => (get q.1 q.2).alpha).sum := by
  simp only [moves, List.foldl_cons, List.foldl_nil, accStep, around, List.map_cons, List.map_nil, List.sum_cons, List.sum_nil,
    add_zero]
  rw [show x + 1 + -1 = x by omega, show x + -1 = x - 1 by omega, show x - 1 + 1 = x by omega,
    show y + 1 + -1 = y by omega, show y + -1 = y - 1 by omega]
  constructor <;> ring

/-- **C173 (mean of the neighbours)**: a pixel that is not transparent stays; a transparent one gets the mean of its eight
neighbours weighted with their alphas (at the border the nearest pixels of the image count again), or 0 if all are
transparent; it stays transparent. -/
theorem meanFill_spec (m : AImg) (x y : Int) (h : 0 ≤ x ∧ x < m.cols ∧ 0 ≤ y ∧ y < m.rows) :
    ((m.px x y).alpha ≠ 0 → meanFill m x y = m.px x y) ∧
    ((m.px x y).alpha = 0 → (meanFill m x y).alpha = 0 ∧
      (alphaSum m x y ≤ 0 → (meanFill m x y).col = 0) ∧
      (0 < alphaSum m x y → (meanFill m x y).col = colSum m x y / alphaSum m x y)) := by
  unfold meanFill
  constructor
  · intro h0; rw [if_neg h0]
  · intro h0
    rw [if_pos h0]
    have same : x > 1 ∧ y > 1 ∧ x + 1 < m.cols ∧ y + 1 < m.rows → accumulateMean m.px x y = accumulateMean m.ext x y := by
      intro hi
      have e : ∀ a b : Int, x - 1 ≤ a → a ≤ x + 1 → y - 1 ≤ b → b ≤ y + 1 → m.ext a b = m.px a b := by
        intro a b h1 h2 h3 h4
        unfold AImg.ext clampTo
        rw [if_neg (c := a < 0) (by omega), if_neg (c := m.cols - 1 < a) (by omega), if_neg (c := b < 0) (by omega),
          if_neg (c := m.rows - 1 < b) (by omega)]
      unfold accumulateMean
      dsimp only
      rw [(moves_sum m.px x y).1, (moves_sum m.px x y).2, (moves_sum m.ext x y).1, (moves_sum m.ext x y).2]
      have e1 : ((around x y).map fun q => (m.px q.1 q.2).alpha) = (around x y).map fun q => (m.ext q.1 q.2).alpha := by
        refine List.map_congr_left fun q hq => ?_
        unfold around at hq
        rw [e]
        all_goals
          simp only [List.mem_cons, List.not_mem_nil, or_false] at hq
          rcases hq with rfl | rfl | rfl | rfl | rfl | rfl | rfl | rfl <;> dsimp only <;> omega
      have e2 : ((around x y).map fun q => (m.px q.1 q.2).col * (m.px q.1 q.2).alpha) =
          (around x y).map fun q => (m.ext q.1 q.2).col * (m.ext q.1 q.2).alpha := by
        refine List.map_congr_left fun q hq => ?_
        unfold around at hq
        rw [e]
        all_goals
          simp only [List.mem_cons, List.not_mem_nil, or_false] at hq
          rcases hq with rfl | rfl | rfl | rfl | rfl | rfl | rfl | rfl <;> dsimp only <;> omega
      rw [e1, e2]
    have hext : (if x > 1 ∧ y > 1 ∧ x + 1 < m.cols ∧ y + 1 < m.rows then accumulateMean m.px x y
        else accumulateMean m.ext x y) = accumulateMean m.ext x y := by
      by_cases hi : x > 1 ∧ y > 1 ∧ x + 1 < m.cols ∧ y + 1 < m.rows
      · rw [if_pos hi, same hi]
      · rw [if_neg hi]
    rw [hext]
    unfold accumulateMean
    dsimp only
    rw [(moves_sum m.ext x y).1, (moves_sum m.ext x y).2]
    change (if alphaSum m x y ≤ 0 then (⟨0, 0⟩ : APx) else ⟨colSum m x y / alphaSum m x y, 0⟩).alpha = 0 ∧
      (alphaSum m x y ≤ 0 → (if alphaSum m x y ≤ 0 then (⟨0, 0⟩ : APx) else ⟨colSum m x y / alphaSum m x y, 0⟩).col = 0) ∧
      (0 < alphaSum m x y → (if alphaSum m x y ≤ 0 then (⟨0, 0⟩ : APx) else ⟨colSum m x y / alphaSum m x y, 0⟩).col =
        colSum m x y / alphaSum m x y)
    by_cases hw : alphaSum m x y ≤ 0
    · rw [if_pos hw]; exact ⟨rfl, fun _ => rfl, fun h => absurd hw (not_le.mpr h)⟩
    · rw [if_neg hw]; exact ⟨rfl, fun h => absurd h hw, fun _ => rfl⟩

/-- **C173 (bounds)**: the new colour is between the least and the greatest colour of the neighbours that are not
transparent. -/
theorem meanFill_bounds (m : AImg) (x y : Int) (h : 0 ≤ x ∧ x < m.cols ∧ 0 ≤ y ∧ y < m.rows) (ha : ∀ a b, 0 ≤ (m.px a b).alpha)
    (h0 : (m.px x y).alpha = 0) (hpos : 0 < alphaSum m x y) (lo hi : ℝ)
    (hb : ∀ q ∈ around x y, 0 < (m.ext q.1 q.2).alpha → lo ≤ (m.ext q.1 q.2).col ∧ (m.ext q.1 q.2).col ≤ hi) :
    lo ≤ (meanFill m x y).col ∧ (meanFill m x y).col ≤ hi := by
  rw [((meanFill_spec m x y h).2 h0).2.2 hpos]
  have key : ∀ l : List (Int × Int), (∀ q ∈ l, 0 < (m.ext q.1 q.2).alpha → lo ≤ (m.ext q.1 q.2).col ∧ (m.ext q.1 q.2).col ≤ hi) →
      lo * (l.map fun q => (m.ext q.1 q.2).alpha).sum ≤ (l.map fun q => (m.ext q.1 q.2).col * (m.ext q.1 q.2).alpha).sum ∧
      (l.map fun q => (m.ext q.1 q.2).col * (m.ext q.1 q.2).alpha).sum ≤ hi * (l.map fun q => (m.ext q.1 q.2).alpha).sum := by
    intro l
    induction l with
    | nil => intro _; simp
    | cons q l ih =>
      intro hl
      obtain ⟨i1, i2⟩ := ih (fun r hr => hl r (List.mem_cons_of_mem _ hr))
      have hq := hl q List.mem_cons_self
      have hq0 : 0 ≤ (m.ext q.1 q.2).alpha := ha _ _
      simp only [List.map_cons, List.sum_cons, mul_add]
      rcases eq_or_lt_of_le hq0 with e | e
      · rw [← e]; simp only [mul_zero, zero_add]; exact ⟨i1, i2⟩
      · obtain ⟨j1, j2⟩ := hq e
        exact ⟨add_le_add (mul_le_mul_of_nonneg_right j1 hq0) i1, add_le_add (mul_le_mul_of_nonneg_right j2 hq0) i2⟩
  obtain ⟨k1, k2⟩ := key _ hb
  exact ⟨(le_div_iff₀ hpos).mpr k1, (div_le_iff₀ hpos).mpr k2⟩

/-- The hypotheses are met: a transparent corner beside one opaque pixel. -/
example : ∃ m : AImg, (m.px 0 0).alpha = 0 ∧ 0 < alphaSum m 0 0 ∧ 0 ≤ (0 : Int) ∧ (0 : Int) < m.cols ∧ (0 : Int) < m.rows := by
  refine ⟨⟨2, 2, fun x y => if x = 1 ∧ y = 1 then ⟨7, 1⟩ else ⟨0, 0⟩⟩, by simp, ?_, by decide, by decide, by decide⟩
  simp [alphaSum, around, AImg.ext, clampTo]

end VW.Surface
