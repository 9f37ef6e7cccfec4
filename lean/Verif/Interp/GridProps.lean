import Verif.Interp.PoseProps

/-
C109: directions on a grid.
-/

namespace Verif.Camera.Interp

open Verif.Camera

/-- A table with `n` rows of `m` directions. -/
def Rect (d : List (List (V3 ℝ))) (n m : Nat) : Prop := d.length = n ∧ ∀ r ∈ d, r.length = m

/-- Its element. -/
def el (d : List (List (V3 ℝ))) (i j : Nat) : V3 ℝ := (d.getD i []).getD j 0

theorem cell_el (d : List (List (V3 ℝ))) (n m : Nat) (h : Rect d n m) (i j : Nat) (hi : i < n) (hj : j < m) : cell d (i : Int) (j : Int) = some (el d i j) := by
  unfold cell el
  rw [if_pos ⟨Int.natCast_nonneg _, Int.natCast_nonneg _⟩, Int.toNat_natCast, Int.toNat_natCast]
  have hi' : i < d.length := by rw [h.1]; exact hi
  have hr : d[i].length = m := h.2 _ (List.getElem_mem hi')
  rw [List.getElem?_eq_getElem hi', Option.bind_some, List.getElem?_eq_getElem (by rw [hr]; exact hj), List.getD_eq_getElem _ _ hi',
    List.getD_eq_getElem _ _ (by rw [hr]; exact hj)]

theorem cell_none (d : List (List (V3 ℝ))) (n m : Nat) (h : Rect d n m) (i j : Int) (hj : (m : Int) ≤ j ∨ j < 0) : cell d i j = none := by
  unfold cell
  by_cases c : 0 ≤ i ∧ 0 ≤ j
  · rw [if_pos c]
    cases hx : d[i.toNat]? with
    | none => rfl
    | some r =>
      have hr := h.2 r (List.mem_of_getElem? hx)
      rw [Option.bind_some, List.getElem?_eq_none_iff, hr]
      omega
  · rw [if_neg c]

/-- Floor and ceil around a coordinate of a half-open step: the ceil is the next index, or the coordinate is that of the index. -/
theorem around (x0 dx x : ℝ) (hd : 0 < dx) (i : Nat) (h1 : knot x0 dx i ≤ x) (h2 : x < knot x0 dx (i + 1)) :
    ⌊(x - x0) / dx⌋ = (i : Int) ∧ (⌈(x - x0) / dx⌉ = (i : Int) + 1 ∨ (⌈(x - x0) / dx⌉ = (i : Int) ∧ x = knot x0 dx i)) := by
  refine ⟨floor_knot x0 dx x hd i h1 h2, ?_⟩
  rcases eq_or_lt_of_le h1 with h | h
  · right
    exact ⟨by rw [← h, ratio_knot x0 dx hd, Int.ceil_intCast], h.symm⟩
  · left
    exact ceil_knot x0 dx x hd i h h2.le

/-- The grid within its columns, in terms of the indices found. -/
theorem grid_of (eps : ℝ) (d : List (List (V3 ℝ))) (n m : Nat) (hR : Rect d n m) (hn : 0 < n) (hm : 0 < m) (row0 drow col0 dcol row col : ℝ)
    (hr : row0 ≤ row ∧ row ≤ knot row0 drow (n - 1)) (hc : col0 ≤ col ∧ col ≤ knot col0 dcol (m - 1)) (a b p q : Nat)
    (h1 : ⌊(row - row0) / drow⌋ = (a : Int)) (h2 : ⌈(row - row0) / drow⌉ = (b : Int)) (h3 : ⌊(col - col0) / dcol⌋ = (p : Int))
    (h4 : ⌈(col - col0) / dcol⌉ = (q : Int)) (ha : a < n) (hb : b < n) (hp : p < m) (hq : q < m) :
    grid eps d row0 drow col0 dcol row col = .ok (slerp eps ((col - knot col0 dcol p) / dcol)
      (slerp eps ((row - knot row0 drow a) / drow) (pure' (el d a p)) (pure' (el d b p)) 0)
      (slerp eps ((row - knot row0 drow a) / drow) (pure' (el d a q)) (pure' (el d b q)) 0) 0).imag := by
  have hh : (d.headD []).length = m := by
    cases d with
    | nil => have := hR.1; simp at this; omega
    | cons r d => exact hR.2 r (by simp)
  have e1 : row0 + drow * ((d.length - 1 : Nat) : ℝ) = knot row0 drow (n - 1) := by rw [hR.1]; rfl
  have e2 : col0 + dcol * (((d.headD []).length - 1 : Nat) : ℝ) = knot col0 dcol (m - 1) := by rw [hh]; rfl
  unfold grid
  simp only
  rw [e1, e2, if_neg (by rw [hh, hR.1]; omega), if_neg (not_not.2 hr), h1, h2, if_neg (not_not.2 ⟨Int.natCast_nonneg a, by rw [hR.1]; omega⟩),
    if_neg (not_lt.2 hc.1), if_neg (not_lt.2 hc.2), if_neg (not_lt.2 hc.1), if_neg (not_lt.2 hc.2), h3, h4,
    cell_el d n m hR a p ha hp, cell_el d n m hR b p hb hp, cell_el d n m hR a q ha hq, cell_el d n m hR b q hb hq]
  simp only
  rw [if_pos hc, knot_int, knot_int]
  rfl

/-- **C109.** Inside a table of directions, for positive steps: interpolation along the rows, then along the columns, between
the four directions around the pixel. -/
theorem grid_in (eps : ℝ) (heps : 0 < eps) (d : List (List (V3 ℝ))) (n m : Nat) (hR : Rect d n m) (row0 drow col0 dcol row col : ℝ) (hdr : 0 < drow)
    (hdc : 0 < dcol) (i j : Nat) (hi : i + 1 < n) (hj : j + 1 < m) (r1 : knot row0 drow i ≤ row) (r2 : row < knot row0 drow (i + 1))
    (c1 : knot col0 dcol j ≤ col) (c2 : col < knot col0 dcol (j + 1)) :
    grid eps d row0 drow col0 dcol row col = .ok (slerp eps ((col - knot col0 dcol j) / dcol)
      (slerp eps ((row - knot row0 drow i) / drow) (pure' (el d i j)) (pure' (el d (i + 1) j)) 0)
      (slerp eps ((row - knot row0 drow i) / drow) (pure' (el d i (j + 1))) (pure' (el d (i + 1) (j + 1))) 0) 0).imag := by
  obtain ⟨f1, f2⟩ := around row0 drow row hdr i r1 r2
  obtain ⟨g1, g2⟩ := around col0 dcol col hdc j c1 c2
  have k0 : knot row0 drow 0 = row0 := by simp [knot]
  have k0' : knot col0 dcol 0 = col0 := by simp [knot]
  have hr : row0 ≤ row ∧ row ≤ knot row0 drow (n - 1) :=
    ⟨by have := knot_mono row0 drow hdr 0 i (by omega); linarith, by have := knot_mono row0 drow hdr (i + 1) (n - 1) (by omega); linarith⟩
  have hc : col0 ≤ col ∧ col ≤ knot col0 dcol (m - 1) :=
    ⟨by have := knot_mono col0 dcol hdc 0 j (by omega); linarith, by have := knot_mono col0 dcol hdc (j + 1) (m - 1) (by omega); linarith⟩
  have z : ∀ a b c : Quat ℝ, slerp eps 0 a b 0 = slerp eps 0 a c 0 := by
    intro a b c; rw [(slerp_ends eps heps a b 0).1, (slerp_ends eps heps a c 0).1]
  rcases f2 with f2 | ⟨f2, f3⟩ <;> rcases g2 with g2 | ⟨g2, g3⟩
  · exact grid_of eps d n m hR (by omega) (by omega) row0 drow col0 dcol row col hr hc i (i + 1) j (j + 1) f1 (by push_cast; exact f2) g1
      (by push_cast; exact g2) (by omega) hi (by omega) hj
  · rw [grid_of eps d n m hR (by omega) (by omega) row0 drow col0 dcol row col hr hc i (i + 1) j j f1 (by push_cast; exact f2) g1 g2 (by omega) hi (by omega) (by omega)]
    rw [g3, sub_self, zero_div]
    congr 2
    exact z _ _ _
  · rw [grid_of eps d n m hR (by omega) (by omega) row0 drow col0 dcol row col hr hc i i j (j + 1) f1 f2 g1 (by push_cast; exact g2) (by omega) (by omega) (by omega) hj]
    rw [f3, sub_self, zero_div, z (pure' (el d i j)) _ (pure' (el d (i + 1) j)), z (pure' (el d i (j + 1))) _ (pure' (el d (i + 1) (j + 1)))]
  · rw [grid_of eps d n m hR (by omega) (by omega) row0 drow col0 dcol row col hr hc i i j j f1 f2 g1 g2 (by omega) (by omega) (by omega) (by omega)]
    rw [g3, sub_self, zero_div, f3, sub_self, zero_div]
    rw [(slerp_ends eps heps _ _ 0).1, (slerp_ends eps heps _ _ 0).1, (slerp_ends eps heps _ _ 0).1, (slerp_ends eps heps _ _ 0).1]

/-- **C109.** At the points of the grid, also the last, the direction itself; rows outside the table are an error. -/
theorem grid_node (eps : ℝ) (heps : 0 < eps) (d : List (List (V3 ℝ))) (n m : Nat) (hR : Rect d n m) (row0 drow col0 dcol : ℝ) (hdr : 0 < drow)
    (hdc : 0 < dcol) :
    (∀ i j, i < n → j < m → grid eps d row0 drow col0 dcol (knot row0 drow i) (knot col0 dcol j) = .ok (el d i j)) ∧
    (∀ row col, row < row0 ∨ knot row0 drow (n - 1) < row → grid eps d row0 drow col0 dcol row col = .err) := by
  constructor
  · intro i j hi hj
    have k0 : knot row0 drow 0 = row0 := by simp [knot]
    have k0' : knot col0 dcol 0 = col0 := by simp [knot]
    have r1 := knot_mono row0 drow hdr 0 i (by omega)
    have r2 := knot_mono row0 drow hdr i (n - 1) (by omega)
    have c1 := knot_mono col0 dcol hdc 0 j (by omega)
    have c2 := knot_mono col0 dcol hdc j (m - 1) (by omega)
    rw [k0] at r1
    rw [k0'] at c1
    rw [grid_of eps d n m hR (by omega) (by omega) row0 drow col0 dcol _ _ ⟨r1, r2⟩ ⟨c1, c2⟩ i i j j (by rw [ratio_knot row0 drow hdr, Int.floor_intCast])
      (by rw [ratio_knot row0 drow hdr, Int.ceil_intCast]) (by rw [ratio_knot col0 dcol hdc, Int.floor_intCast])
      (by rw [ratio_knot col0 dcol hdc, Int.ceil_intCast]) hi hi hj hj]
    rw [sub_self, zero_div, sub_self, zero_div, (slerp_ends eps heps _ _ 0).1, (slerp_ends eps heps _ _ 0).1]
    rfl
  · intro row col h
    unfold grid
    simp only
    by_cases c : d.length = 0 ∨ (d.headD []).length = 0
    · rw [if_pos c]
    · rw [if_neg c, if_pos]
      rintro ⟨a, b⟩
      rcases h with h | h
      · linarith
      · have : knot row0 drow (n - 1) = row0 + drow * ((d.length - 1 : Nat) : ℝ) := by rw [hR.1]; rfl
        linarith

/-- Non-vacuity. -/
example : Rect [[⟨0, 0, 1⟩, ⟨0, 1, 0⟩], [⟨1, 0, 0⟩, ⟨0, 0, 1⟩]] 2 2 ∧
    grid (1 / 100) [[⟨0, 0, 1⟩, ⟨0, 1, 0⟩], [⟨1, 0, 0⟩, ⟨0, 0, 1⟩]] 0 5 10 20 5 10 = .ok ⟨1, 0, 0⟩ := by
  have hR : Rect [[⟨0, 0, 1⟩, ⟨0, 1, 0⟩], [⟨1, 0, 0⟩, ⟨0, 0, 1⟩]] 2 2 := ⟨rfl, by simp⟩
  refine ⟨hR, ?_⟩
  have := (grid_node (1 / 100) (by norm_num) _ 2 2 hR 0 5 10 20 (by norm_num) (by norm_num)).1 1 0 (by norm_num) (by norm_num)
  norm_num [knot, el] at this
  exact this

/-- The grid before its columns, at the first row. -/
theorem grid_left (eps : ℝ) (heps : 0 < eps) (d : List (List (V3 ℝ))) (n m : Nat) (hR : Rect d n m) (hn : 0 < n) (hm : 2 ≤ m) (row0 drow col0 dcol col : ℝ)
    (hdr : 0 < drow) (hdc : 0 < dcol) (hc : col < col0) :
    grid eps d row0 drow col0 dcol row0 col = .ok ((1 - (col - col0) / (dcol * ((m - 1 : Nat) : ℝ))) * el d 0 0 + ((col - col0) / (dcol * ((m - 1 : Nat) : ℝ))) * el d 0 1) := by
  have hh : (d.headD []).length = m := by
    cases d with
    | nil => have := hR.1; simp at this; omega
    | cons r d => exact hR.2 r (by simp)
  unfold grid
  simp only
  have hle : row0 ≤ row0 + drow * ((d.length - 1 : Nat) : ℝ) := by
    have : (0 : ℝ) ≤ ((d.length - 1 : Nat) : ℝ) := Nat.cast_nonneg _
    nlinarith
  rw [if_neg (by rw [hh, hR.1]; omega), if_neg (not_not.2 ⟨le_rfl, hle⟩), sub_self, zero_div, Int.floor_zero, Int.ceil_zero,
    if_neg (not_not.2 ⟨le_rfl, by rw [hR.1]; omega⟩), if_pos hc, if_pos hc]
  have e1 := cell_el d n m hR 0 0 hn (by omega)
  have e2 := cell_el d n m hR 0 1 hn (by omega)
  simp only [Nat.cast_zero, Nat.cast_one] at e1 e2
  rw [e1, e2]
  simp only
  rw [if_neg (by rintro ⟨a, _⟩; linarith), hh]
  have z : (row0 - (row0 + drow * ((0 : Int) : ℝ))) / drow = 0 := by push_cast; simp
  rw [z, (slerp_ends eps heps _ _ 0).1, (slerp_ends eps heps _ _ 0).1]
  congr 1
  ext <;> simp [pure']

/-- **C109.** With two columns, before the first the directions go on in a straight line. -/
theorem grid_left_two (eps : ℝ) (heps : 0 < eps) (d : List (List (V3 ℝ))) (n : Nat) (hR : Rect d n 2) (hn : 0 < n) (row0 drow col0 dcol col : ℝ)
    (hdr : 0 < drow) (hdc : 0 < dcol) (hc : col < col0) :
    grid eps d row0 drow col0 dcol row0 col = .ok (el d 0 0 + ((col - col0) / dcol) * (el d 0 1 - el d 0 0)) := by
  rw [grid_left eps heps d n 2 hR hn le_rfl row0 drow col0 dcol col hdr hdc hc]
  congr 1
  ext <;> simp <;> ring

/-- **C109, refuted part.** With more columns they do not: one column before a table of three, the change is half of that
between the first two columns. -/
theorem grid_left_slope (eps : ℝ) (heps : 0 < eps) : ∃ d : List (List (V3 ℝ)), Rect d 1 3 ∧ (∀ j, j < 3 → el d 0 j = ⟨(j : ℝ), 0, 1⟩) ∧
    grid eps d 0 1 0 1 0 (-1) = .ok ⟨-(1 / 2), 0, 1⟩ := by
  have hR : Rect [[⟨0, 0, 1⟩, ⟨1, 0, 1⟩, ⟨2, 0, 1⟩]] 1 3 := ⟨rfl, by simp⟩
  refine ⟨[[⟨0, 0, 1⟩, ⟨1, 0, 1⟩, ⟨2, 0, 1⟩]], hR, ?_, ?_⟩
  · intro j hj
    have : j = 0 ∨ j = 1 ∨ j = 2 := by omega
    rcases this with rfl | rfl | rfl <;> simp [el]
  · rw [grid_left eps heps _ 1 3 hR (by norm_num) (by norm_num) 0 1 0 1 (-1) one_pos one_pos (by norm_num)]
    congr 1
    ext <;> simp [el] <;> norm_num

/-- **C109, refuted part.** After the last column the coordinate of the last column is used as an index: an element that is
not there is read, for every table whose last column has a coordinate of more than the number of columns. -/
theorem grid_right_outside (eps : ℝ) (d : List (List (V3 ℝ))) (n m : Nat) (hR : Rect d n m) (hn : 0 < n) (hm : 0 < m) (row0 drow col0 dcol col : ℝ)
    (hdr : 0 < drow) (hlast : (m : ℝ) + 1 ≤ knot col0 dcol (m - 1)) (h0 : col0 ≤ col) (hc : knot col0 dcol (m - 1) < col) :
    grid eps d row0 drow col0 dcol row0 col = .outside := by
  have hh : (d.headD []).length = m := by
    cases d with
    | nil => have := hR.1; simp at this; omega
    | cons r d => exact hR.2 r (by simp)
  have e2 : col0 + dcol * (((d.headD []).length - 1 : Nat) : ℝ) = knot col0 dcol (m - 1) := by rw [hh]; rfl
  unfold grid
  simp only
  have hle : row0 ≤ row0 + drow * ((d.length - 1 : Nat) : ℝ) := by
    have : (0 : ℝ) ≤ ((d.length - 1 : Nat) : ℝ) := Nat.cast_nonneg _
    nlinarith
  rw [e2, if_neg (by rw [hh, hR.1]; omega), if_neg (not_not.2 ⟨le_rfl, hle⟩), sub_self, zero_div, Int.floor_zero, Int.ceil_zero,
    if_neg (not_not.2 ⟨le_rfl, by rw [hR.1]; omega⟩), if_neg (not_lt.2 h0), if_pos hc, if_neg (not_lt.2 h0), if_pos hc]
  have : cell d 0 (toInt (knot col0 dcol (m - 1) - 1)) = none := by
    refine cell_none d n m hR _ _ (Or.inl ?_)
    unfold toInt
    rw [if_pos (by have : (0 : ℝ) ≤ m := Nat.cast_nonneg _; linarith), Int.le_floor]
    push_cast
    linarith
  rw [this]

/-- Non-vacuity: columns 0, 10 and 20. -/
example : grid (1 / 100) [[⟨0, 0, 1⟩, ⟨1, 0, 1⟩, ⟨2, 0, 1⟩]] 0 1 0 10 0 21 = .outside :=
  grid_right_outside (1 / 100) _ 1 3 ⟨rfl, by simp⟩ (by norm_num) (by norm_num) 0 1 0 10 21 one_pos (by norm_num [knot]) (by norm_num) (by norm_num [knot])

end Verif.Camera.Interp
