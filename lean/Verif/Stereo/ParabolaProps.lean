import Verif.Stereo.ParabolaModel
import Mathlib.Tactic.LinearCombination

/-! Refinement of disparities by a parabola (C141), and the moving count of valid pixels (C142). -/

namespace VW.Parabola

/-! ### Specification -/

/-- The height of a surface. -/
def Surface.at (s : Surface) (x y : ℝ) : ℝ := s.a * x ^ 2 + s.b * y ^ 2 + s.c * x * y + s.d * x + s.e * y + s.f

/-- The column (-1, 0, 1) of a place of the square of nine. -/
def col (i : Fin 9) : ℤ := (i.val % 3 : ℕ) - 1

/-- Its row. -/
def row (i : Fin 9) : ℤ := (i.val / 3 : ℕ) - 1

/-- The sum of the squares of the differences between a surface and nine heights. -/
def misfit (s : Surface) (z : Fin 9 → ℝ) : ℝ := ∑ i, (z i - s.at (col i) (row i)) ^ 2

/-- A surface with one lowest point. -/
def Surface.Bowl (s : Surface) : Prop := 0 < s.a ∧ s.c ^ 2 < 4 * s.a * s.b

/-- The lowest point. -/
def Surface.Lowest (s : Surface) (x y : ℝ) : Prop := ∀ u v, (u, v) ≠ (x, y) → s.at x y < s.at u v

/-! ### The nine costs -/

theorem slot_iff (dx dy : ℤ) (k : Fin 9) : slot dx dy = some k ↔ dx = col k ∧ dy = row k := by
  have h : ∀ k : Fin 9, slot (col k) (row k) = some k := by decide
  constructor
  · intro e
    unfold slot at e
    split_ifs at e <;> (have e' := Option.some.inj e; subst e'; simp_all [col, row])
  · rintro ⟨rfl, rfl⟩
    exact h k

theorem record_at (cost : ℤ → ℤ → ℝ) (disp : ℤ × ℤ) (patch : Fin 9 → ℝ) (x y : ℤ) (i : Fin 9) :
    record cost disp patch x y i = if x = disp.1 + col i ∧ y = disp.2 + row i then cost x y else patch i := by
  unfold record
  cases h : slot (x - disp.1) (y - disp.2) with
  | none =>
    rw [if_neg]
    rintro ⟨e1, e2⟩
    have := (slot_iff (x - disp.1) (y - disp.2) i).2 ⟨by omega, by omega⟩
    rw [h] at this; cases this
  | some k =>
    have hk := (slot_iff _ _ _).1 h
    simp only
    by_cases e : i = k
    · rw [if_pos e, if_pos (by subst e; omega)]
    · rw [if_neg e, if_neg]
      rintro ⟨e1, e2⟩
      have := (slot_iff (x - disp.1) (y - disp.2) i).2 ⟨by omega, by omega⟩
      rw [h] at this
      exact e (Option.some.inj this).symm

theorem foldl_record (cost : ℤ → ℤ → ℝ) (disp : ℤ × ℤ) (l : List (ℤ × ℤ)) (patch : Fin 9 → ℝ) (i : Fin 9) :
    l.foldl (fun p q => record cost disp p q.1 q.2) patch i =
      if (disp.1 + col i, disp.2 + row i) ∈ l then cost (disp.1 + col i) (disp.2 + row i) else patch i := by
  induction l generalizing patch with
  | nil => simp
  | cons q t ih =>
    rw [List.foldl_cons, ih]
    by_cases h : (disp.1 + col i, disp.2 + row i) ∈ t
    · rw [if_pos h, if_pos (by simp [h])]
    · rw [if_neg h, record_at]
      by_cases e : q.1 = disp.1 + col i ∧ q.2 = disp.2 + row i
      · rw [if_pos e, if_pos (by rw [List.mem_cons]; left; ext <;> simp [e]), e.1, e.2]
      · rw [if_neg e, if_neg]
        intro hm
        rcases List.mem_cons.1 hm with hm | hm
        · exact e ⟨(congrArg Prod.fst hm).symm, (congrArg Prod.snd hm).symm⟩
        · exact h hm

theorem col_row (i : Fin 9) : -1 ≤ col i ∧ col i ≤ 1 ∧ -1 ≤ row i ∧ row i ≤ 1 := by
  have := i.isLt
  unfold col row; omega

/-- C141: for a pixel whose disparity is in the range of its zone, the nine numbers are the costs of the disparity and of its eight neighbours, in the
order of rows. -/
theorem collect_spec (cost : ℤ → ℤ → ℝ) (disp : ℤ × ℤ) (r : Range) (hx : r.x0 ≤ disp.1 ∧ disp.1 < r.x1) (hy : r.y0 ≤ disp.2 ∧ disp.2 < r.y1)
    (patch : Fin 9 → ℝ) (i : Fin 9) : collect cost disp r patch i = cost (disp.1 + col i) (disp.2 + row i) := by
  have e : collect cost disp r patch = ((List.range (r.x1 + 1 - (r.x0 - 1)).toNat).flatMap (fun dx : ℕ =>
      (List.range (r.y1 + 1 - (r.y0 - 1)).toNat).map (fun dy : ℕ => ((dx : ℤ) + (r.x0 - 1), (dy : ℤ) + (r.y0 - 1))))).foldl
        (fun p q => record cost disp p q.1 q.2) patch := by
    unfold collect
    rw [List.foldl_flatMap]
    congr 1
    funext p dx
    rw [List.foldl_map]
  rw [e, foldl_record, if_pos]
  have := col_row i
  rw [List.mem_flatMap]
  refine ⟨(disp.1 + col i - (r.x0 - 1)).toNat, by rw [List.mem_range]; omega, ?_⟩
  rw [List.mem_map]
  exact ⟨(disp.2 + row i - (r.y0 - 1)).toNat, by rw [List.mem_range]; omega, by ext <;> simp <;> omega⟩

/-! ### The surface -/

theorem places : (col 0 = -1 ∧ row 0 = -1) ∧ (col 1 = 0 ∧ row 1 = -1) ∧ (col 2 = 1 ∧ row 2 = -1) ∧ (col 3 = -1 ∧ row 3 = 0) ∧ (col 4 = 0 ∧ row 4 = 0) ∧
    (col 5 = 1 ∧ row 5 = 0) ∧ (col 6 = -1 ∧ row 6 = 1) ∧ (col 7 = 0 ∧ row 7 = 1) ∧ (col 8 = 1 ∧ row 8 = 1) := by decide

theorem sum_places (F : ℝ → ℝ → Fin 9 → ℝ) : (∑ i, F (col i) (row i) i) =
    F (-1) (-1) 0 + F 0 (-1) 1 + F 1 (-1) 2 + F (-1) 0 3 + F 0 0 4 + F 1 0 5 + F (-1) 1 6 + F 0 1 7 + F 1 1 8 := by
  obtain ⟨⟨a0, b0⟩, ⟨a1, b1⟩, ⟨a2, b2⟩, ⟨a3, b3⟩, ⟨a4, b4⟩, ⟨a5, b5⟩, ⟨a6, b6⟩, ⟨a7, b7⟩, ⟨a8, b8⟩⟩ := places
  have e : (Finset.univ : Finset (Fin 9)) = {0, 1, 2, 3, 4, 5, 6, 7, 8} := by decide
  rw [e]
  repeat rw [Finset.sum_insert (by decide)]
  rw [Finset.sum_singleton, a0, b0, a1, b1, a2, b2, a3, b3, a4, b4, a5, b5, a6, b6, a7, b7, a8, b8]
  push_cast
  ring

/-- C141: the fitted surface has the least sum of squares. -/
theorem fit_least (z : Fin 9 → ℝ) (s : Surface) : misfit (fit z) z ≤ misfit s z := by
  have key : misfit s z = misfit (fit z) z + ∑ i, ((fit z).at (col i) (row i) - s.at (col i) (row i)) ^ 2 := by
    unfold misfit
    rw [sum_places (fun x y i => (z i - s.at x y) ^ 2), sum_places (fun x y i => (z i - (fit z).at x y) ^ 2),
      sum_places (fun x y i => ((fit z).at x y - s.at x y) ^ 2)]
    unfold Surface.at fit
    simp only
    ring
  rw [key]
  have : 0 ≤ ∑ i, ((fit z).at (col i) (row i) - s.at (col i) (row i)) ^ 2 := Finset.sum_nonneg (fun i _ => sq_nonneg _)
  linarith

/-- C141: heights of a surface give that surface. -/
theorem fit_exact (s : Surface) : fit (fun i => s.at (col i) (row i)) = s := by
  obtain ⟨⟨a0, b0⟩, ⟨a1, b1⟩, ⟨a2, b2⟩, ⟨a3, b3⟩, ⟨a4, b4⟩, ⟨a5, b5⟩, ⟨a6, b6⟩, ⟨a7, b7⟩, ⟨a8, b8⟩⟩ := places
  obtain ⟨a, b, c, d, e, f⟩ := s
  unfold fit
  simp only [a0, b0, a1, b1, a2, b2, a3, b3, a4, b4, a5, b5, a6, b6, a7, b7, a8, b8]
  unfold Surface.at
  push_cast
  simp only [Surface.mk.injEq]
  refine ⟨?_, ?_, ?_, ?_, ?_, ?_⟩ <;> ring

/-- C141: at the offset both slopes are zero. -/
theorem offset_flat (s : Surface) (h : s.denom ≠ 0) :
    2 * s.a * s.offset.1 + s.c * s.offset.2 + s.d = 0 ∧ 2 * s.b * s.offset.2 + s.c * s.offset.1 + s.e = 0 := by
  unfold Surface.offset
  simp only
  have hd : s.denom = 4 * s.a * s.b - s.c * s.c := rfl
  constructor
  · field_simp
    rw [hd]; ring
  · field_simp
    rw [hd]; ring

theorem at_offset (s : Surface) (h : s.denom ≠ 0) (u v : ℝ) :
    s.at u v = s.at s.offset.1 s.offset.2 + (s.a * (u - s.offset.1) ^ 2 + s.c * (u - s.offset.1) * (v - s.offset.2) + s.b * (v - s.offset.2) ^ 2) := by
  obtain ⟨h1, h2⟩ := offset_flat s h
  generalize s.offset.1 = p at *
  generalize s.offset.2 = q at *
  unfold Surface.at
  linear_combination (u - p) * h1 + (v - q) * h2

/-- C141: if the surface has one lowest point, it is the offset. -/
theorem offset_lowest (s : Surface) (h : s.Bowl) : s.Lowest s.offset.1 s.offset.2 := by
  obtain ⟨ha, hd⟩ := h
  have hn : s.denom ≠ 0 := by unfold Surface.denom; nlinarith
  intro u v huv
  rw [at_offset s hn u v]
  set p := u - s.offset.1 with hp
  set q := v - s.offset.2 with hq
  have hpq : p ≠ 0 ∨ q ≠ 0 := by
    by_contra hc
    push Not at hc
    apply huv
    have e1 : u = s.offset.1 := by linarith [hc.1]
    have e2 : v = s.offset.2 := by linarith [hc.2]
    rw [e1, e2]
  have key : 4 * s.a * (s.a * p ^ 2 + s.c * p * q + s.b * q ^ 2) = (2 * s.a * p + s.c * q) ^ 2 + (4 * s.a * s.b - s.c ^ 2) * q ^ 2 := by ring
  have pos : 0 < (2 * s.a * p + s.c * q) ^ 2 + (4 * s.a * s.b - s.c ^ 2) * q ^ 2 := by
    by_cases hq0 : q = 0
    · have hp0 : p ≠ 0 := hpq.resolve_right (fun h => h hq0)
      rw [hq0]
      have : (0 : ℝ) < (2 * s.a * p) ^ 2 := by positivity
      nlinarith
    · have : 0 < (4 * s.a * s.b - s.c ^ 2) * q ^ 2 := mul_pos (by linarith) (by positivity)
      nlinarith [sq_nonneg (2 * s.a * p + s.c * q)]
  have : 0 < s.a * p ^ 2 + s.c * p * q + s.b * q ^ 2 := by
    rw [← key] at pos
    by_contra hc
    have : 4 * s.a * (s.a * p ^ 2 + s.c * p * q + s.b * q ^ 2) ≤ 0 := mul_nonpos_of_nonneg_of_nonpos (by linarith) (by linarith)
    linarith
  linarith

theorem lowest_unique (s : Surface) (x y u v : ℝ) (h1 : s.Lowest x y) (h2 : s.Lowest u v) : (x, y) = (u, v) := by
  by_contra hc
  have a := h1 u v (Ne.symm hc)
  have b := h2 x y hc
  linarith

/-! ### Pixels -/

theorem norm2_lt (v : ℝ × ℝ) (r : ℝ) (hr : 0 < r) : norm2 v < r ↔ v.1 ^ 2 + v.2 ^ 2 < r ^ 2 := by
  unfold norm2
  rw [Real.sqrt_lt' hr]
  constructor <;> intro h <;> nlinarith

/-- C141: a pixel without a disparity stays so; else the result is the disparity, or it plus an offset of less than 5 pixels at which the slopes of
the fitted surface are zero. -/
theorem refine_spec (z : Fin 9 → ℝ) :
    refine none z = none ∧
    ∀ d : ℤ × ℤ, ∃ o : ℝ × ℝ, refine (some d) z = some ((d.1 : ℝ) + o.1, (d.2 : ℝ) + o.2) ∧ o.1 ^ 2 + o.2 ^ 2 < 25 ∧
      (o = (0, 0) ∨ (2 * (fit z).a * o.1 + (fit z).c * o.2 + (fit z).d = 0 ∧ 2 * (fit z).b * o.2 + (fit z).c * o.1 + (fit z).e = 0)) := by
  refine ⟨rfl, fun d => ?_⟩
  have zero : ∃ o : ℝ × ℝ, some ((d.1 : ℝ), (d.2 : ℝ)) = some ((d.1 : ℝ) + o.1, (d.2 : ℝ) + o.2) ∧ o.1 ^ 2 + o.2 ^ 2 < 25 ∧
      (o = (0, 0) ∨ (2 * (fit z).a * o.1 + (fit z).c * o.2 + (fit z).d = 0 ∧ 2 * (fit z).b * o.2 + (fit z).c * o.1 + (fit z).e = 0)) :=
    ⟨(0, 0), by simp, by norm_num, Or.inl rfl⟩
  unfold refine
  simp only
  split_ifs with h1 h2
  · exact zero
  · refine ⟨(fit z).offset, rfl, ?_, ?_⟩
    · rw [norm2_lt _ _ (by norm_num)] at h2; linarith
    · by_cases hd : (fit z).denom = 0
      · left
        unfold Surface.offset
        rw [hd]; simp
      · exact Or.inr (offset_flat _ hd)
  · exact zero

/-- C141: equal costs leave the disparity as it is. -/
theorem refine_flat (d : ℤ × ℤ) (c : ℝ) : refine (some d) (fun _ => c) = some ((d.1 : ℝ), (d.2 : ℝ)) := by
  unfold refine; simp

/-- C141: if the costs are the heights of a surface with one lowest point, less than 5 pixels away, the result is that point. -/
theorem refine_exact (d : ℤ × ℤ) (s : Surface) (h : s.Bowl) (x y : ℝ) (hl : s.Lowest x y) (hn : x ^ 2 + y ^ 2 < 25) :
    refine (some d) (fun i => s.at (col i) (row i)) = some ((d.1 : ℝ) + x, (d.2 : ℝ) + y) := by
  have e := lowest_unique s _ _ _ _ hl (offset_lowest s h)
  have e1 : x = s.offset.1 := congrArg Prod.fst e
  have e2 : y = s.offset.2 := congrArg Prod.snd e
  have hne : ¬ ∀ i : Fin 8, s.at (col i.succ) (row i.succ) = s.at (col i.castSucc) (row i.castSucc) := by
    intro hall
    have hconst : ∀ i : Fin 9, s.at (col i) (row i) = s.at (col 0) (row 0) := by
      intro i
      induction i using Fin.induction with
      | zero => rfl
      | succ i ih => rw [hall i, ih]
    have f1 : fit (fun _ => s.at (col 0) (row 0)) = s := by
      rw [← funext hconst]; exact fit_exact s
    have f2 : (fit (fun _ => s.at (col 0) (row 0))).a = 0 := by unfold fit; ring
    rw [f1] at f2
    exact h.1.ne' f2
  unfold refine
  simp only
  rw [if_pos hne, fit_exact, if_pos]
  · rw [e1, e2]
  · rw [norm2_lt _ _ (by norm_num), ← e1, ← e2]; linarith

theorem ne_four {P : Fin 9 → Prop} (h0 : P 0) (h1 : P 1) (h2 : P 2) (h3 : P 3) (h5 : P 5) (h6 : P 6) (h7 : P 7) (h8 : P 8) (i : Fin 9) (hi : i ≠ 4) :
    P i := by
  fin_cases i
  exacts [h0, h1, h2, h3, absurd rfl hi, h5, h6, h7, h8]

/-- **Refuted (C141).** The result need not be a minimum: of these nine costs (heights of a surface) the disparity itself has the least, but the
surface is a saddle, and the result is its saddle point, which is higher than the disparity. -/
theorem refine_saddle : ∃ s : Surface, (∀ i, i ≠ 4 → s.at (col 4) (row 4) < s.at (col i) (row i)) ∧
    refine (some (0, 0)) (fun i => s.at (col i) (row i)) = some (5 / 12, -1 / 6) ∧ s.at 0 0 < s.at (5 / 12) (-1 / 6) ∧
    ¬ ∃ x y, s.Lowest x y := by
  obtain ⟨⟨a0, b0⟩, ⟨a1, b1⟩, ⟨a2, b2⟩, ⟨a3, b3⟩, ⟨a4, b4⟩, ⟨a5, b5⟩, ⟨a6, b6⟩, ⟨a7, b7⟩, ⟨a8, b8⟩⟩ := places
  refine ⟨⟨1, 10, 8, 1 / 2, 0, 0⟩, ?_, ?_, by unfold Surface.at; norm_num, ?_⟩
  · refine ne_four ?_ ?_ ?_ ?_ ?_ ?_ ?_ ?_ <;> simp only [a0, b0, a1, b1, a2, b2, a3, b3, a4, b4, a5, b5, a6, b6, a7, b7, a8, b8] <;>
      unfold Surface.at <;> norm_num
  · have o : (⟨1, 10, 8, 1 / 2, 0, 0⟩ : Surface).offset = (5 / 12, -1 / 6) := by
      unfold Surface.offset Surface.denom; norm_num
    have hne : ¬ ∀ i : Fin 8, (⟨1, 10, 8, 1 / 2, 0, 0⟩ : Surface).at (col i.succ) (row i.succ) = (⟨1, 10, 8, 1 / 2, 0, 0⟩ : Surface).at (col i.castSucc) (row i.castSucc) := by
      intro h
      have := h 0
      change (⟨1, 10, 8, 1 / 2, 0, 0⟩ : Surface).at (col 1) (row 1) = (⟨1, 10, 8, 1 / 2, 0, 0⟩ : Surface).at (col 0) (row 0) at this
      rw [a0, b0, a1, b1] at this
      unfold Surface.at at this
      norm_num at this
    unfold refine
    simp only
    rw [if_pos hne, fit_exact, o, if_pos]
    · simp
    · rw [norm2_lt _ _ (by norm_num)]; norm_num
  · rintro ⟨x, y, h⟩
    have h1 := h (x + 4) (y - 1) (by simp)
    have h2 := h (x - 4) (y + 1) (by simp)
    unfold Surface.at at h1 h2
    simp only at h1 h2
    nlinarith

/-- **Refuted (C141).** The result need not be within a pixel of the disparity, though the costs of the neighbours are all greater: here it is one
column and two rows away. -/
theorem refine_far : ∃ s : Surface, (∀ i, i ≠ 4 → s.at (col 4) (row 4) < s.at (col i) (row i)) ∧
    refine (some (0, 0)) (fun i => s.at (col i) (row i)) = some (1, 2) := by
  obtain ⟨⟨a0, b0⟩, ⟨a1, b1⟩, ⟨a2, b2⟩, ⟨a3, b3⟩, ⟨a4, b4⟩, ⟨a5, b5⟩, ⟨a6, b6⟩, ⟨a7, b7⟩, ⟨a8, b8⟩⟩ := places
  refine ⟨⟨401, 104, -396, -10, -20, 25⟩, ?_, ?_⟩
  · refine ne_four ?_ ?_ ?_ ?_ ?_ ?_ ?_ ?_ <;> simp only [a0, b0, a1, b1, a2, b2, a3, b3, a4, b4, a5, b5, a6, b6, a7, b7, a8, b8] <;>
      unfold Surface.at <;> norm_num
  · have hb : (⟨401, 104, -396, -10, -20, 25⟩ : Surface).Bowl := by unfold Surface.Bowl; norm_num
    have o : (⟨401, 104, -396, -10, -20, 25⟩ : Surface).offset = (1, 2) := by
      unfold Surface.offset Surface.denom; norm_num
    have hl := offset_lowest _ hb
    rw [o] at hl
    rw [refine_exact (0, 0) _ hb 1 2 hl (by norm_num)]
    simp

/-! ### `find_peak` -/

/-- C141: `find_peak` fails exactly if the surface is nearly flat in a direction; else its result is at most half a pixel away, on the same side as
the point where the slopes are zero. -/
theorem findPeak_spec (erfX erfY : ℝ → ℝ) (z : Fin 9 → ℝ) :
    (findPeak erfX erfY z = none ↔ |(fit z).denom| < 1 / 100) ∧
    ∀ p, findPeak erfX erfY z = some p → p.1 ^ 2 + p.2 ^ 2 ≤ 1 / 4 ∧
      ∃ k > 0, p = (k * erfX (fit z).offset.1, k * erfY (fit z).offset.2) := by
  unfold findPeak
  simp only
  by_cases hd : |(fit z).denom| < 1 / 100
  · rw [if_pos hd]
    exact ⟨iff_of_true rfl hd, by simp⟩
  · rw [if_neg hd]
    set u := erfX (fit z).offset.1
    set v := erfY (fit z).offset.2
    have hs : norm2 (u / 2, v / 2) ^ 2 = (u / 2) ^ 2 + (v / 2) ^ 2 := by
      unfold norm2
      rw [Real.sq_sqrt (add_nonneg (mul_self_nonneg _) (mul_self_nonneg _))]; ring
    have h0 : 0 ≤ norm2 (u / 2, v / 2) := Real.sqrt_nonneg _
    by_cases hn : norm2 (u / 2, v / 2) ≥ 1 / 2
    · rw [if_pos hn]
      refine ⟨iff_of_false (by simp) hd, fun p hp => ?_⟩
      have e := Option.some.inj hp
      subst e
      have hpos : 0 < norm2 (u / 2, v / 2) := by linarith
      refine ⟨?_, 1 / 4 / norm2 (u / 2, v / 2), by positivity, ?_⟩
      · simp only
        have e1 : (u / 2 / (norm2 (u / 2, v / 2) / (1 / 2))) ^ 2 + (v / 2 / (norm2 (u / 2, v / 2) / (1 / 2))) ^ 2 =
            ((u / 2) ^ 2 + (v / 2) ^ 2) / (4 * norm2 (u / 2, v / 2) ^ 2) := by
          field_simp; ring
        rw [e1, ← hs]
        rw [div_le_iff₀ (by positivity)]; linarith
      · ext <;> simp only <;> field_simp <;> ring
    · rw [if_neg hn]
      refine ⟨iff_of_false (by simp) hd, fun p hp => ?_⟩
      have e := Option.some.inj hp
      subst e
      refine ⟨?_, 1 / 2, by norm_num, by ext <;> simp only <;> ring⟩
      simp only
      rw [← hs]
      push Not at hn
      nlinarith

/-- C141: for costs that are heights of a surface the point is that of the surface. -/
theorem findPeak_exact (erfX erfY : ℝ → ℝ) (s : Surface) (h : s.Bowl) (hd : 1 / 100 ≤ s.denom) (x y : ℝ) (hl : s.Lowest x y) :
    ∃ p k, findPeak erfX erfY (fun i => s.at (col i) (row i)) = some p ∧ 0 < k ∧ p = (k * erfX x, k * erfY y) := by
  obtain ⟨h1, h2⟩ := findPeak_spec erfX erfY (fun i => s.at (col i) (row i))
  rw [fit_exact] at h1 h2
  cases hp : findPeak erfX erfY (fun i => s.at (col i) (row i)) with
  | none =>
    have := h1.1 hp
    rw [abs_lt] at this
    linarith
  | some p =>
    obtain ⟨_, k, hk, e⟩ := h2 p hp
    have eo := lowest_unique s _ _ _ _ hl (offset_lowest s h)
    refine ⟨p, k, rfl, hk, ?_⟩
    have f1 : x = s.offset.1 := congrArg Prod.fst eo
    have f2 : y = s.offset.2 := congrArg Prod.snd eo
    rw [e, f1, f2]

/-! ### The moving count -/

/-- The number of positive values of the mask in a box. -/
def count (mask : ℤ → ℤ → ℕ) (w h : ℕ) (x y : ℤ) : ℤ :=
  ∑ i ∈ Finset.range w, ∑ j ∈ Finset.range h, if mask (x + i) (y + j) > 0 then 1 else 0

/-- The states after the constructor and any calls. -/
inductive Reach (mask : ℤ → ℤ → ℕ) (w h : ℕ) : Counter → Prop
  | create : Reach mask w h (Counter.create mask w h)
  | next {c c' : Counter} : Reach mask w h c → c.next = some c' → Reach mask w h c'
  | advance {c : Counter} : Reach mask w h c → Reach mask w h c.advance

theorem columnSum_eq (mask : ℤ → ℤ → ℕ) (h : ℕ) (col row : ℤ) :
    columnSum mask h col row = ∑ j ∈ Finset.range h, if mask col (row + j) > 0 then 1 else 0 := by
  unfold columnSum
  induction h with
  | zero => rfl
  | succ h ih =>
    rw [List.range_succ, List.foldl_append, ih, Finset.sum_range_succ]
    simp only [List.foldl_cons, List.foldl_nil]
    split_ifs <;> simp

/-- What holds in each state. -/
structure Inv (mask : ℤ → ℤ → ℕ) (w h : ℕ) (c : Counter) : Prop where
  hmask : c.mask = mask
  hw : c.w = w
  hh : c.h = h
  fresh : c.x < 0 → c.sum = 0 ∧ c.x = -1
  sums : 0 ≤ c.x → c.sums = (List.range w).map (fun i : ℕ => columnSum mask h (c.x + i) c.y) ∧ c.sum = c.sums.sum

theorem recompute_spec (c : Counter) :
    c.recompute = { c with sums := (List.range c.w).map (fun i : ℕ => columnSum c.mask c.h (c.x + i) c.y),
                           sum := c.sum + ((List.range c.w).map (fun i : ℕ => columnSum c.mask c.h (c.x + i) c.y)).sum } := by
  have G : ∀ (l : List ℕ) (d : Counter), l.foldl (fun (c' : Counter) (i : ℕ) =>
      { c' with sums := c'.sums ++ [columnSum c.mask c.h (c.x + i) c.y], sum := c'.sum + columnSum c.mask c.h (c.x + i) c.y }) d =
      { d with sums := d.sums ++ l.map (fun i : ℕ => columnSum c.mask c.h (c.x + i) c.y),
               sum := d.sum + (l.map (fun i : ℕ => columnSum c.mask c.h (c.x + i) c.y)).sum } := by
    intro l
    induction l with
    | nil => intro d; simp
    | cons a t ih =>
      intro d
      rw [List.foldl_cons, ih]
      simp [add_assoc]
  unfold Counter.recompute
  rw [G]
  simp

theorem Reach.inv {mask : ℤ → ℤ → ℕ} {w h : ℕ} {c : Counter} (hc : Reach mask w h c) : Inv mask w h c := by
  induction hc with
  | create => exact ⟨rfl, rfl, rfl, fun _ => ⟨rfl, rfl⟩, fun hx => by simp [Counter.create] at hx⟩
  | @next c c' _ e ih =>
    obtain ⟨i1, i2, i3, i4, i5⟩ := ih
    unfold Counter.next at e
    by_cases hx : c.x < 0
    · rw [if_pos hx] at e
      have e' := Option.some.inj e
      subst e'
      rw [recompute_spec]
      refine ⟨i1, i2, i3, fun h => ?_, fun _ => ?_⟩
      · simp at h
      · simp only
        rw [i1, i2, i3, (i4 hx).1]
        simp
    · rw [if_neg hx] at e
      obtain ⟨s1, s2⟩ := i5 (by omega)
      cases hs : c.sums with
      | nil => rw [hs] at e; cases e
      | cons a t =>
        rw [hs] at e
        have e' := Option.some.inj e
        subst e'
        refine ⟨i1, i2, i3, fun h => ?_, fun _ => ?_⟩
        · simp at h; omega
        · simp only
          rw [i1, i2, i3]
          have hw : 0 < w := by
            rcases Nat.eq_zero_or_pos w with h0 | h0
            · rw [h0] at s1; rw [s1] at hs; cases hs
            · exact h0
          obtain ⟨w', rfl⟩ : ∃ w', w = w' + 1 := ⟨w - 1, by omega⟩
          rw [hs] at s1 s2
          rw [List.range_succ_eq_map, List.map_cons, List.map_map] at s1
          obtain ⟨e1, e2⟩ := List.cons.inj s1
          constructor
          · rw [e2, List.range_succ, List.map_append]
            congr 1
            · apply List.map_congr_left
              intro i _
              simp only [Function.comp]
              congr 1
              push_cast; ring
            · simp only [List.map_cons, List.map_nil]
              congr 2
              push_cast; ring
          · rw [s2]; simp
  | @advance c _ ih =>
    obtain ⟨i1, i2, i3, i4, i5⟩ := ih
    exact ⟨i1, i2, i3, fun _ => ⟨rfl, rfl⟩, fun hx => by simp [Counter.advance] at hx⟩

/-- C142: whatever calls were made before, `next_pixel` with a box of at least one column goes to the next column (or to column 0 of the row after
`advance_row` or the constructor) and returns the part of the pixels of the box there that are valid. -/
theorem next_spec (mask : ℤ → ℤ → ℕ) (w h : ℕ) (hw : 0 < w) (c : Counter) (hc : Reach mask w h c) :
    ∃ c', c.next = some c' ∧ c'.y = c.y ∧ c'.x = (if c.x < 0 then 0 else c.x + 1) ∧ 0 ≤ c'.x ∧
      c'.fraction = (count mask w h c'.x c'.y : ℚ) / ((w : ℚ) * h) := by
  have hn : ∃ c', c.next = some c' ∧ c'.y = c.y ∧ c'.x = (if c.x < 0 then 0 else c.x + 1) := by
    unfold Counter.next
    by_cases hx : c.x < 0
    · rw [if_pos hx, if_pos hx]
      exact ⟨_, rfl, by rw [recompute_spec], by rw [recompute_spec]⟩
    · rw [if_neg hx, if_neg hx]
      cases hs : c.sums with
      | nil =>
        obtain ⟨s1, _⟩ := hc.inv.sums (by omega)
        rw [hs] at s1
        have := congrArg List.length s1
        simp at this
        omega
      | cons a t => exact ⟨_, rfl, rfl, rfl⟩
  obtain ⟨c', e, hy, hx⟩ := hn
  have h0 : 0 ≤ c'.x := by rw [hx]; split_ifs <;> omega
  refine ⟨c', e, hy, hx, h0, ?_⟩
  have hi := (Reach.next hc e).inv
  obtain ⟨s1, s2⟩ := hi.sums h0
  unfold Counter.fraction
  rw [hi.hw, hi.hh, s2, s1]
  congr 2
  unfold count
  rw [← List.sum_toFinset _ List.nodup_range, List.toFinset_range]
  refine Finset.sum_congr rfl (fun i _ => ?_)
  rw [columnSum_eq]

theorem advance_spec (c : Counter) : c.advance.y = c.y + 1 ∧ c.advance.x < 0 := by
  unfold Counter.advance; exact ⟨rfl, Int.negSucc_lt_zero 0⟩

/-- The third box of a row. -/
example : (((Counter.create (fun x y => if x = 2 ∨ y = 1 then 7 else 0) 2 2).next.bind Counter.next).bind Counter.next).map
    (fun c => (c.x, c.fraction)) = some (2, 3 / 4) := by decide +kernel

end VW.Parabola
