import Verif.Interp.PieceProps
import Mathlib.LinearAlgebra.Lagrange
import Mathlib.Data.List.GetD
import Mathlib.Algebra.BigOperators.Intervals

/-
C106: Lagrange interpolation of positions.
-/

namespace Verif.Camera.Interp

open Polynomial

set_option linter.unusedSectionVars false

variable {K : Type} [Field K] [LinearOrder K] [IsStrictOrderedRing K] [FloorRing K]

/-- The point at a time of the curve whose coordinates are the polynomials. -/
def curve (p q r : K[X]) (t : K) : V3 K := ⟨p.eval t, q.eval t, r.eval t⟩

/-- The curve of lowest degree through the samples `a … a + len - 1`, at a time. -/
noncomputable def through (time : Nat → K) (ps : Nat → V3 K) (a len : Nat) (t : K) : V3 K :=
  curve (Lagrange.interpolate (Finset.Ico a (a + len)) time (fun i => (ps i).x))
    (Lagrange.interpolate (Finset.Ico a (a + len)) time (fun i => (ps i).y))
    (Lagrange.interpolate (Finset.Ico a (a + len)) time (fun i => (ps i).z)) t

/-- What `through` is: the curve of polynomials of degree below the number of samples, through them, and no other. -/
theorem through_spec (time : Nat → K) (ps : Nat → V3 K) (a len : Nat) (inj : ∀ i j, a ≤ i → i < j → j < a + len → time i ≠ time j) :
    ∃ p q r : K[X], p.degree < len ∧ q.degree < len ∧ r.degree < len ∧ (∀ i, a ≤ i → i < a + len → curve p q r (time i) = ps i) ∧
      (∀ t, through time ps a len t = curve p q r t) ∧
      ∀ p' q' r' : K[X], p'.degree < len → q'.degree < len → r'.degree < len → (∀ i, a ≤ i → i < a + len → curve p' q' r' (time i) = ps i) →
        p' = p ∧ q' = q ∧ r' = r := by
  have hin : Set.InjOn time (Finset.Ico a (a + len) : Finset Nat) := by
    intro i hi j hj h
    simp only [Finset.coe_Ico, Set.mem_Ico] at hi hj
    rcases lt_trichotomy i j with h' | h' | h'
    · exact absurd h (inj i j hi.1 h' hj.2)
    · exact h'
    · exact absurd h.symm (inj j i hj.1 h' hi.2)
  have hc : (Finset.Ico a (a + len)).card = len := by simp
  have hdeg : ∀ f : Nat → K, (Lagrange.interpolate (Finset.Ico a (a + len)) time f).degree < len := by
    intro f
    have := Lagrange.degree_interpolate_lt f hin
    rwa [hc] at this
  have huni : ∀ (f : Nat → K) (p : K[X]), p.degree < len → (∀ i, a ≤ i → i < a + len → p.eval (time i) = f i) →
      p = Lagrange.interpolate (Finset.Ico a (a + len)) time f := by
    intro f p hp he
    refine Lagrange.eq_interpolate_of_eval_eq f hin (by rwa [hc]) ?_
    intro i hi
    rw [Finset.mem_Ico] at hi
    exact he i hi.1 hi.2
  refine ⟨_, _, _, hdeg _, hdeg _, hdeg _, ?_, fun t => rfl, ?_⟩
  · intro i h1 h2
    have hm : i ∈ Finset.Ico a (a + len) := Finset.mem_Ico.2 ⟨h1, h2⟩
    unfold curve
    rw [Lagrange.eval_interpolate_at_node _ hin hm, Lagrange.eval_interpolate_at_node _ hin hm, Lagrange.eval_interpolate_at_node _ hin hm]
  · intro p' q' r' h1 h2 h3 h4
    refine ⟨huni _ _ h1 fun i a b => ?_, huni _ _ h2 fun i a b => ?_, huni _ _ h3 fun i a b => ?_⟩
    · rw [← h4 i a b]; rfl
    · rw [← h4 i a b]; rfl
    · rw [← h4 i a b]; rfl

theorem foldl_x {α : Type} (g : α → V3 K) (l : List α) (a : V3 K) :
    (l.foldl (fun s j => s + g j) a).x = l.foldl (fun s j => s + (g j).x) a.x ∧ (l.foldl (fun s j => s + g j) a).y = l.foldl (fun s j => s + (g j).y) a.y ∧
    (l.foldl (fun s j => s + g j) a).z = l.foldl (fun s j => s + (g j).z) a.z := by
  induction l generalizing a with
  | nil => exact ⟨rfl, rfl, rfl⟩
  | cons b l ih => simp only [List.foldl_cons]; exact ih _

theorem foldl_sum (g : Nat → K) (s len : Nat) : (List.range' s len).foldl (fun a j => a + g j) 0 = ∑ j ∈ Finset.Ico s (s + len), g j := by
  induction len with
  | zero => simp
  | succ n ih => rw [List.range'_1_concat, List.foldl_append, ih, ← Nat.add_assoc, Finset.sum_Ico_succ_top (by omega)]; rfl

theorem prodExcept_eq (f : Nat → K) (s len j : Nat) : prodExcept f s len j = ∏ i ∈ (Finset.Ico s (s + len)).erase j, f i := by
  have h : prodExcept f s len j = ∏ i ∈ Finset.Ico s (s + len), (if i = j then 1 else f i) := by
    unfold prodExcept
    induction len with
    | zero => simp
    | succ n ih =>
      rw [List.range'_1_concat, List.foldl_append, ih, ← Nat.add_assoc, Finset.prod_Ico_succ_top (by omega)]
      simp only [List.foldl_cons, List.foldl_nil]
      by_cases c : s + n = j
      · rw [if_pos c, if_pos c, mul_one]
      · rw [if_neg c, if_neg c]
  rw [h, ← Finset.filter_ne', Finset.prod_filter]
  refine Finset.prod_congr rfl fun i _ => ?_
  by_cases c : i = j
  · rw [if_pos c, if_neg (by simpa using c)]
  · rw [if_neg c, if_pos c]

theorem eval_interp (time : Nat → K) (f : Nat → K) (s len : Nat) (t : K) :
    (Lagrange.interpolate (Finset.Ico s (s + len)) time f).eval t
      = ∑ j ∈ Finset.Ico s (s + len), (prodExcept (fun i => t - time i) s len j / prodExcept (fun i => time j - time i) s len j) * f j := by
  rw [Lagrange.interpolate_apply, eval_finsetSum]
  refine Finset.sum_congr rfl fun j _ => ?_
  rw [eval_mul, eval_C, prodExcept_eq, prodExcept_eq, Lagrange.basis, eval_prod, ← Finset.prod_div_distrib, mul_comm]
  congr 1
  refine Finset.prod_congr rfl fun i _ => ?_
  simp only [Lagrange.basisDivisor, eval_mul, eval_C, eval_sub, eval_X]
  rw [div_eq_mul_inv, mul_comm]

theorem through_fold (time : Nat → K) (ps : Nat → V3 K) (s len : Nat) (t : K) :
    (List.range' s len).foldl (fun ans j =>
      ans + (prodExcept (fun i => t - time i) s len j / prodExcept (fun i => time j - time i) s len j) * ps j) 0 = through time ps s len t := by
  obtain ⟨hx, hy, hz⟩ := foldl_x (fun j => (prodExcept (fun i => t - time i) s len j / prodExcept (fun i => time j - time i) s len j) * ps j) (List.range' s len) 0
  unfold through curve
  ext
  · rw [hx]; simp only [zero_x, smul_x]; rw [foldl_sum]; exact (eval_interp time (fun i => (ps i).x) s len t).symm
  · rw [hy]; simp only [zero_y, smul_y]; rw [foldl_sum]; exact (eval_interp time (fun i => (ps i).y) s len t).symm
  · rw [hz]; simp only [zero_z, smul_z]; rw [foldl_sum]; exact (eval_interp time (fun i => (ps i).z) s len t).symm

/-- Where the window of `2 r` samples is: around the pair `i, i + 1`, moved by as little as keeps it among the `n` samples. -/
def window (n r i : Nat) : Nat := min (i + 1 - r) (n - 2 * r)

/-- What the window is. -/
theorem window_spec (n r i : Nat) (hr : 1 ≤ r) (hn : 2 * r ≤ n) (hi : i + 1 < n) :
    window n r i + 2 * r ≤ n ∧ window n r i ≤ i ∧ i + 1 < window n r i + 2 * r ∧
    (r ≤ i + 1 → i + 1 + r ≤ n → window n r i + r = i + 1) := by
  unfold window; omega

/-- The position of the first later time, for increasing times. -/
theorem findIdx_later (ts : List K) (t : K) (inc : ∀ i j, i < j → j < ts.length → ts.getD i 0 < ts.getD j 0) (i : Nat) (hi : i + 1 < ts.length)
    (h1 : ts.getD i 0 ≤ t) (h2 : t < ts.getD (i + 1) 0) : ts.findIdx? (fun x => decide (t < x)) = some (i + 1) := by
  rw [List.findIdx?_eq_some_iff_getElem]
  rw [List.getD_eq_getElem _ _ hi] at h2
  refine ⟨hi, by simpa using h2, fun j hj => ?_⟩
  have hj' : j < ts.length := by omega
  have : ts.getD j 0 ≤ ts.getD i 0 := by
    rcases Nat.lt_or_ge j i with h | h
    · exact (inc j i h (by omega)).le
    · rw [show j = i by omega]
  rw [List.getD_eq_getElem _ _ hj'] at this
  simpa using le_trans this h1

/-- The window from the index of the next sample. -/
theorem varWindow_next (ts : List K) (r : Nat) (t : K) (i : Nat) (hi : i + 1 < ts.length)
    (h : nextOf ts t = (i : Int) + 1) :
    varWindow ts r t = if 2 * r ≤ ts.length then some ((window ts.length r i : Int), (window ts.length r i : Int) + 2 * r) else none := by
  unfold varWindow
  simp only
  rw [h]
  unfold window
  by_cases c1 : (i : Int) + 1 - r < 0
  · rw [if_pos c1]
    simp only
    by_cases c2 : (ts.length : Int) < (i : Int) + 1 + r - ((i : Int) + 1 - r)
    · rw [if_pos c2]
      simp only
      rw [if_pos (by omega), if_neg (by omega)]
    · rw [if_neg c2]
      simp only
      rw [if_neg (by omega), if_pos (by omega)]
      congr 1
      refine Prod.ext ?_ ?_ <;> simp only <;> omega
  · rw [if_neg c1]
    simp only
    by_cases c2 : (ts.length : Int) < (i : Int) + 1 + r
    · rw [if_pos c2]
      simp only
      by_cases c3 : 2 * r ≤ ts.length
      · rw [if_neg (by omega), if_pos c3]
        congr 1
        refine Prod.ext ?_ ?_ <;> simp only <;> omega
      · rw [if_pos (by omega), if_neg c3]
    · rw [if_neg c2]
      simp only
      rw [if_neg (by omega), if_pos (by omega)]
      congr 1
      refine Prod.ext ?_ ?_ <;> simp only <;> omega

/-- The value from the window. -/
theorem lagrangeVar_window (ps : List (V3 K)) (ts : List K) (r : Nat) (t : K) (w : Nat) (h : varWindow ts r t = some ((w : Int), (w : Int) + 2 * r)) :
    lagrangeVar ps ts r t = some (through (fun i => ts.getD i 0) (fun i => ps.getD i 0) w (2 * r) t) := by
  unfold lagrangeVar
  rw [h]
  simp only
  rw [show ((w : Int) + 2 * r - w).toNat = 2 * r by omega, Int.toNat_natCast]
  rw [← through_fold]

/-- **C106.** Lagrange interpolation at given increasing times: with a radius of at least one and at least twice as many
samples, between two samples the value of the curve of degree below twice the radius through the samples of the window
around them; from the last sample on the window at the end; too few samples are an error. -/
theorem lagrangeVar_spec (ps : List (V3 K)) (ts : List K) (inc : ∀ i j, i < j → j < ts.length → ts.getD i 0 < ts.getD j 0) (r : Nat) (hr : 1 ≤ r)
    (t : K) :
    (∀ i, 2 * r ≤ ts.length → i + 1 < ts.length → ts.getD i 0 ≤ t → t < ts.getD (i + 1) 0 →
      lagrangeVar ps ts r t = some (through (fun i => ts.getD i 0) (fun i => ps.getD i 0) (window ts.length r i) (2 * r) t)) ∧
    (∀ m, 2 * r ≤ ts.length → ts.length = m + 2 → ts.getD (m + 1) 0 ≤ t →
      lagrangeVar ps ts r t = some (through (fun i => ts.getD i 0) (fun i => ps.getD i 0) (ts.length - 2 * r) (2 * r) t)) ∧
    (∀ m, 2 * r ≤ ts.length → ts.length = m + 2 → t < ts.getD 0 0 →
      lagrangeVar ps ts r t = some (through (fun i => ts.getD i 0) (fun i => ps.getD i 0) 0 (2 * r) t)) ∧
    (ts.length < 2 * r → 1 < ts.length → ts.getD 0 0 ≤ t → lagrangeVar ps ts r t = none) := by
  have last : ∀ m, ts.length = m + 2 → ts.getD (m + 1) 0 ≤ t → ts.findIdx? (fun x => decide (t < x)) = none := by
    intro m hm h
    rw [List.findIdx?_eq_none_iff]
    intro x hx
    obtain ⟨j, hj, rfl⟩ := List.mem_iff_getElem.1 hx
    have : ts.getD j 0 ≤ ts.getD (m + 1) 0 := by
      rcases Nat.lt_or_ge j (m + 1) with h | h
      · exact (inc j (m + 1) h (by omega)).le
      · rw [show j = m + 1 by omega]
    rw [List.getD_eq_getElem _ _ hj] at this
    simpa using le_trans this h
  refine ⟨fun i hn hi h1 h2 => ?_, fun m hn hm h => ?_, fun m hn hm h => ?_, fun hn h1 h2 => ?_⟩
  · have hf := findIdx_later ts t inc i hi h1 h2
    refine lagrangeVar_window ps ts r t _ ?_
    rw [varWindow_next ts r t i hi (by unfold nextOf; rw [hf]; simp), if_pos hn]
  · refine lagrangeVar_window ps ts r t _ ?_
    rw [varWindow_next ts r t m (by omega) (by unfold nextOf; rw [last m hm h]; simp only; omega), if_pos hn]
    have : window ts.length r m = ts.length - 2 * r := by unfold window; omega
    rw [this]
  · have hf : ts.findIdx? (fun x => decide (t < x)) = some 0 := by
      rw [List.findIdx?_eq_some_iff_getElem]
      rw [List.getD_eq_getElem _ _ (by omega : 0 < ts.length)] at h
      exact ⟨by omega, by simpa using h, fun j hj => by omega⟩
    refine lagrangeVar_window ps ts r t 0 ?_
    have hx : nextOf ts t = 0 := by unfold nextOf; rw [hf]; rfl
    unfold varWindow
    simp only
    rw [hx]
    rw [if_pos (show (0 : Int) - (r : Int) < 0 by omega)]
    simp only
    rw [if_neg (show ¬((ts.length : Int) < 0 + (r : Int) - (0 - (r : Int))) by omega)]
    simp only
    rw [if_neg (by omega)]
    congr 1
    refine Prod.ext ?_ ?_ <;> simp only <;> omega
  · have hw : ∀ i, i + 1 < ts.length → nextOf ts t = (i : Int) + 1 →
        lagrangeVar ps ts r t = none := by
      intro i hi h
      unfold lagrangeVar
      rw [varWindow_next ts r t i hi h, if_neg (by omega)]
    cases hf : ts.findIdx? (fun x => decide (t < x)) with
    | none => exact hw (ts.length - 2) (by omega) (by unfold nextOf; rw [hf]; simp only; omega)
    | some i =>
      rw [List.findIdx?_eq_some_iff_getElem] at hf
      obtain ⟨hi, hf1, hf2⟩ := hf
      cases i with
      | zero =>
        rw [List.getD_eq_getElem _ _ (by omega : 0 < ts.length)] at h2
        simp at hf1
        exact absurd hf1 (not_lt.2 h2)
      | succ i =>
        have hf : ts.findIdx? (fun x => decide (t < x)) = some (i + 1) := by
          rw [List.findIdx?_eq_some_iff_getElem]; exact ⟨hi, hf1, hf2⟩
        exact hw i (by omega) (by unfold nextOf; rw [hf]; simp)

/-- **C106.** A curve of polynomials of degree below twice the radius is reproduced from its samples, at every time; also
outside the range of the samples. -/
theorem lagrangeVar_exact (ps : List (V3 K)) (ts : List K) (inc : ∀ i j, i < j → j < ts.length → ts.getD i 0 < ts.getD j 0) (r : Nat) (hr : 1 ≤ r)
    (hn : 2 * r ≤ ts.length) (p q s : K[X]) (hp : p.degree < (2 * r : Nat)) (hq : q.degree < (2 * r : Nat)) (hs : s.degree < (2 * r : Nat))
    (h : ∀ i, i < ts.length → ps.getD i 0 = curve p q s (ts.getD i 0)) (t : K) : lagrangeVar ps ts r t = some (curve p q s t) := by
  have key : ∀ w, w + 2 * r ≤ ts.length → through (fun i => ts.getD i 0) (fun i => ps.getD i 0) w (2 * r) t = curve p q s t := by
    intro w hw
    obtain ⟨p', q', s', _, _, _, _, h2, h3⟩ := through_spec (fun i => ts.getD i 0) (fun i => ps.getD i 0) w (2 * r)
      (fun i j a b c => (inc i j b (by omega)).ne)
    obtain ⟨rfl, rfl, rfl⟩ := h3 p q s hp hq hs (fun i a b => (h i (by omega)).symm)
    exact h2 t
  obtain ⟨m, hm⟩ : ∃ m, ts.length = m + 2 := ⟨ts.length - 2, by omega⟩
  obtain ⟨s1, s2, s3, _⟩ := lagrangeVar_spec ps ts inc r hr t
  by_cases c0 : t < ts.getD 0 0
  · rw [s3 m hn hm c0, key 0 (by omega)]
  by_cases c1 : ts.getD (m + 1) 0 ≤ t
  · rw [s2 m hn hm c1, key _ (by omega)]
  have : ∀ k, k ≤ m + 1 → ts.getD (m + 1 - k) 0 ≤ t → ∃ i, i + 1 < ts.length ∧ ts.getD i 0 ≤ t ∧ t < ts.getD (i + 1) 0 := by
    intro k
    induction k with
    | zero => intro _ h; exact absurd h c1
    | succ k ih =>
      intro hk h
      by_cases c : ts.getD (m + 1 - k) 0 ≤ t
      · exact ih (by omega) c
      · refine ⟨m + 1 - (k + 1), by omega, h, ?_⟩
        rw [show m + 1 - (k + 1) + 1 = m + 1 - k by omega]
        exact lt_of_not_ge c
  obtain ⟨i, hi, h1, h2⟩ := this (m + 1) le_rfl (by rw [Nat.sub_self]; exact le_of_not_gt c0)
  rw [s1 i hn hi h1 h2, key _ (window_spec ts.length r i hr hn hi).1]

/-- **C106.** The curve goes through the samples. -/
theorem lagrangeVar_sample (ps : List (V3 K)) (ts : List K) (inc : ∀ i j, i < j → j < ts.length → ts.getD i 0 < ts.getD j 0) (r : Nat) (hr : 1 ≤ r)
    (hn : 2 * r ≤ ts.length) (k : Nat) (hk : k < ts.length) : lagrangeVar ps ts r (ts.getD k 0) = some (ps.getD k 0) := by
  have key : ∀ w, w + 2 * r ≤ ts.length → w ≤ k → k < w + 2 * r → through (fun i => ts.getD i 0) (fun i => ps.getD i 0) w (2 * r) (ts.getD k 0) = ps.getD k 0 := by
    intro w hw h1 h2
    obtain ⟨p', q', s', _, _, _, h3, h4, _⟩ := through_spec (fun i => ts.getD i 0) (fun i => ps.getD i 0) w (2 * r)
      (fun i j a b c => (inc i j b (by omega)).ne)
    rw [h4]
    exact h3 k h1 h2
  obtain ⟨s1, s2, s3, _⟩ := lagrangeVar_spec ps ts inc r hr (ts.getD k 0)
  rcases Nat.lt_or_ge (k + 1) ts.length with c | c
  · obtain ⟨w1, w2, w3, _⟩ := window_spec ts.length r k hr hn c
    rw [s1 k hn c le_rfl (inc k (k + 1) (by omega) c), key _ w1 w2 (by omega)]
  · rw [s2 (ts.length - 2) hn (by omega) (by rw [show ts.length - 2 + 1 = k by omega]), key _ (by omega) (by omega) (by omega)]

/-- Non-vacuity: four samples of the cube of the time, radius two, also after the last. -/
example : lagrangeVar [(⟨0, 0, 0⟩ : V3 ℚ), ⟨1, 0, 0⟩, ⟨8, 0, 0⟩, ⟨64, 0, 0⟩] [0, 1, 2, 4] 2 3 = some ⟨27, 0, 0⟩ ∧
    lagrangeVar [(⟨0, 0, 0⟩ : V3 ℚ), ⟨1, 0, 0⟩, ⟨8, 0, 0⟩, ⟨64, 0, 0⟩] [0, 1, 2, 4] 2 5 = some ⟨125, 0, 0⟩ := by decide +kernel

/-- **C106, refuted part.** A radius of one, which is more than zero, is refused although the message asks for more than zero
and the interpolation would be right. -/
theorem radius_one (ps : List (V3 K)) (ts : List K) : varOk ps ts 1 = false := by
  simp [varOk]

/-- **C106, refuted part.** Times that are not increasing are accepted, and the result is then not near the samples: here the
samples are all the same time, and every result is zero (in the arithmetic of the model, not a number in that of the code). -/
theorem times_not_checked : ∃ (ps : List (V3 ℚ)) (ts : List ℚ) (r : Int), varOk ps ts r = true ∧ (∀ p ∈ ps, p = ⟨1, 0, 0⟩) ∧ lagrangeVar ps ts r 0 ≠ some ⟨1, 0, 0⟩ :=
  ⟨[⟨1, 0, 0⟩, ⟨1, 0, 0⟩, ⟨1, 0, 0⟩, ⟨1, 0, 0⟩], [0, 0, 0, 0], 2, by decide +kernel⟩

theorem range'_shift (w len : Nat) : List.range' w len = (List.range len).map (fun j => w + j) := List.range'_eq_map_range

theorem prodExcept_shift (f : Nat → K) (w len j : Nat) : prodExcept (fun i => f (w + i)) 0 len j = prodExcept f w len (w + j) := by
  unfold prodExcept
  rw [range'_shift w len, ← List.range_eq_range', List.foldl_map]
  simp only [Nat.add_left_cancel_iff]

theorem prodExcept_congr (f g : Nat → K) (len j : Nat) (h : ∀ i, i < len → f i = g i) : prodExcept f 0 len j = prodExcept g 0 len j := by
  rw [prodExcept_eq, prodExcept_eq]
  refine Finset.prod_congr rfl fun i hi => h i ?_
  have := Finset.mem_of_mem_erase hi
  rw [Finset.mem_Ico] at this
  omega

theorem fillTimes_get (t0 dt : K) (w len k : Nat) (hk : k < len) : (fillTimes t0 dt (w : Int) len).getD k 0 = knot t0 dt (w + k) := by
  cases len with
  | zero => omega
  | succ m =>
    unfold fillTimes
    simp only
    have : ∀ m, ((List.range m).foldl (fun l k => l ++ [l.getD k 0 + dt]) [t0 + (((w : Nat) : Int) : K) * dt]).length = m + 1 ∧
        ∀ k, k < m + 1 → ((List.range m).foldl (fun l k => l ++ [l.getD k 0 + dt]) [t0 + (((w : Nat) : Int) : K) * dt]).getD k 0 = knot t0 dt (w + k) := by
      intro m
      induction m with
      | zero =>
        refine ⟨rfl, fun k hk => ?_⟩
        have : k = 0 := by omega
        subst this
        simp [knot, mul_comm]
      | succ m ih =>
        rw [List.range_succ, List.foldl_append]
        obtain ⟨h1, h2⟩ := ih
        set l := (List.range m).foldl (fun l k => l ++ [l.getD k 0 + dt]) [t0 + (((w : Nat) : Int) : K) * dt] with hl
        clear_value l
        simp only [List.foldl_cons, List.foldl_nil]
        refine ⟨by simp [h1], fun k hk => ?_⟩
        rcases Nat.lt_or_ge k (m + 1) with c | c
        · rw [List.getD_append _ _ _ _ (by omega)]; exact h2 k c
        · have : k = m + 1 := by omega
          subst this
          rw [List.getD_append_right _ _ _ _ (by omega), h1, Nat.sub_self, h2 m (by omega)]
          simp only [List.getD_cons_zero]
          unfold knot
          push_cast
          ring
    exact (this m).2 k (by omega)

theorem denom_eq (t0 dt : K) (w len j : Nat) : denom dt len j = prodExcept (fun i => knot t0 dt (w + j) - knot t0 dt i) w len (w + j) := by
  rw [← prodExcept_shift]
  unfold denom
  refine prodExcept_congr _ _ _ _ fun i _ => ?_
  unfold knot
  push_cast
  ring

/-- The value of a call whose times are in the shared array. -/
theorem evalTimes_through (ps : List (V3 K)) (t0 dt t : K) (w len : Nat) (temp : List K) (h : ∀ k, k < len → temp.getD k 0 = knot t0 dt (w + k)) :
    evalTimes ps dt t (w : Int) len temp = through (knot t0 dt) (fun i => ps.getD i 0) w len t := by
  rw [← through_fold, range'_shift, List.foldl_map]
  unfold evalTimes
  refine congrArg (fun f => List.foldl f 0 (List.range len)) ?_
  funext a j
  rw [denom_eq t0 dt w len j, ← prodExcept_shift (fun i => t - knot t0 dt i)]
  rw [prodExcept_congr (fun i => t - temp.getD i 0) (fun i => t - knot t0 dt (w + i)) len j (fun i hi => by rw [h i hi])]
  rw [show ((w : Int) + (j : Int)) = ((w + j : Nat) : Int) by push_cast; rfl, at_nat]

/-- The window of the version with equal steps. -/
theorem uniWindow_eq (n : Nat) (t0 dt : K) (hd : 0 < dt) (r : Nat) (t : K) (i : Nat) (h1 : knot t0 dt i ≤ t) (h2 : t < knot t0 dt (i + 1)) :
    uniWindow n t0 dt r t = if i + 1 < n ∧ 2 * r ≤ n then some ((window n r i : Int), (window n r i : Int) + 2 * r - 1) else none := by
  unfold uniWindow
  simp only
  rw [floor_knot t0 dt t hd i h1 h2]
  by_cases c0 : i + 1 < n
  · rw [if_neg (show ¬¬(0 ≤ (i : Int) ∧ (i : Int) + 1 < n) by omega)]
    unfold window
    by_cases c1 : (i : Int) - ((r : Int) - 1) < 0
    · rw [if_pos c1]
      simp only
      by_cases c2 : (n : Int) ≤ (i : Int) + 1 + ((r : Int) - 1) + -((i : Int) - ((r : Int) - 1))
      · rw [if_pos c2]
        simp only
        rw [if_pos (by omega), if_neg (by omega)]
      · rw [if_neg c2]
        simp only
        rw [if_neg (by omega), if_pos (by omega)]
        congr 1
        refine Prod.ext ?_ ?_ <;> simp only <;> omega
    · rw [if_neg c1]
      simp only
      by_cases c2 : (n : Int) ≤ (i : Int) + 1 + ((r : Int) - 1)
      · rw [if_pos c2]
        simp only
        by_cases c3 : 2 * r ≤ n
        · rw [if_neg (by omega), if_pos (by omega)]
          congr 1
          refine Prod.ext ?_ ?_ <;> simp only <;> omega
        · rw [if_pos (by omega), if_neg (by omega)]
      · rw [if_neg c2]
        simp only
        rw [if_neg (by omega), if_pos (by omega)]
        congr 1
        refine Prod.ext ?_ ?_ <;> simp only <;> omega
  · rw [if_pos (by omega), if_neg (by omega)]

/-- **C106.** Lagrange interpolation at equal steps: between two samples the value of the curve of degree below twice the
radius through the samples of the window around them; before the first sample, from the last on, and with too few samples
an error. -/
theorem lagrangeUni_spec (ps : List (V3 K)) (t0 dt : K) (hd : 0 < dt) (r : Nat) (t : K) :
    (∀ i, 2 * r ≤ ps.length → i + 1 < ps.length → knot t0 dt i ≤ t → t < knot t0 dt (i + 1) →
      lagrangeUni ps t0 dt r t = some (through (knot t0 dt) (fun i => ps.getD i 0) (window ps.length r i) (2 * r) t)) ∧
    (t < t0 ∨ tend t0 dt ps.length ≤ t ∨ ps.length < 2 * r → 0 < ps.length → lagrangeUni ps t0 dt r t = none) := by
  constructor
  · intro i hn hi h1 h2
    unfold lagrangeUni
    rw [uniWindow_eq ps.length t0 dt hd r t i h1 h2, if_pos ⟨hi, hn⟩]
    simp only
    rw [show ((window ps.length r i : Int) + 2 * r - 1 - (window ps.length r i : Int) + 1).toNat = 2 * r by omega]
    rw [evalTimes_through ps t0 dt t _ _ _ (fun k hk => fillTimes_get t0 dt _ _ k hk)]
  · intro h hp
    have : uniWindow ps.length t0 dt r t = none := by
      by_cases c0 : t < t0
      · have hf : ⌊(t - t0) / dt⌋ < 0 := by
          rw [Int.floor_lt, div_lt_iff₀ hd]
          push_cast
          linarith
        unfold uniWindow
        simp only
        rw [if_pos (by omega)]
      · obtain ⟨i, hi⟩ : ∃ i : Nat, ⌊(t - t0) / dt⌋ = (i : Int) := by
          have hr : 0 ≤ (t - t0) / dt := div_nonneg (by linarith) hd.le
          exact ⟨⌊(t - t0) / dt⌋.toNat, by have := Int.floor_nonneg.2 hr; omega⟩
        rw [Int.floor_eq_iff, le_div_iff₀ hd, div_lt_iff₀ hd] at hi
        push_cast at hi
        have a : knot t0 dt i ≤ t := by unfold knot; linarith [hi.1]
        have b : t < knot t0 dt (i + 1) := by unfold knot; push_cast; linarith [hi.2]
        rw [uniWindow_eq ps.length t0 dt hd r t i a b, if_neg]
        rintro ⟨h1, h2⟩
        rcases h with h | h | h
        · exact c0 h
        · rw [tend_eq t0 dt ps.length (ps.length - 1) (by omega)] at h
          have := knot_mono t0 dt hd (i + 1) (ps.length - 1) (by omega)
          linarith
        · omega
    unfold lagrangeUni
    rw [this]

/-- **C106.** At equal steps, too, a curve of polynomials of degree below twice the radius is reproduced from its samples, at
every time from the first up to but without the last. -/
theorem lagrangeUni_exact (ps : List (V3 K)) (t0 dt : K) (hd : 0 < dt) (r : Nat) (hr : 1 ≤ r) (hn : 2 * r ≤ ps.length) (p q s : K[X])
    (hp : p.degree < (2 * r : Nat)) (hq : q.degree < (2 * r : Nat)) (hs : s.degree < (2 * r : Nat))
    (h : ∀ i, i < ps.length → ps.getD i 0 = curve p q s (knot t0 dt i)) (t : K) (h1 : t0 ≤ t) (h2 : t < tend t0 dt ps.length) :
    lagrangeUni ps t0 dt r t = some (curve p q s t) := by
  have hinj : ∀ i j, i < j → knot t0 dt i ≠ knot t0 dt j := by
    intro i j hij he
    unfold knot at he
    have : (i : K) = (j : K) := by
      have : dt * (i : K) = dt * (j : K) := by linarith
      exact mul_left_cancel₀ hd.ne' this
    have : i = j := by exact_mod_cast this
    omega
  rcases segment t0 dt t hd ps.length (by omega) h1 h2.le with ⟨i, hi, ha, hb⟩ | hc
  · rw [(lagrangeUni_spec ps t0 dt hd r t).1 i hn hi ha hb]
    have hw := (window_spec ps.length r i hr hn hi).1
    obtain ⟨p', q', s', _, _, _, _, g2, g3⟩ := through_spec (knot t0 dt) (fun i => ps.getD i 0) (window ps.length r i) (2 * r)
      (fun i j _ b _ => hinj i j b)
    obtain ⟨rfl, rfl, rfl⟩ := g3 p q s hp hq hs (fun i a b => (h i (by omega)).symm)
    rw [g2 t]
  · rw [tend_eq t0 dt ps.length (ps.length - 1) (by omega), ← hc] at h2
    exact absurd h2 (lt_irrefl _)

/-- **C106, refuted part.** The time of the last sample, which the constructor is told, is refused. -/
theorem lagrangeUni_last (ps : List (V3 K)) (t0 dt : K) (hd : 0 < dt) (r : Nat) (hp : 0 < ps.length) :
    lagrangeUni ps t0 dt r (tend t0 dt ps.length) = none :=
  (lagrangeUni_spec ps t0 dt hd r _).2 (Or.inr (Or.inl le_rfl)) hp

/-- **C106.** The constructor: with samples for the times from the first to the last in equal positive steps, at least two,
and a radius of at least two, it accepts. -/
theorem uniOk_spec (n : Nat) (t0 dt last : K) (r : Int) :
    (1 < n → 0 < dt → 1 < r → last = tend t0 dt n → uniOk n t0 dt last r = true) ∧
    (uniOk n t0 dt last r = true → 1 < n ∧ 0 < dt ∧ 1 < r ∧ t0 < last ∧ |last - tend t0 dt n| ≤ dt / 2) := by
  constructor
  · intro h1 h2 h3 h4
    have hpos : (0 : K) < ((n - 1 : Nat) : K) := by exact_mod_cast (by omega : 0 < n - 1)
    have hlt : t0 < last := by
      rw [h4]; unfold tend
      nlinarith
    have hq : (last - t0) / dt = ((n - 1 : Nat) : K) := by
      rw [h4]; unfold tend
      rw [add_sub_cancel_left, mul_div_cancel_left₀ _ h2.ne']
    have hf : ⌊(last - t0) / dt + 1 / 2⌋ = ((n - 1 : Nat) : Int) := by
      rw [hq, Int.floor_eq_iff]
      push_cast
      constructor <;> linarith
    unfold uniOk
    rw [hf]
    have : (n : Int) = ((n - 1 : Nat) : Int) + 1 := by omega
    simp only [Bool.and_eq_true, decide_eq_true_eq]
    exact ⟨⟨⟨⟨h1, h3⟩, h2⟩, hlt⟩, this⟩
  · intro h
    unfold uniOk at h
    simp only [Bool.and_eq_true, decide_eq_true_eq] at h
    obtain ⟨⟨⟨⟨h1, h3⟩, h2⟩, h4⟩, h5⟩ := h
    refine ⟨h1, h2, h3, h4, ?_⟩
    have hf : ⌊(last - t0) / dt + 1 / 2⌋ = ((n - 1 : Nat) : Int) := by omega
    rw [Int.floor_eq_iff] at hf
    obtain ⟨ha, hb⟩ := hf
    have e1 : (((n - 1 : Nat) : Int) : K) = ((n - 1 : Nat) : K) := by push_cast; rfl
    rw [e1] at ha hb
    set m : K := ((n - 1 : Nat) : K) with hm
    have ha' : m - 1 / 2 ≤ (last - t0) / dt := by linarith
    have hb' : (last - t0) / dt < m + 1 / 2 := by linarith
    rw [le_div_iff₀ h2] at ha'
    rw [div_lt_iff₀ h2] at hb'
    unfold tend
    rw [abs_le]
    constructor <;> nlinarith

/-- The calls one after the other. -/
def oneByOne (threads : List Nat) : List Ev := threads.flatMap (fun i => [Ev.write i, Ev.eval i])

/-- **C106.** Calls of several threads that do not overlap (as under a lock) each give what a call alone gives, whatever the
shared array held. -/
theorem threads_locked (ps : List (V3 K)) (t0 dt : K) (r : Int) (call : Nat → K) (threads : List Nat) (temp : List K) (res : List (Nat × V3 K)) :
    runThreads ps t0 dt r call (oneByOne threads) temp res
      = res ++ threads.filterMap (fun i => (lagrangeUni ps t0 dt r (call i)).map (fun v => (i, v))) := by
  induction threads generalizing temp res with
  | nil => simp [oneByOne, runThreads]
  | cons i l ih =>
    have e : oneByOne (i :: l) = Ev.write i :: Ev.eval i :: oneByOne l := rfl
    rw [e, List.filterMap_cons]
    unfold runThreads
    cases hw : uniWindow ps.length t0 dt r (call i) with
    | none =>
      simp only
      unfold runThreads
      rw [hw]
      simp only
      rw [ih]
      simp [lagrangeUni, hw]
    | some w =>
      simp only
      unfold runThreads
      rw [hw]
      simp only
      rw [ih]
      simp [lagrangeUni, hw, List.append_assoc]

/-- **C106, refuted part.** The object is shared between threads through a const method that is not safe: the array of times
is a member.  Positions that grow with the time, two threads, and one of them gets another position than it asked for. -/
theorem threads_race : ∃ (ps : List (V3 ℚ)) (t0 dt : ℚ) (r : Int) (call : Nat → ℚ) (v : V3 ℚ),
    uniOk ps.length t0 dt (tend t0 dt ps.length) r = true ∧ lagrangeUni ps t0 dt r (call 0) = some ⟨1 / 2, 0, 0⟩ ∧
    (0, v) ∈ runThreads ps t0 dt r call [Ev.write 0, Ev.write 1, Ev.eval 0, Ev.eval 1] [] [] ∧ v = ⟨-(3 / 2), 0, 0⟩ := by
  have hw0 : uniWindow 6 (0 : ℚ) 1 ((2 : Nat) : Int) (1 / 2) = some (0, 3) := by
    rw [uniWindow_eq 6 0 1 one_pos 2 _ 0 (by norm_num [knot]) (by norm_num [knot])]; decide
  have hw1 : uniWindow 6 (0 : ℚ) 1 ((2 : Nat) : Int) (9 / 2) = some (2, 5) := by
    rw [uniWindow_eq 6 0 1 one_pos 2 _ 4 (by norm_num [knot]) (by norm_num [knot])]; decide
  have call0 : lagrangeUni [(⟨0, 0, 0⟩ : V3 ℚ), ⟨1, 0, 0⟩, ⟨2, 0, 0⟩, ⟨3, 0, 0⟩, ⟨4, 0, 0⟩, ⟨5, 0, 0⟩] 0 1 2 (1 / 2) = some ⟨1 / 2, 0, 0⟩ := by
    unfold lagrangeUni
    have := hw0
    simp only [List.length_cons, List.length_nil] at *
    norm_num at this
    rw [this]
    decide +kernel
  refine ⟨[⟨0, 0, 0⟩, ⟨1, 0, 0⟩, ⟨2, 0, 0⟩, ⟨3, 0, 0⟩, ⟨4, 0, 0⟩, ⟨5, 0, 0⟩], 0, 1, 2, fun i => if i = 0 then 1 / 2 else 9 / 2, _,
    (uniOk_spec 6 0 1 _ 2).1 (by norm_num) one_pos (by norm_num) rfl, call0, ?_, rfl⟩
  have h0 := hw0
  have h1 := hw1
  norm_num at h0 h1
  unfold runThreads
  simp only [List.length_cons, List.length_nil, if_true]
  norm_num
  rw [h0]
  simp only
  unfold runThreads
  simp only [List.length_cons, List.length_nil]
  norm_num
  rw [h1]
  simp only
  unfold runThreads
  simp only [List.length_cons, List.length_nil, if_true]
  norm_num
  rw [h0]
  simp only
  unfold runThreads
  simp only [List.length_cons, List.length_nil]
  norm_num
  rw [h1]
  simp only
  unfold runThreads
  decide +kernel

end Verif.Camera.Interp
