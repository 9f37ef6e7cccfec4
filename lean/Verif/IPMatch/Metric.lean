import Verif.IPMatch.Model

/-! Distances between descriptors of interest points (C129). -/

namespace VW.IPMatch
open VW.Functions (differing popcount hamming)

/-! ### Specification -/

/-- The square of the Euclidean distance of two descriptors. -/
def sqDist (d1 d2 : List ℚ) : ℚ := (List.zipWith (fun a b => (a - b) ^ 2) d1 d2).sum

/-- The number of bits in which two sequences of bytes differ. -/
def bitDist (p1 p2 : List ℕ) : ℕ := (List.zipWith (differing 8) p1 p2).sum

/-- `r` is the exact distance `s`, or the computation was stopped: then both are above the limit. -/
def StoppedAbove (maxdist r s : ℚ) : Prop := r = s ∨ (maxdist < r ∧ r ≤ s)

/-! ### Euclidean distance -/

theorem sqDist_nonneg (d1 d2 : List ℚ) : 0 ≤ sqDist d1 d2 := by
  unfold sqDist
  apply List.sum_nonneg
  intro x hx
  rw [List.mem_iff_getElem] at hx
  obtain ⟨i, hi, rfl⟩ := hx
  rw [List.getElem_zipWith]
  exact sq_nonneg _

theorem l2Loop_stopped (M : ℚ) (d1 d2 : List ℚ) (s : ℚ) : StoppedAbove M (l2Loop M d1 d2 s) (s + sqDist d1 d2) := by
  induction d1 generalizing d2 s with
  | nil => left; simp [l2Loop, sqDist]
  | cons a as ih =>
    cases d2 with
    | nil => left; simp [l2Loop, sqDist]
    | cons b bs =>
      have e : s + sqDist (a :: as) (b :: bs) = s + (a - b) * (a - b) + sqDist as bs := by simp only [sqDist, List.zipWith_cons_cons, List.sum_cons]; ring
      rw [e]
      unfold l2Loop
      by_cases h : s + (a - b) * (a - b) > M
      · rw [if_pos h]
        right
        exact ⟨h, by have := sqDist_nonneg as bs; linarith⟩
      · rw [if_neg h]
        exact ih bs _

/-- **C129 (Euclidean metric).** With a limit `maxdist`, the metric returns the square of the Euclidean distance, unless this is above
the limit; then it returns a number above the limit, but not above the distance. So the result is above the limit exactly if the
distance is. -/
theorem l2_spec (M : ℚ) (d1 d2 : List ℚ) :
    StoppedAbove M (l2 M d1 d2) (sqDist d1 d2) ∧ (sqDist d1 d2 ≤ M → l2 M d1 d2 = sqDist d1 d2) ∧
      (M < l2 M d1 d2 ↔ M < sqDist d1 d2) := by
  have h := l2Loop_stopped M d1 d2 0
  rw [zero_add] at h
  refine ⟨h, fun hs => ?_, ?_⟩
  · rcases h with h | h
    · exact h
    · exact absurd (lt_of_lt_of_le h.1 h.2) (not_lt.2 hs)
  · rcases h with h | h
    · rw [l2, h]
    · exact ⟨fun _ => lt_of_lt_of_le h.1 h.2, fun _ => h.1⟩

example : l2 100 [1, 2, 5] [0, 4, 1] = 21 ∧ sqDist [1, 2, 5] [0, 4, 1] = 21 ∧ l2 3 [1, 2, 5] [0, 4, 1] = 5 := by
  refine ⟨?_, ?_, ?_⟩ <;> norm_num [l2, l2Loop, sqDist]

/-- The distance is symmetric, and zero exactly for equal descriptors. -/
theorem l2_metric (M : ℚ) (d1 d2 : List ℚ) (hl : d1.length = d2.length) (hM : 0 ≤ M) :
    (l2 M d1 d2 = 0 ↔ d1 = d2) ∧ l2 M d1 d2 = l2 M d2 d1 ∧ 0 ≤ l2 M d1 d2 := by
  have sym : ∀ (d1 d2 : List ℚ) (s : ℚ), l2Loop M d1 d2 s = l2Loop M d2 d1 s := by
    intro d1
    induction d1 with
    | nil => intro d2 s; cases d2 <;> rfl
    | cons a as ih =>
      intro d2 s
      cases d2 with
      | nil => rfl
      | cons b bs =>
        unfold l2Loop
        rw [show (b - a) * (b - a) = (a - b) * (a - b) by ring]
        by_cases h : s + (a - b) * (a - b) > M
        · rw [if_pos h, if_pos h]
        · rw [if_neg h, if_neg h]; exact ih bs _
  have hz : ∀ (d1 d2 : List ℚ), d1.length = d2.length → (sqDist d1 d2 = 0 ↔ d1 = d2) := by
    intro d1
    induction d1 with
    | nil => intro d2 h; cases d2 <;> simp_all [sqDist]
    | cons a as ih =>
      intro d2 h
      cases d2 with
      | nil => simp at h
      | cons b bs =>
        have e : sqDist (a :: as) (b :: bs) = (a - b) ^ 2 + sqDist as bs := by simp only [sqDist, List.zipWith_cons_cons, List.sum_cons]
        have h1 := sqDist_nonneg as bs
        have h2 := sq_nonneg (a - b)
        rw [e, List.cons.injEq, ← ih bs (by simpa using h)]
        constructor
        · intro h0
          have h3 : (a - b) ^ 2 = 0 := by linarith
          have h4 : a - b = 0 := by simpa using h3
          exact ⟨by linarith, by linarith⟩
        · rintro ⟨rfl, h0⟩
          rw [h0]; ring
  have h := l2Loop_stopped M d1 d2 0
  rw [zero_add] at h
  refine ⟨?_, sym d1 d2 0, ?_⟩
  · rw [← hz d1 d2 hl]
    rcases h with h | h
    · rw [l2, h]
    · unfold l2
      constructor
      · intro h0; linarith
      · intro h0; linarith
  · have := sqDist_nonneg d1 d2
    rcases h with h | h
    · rw [l2, h]; exact this
    · unfold l2; linarith

example : l2 10 [1, 2] [3, 5] = 13 ∧ l2 10 [3, 5] [1, 2] = 13 ∧ l2 10 [3, 5] [3, 5] = 0 := by
  refine ⟨?_, ?_, ?_⟩ <;> norm_num [l2, l2Loop]

/-! ### Hamming distance -/

/-- **C38, C129 (32 and 64 bits).** The distance of two numbers of `w` bits computed with the builtin is the number of bits that differ. -/
theorem hammingWide_spec (w a b : ℕ) (ha : a < 2 ^ w) (hb : b < 2 ^ w) : hammingWide a b = differing w a b := by
  unfold hammingWide differing
  rw [VW.Functions.popcount_eq w _ (Nat.xor_lt_two_pow ha hb)]
  congr 1
  ext i
  simp [Nat.testBit_xor]

theorem popcount_split (n a m : ℕ) (ha : a < 2 ^ n) : popcount (a + 2 ^ n * m) = popcount a + popcount m := by
  induction n generalizing a with
  | zero => obtain rfl : a = 0 := by simpa using ha
            simp [VW.Functions.popcount_zero]
  | succ n ih =>
    rw [VW.Functions.popcount_step (a + 2 ^ (n + 1) * m), VW.Functions.popcount_step a]
    have h1 : (a + 2 ^ (n + 1) * m) % 2 = a % 2 := by rw [pow_succ, show 2 ^ n * 2 * m = 2 * (2 ^ n * m) by ring]; omega
    have h2 : (a + 2 ^ (n + 1) * m) / 2 = a / 2 + 2 ^ n * m := by rw [pow_succ, show 2 ^ n * 2 * m = 2 * (2 ^ n * m) by ring]; omega
    rw [h1, h2, ih (a / 2) (by rw [pow_succ] at ha; omega)]
    omega

theorem xor_split (n a b u v : ℕ) (ha : a < 2 ^ n) (hb : b < 2 ^ n) :
    (a + 2 ^ n * u) ^^^ (b + 2 ^ n * v) = (a ^^^ b) + 2 ^ n * (u ^^^ v) := by
  apply Nat.eq_of_testBit_eq
  intro i
  rw [Nat.testBit_xor, Nat.add_comm a, Nat.add_comm b, Nat.add_comm (a ^^^ b), Nat.testBit_two_pow_mul_add _ ha,
    Nat.testBit_two_pow_mul_add _ hb, Nat.testBit_two_pow_mul_add _ (Nat.xor_lt_two_pow ha hb)]
  by_cases h : i < n
  · simp [h, Nat.testBit_xor]
  · simp [h, Nat.testBit_xor]

theorem word_dist (as bs : List ℕ) (hl : as.length = bs.length) (ha : ∀ a ∈ as, a < 256) (hb : ∀ b ∈ bs, b < 256) :
    hammingWide (word as) (word bs) = bitDist as bs := by
  induction as generalizing bs with
  | nil => cases bs with
    | nil => simp [hammingWide, word, bitDist, VW.Functions.popcount_zero]
    | cons b bs => simp at hl
  | cons a as ih =>
    cases bs with
    | nil => simp at hl
    | cons b bs =>
      have h := ih bs (by simpa using hl) (fun x hx => ha x (by simp [hx])) (fun x hx => hb x (by simp [hx]))
      have h1 : a < 2 ^ 8 := ha a (by simp)
      have h2 : b < 2 ^ 8 := hb b (by simp)
      unfold hammingWide at h ⊢
      have e := xor_split 8 a b (word as) (word bs) h1 h2
      have e2 : word (a :: as) ^^^ word (b :: bs) = (a ^^^ b) + 2 ^ 8 * (word as ^^^ word bs) := e
      rw [e2, popcount_split 8 _ _ (Nat.xor_lt_two_pow h1 h2), h]
      have h3 : popcount (a ^^^ b) = differing 8 a b := hammingWide_spec 8 a b h1 h2
      rw [h3]
      simp [bitDist]

theorem bitDist_append (a b c d : List ℕ) (h : a.length = c.length) : bitDist (a ++ b) (c ++ d) = bitDist a c + bitDist b d := by
  unfold bitDist
  rw [List.zipWith_append h, List.sum_append]

theorem bitDist_take (p1 p2 : List ℕ) (i n : ℕ) (h1 : i + n ≤ p1.length) (h2 : i + n ≤ p2.length) :
    bitDist (p1.drop i) (p2.drop i) =
      bitDist ((p1.drop i).take n) ((p2.drop i).take n) + bitDist (p1.drop (i + n)) (p2.drop (i + n)) := by
  conv_lhs => rw [← List.take_append_drop n (p1.drop i), ← List.take_append_drop n (p2.drop i)]
  rw [bitDist_append _ _ _ _ (by simp only [List.length_take, List.length_drop]; omega), List.drop_drop, List.drop_drop]

theorem groupLoop_spec (k : ℕ) (M : ℚ) (p1 p2 : List ℕ) (b1 : ∀ a ∈ p1, a < 256) (b2 : ∀ a ∈ p2, a < 256) :
    ∀ (n i : ℕ) (s : ℚ), i + n * k ≤ p1.length → i + n * k ≤ p2.length →
      (((groupLoop k M p1 p2 n i s).2 = false ∧
        (groupLoop k M p1 p2 n i s).1 + bitDist (p1.drop (i + n * k)) (p2.drop (i + n * k)) = s + bitDist (p1.drop i) (p2.drop i)) ∨
       ((groupLoop k M p1 p2 n i s).2 = true ∧ M < (groupLoop k M p1 p2 n i s).1 ∧
        (groupLoop k M p1 p2 n i s).1 ≤ s + bitDist (p1.drop i) (p2.drop i))) := by
  intro n
  induction n with
  | zero => intro i s _ _; left; simp [groupLoop]
  | succ n ih =>
    intro i s h1 h2
    have h1' : i + k + n * k ≤ p1.length := by rw [Nat.succ_mul] at h1; omega
    have h2' : i + k + n * k ≤ p2.length := by rw [Nat.succ_mul] at h2; omega
    have e := bitDist_take p1 p2 i k (by omega) (by omega)
    have hw : hammingWide (word ((p1.drop i).take k)) (word ((p2.drop i).take k)) = bitDist ((p1.drop i).take k) ((p2.drop i).take k) := by
      apply word_dist
      · simp only [List.length_take, List.length_drop]; omega
      · intro a ha; exact b1 a (List.mem_of_mem_drop (List.mem_of_mem_take ha))
      · intro a ha; exact b2 a (List.mem_of_mem_drop (List.mem_of_mem_take ha))
    have ei : i + (n + 1) * k = i + k + n * k := by rw [Nat.succ_mul]; omega
    rw [ei, e]
    unfold groupLoop
    rw [hw]
    by_cases h : s + (bitDist ((p1.drop i).take k) ((p2.drop i).take k) : ℚ) > M
    · rw [if_pos h]
      right
      refine ⟨rfl, h, ?_⟩
      push_cast
      have : (0 : ℚ) ≤ bitDist (p1.drop (i + k)) (p2.drop (i + k)) := Nat.cast_nonneg _
      linarith
    · rw [if_neg h]
      have := ih (i + k) (s + bitDist ((p1.drop i).take k) ((p2.drop i).take k)) h1' h2'
      rw [show ((bitDist ((p1.drop i).take k) ((p2.drop i).take k) + bitDist (p1.drop (i + k)) (p2.drop (i + k)) : ℕ) : ℚ) =
        (bitDist ((p1.drop i).take k) ((p2.drop i).take k) : ℚ) + bitDist (p1.drop (i + k)) (p2.drop (i + k)) by push_cast; rfl]
      rw [← add_assoc]
      exact this

theorem byteLoop_spec (p1 p2 : List ℕ) (b1 : ∀ a ∈ p1, a < 256) (b2 : ∀ a ∈ p2, a < 256) (hl : p1.length = p2.length) :
    ∀ (n i : ℕ) (s : ℚ), i + n = p1.length → byteLoop p1 p2 n i s = s + bitDist (p1.drop i) (p2.drop i) := by
  intro n
  induction n with
  | zero =>
    intro i s h
    rw [List.drop_eq_nil_of_le (by omega)]
    simp [byteLoop, bitDist]
  | succ n ih =>
    intro i s h
    have h1 : i < p1.length := by omega
    have h2 : i < p2.length := by omega
    unfold byteLoop
    rw [ih (i + 1) _ (by omega), List.drop_eq_getElem_cons h1, List.drop_eq_getElem_cons h2, List.getD_eq_getElem _ _ h1,
      List.getD_eq_getElem _ _ h2, VW.Functions.hamming_spec 8 _ _ (b1 _ (List.getElem_mem h1)) (b2 _ (List.getElem_mem h2))]
    have : bitDist (p1[i] :: p1.drop (i + 1)) (p2[i] :: p2.drop (i + 1)) = differing 8 p1[i] p2[i] + bitDist (p1.drop (i + 1)) (p2.drop (i + 1)) := by
      simp only [bitDist, List.zipWith_cons_cons, List.sum_cons]
    rw [this]
    push_cast
    ring

/-- **C129 (Hamming metric).** For descriptors of bytes of equal length, any length, the metric returns the number of bits that differ,
unless this is above the limit; then it returns a number above the limit but not above the distance, or the distance. -/
theorem hamming_metric_spec (M : ℚ) (p1 p2 : List ℕ) (b1 : ∀ a ∈ p1, a < 256) (b2 : ∀ a ∈ p2, a < 256)
    (hl : p1.length = p2.length) :
    StoppedAbove M (hammingMetric M p1 p2) (bitDist p1 p2) ∧ ((bitDist p1 p2 : ℚ) ≤ M → hammingMetric M p1 p2 = bitDist p1 p2) ∧
      (M < hammingMetric M p1 p2 ↔ M < (bitDist p1 p2 : ℚ)) := by
  have key : StoppedAbove M (hammingMetric M p1 p2) (bitDist p1 p2) := by
    unfold hammingMetric
    have g1 := groupLoop_spec 8 M p1 p2 b1 b2 (p1.length / 8) 0 0 (by omega) (by omega)
    simp only [Nat.zero_add, List.drop_zero, zero_add] at g1
    simp only []
    rcases g1 with ⟨hf, he⟩ | ⟨ht, hgt, hle⟩
    · rw [if_neg (by rw [hf]; simp)]
      have g2 := groupLoop_spec 4 M p1 p2 b1 b2 ((p1.length - p1.length / 8 * 8) / 4) (p1.length / 8 * 8)
        (groupLoop 8 M p1 p2 (p1.length / 8) 0 0).1 (by omega) (by omega)
      rw [he] at g2
      rcases g2 with ⟨hf2, he2⟩ | ⟨ht2, hgt2, hle2⟩
      · rw [if_neg (by rw [hf2]; simp), byteLoop_spec p1 p2 b1 b2 hl _ _ _ (by omega), he2]
        left; rfl
      · rw [if_pos ht2]
        right; exact ⟨hgt2, hle2⟩
    · rw [if_pos ht]
      right; exact ⟨hgt, hle⟩
  refine ⟨key, fun hs => ?_, ?_⟩
  · rcases key with h | h
    · exact h
    · exact absurd (lt_of_lt_of_le h.1 h.2) (not_lt.2 hs)
  · rcases key with h | h
    · rw [h]
    · exact ⟨fun _ => lt_of_lt_of_le h.1 h.2, fun _ => h.1⟩

/-- A case: thirteen bytes, one group of eight, one of four and one more byte. -/
example : hammingMetric 100 [0,0,0,0,0,0,0,255, 1,0,0,0, 7] [0,0,0,0,0,0,0,0, 0,0,0,128, 0] = 13 := by
  have e : bitDist [0,0,0,0,0,0,0,255, 1,0,0,0, 7] [0,0,0,0,0,0,0,0, 0,0,0,128, 0] = 13 := by decide +kernel
  have h := (hamming_metric_spec 100 [0,0,0,0,0,0,0,255, 1,0,0,0, 7] [0,0,0,0,0,0,0,0, 0,0,0,128, 0] (by decide) (by decide) rfl).2.1
  rw [e] at h
  rw [h (by norm_num)]; norm_num

/-! ### Constraints -/

/-- **C129 (orientation).** If the orientations differ by at most 3π, as they do if both are in an interval of length 2π, the constraint
compares an angle in [-π, π] that differs from the difference of the orientations by a multiple of 2π. -/
theorem oriDiff_spec (base test : ℝ) (h : |test - base| ≤ 3 * Real.pi) :
    |oriDiff base test| ≤ Real.pi ∧ ∃ k : ℤ, oriDiff base test = test - base + k * (2 * Real.pi) := by
  have hp := Real.pi_pos
  rw [abs_le] at h
  unfold oriDiff
  by_cases h1 : test - base < -Real.pi
  · rw [if_pos h1]
    exact ⟨abs_le.2 ⟨by linarith, by linarith⟩, 1, by push_cast; ring⟩
  · rw [if_neg h1]
    by_cases h2 : test - base > Real.pi
    · rw [if_pos h2]
      exact ⟨abs_le.2 ⟨by linarith, by linarith⟩, -1, by push_cast; ring⟩
    · rw [if_neg h2]
      exact ⟨abs_le.2 ⟨by linarith, by linarith⟩, 0, by push_cast; ring⟩

example : |(Real.pi : ℝ) - (-Real.pi)| ≤ 3 * Real.pi ∧ oriDiff (-Real.pi) Real.pi = 0 := by
  have hp := Real.pi_pos
  refine ⟨by rw [abs_le]; constructor <;> linarith, ?_⟩
  unfold oriDiff
  rw [if_neg (by linarith), if_pos (by linarith)]; ring

/-- Refuted beyond: of angles in degrees, as the points from OpenCV have them (InterestPoint.cc:39), one turn apart, the constraint with
its defaults rejects the equal orientations. -/
theorem oriDiff_degrees : ¬ scaleOri 0.9 1.1 (-0.1) 0.1 1 0 1 360 := by
  have h4 := Real.pi_le_four
  unfold scaleOri oriDiff
  rintro ⟨-, -, -, h⟩
  have hp := Real.pi_pos
  rw [if_neg (by linarith), if_pos (by linarith)] at h
  norm_num at h
  linarith

/-- **C129 (scale and orientation).** For points of positive scale with orientations that differ by at most π the constraint accepts
exactly if scale ratio and difference of orientation are in the given ranges. -/
theorem scaleOri_spec (srmin srmax odmin odmax bs bo ts t : ℝ) (hb : 0 < bs) (h : |t - bo| ≤ Real.pi) :
    scaleOri srmin srmax odmin odmax bs bo ts t ↔
      srmin * bs ≤ ts ∧ ts ≤ srmax * bs ∧ odmin ≤ t - bo ∧ t - bo ≤ odmax := by
  rw [abs_le] at h
  unfold scaleOri oriDiff
  rw [if_neg (by linarith), if_neg (by linarith), ge_iff_le, le_div_iff₀ hb, div_le_iff₀ hb]

example : scaleOri 0.9 1.1 (-0.1) 0.1 2 0 2.1 0.05 := by
  rw [scaleOri_spec _ _ _ _ _ _ _ _ (by norm_num) (by have := Real.two_le_pi; rw [abs_le]; constructor <;> linarith)]
  norm_num

/-- **C129 (position).** -/
theorem position_spec (minx maxx miny maxy : ℚ) (base test : Point) :
    position minx maxx miny maxy base test = true ↔
      base.x + minx ≤ test.x ∧ test.x ≤ base.x + maxx ∧ base.y + miny ≤ test.y ∧ test.y ≤ base.y + maxy := by
  unfold position
  rw [decide_eq_true_iff]
  constructor <;> rintro ⟨h1, h2, h3, h4⟩ <;> refine ⟨?_, ?_, ?_, ?_⟩ <;> linarith

end VW.IPMatch
