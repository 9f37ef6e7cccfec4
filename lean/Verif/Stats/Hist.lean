import Verif.Stats.Brackets
import Mathlib.Algebra.BigOperators.Group.Finset.Basic
import Mathlib.Algebra.BigOperators.Intervals
import Mathlib.Data.List.TakeDrop
/-
Property C49: histogram and accumulators.
-/
namespace VW.Stats
open Finset

variable {K : Type} [Field K] [LinearOrder K] [IsStrictOrderedRing K] [FloorRing K]

/-! ### Histogram -/

/-- Filling a fresh histogram with values. -/
def fill (h : Hist K) (sat : Bool) (vs : List K) : Hist K := vs.foldl (fun h v => h.add v sat) h

/-- The bin a value is counted in, when it is counted: the bin number of the value, limited to the range if
saturating. -/
def target (n : Nat) (sat : Bool) (b : Int) : Option Nat :=
  if 0 ≤ b ∧ b < n then some b.toNat
  else if sat then some (if b < 0 then 0 else n - 1)
  else none

theorem add_eq (h : Hist K) (hn : 0 < h.n) (v : K) (sat : Bool) :
    h.add v sat = match target h.n sat (h.bin v) with
      | none => h
      | some i => h.bump i := by
  unfold Hist.add target
  dsimp only
  generalize h.bin v = b
  by_cases h1 : b < 0
  · rw [if_neg (show ¬ (0 ≤ b ∧ b < h.n) by omega)]
    cases sat
    · rw [if_pos (by simp [h1])]; simp
    · have : ¬ (0 ≥ (h.n : Int)) := by omega
      simp [h1, this, Nat.pos_iff_ne_zero.1 hn]
  · by_cases h2 : b ≥ h.n
    · rw [if_neg (show ¬ (0 ≤ b ∧ b < h.n) by omega)]
      cases sat
      · simp [h1, h2]
      · simp [h1, h2]
    · rw [if_pos (show 0 ≤ b ∧ b < h.n by omega)]
      simp [h1, h2]

/-- A count goes to one bin of the histogram. -/
theorem target_lt {n : Nat} (hn : 0 < n) {sat : Bool} {b : Int} {i : Nat} (h : target n sat b = some i) : i < n := by
  unfold target at h
  split at h
  · cases h; omega
  · split at h
    · cases h; split <;> omega
    · cases h

theorem bump_sum (h : Hist K) {i : Nat} (hi : i < h.n) :
    ∑ k ∈ range h.n, (h.bump i).bins k = ∑ k ∈ range h.n, h.bins k + 1 := by
  unfold Hist.bump
  dsimp only
  have : ∀ k, (if k = i then h.bins k + 1 else h.bins k) = h.bins k + (if k = i then 1 else 0) := by
    intro k; split <;> rfl
  simp only [this, sum_add_distrib]
  rw [Finset.sum_ite_eq' (range h.n) i (fun _ => 1), if_pos (mem_range.2 hi)]

/-- The parts of a histogram that counting leaves alone. -/
theorem add_frame (h : Hist K) (hn : 0 < h.n) (v : K) (sat : Bool) :
    (h.add v sat).n = h.n ∧ (h.add v sat).lo = h.lo ∧ (h.add v sat).hi = h.hi ∧ (h.add v sat).centers = h.centers := by
  rw [add_eq h hn]
  split <;> exact ⟨rfl, rfl, rfl, rfl⟩

theorem bin_congr {h h' : Hist K} (e1 : h'.n = h.n) (e2 : h'.lo = h.lo) (e3 : h'.hi = h.hi) (v : K) :
    h'.bin v = h.bin v := by unfold Hist.bin; rw [e1, e2, e3]

/-- **C49 (histogram counts)**: after any sequence of values, whatever the mode, every bin holds the number of values
assigned to it (by the rounding rule, out-of-range ones to the end bins when saturating, to none when not), and the
total is the number of values counted. -/
theorem fill_bins (h : Hist K) (hn : 0 < h.n) (sat : Bool) (vs : List K) :
    (∀ i, (fill h sat vs).bins i = h.bins i + vs.countP (fun v => target h.n sat (h.bin v) == some i)) ∧
    (fill h sat vs).total = h.total + vs.countP (fun v => (target h.n sat (h.bin v)).isSome) ∧
    (fill h sat vs).n = h.n ∧ (fill h sat vs).lo = h.lo ∧ (fill h sat vs).hi = h.hi ∧
    (fill h sat vs).centers = h.centers := by
  induction vs generalizing h with
  | nil => simp [fill]
  | cons v vs ih =>
    obtain ⟨f1, f2, f3, f4⟩ := add_frame h hn v sat
    obtain ⟨i1, i2, i3, i4, i5, i6⟩ := ih (h.add v sat) (by rw [f1]; exact hn)
    have hb : ∀ w, (h.add v sat).bin w = h.bin w := bin_congr f1 f2 f3
    rw [f1] at i1 i2 i3
    simp only [hb] at i1 i2
    have hf : fill h sat (v :: vs) = fill (h.add v sat) sat vs := rfl
    rw [hf]
    refine ⟨fun i => ?_, ?_, i3, i4.trans f2, i5.trans f3, i6.trans f4⟩
    · rw [i1 i, List.countP_cons, add_eq h hn]
      cases ht : target h.n sat (h.bin v) with
      | none => simp
      | some j =>
        by_cases hj : i = j
        · subst hj; simp [Hist.bump]; omega
        · have : ¬ j = i := fun h => hj h.symm
          simp [Hist.bump, hj, this]
    · rw [i2, List.countP_cons, add_eq h hn]
      cases ht : target h.n sat (h.bin v) with
      | none => simp
      | some j => simp [Hist.bump]; omega

/-- **C49 (histogram total)**: the bins always add up to the total, and when saturating no value is lost. -/
theorem fill_total {n : Nat} {lo hi : K} {h : Hist K} (h0 : Hist.init n lo hi = some h) (sat : Bool) (vs : List K) :
    ∑ k ∈ range n, (fill h sat vs).bins k = (fill h sat vs).total ∧
    (sat = true → (fill h sat vs).total = vs.length) ∧ (fill h sat vs).total ≤ vs.length := by
  unfold Hist.init at h0
  split at h0
  · cases h0
  rename_i hn
  cases h0
  generalize hh : Hist.mk n 0 lo hi (fun i => lo + (i : K) * ((hi - lo) / n) + (hi - lo) / n / 2) (fun _ => 0) = h
  have e1 : h.n = n := by rw [← hh]
  have e2 : h.total = 0 := by rw [← hh]
  have e3 : ∑ k ∈ range h.n, h.bins k = h.total := by rw [← hh]; simp
  have hp : 0 < h.n := by omega
  have i2 := (fill_bins h hp sat vs).2.1
  refine ⟨?_, ?_, ?_⟩
  · rw [← e1]
    clear i2 hh e1 e2
    induction vs generalizing h with
    | nil => exact e3
    | cons v vs ih =>
      obtain ⟨f1, f2, f3, f4⟩ := add_frame h hp v sat
      have := ih (h.add v sat)
        (by
          rw [f1, add_eq h hp]
          cases ht : target h.n sat (h.bin v) with
          | none => exact e3
          | some j =>
            show ∑ k ∈ range h.n, (h.bump j).bins k = h.total + 1
            rw [bump_sum h (target_lt hp ht), e3]) (by rw [f1]; exact hp)
      rw [f1] at this
      exact this
  · intro hs
    rw [i2, e2, Nat.zero_add, List.countP_eq_length]
    intro v _
    subst hs
    unfold target
    split <;> simp
  · rw [i2, e2, Nat.zero_add]
    exact List.countP_le_length

/-- Centers of a new histogram: the middles of n equal parts. -/
theorem init_centers {n : Nat} {lo hi : K} {h : Hist K} (h0 : Hist.init n lo hi = some h) (i : Nat) :
    h.centers i = lo + ((i : K) + 1 / 2) * ((hi - lo) / n) := by
  unfold Hist.init at h0
  split at h0
  · cases h0
  · cases h0; dsimp only; ring

/-- **C49 (a value's bin)**: in a histogram of n ≥ 2 bins over [lo, hi], a value of the range is counted, and in a bin
whose center is within one bin width of the value. -/
theorem bin_near {n : Nat} {lo hi : K} {h : Hist K} (h0 : Hist.init n lo hi = some h) (hn : 2 ≤ n) (hlt : lo < hi)
    {v : K} (hv : lo ≤ v) (hv' : v ≤ hi) :
    ∃ i, i < n ∧ (∀ sat, h.add v sat = h.bump i) ∧ |h.centers i - v| ≤ (hi - lo) / n := by
  have hc := init_centers h0
  have e1 : h.n = n := by
    unfold Hist.init at h0; split at h0
    · cases h0
    · cases h0; rfl
  have e2 : h.lo = lo ∧ h.hi = hi := by
    unfold Hist.init at h0; split at h0
    · cases h0
    · cases h0; exact ⟨rfl, rfl⟩
  have hw : 0 < hi - lo := by linarith
  obtain ⟨t, ht⟩ : ∃ t, t = (v - lo) / (hi - lo) := ⟨_, rfl⟩
  have t0 : 0 ≤ t := by rw [ht]; exact div_nonneg (by linarith) hw.le
  have t1 : t ≤ 1 := by rw [ht, div_le_one hw]; linarith
  have hvt : v = lo + t * (hi - lo) := by rw [ht]; field_simp; ring
  obtain ⟨m, rfl⟩ : ∃ m, n = m + 1 := ⟨n - 1, by omega⟩
  have hmK : (0 : K) ≤ m := by positivity
  have hb : h.bin v = ⌊(m : K) * t + 1 / 2⌋ := by
    unfold Hist.bin
    rw [e1, e2.1, e2.2, ← ht, Nat.add_sub_cancel, round_nonneg (mul_nonneg hmK t0)]
  have f1 := Int.floor_le ((m : K) * t + 1 / 2)
  have f2 := Int.lt_floor_add_one ((m : K) * t + 1 / 2)
  rw [← hb] at f1 f2
  have mt : (m : K) * t ≤ m := by nlinarith
  have mt0 : 0 ≤ (m : K) * t := mul_nonneg hmK t0
  have b0 : 0 ≤ h.bin v := by rw [hb]; exact Int.floor_nonneg.2 (by linarith)
  have b1 : h.bin v < (m + 1 : Nat) := by
    have : (h.bin v : K) < (m : K) + 1 := by linarith
    have : h.bin v < (m : Int) + 1 := by exact_mod_cast this
    push_cast; exact this
  obtain ⟨i, hi'⟩ := Int.eq_ofNat_of_zero_le b0
  refine ⟨i, by omega, fun sat => ?_, ?_⟩
  · rw [add_eq h (by omega)]
    have : target h.n sat (h.bin v) = some i := by
      unfold target
      rw [if_pos ⟨b0, by rw [e1]; exact b1⟩, hi', Int.toNat_natCast]
    rw [this]
  · rw [hc, hvt]
    have hiK : (h.bin v : K) = (i : K) := by rw [hi']; simp
    rw [hiK] at f1 f2
    have hM : (0 : K) < ((m + 1 : Nat) : K) := by positivity
    have e : lo + ((i : K) + 1 / 2) * ((hi - lo) / ((m + 1 : Nat) : K)) - (lo + t * (hi - lo)) =
        ((i : K) + 1 / 2 - t * ((m + 1 : Nat) : K)) * ((hi - lo) / ((m + 1 : Nat) : K)) := by
      field_simp
      ring
    rw [e, abs_mul, abs_of_pos (div_pos hw hM)]
    have : |(i : K) + 1 / 2 - t * ((m + 1 : Nat) : K)| ≤ 1 := by
      push_cast
      have e' : t * ((m : K) + 1) = (m : K) * t + t := by ring
      rw [e', abs_le]
      constructor <;> linarith
    calc _ ≤ 1 * ((hi - lo) / ((m + 1 : Nat) : K)) := mul_le_mul_of_nonneg_right this (div_pos hw hM).le
      _ = _ := one_mul _

/-- But not in the bin that contains the value: of three bins over [0,10] the first one's part is [0, 10/3), yet 3 is
counted in the second. -/
theorem bin_not_containing : ∀ h, Hist.init 3 (0 : ℚ) 10 = some h → h.bin 3 = 1 ∧ h.centers 0 + (10 : ℚ) / 3 / 2 > 3 := by
  intro h h0
  have hc := init_centers h0 0
  unfold Hist.init at h0
  rw [if_neg (by decide)] at h0
  cases h0
  have f : ⌊(11 / 10 : ℚ)⌋ = 1 := by rw [Int.floor_eq_iff]; norm_num
  constructor
  · norm_num [Hist.bin, round, f]
  · norm_num

/-- No bins: an exception. -/
theorem init_none (lo hi : K) : Hist.init 0 lo hi = none := rfl

/-! #### Percentile of a histogram -/

/-- The number of values in bins 0..i-1. -/
def below (h : Hist K) (i : Nat) : Nat := ∑ k ∈ range i, h.bins k

theorem scan_spec (h : Hist K) (p : K) (k i : Nat) (run : K) (hr : run = (below h i : K) / (h.total : K)) :
    match h.scan p k i run with
    | none => ∀ j, i ≤ j → j < i + k → (below h (j + 1) : K) / h.total < p
    | some r => i ≤ r ∧ r < i + k ∧ p ≤ (below h (r + 1) : K) / h.total ∧
        ∀ j, i ≤ j → j < r → (below h (j + 1) : K) / h.total < p := by
  induction k generalizing i run with
  | zero => unfold Hist.scan; intro j h1 h2; omega
  | succ k ih =>
    have e : run + (h.bins i : K) / (h.total : K) = (below h (i + 1) : K) / h.total := by
      rw [hr, below, below, sum_range_succ]; push_cast; ring
    unfold Hist.scan
    dsimp only
    rw [e]
    by_cases hp : (below h (i + 1) : K) / h.total ≥ p
    · rw [if_pos hp]
      exact ⟨le_refl _, by omega, hp, fun j h1 h2 => by omega⟩
    · rw [if_neg hp]
      have := ih (i + 1) ((below h (i + 1) : K) / h.total) rfl
      have hp' := not_le.1 hp
      revert this
      cases h.scan p k (i + 1) ((below h (i + 1) : K) / h.total) with
      | none =>
        intro this j h1 h2
        rcases Nat.lt_or_eq_of_le h1 with h | h
        · exact this j h (by omega)
        · subst h; exact hp'
      | some r =>
        rintro ⟨a, b, c, d⟩
        refine ⟨by omega, by omega, c, fun j h1 h2 => ?_⟩
        rcases Nat.lt_or_eq_of_le h1 with h | h
        · exact d j h h2
        · subst h; exact hp'

/-- **C49 (histogram percentile)**: for a histogram with at least one counted value and p in [0,1] the percentile is
the first bin up to which at least the fraction p of the values lie; it always exists. -/
theorem percentile_bin {n : Nat} {lo hi : K} {h0 : Hist K} (hi0 : Hist.init n lo hi = some h0) (sat : Bool) (vs : List K)
    {p : K} (hp : 0 ≤ p) (hp' : p ≤ 1) (ht : 0 < (fill h0 sat vs).total) :
    ∃ i, (fill h0 sat vs).percentile p = some i ∧ i < n ∧
      p * (fill h0 sat vs).total ≤ ((∑ k ∈ range (i + 1), (fill h0 sat vs).bins k : Nat) : K) ∧
      ∀ j < i, ((∑ k ∈ range (j + 1), (fill h0 sat vs).bins k : Nat) : K) < p * (fill h0 sat vs).total := by
  obtain ⟨hsum, _, _⟩ := fill_total hi0 sat vs
  have hn : 0 < n := by
    unfold Hist.init at hi0; split at hi0
    · cases hi0
    · omega
  have hn0 : h0.n = n := by
    unfold Hist.init at hi0; split at hi0
    · cases hi0
    · cases hi0; rfl
  have e1 : (fill h0 sat vs).n = n := (fill_bins h0 (by omega) sat vs).2.2.1.trans hn0
  generalize fill h0 sat vs = h at *
  have hT : (0 : K) < h.total := by exact_mod_cast ht
  have hs := scan_spec h p h.n 0 0 (by simp [below])
  unfold Hist.percentile
  rw [if_neg (by rintro (h | h) <;> linarith), if_neg (by omega)]
  cases hsc : h.scan p h.n 0 0 with
  | none =>
    rw [hsc] at hs
    have := hs (n - 1) (Nat.zero_le _) (by omega)
    rw [Nat.sub_add_cancel hn, below, hsum, div_self (ne_of_gt hT)] at this
    linarith
  | some r =>
    rw [hsc] at hs
    obtain ⟨_, h2, h3, h4⟩ := hs
    refine ⟨r, rfl, by omega, (le_div_iff₀ hT).1 h3, fun j hj => ?_⟩
    exact (div_lt_iff₀ hT).1 (h4 j (Nat.zero_le _) hj)

/-- A fraction out of [0,1], or nothing counted: an exception. -/
theorem percentile_bin_throws (h : Hist K) (p : K) (hh : p < 0 ∨ 1 < p ∨ h.total = 0) : h.percentile p = none := by
  unfold Hist.percentile
  rcases hh with h1 | h1 | h1
  · rw [if_pos (Or.inl h1)]
  · rw [if_pos (Or.inr h1)]
  · split
    · rfl
    · first | rfl | rw [if_pos h1]

/-- A case of the theorems above: two bins over [0,10] with the values 1, 2, 9 and, saturating, 70. -/
example : ∃ h : Hist ℚ, Hist.init 2 0 10 = some h ∧ (fill h true [1, 2, 9, 70]).total = 4 ∧
    (fill h true [1, 2, 9, 70]).bins 1 = 2 ∧ (fill h false [1, 2, 9, 70]).total = 3 ∧
    (fill h true [1, 2, 9, 70]).percentile (1 / 2) = some 0 := by
  have f : ⌊(3 / 5 : ℚ)⌋ = 0 := by rw [Int.floor_eq_iff]; norm_num
  have f' : ⌊(7 / 10 : ℚ)⌋ = 0 := by rw [Int.floor_eq_iff]; norm_num
  have f1 : ⌊(7 / 5 : ℚ)⌋ = 1 := by rw [Int.floor_eq_iff]; norm_num
  have f2 : ⌊(15 / 2 : ℚ)⌋ = 7 := by rw [Int.floor_eq_iff]; norm_num
  refine ⟨_, rfl, ?_, ?_, ?_, ?_⟩ <;>
    norm_num [fill, Hist.add, Hist.bin, Hist.bump, round, Hist.percentile, Hist.scan, f, f', f1, f2]

end VW.Stats
