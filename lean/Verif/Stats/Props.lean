import Verif.Stats.Model
import Mathlib.Data.List.Sort
import Mathlib.Tactic.Linarith
import Mathlib.Tactic.Ring
import Mathlib.Tactic.FieldSimp
import Mathlib.Tactic.Positivity
import Mathlib.Tactic.NormNum
import Mathlib.Tactic.ByContra
/-
Property C37: median, percentile, outlier brackets.
-/
namespace VW.Stats

variable {K : Type} [Field K] [LinearOrder K] [IsStrictOrderedRing K] [FloorRing K]

/-! ### Sorting -/

theorem sort_perm (l : List K) : (sort l).Perm l := List.mergeSort_perm _ _

theorem sort_sorted (l : List K) : (sort l).Pairwise (· ≤ ·) := by
  have := List.pairwise_mergeSort (le := fun a b : K => decide (a ≤ b)) (fun a b c h1 h2 => by
    simp only [decide_eq_true_eq] at *; exact le_trans h1 h2) (fun a b => by
    simp only [Bool.or_eq_true, decide_eq_true_eq]; exact le_total a b) l
  unfold sort
  exact this.imp (fun h => by simpa using h)

theorem sort_length (l : List K) : (sort l).length = l.length := (sort_perm l).length_eq

/-- The sorted list does not depend on the order of the input. -/
theorem sort_congr {l m : List K} (h : l.Perm m) : sort l = sort m := by
  have p : (sort l).Perm (sort m) := ((sort_perm l).trans h).trans (sort_perm m).symm
  exact List.Perm.eq_of_pairwise (le := (· ≤ ·)) (fun a b _ _ h1 h2 => le_antisymm h1 h2) (sort_sorted l) (sort_sorted m) p

theorem sort_le {l : List K} {i j : Nat} (hij : i ≤ j) (hj : j < (sort l).length) :
    (sort l)[i]'(by omega) ≤ (sort l)[j] := by
  rcases Nat.lt_or_eq_of_le hij with h | h
  · exact List.pairwise_iff_getElem.1 (sort_sorted l) i j (by omega) hj h
  · subst h; exact le_refl _

/-- At least k+1 inputs are at most the k-th of the sorted values. -/
theorem count_le (l : List K) {k : Nat} (hk : k < (sort l).length) :
    k + 1 ≤ l.countP (fun x => decide (x ≤ (sort l)[k])) := by
  rw [← (sort_perm l).countP_eq]
  have h1 : ((sort l).take (k + 1)).countP (fun x => decide (x ≤ (sort l)[k])) = ((sort l).take (k + 1)).length := by
    rw [List.countP_eq_length]
    intro x hx
    obtain ⟨i, hi, rfl⟩ := List.getElem_of_mem hx
    rw [List.length_take] at hi
    rw [List.getElem_take, decide_eq_true_eq]
    exact sort_le (by omega) hk
  have h2 := (List.take_sublist (k + 1) (sort l)).countP_le (p := fun x => decide (x ≤ (sort l)[k]))
  rw [h1, List.length_take] at h2
  omega

/-- At least n-k inputs are at least the k-th of the sorted values. -/
theorem count_ge (l : List K) {k : Nat} (hk : k < (sort l).length) :
    l.length - k ≤ l.countP (fun x => decide ((sort l)[k] ≤ x)) := by
  rw [← (sort_perm l).countP_eq]
  have h1 : ((sort l).drop k).countP (fun x => decide ((sort l)[k] ≤ x)) = ((sort l).drop k).length := by
    rw [List.countP_eq_length]
    intro x hx
    obtain ⟨i, hi, rfl⟩ := List.getElem_of_mem hx
    rw [List.length_drop] at hi
    rw [List.getElem_drop, decide_eq_true_eq]
    exact sort_le (by omega) (by omega)
  have h2 := (List.drop_sublist k (sort l)).countP_le (p := fun x => decide ((sort l)[k] ≤ x))
  rw [h1, List.length_drop, sort_length] at h2
  omega

/-- At most k inputs are below the k-th of the sorted values. -/
theorem count_lt (l : List K) {k : Nat} (hk : k < (sort l).length) :
    l.countP (fun x => decide (x < (sort l)[k])) ≤ k := by
  have h1 := count_ge l hk
  have h2 := List.length_eq_countP_add_countP (fun x => decide ((sort l)[k] ≤ x)) (l := l)
  have h3 : l.countP (fun x => decide (x < (sort l)[k])) =
      l.countP (fun x => decide ¬ (decide ((sort l)[k] ≤ x) = true)) := by
    congr 1; funext x; simp [not_le]
  rw [sort_length] at hk
  omega

theorem countP_mono' {l : List K} {p q : K → Bool} (h : ∀ x, p x = true → q x = true) : l.countP p ≤ l.countP q :=
  List.countP_mono_left fun x _ => h x

/-! ### Median -/

/-- **C37 (median)**: of every non-empty list the median exists, at least half of the values are at most it and at
least half are at least it. -/
theorem median_half (l : List K) (hl : l ≠ []) :
    ∃ m, median l = some m ∧ l.length ≤ 2 * l.countP (fun x => decide (x ≤ m)) ∧
      l.length ≤ 2 * l.countP (fun x => decide (m ≤ x)) := by
  have hlen : 0 < l.length := List.length_pos_iff.2 hl
  have hs := sort_length l
  unfold median
  dsimp only
  by_cases h : l.length % 2 = 1
  · rw [if_pos h, List.getElem?_eq_getElem (by omega)]
    refine ⟨_, rfl, ?_, ?_⟩
    · have := count_le l (k := l.length / 2) (by omega); omega
    · have := count_ge l (k := l.length / 2) (by omega); omega
  · rw [if_neg h, if_neg (by omega), List.getElem?_eq_getElem (by omega), List.getElem?_eq_getElem (by omega)]
    refine ⟨_, rfl, ?_, ?_⟩
    · have a := count_le l (k := l.length / 2 - 1) (by omega)
      have b := sort_le (l := l) (i := l.length / 2 - 1) (j := l.length / 2) (by omega) (by omega)
      have := countP_mono' (l := l) (p := fun x => decide (x ≤ (sort l)[l.length / 2 - 1]'(by omega)))
        (q := fun x => decide (x ≤ ((sort l)[l.length / 2]'(by omega) + (sort l)[l.length / 2 - 1]'(by omega)) / 2))
        (fun x hx => by simp only [decide_eq_true_eq] at *; linarith)
      omega
    · have a := count_ge l (k := l.length / 2) (by omega)
      have b := sort_le (l := l) (i := l.length / 2 - 1) (j := l.length / 2) (by omega) (by omega)
      have := countP_mono' (l := l) (p := fun x => decide ((sort l)[l.length / 2]'(by omega) ≤ x))
        (q := fun x => decide (((sort l)[l.length / 2]'(by omega) + (sort l)[l.length / 2 - 1]'(by omega)) / 2 ≤ x))
        (fun x hx => by simp only [decide_eq_true_eq] at *; linarith)
      omega

/-- **C37 (median, order)**: the median does not depend on the order of the values. -/
theorem median_perm {l m : List K} (h : l.Perm m) : median l = median m := by
  unfold median; rw [sort_congr h, h.length_eq]

/-- The median lies between the values: above one and below one of them. -/
theorem median_between {l : List K} {m : K} (h : median l = some m) : (∃ a ∈ l, a ≤ m) ∧ ∃ b ∈ l, m ≤ b := by
  have hl : l ≠ [] := by rintro rfl; simp [median] at h
  obtain ⟨m', h', h1, h2⟩ := median_half l hl
  rw [h] at h'; obtain rfl := Option.some.inj h'
  have hlen : 0 < l.length := List.length_pos_iff.2 hl
  constructor
  · obtain ⟨x, hx, h⟩ := (List.countP_pos_iff (p := fun x => decide (x ≤ m))).1 (show 0 < l.countP _ by omega)
    exact ⟨x, hx, by simpa using h⟩
  · obtain ⟨x, hx, h⟩ := (List.countP_pos_iff (p := fun x => decide (m ≤ x))).1 (show 0 < l.countP _ by omega)
    exact ⟨x, hx, by simpa using h⟩

/-- **Discrepancy**: the median of nothing is a read outside of the vector, not an error. -/
theorem median_empty : median ([] : List K) = none := by simp [median]

/-- The destructive median is the median; it throws exactly when there are no values, and it leaves the values
sorted. -/
theorem destructiveMedian_eq (l : List K) : destructiveMedian l = (median l).map (fun m => (m, sort l)) := by
  have hs := sort_length l
  unfold destructiveMedian median
  dsimp only
  by_cases h0 : l.length = 0
  · rw [if_pos h0, if_neg (by omega), if_pos (by omega)]; rfl
  · rw [if_neg h0]
    by_cases h : l.length % 2 = 1
    · rw [if_pos h, if_pos (by omega), List.getElem?_eq_getElem (by omega)]; rfl
    · rw [if_neg h, if_neg (show ¬ l.length % 2 ≠ 0 by omega), if_neg (by omega), List.getElem?_eq_getElem (by omega),
        List.getElem?_eq_getElem (by omega)]
      simp [add_comm]

theorem median_exists {l : List K} (hl : l ≠ []) : ∃ m, median l = some m := by
  obtain ⟨m, h, _⟩ := median_half l hl; exact ⟨m, h⟩

/-- **C37 (nmad)**: the normalized deviation exists for every non-empty list, is the constant times the median of the
distances from the median, is not negative and does not depend on the order. -/
theorem nmad_spec {c : K} (hc : 0 ≤ c) (l : List K) (hl : l ≠ []) :
    ∃ m d, median l = some m ∧ median (l.map (fun x => |x - m|)) = some d ∧ 0 ≤ d ∧
      destructiveNmad c l = some (c * d, sort l) ∧ 0 ≤ c * d := by
  obtain ⟨m, hm⟩ := median_exists hl
  have hp : ((sort l).map (fun x => |x - m|)).Perm (l.map (fun x => |x - m|)) := (sort_perm l).map _
  obtain ⟨d, hd⟩ := median_exists (l := l.map (fun x => |x - m|)) (by simpa using hl)
  obtain ⟨⟨a, ha, had⟩, _⟩ := median_between hd
  obtain ⟨x, _, rfl⟩ := List.mem_map.1 ha
  have h0 : 0 ≤ d := le_trans (abs_nonneg _) had
  refine ⟨m, d, hm, hd, h0, ?_, mul_nonneg hc h0⟩
  unfold destructiveNmad
  rw [if_neg (by simpa using hl), destructiveMedian_eq, hm]
  simp only [Option.map_some, Option.bind_eq_bind, Option.bind_some]
  rw [destructiveMedian_eq, median_perm hp, hd]
  rfl

/-! ### Percentile -/

/-- **C37 (percentile)**: for every non-empty list and p in [0,100] the percentile is by nearest rank: a value of
the list such that at least p percent of the values are at most it, and the least such. -/
theorem percentile_spec (l : List K) (hl : l ≠ []) {p : K} (h0 : 0 ≤ p) (h1 : p ≤ 100) :
    ∃ v, destructivePercentile l p = some (v, sort l) ∧ v ∈ l ∧
      p / 100 * l.length ≤ (l.countP (fun x => decide (x ≤ v)) : K) ∧
      ∀ x ∈ l, x < v → (l.countP (fun y => decide (y ≤ x)) : K) < p / 100 * l.length := by
  have hlen : 0 < l.length := List.length_pos_iff.2 hl
  have hs := sort_length l
  have hK : (0 : K) < l.length := by exact_mod_cast hlen
  have t0 : 0 ≤ p / 100 * (l.length : K) := by positivity
  have t1 : p / 100 * (l.length : K) ≤ l.length := by
    have : p / 100 ≤ 1 := by rw [div_le_one (by norm_num)]; exact h1
    nlinarith
  generalize ht : p / 100 * (l.length : K) = t at t0 t1
  have c0 : 0 ≤ ⌈t⌉ := Int.ceil_nonneg t0
  have c1 : ⌈t⌉ ≤ l.length := Int.ceil_le.2 (by exact_mod_cast t1)
  have c2 : t ≤ ⌈t⌉ := Int.le_ceil t
  have c3 : (⌈t⌉ : K) < t + 1 := Int.ceil_lt_add_one t
  -- the index
  obtain ⟨k, hk, hk'⟩ : ∃ k : Nat, k < l.length ∧ (⌈t⌉ = (k : Int) + 1 ∨ (⌈t⌉ = 0 ∧ k = 0)) := by
    rcases Int.lt_or_eq_of_le c0 with h | h
    · exact ⟨(⌈t⌉ - 1).toNat, by omega, Or.inl (by omega)⟩
    · exact ⟨0, hlen, Or.inr ⟨h.symm, rfl⟩⟩
  have hks : k < (sort l).length := by omega
  refine ⟨(sort l)[k], ?_, (sort_perm l).mem_iff.1 (List.getElem_mem hks), ?_, ?_⟩
  · unfold destructivePercentile
    rw [if_neg (by omega), if_neg (by simp [h0, h1])]
    dsimp only
    rw [ht]
    have e : (if (if ⌈t⌉ - 1 < 0 then (0 : Int) else ⌈t⌉ - 1) ≥ (l.length : Int) then (l.length : Int) - 1
        else (if ⌈t⌉ - 1 < 0 then 0 else ⌈t⌉ - 1)).toNat = k := by
      split <;> split <;> omega
    rw [e, List.getElem?_eq_getElem hks]; rfl
  · have := count_le l hks
    have h2 : (⌈t⌉ : K) ≤ ((k + 1 : Nat) : K) := by
      rcases hk' with h | ⟨h, _⟩
      · rw [h]; push_cast; exact le_refl _
      · rw [h]; push_cast; positivity
    calc t ≤ ⌈t⌉ := c2
      _ ≤ ((k + 1 : Nat) : K) := h2
      _ ≤ _ := by exact_mod_cast this
  · intro x hx hlt
    have h3 : l.countP (fun y => decide (y ≤ x)) ≤ k :=
      le_trans (countP_mono' (fun y hy => by simp only [decide_eq_true_eq] at *; exact lt_of_le_of_lt hy hlt)) (count_lt l hks)
    rcases hk' with h | ⟨h, hk0⟩
    · have : (⌈t⌉ : K) = (k : K) + 1 := by rw [h]; push_cast; ring
      have h4 : (l.countP (fun y => decide (y ≤ x)) : K) ≤ (k : K) := by exact_mod_cast h3
      linarith
    · exfalso
      have : 0 < l.countP (fun y => decide (y ≤ x)) := (List.countP_pos_iff (p := fun y => decide (y ≤ x))).2 ⟨x, hx, by simp⟩
      omega

/-- No values or a percentage out of range: an exception. -/
theorem percentile_throws (l : List K) (p : K) (h : l = [] ∨ p < 0 ∨ 100 < p) : destructivePercentile l p = none := by
  unfold destructivePercentile
  rcases h with rfl | h | h
  · simp
  · split
    · rfl
    · rw [if_pos]; rintro ⟨a, _⟩; exact absurd a (not_le.2 h)
  · split
    · rfl
    · rw [if_pos]; rintro ⟨_, a⟩; exact absurd a (not_le.2 h)

/-! ### Outlier brackets -/

theorem round_nonneg {x : K} (h : 0 ≤ x) : round x = ⌊x + 1 / 2⌋ := by
  unfold round; rw [if_neg (not_lt.2 h)]

theorem pctFactor_range (p : K) : 0 ≤ pctFactor p ∧ pctFactor p ≤ 1 / 2 := by
  unfold pctFactor
  dsimp only
  split <;> split <;> constructor <;> linarith

/-- The indices for a factor of at most a quarter are in range and in order. -/
theorem bracketIdx_ok {p : K} (h0 : 0 ≤ p) (h1 : p ≤ 1 / 4) {len : Nat} (hl : 4 ≤ len) :
    0 ≤ (bracketIdx p len).1 ∧ (bracketIdx p len).1 ≤ (bracketIdx p len).2 ∧ (bracketIdx p len).2 < len ∧
    (1 - 2 * p) * (len : K) - 1 ≤ ((bracketIdx p len).2 - (bracketIdx p len).1 + 1 : Int) := by
  have hK : (4 : K) ≤ len := by exact_mod_cast hl
  have a0 : 0 ≤ p * (len : K) := by positivity
  have b0 : 0 ≤ (1 - p) * (len : K) := mul_nonneg (by linarith) (by linarith)
  unfold bracketIdx
  dsimp only
  rw [round_nonneg a0, round_nonneg b0]
  have f1 := Int.floor_le (p * (len : K) + 1 / 2)
  have f2 := Int.lt_floor_add_one (p * (len : K) + 1 / 2)
  have g1 := Int.floor_le ((1 - p) * (len : K) + 1 / 2)
  have g2 := Int.lt_floor_add_one ((1 - p) * (len : K) + 1 / 2)
  have F0 : 0 ≤ ⌊p * (len : K) + 1 / 2⌋ := Int.floor_nonneg.2 (by linarith)
  have pl : p * (len : K) ≤ (len : K) / 4 := by nlinarith
  have e : (1 - p) * (len : K) = len - p * len := by ring
  have e' : (1 - 2 * p) * (len : K) = len - 2 * (p * len) := by ring
  rw [e] at g1 g2 ⊢
  rw [e']
  generalize ⌊p * (len : K) + 1 / 2⌋ = u at *
  generalize ⌊(len : K) - p * (len : K) + 1 / 2⌋ = w at *
  generalize p * (len : K) = a at *
  have h1 : 2 * u ≤ len - 1 := by
    have : (2 * u : K) ≤ len / 2 + 1 := by linarith
    have : (2 * u : K) ≤ (len : K) - 1 := by linarith
    exact_mod_cast this
  have h2 : w ≤ len := by
    have : (w : K) < len + 1 := by linarith
    have : w < (len : Int) + 1 := by exact_mod_cast this
    omega
  have h3 : (len : Int) ≤ u + w := by
    have : (len : K) < u + w + 1 := by linarith
    have : (len : Int) < u + w + 1 := by exact_mod_cast this
    omega
  refine ⟨by omega, by omega, by omega, ?_⟩
  have e1 : min ((len : Int) - 1) (max u 0) = u := by omega
  have e2 : min ((len : Int) - 1) (max (w - 1) 0) = w - 1 := by omega
  rw [e1, e2]
  push_cast
  linarith

end VW.Stats
