import Verif.Stats.Props
import Mathlib.Data.Rat.Floor
/-
Property C37, second part: `find_outlier_brackets`.
-/
namespace VW.Stats

variable {K : Type} [Field K] [LinearOrder K] [IsStrictOrderedRing K] [FloorRing K]

theorem pctFactor_small {p : K} (h0 : 0 ≤ p) (h1 : p ≤ 1 / 4) : pctFactor p = p := by
  unfold pctFactor
  rw [if_neg (show ¬ p > 1 / 2 by
    have : (1 : K) / 4 ≤ 1 / 2 := by norm_num
    exact not_lt.2 (le_trans h1 this))]
  dsimp only
  rw [if_neg (not_lt.2 h0)]

/-- Values at sorted positions i..j lie between the i-th and the j-th. -/
theorem count_between (l : List K) {i j : Nat} (hij : i ≤ j) (hj : j < (sort l).length) :
    j - i + 1 ≤ l.countP (fun x => decide ((sort l)[i]'(by omega) ≤ x ∧ x ≤ (sort l)[j])) := by
  rw [← (sort_perm l).countP_eq]
  have h1 : (((sort l).drop i).take (j - i + 1)).countP
      (fun x => decide ((sort l)[i]'(by omega) ≤ x ∧ x ≤ (sort l)[j])) = (((sort l).drop i).take (j - i + 1)).length := by
    rw [List.countP_eq_length]
    intro x hx
    obtain ⟨t, ht, rfl⟩ := List.getElem_of_mem hx
    rw [List.length_take, List.length_drop] at ht
    rw [List.getElem_take, List.getElem_drop, decide_eq_true_eq]
    exact ⟨sort_le (by omega) (by omega), sort_le (by omega) hj⟩
  have h2 := ((List.take_sublist (j - i + 1) ((sort l).drop i)).trans (List.drop_sublist i (sort l))).countP_le
    (p := fun x => decide ((sort l)[i]'(by omega) ≤ x ∧ x ≤ (sort l)[j]))
  rw [h1, List.length_take, List.length_drop] at h2
  omega

/-- **C37 (outlier brackets)**: for every list of at least four values, a fraction p in [0, 1/4] and a factor that is
not negative, the call succeeds; with q1 and q3 the values such that about p·n values are below q1 and about p·n above
q3, the brackets are q1 and q3 moved outwards by the factor times their distance. They are in order, and at least
(1 - 2p)·n - 1 of the values are inside. -/
theorem outlier_brackets (vec : List K) {p f : K} (h0 : 0 ≤ p) (h1 : p ≤ 1 / 4) (hf : 0 ≤ f) (hl : 4 ≤ vec.length) :
    ∃ q1 ∈ vec, ∃ q3 ∈ vec, q1 ≤ q3 ∧
      (vec.countP (fun x => decide (x < q1)) : K) ≤ p * vec.length + 1 / 2 ∧
      p * vec.length - 1 / 2 ≤ (vec.countP (fun x => decide (x ≤ q1)) : K) ∧
      (vec.countP (fun x => decide (q3 < x)) : K) ≤ p * vec.length + 1 / 2 ∧
      p * vec.length - 1 / 2 ≤ (vec.countP (fun x => decide (q3 ≤ x)) : K) ∧
      (findOutlierBrackets vec p f).ok = true ∧
      (findOutlierBrackets vec p f).b = q1 - f * (q3 - q1) ∧
      (findOutlierBrackets vec p f).e = q3 + f * (q3 - q1) ∧
      (findOutlierBrackets vec p f).b ≤ q1 ∧ q3 ≤ (findOutlierBrackets vec p f).e ∧
      (1 - 2 * p) * vec.length - 1 ≤ (vec.countP (fun x =>
        decide ((findOutlierBrackets vec p f).b ≤ x ∧ x ≤ (findOutlierBrackets vec p f).e)) : K) := by
  have hs := sort_length vec
  obtain ⟨b0, b1, b2, b3⟩ := bracketIdx_ok h0 h1 hl
  obtain ⟨i, hi⟩ := Int.eq_ofNat_of_zero_le b0
  obtain ⟨j, hj⟩ := Int.eq_ofNat_of_zero_le (le_trans b0 b1)
  rw [hi, hj] at b1 b3
  rw [hj] at b2
  have hij : i ≤ j := by omega
  have hjl : j < (sort vec).length := by omega
  have hil : i < (sort vec).length := by omega
  have hq : (sort vec)[i] ≤ (sort vec)[j] := sort_le hij hjl
  -- the positions
  have hK : (4 : K) ≤ vec.length := by exact_mod_cast hl
  have pl : p * (vec.length : K) ≤ (vec.length : K) / 4 := by nlinarith
  have a0 : 0 ≤ p * (vec.length : K) := by positivity
  have hI : p * (vec.length : K) - 1 / 2 ≤ (i : K) ∧ (i : K) ≤ p * vec.length + 1 / 2 := by
    have e : (i : Int) = min ((vec.length : Int) - 1) (max ⌊p * (vec.length : K) + 1 / 2⌋ 0) := by
      rw [← round_nonneg a0]; exact hi.symm
    have f1 := Int.floor_le (p * (vec.length : K) + 1 / 2)
    have f2 := Int.lt_floor_add_one (p * (vec.length : K) + 1 / 2)
    have F0 : 0 ≤ ⌊p * (vec.length : K) + 1 / 2⌋ := Int.floor_nonneg.2 (by linarith)
    have F1 : ⌊p * (vec.length : K) + 1 / 2⌋ ≤ vec.length - 1 := by
      have : (⌊p * (vec.length : K) + 1 / 2⌋ : K) ≤ (vec.length : K) - 1 := by linarith
      exact_mod_cast this
    have e' : (i : Int) = ⌊p * (vec.length : K) + 1 / 2⌋ := by omega
    have : (i : K) = (⌊p * (vec.length : K) + 1 / 2⌋ : K) := by rw [← e']; simp
    rw [this]
    constructor <;> linarith
  have hJ : (vec.length : K) - 1 - p * vec.length - 1 / 2 ≤ (j : K) ∧
      (j : K) ≤ (vec.length : K) - 1 - p * vec.length + 1 / 2 := by
    have c0 : 0 ≤ (1 - p) * (vec.length : K) := mul_nonneg (by linarith) (by linarith)
    have e : (j : Int) = min ((vec.length : Int) - 1) (max (⌊(1 - p) * (vec.length : K) + 1 / 2⌋ - 1) 0) := by
      rw [← round_nonneg c0]; exact hj.symm
    have ee : (1 - p) * (vec.length : K) = vec.length - p * vec.length := by ring
    rw [ee] at e
    have f1 := Int.floor_le ((vec.length : K) - p * vec.length + 1 / 2)
    have f2 := Int.lt_floor_add_one ((vec.length : K) - p * vec.length + 1 / 2)
    generalize ⌊(vec.length : K) - p * vec.length + 1 / 2⌋ = w at *
    have F0 : 1 ≤ w := by
      have : (0 : K) < (w : K) := by linarith
      have : 0 < w := by exact_mod_cast this
      omega
    have F1 : w ≤ vec.length := by
      have : (w : K) < (vec.length : K) + 1 := by linarith
      have : w < (vec.length : Int) + 1 := by exact_mod_cast this
      omega
    have e' : (j : Int) = w - 1 := by omega
    have : (j : K) = (w : K) - 1 := by
      have : ((j : Int) : K) = ((w - 1 : Int) : K) := by rw [e']
      push_cast at this; exact this
    rw [this]
    constructor <;> linarith
  have hr : findOutlierBrackets vec p f = ⟨true, (sort vec)[i] - f * ((sort vec)[j] - (sort vec)[i]),
      (sort vec)[j] + f * ((sort vec)[j] - (sort vec)[i])⟩ := by
    unfold findOutlierBrackets
    dsimp only
    rw [pctFactor_small h0 h1, if_neg (by omega), if_neg (by omega), hs]
    have : bracketIdx p vec.length = ((i : Int), (j : Int)) := Prod.ext hi hj
    rw [this]
    dsimp only
    rw [Int.toNat_natCast, Int.toNat_natCast]
    simp [List.getD_eq_getElem?_getD, List.getElem?_eq_getElem hil, List.getElem?_eq_getElem hjl]
  have hw : 0 ≤ f * ((sort vec)[j] - (sort vec)[i]) := mul_nonneg hf (by linarith)
  refine ⟨(sort vec)[i], (sort_perm vec).mem_iff.1 (List.getElem_mem hil), (sort vec)[j],
    (sort_perm vec).mem_iff.1 (List.getElem_mem hjl), hq, ?_, ?_, ?_, ?_, by rw [hr], by rw [hr], by rw [hr],
    by rw [hr]; dsimp only; linarith, by rw [hr]; dsimp only; linarith, ?_⟩
  · have := count_lt vec hil
    have : (vec.countP (fun x => decide (x < (sort vec)[i])) : K) ≤ i := by exact_mod_cast this
    linarith [hI.2]
  · have := count_le vec hil
    have : ((i + 1 : Nat) : K) ≤ (vec.countP (fun x => decide (x ≤ (sort vec)[i])) : K) := by exact_mod_cast this
    push_cast at this
    linarith [hI.1]
  · have h := count_le vec hjl
    have h2 := List.length_eq_countP_add_countP (fun x => decide (x ≤ (sort vec)[j])) (l := vec)
    have h3 : vec.countP (fun x => decide ((sort vec)[j] < x)) =
        vec.countP (fun x => decide ¬ (decide (x ≤ (sort vec)[j]) = true)) := by
      congr 1; funext x; simp [not_le]
    rw [h3]
    have h4 : vec.countP (fun x => decide ¬ (decide (x ≤ (sort vec)[j]) = true)) + (j + 1) ≤ vec.length := by omega
    have : (vec.countP (fun x => decide ¬ (decide (x ≤ (sort vec)[j]) = true)) : K) + (j + 1) ≤ vec.length := by
      exact_mod_cast h4
    linarith [hJ.1]
  · have h := count_ge vec hjl
    have : vec.length ≤ vec.countP (fun x => decide ((sort vec)[j] ≤ x)) + j := by omega
    have : (vec.length : K) ≤ (vec.countP (fun x => decide ((sort vec)[j] ≤ x)) : K) + j := by exact_mod_cast this
    linarith [hJ.2]
  · have h := count_between vec hij hjl
    have h' : j - i + 1 ≤ vec.countP (fun x =>
        decide ((findOutlierBrackets vec p f).b ≤ x ∧ x ≤ (findOutlierBrackets vec p f).e)) := by
      refine le_trans h (countP_mono' fun x hx => ?_)
      rw [hr]
      simp only [decide_eq_true_eq] at *
      constructor <;> linarith [hx.1, hx.2]
    refine le_trans b3 ?_
    have h5 : ((j : Int) - (i : Int) + 1) ≤ (vec.countP (fun x =>
        decide ((findOutlierBrackets vec p f).b ≤ x ∧ x ≤ (findOutlierBrackets vec p f).e)) : Int) := by omega
    exact_mod_cast h5

/-- The fraction may be given from either end: `1 - p` gives the same brackets as `p`. -/
theorem outlier_brackets_sym (vec : List K) {p : K} (f : K) (h : p < 1 / 2) :
    findOutlierBrackets vec (1 - p) f = findOutlierBrackets vec p f := by
  have : pctFactor (1 - p) = pctFactor p := by
    unfold pctFactor
    rw [if_pos (show 1 - p > 1 / 2 by linarith), if_neg (show ¬ p > 1 / 2 by linarith)]
    dsimp only
    rw [sub_sub_cancel]
  unfold findOutlierBrackets
  rw [this]

/-- A negative fraction is the same as 0. -/
theorem outlier_brackets_neg (vec : List K) {p : K} (f : K) (h : p < 0) :
    findOutlierBrackets vec p f = findOutlierBrackets vec 0 f := by
  have : pctFactor p = pctFactor (0 : K) := by
    have h1 : ¬ p > 1 / 2 := by
      have : (0 : K) < 1 / 2 := by norm_num
      linarith
    have h2 : ¬ (0 : K) > 1 / 2 := by norm_num
    unfold pctFactor
    dsimp only
    rw [if_neg h1, if_neg h2, if_pos h]
    simp
  unfold findOutlierBrackets
  rw [this]

/-- The brackets do not depend on the order of the values. -/
theorem outlier_brackets_perm {vec vec' : List K} (h : vec.Perm vec') (p f : K) :
    findOutlierBrackets vec p f = findOutlierBrackets vec' p f := by
  unfold findOutlierBrackets
  rw [sort_congr h]

/-- With one to three values the call reports failure, and the brackets are the least and the greatest value. -/
theorem outlier_brackets_few (vec : List K) (p f : K) (h1 : vec ≠ []) (h3 : vec.length ≤ 3) :
    (findOutlierBrackets vec p f).ok = false ∧
    (findOutlierBrackets vec p f).b ∈ vec ∧ (∀ x ∈ vec, (findOutlierBrackets vec p f).b ≤ x) ∧
    (findOutlierBrackets vec p f).e ∈ vec ∧ ∀ x ∈ vec, x ≤ (findOutlierBrackets vec p f).e := by
  have hs := sort_length vec
  have hp : 0 < vec.length := List.length_pos_iff.2 h1
  have hr : findOutlierBrackets vec p f = ⟨false, (sort vec)[0]'(by omega), (sort vec)[vec.length - 1]'(by omega)⟩ := by
    unfold findOutlierBrackets
    dsimp only
    rw [if_neg (by omega), if_pos (by omega)]
    have e : (sort vec).length - 1 = vec.length - 1 := by omega
    simp [e, List.getD_eq_getElem?_getD, List.getElem?_eq_getElem (show 0 < (sort vec).length by omega),
      List.getElem?_eq_getElem (show vec.length - 1 < (sort vec).length by omega)]
  rw [hr]
  refine ⟨rfl, (sort_perm vec).mem_iff.1 (List.getElem_mem _), ?_, (sort_perm vec).mem_iff.1 (List.getElem_mem _), ?_⟩
  · intro x hx
    obtain ⟨k, hk, rfl⟩ := List.getElem_of_mem ((sort_perm vec).mem_iff.2 hx)
    exact sort_le (Nat.zero_le _) hk
  · intro x hx
    obtain ⟨k, hk, rfl⟩ := List.getElem_of_mem ((sort_perm vec).mem_iff.2 hx)
    exact sort_le (by omega) (by omega)

/-- No values: failure, both brackets 0. -/
theorem outlier_brackets_empty (p f : K) : findOutlierBrackets [] p f = ⟨false, 0, 0⟩ := by
  unfold findOutlierBrackets
  rw [if_pos (by rw [sort_length]; rfl)]

/-- The sorted list is the one that is sorted and has the same values. -/
theorem sort_eq {l s : List K} (hp : s.Perm l) (hs : s.Pairwise (· ≤ ·)) : sort l = s :=
  List.Perm.eq_of_pairwise (le := (· ≤ ·)) (fun _ _ _ _ h1 h2 => le_antisymm h1 h2) (sort_sorted l) hs
    ((sort_perm l).trans hp.symm)

/-- What the documentation does not say: fractions near 1/2 can cross the quantiles, and then the brackets are
inverted, so every value is an outlier. Here of 1, 2, 3, 4 with fraction 1/2. -/
theorem outlier_brackets_inverted :
    findOutlierBrackets [1, 2, 3, 4] (1 / 2) 3 = (⟨true, 6, -1⟩ : Brackets ℚ) := by
  have h : sort ([1, 2, 3, 4] : List ℚ) = [1, 2, 3, 4] := sort_eq (List.Perm.refl _) (by decide +kernel)
  have f : ⌊(5 / 2 : ℚ)⌋ = 2 := by rw [Int.floor_eq_iff]; norm_num
  unfold findOutlierBrackets
  rw [h]
  norm_num [pctFactor, bracketIdx, round, f]
  constructor <;> decide +kernel

/-- A case: with 100 among 1..7 the brackets for a quarter and factor 1.5 exclude it. -/
example : findOutlierBrackets [5, 1, 100, 2, 7, 3, 6, 4] (1 / 4) (3 / 2) = (⟨true, -3/2, 21/2⟩ : Brackets ℚ) := by
  have h : sort ([5, 1, 100, 2, 7, 3, 6, 4] : List ℚ) = [1, 2, 3, 4, 5, 6, 7, 100] :=
    sort_eq (by decide +kernel) (by decide +kernel)
  have f : ⌊(5 / 2 : ℚ)⌋ = 2 := by rw [Int.floor_eq_iff]; norm_num
  have f' : ⌊(13 / 2 : ℚ)⌋ = 6 := by rw [Int.floor_eq_iff]; norm_num
  unfold findOutlierBrackets
  rw [h]
  norm_num [pctFactor, bracketIdx, round, f, f']
  constructor <;> decide +kernel

end VW.Stats
