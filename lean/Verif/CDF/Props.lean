import Verif.CDF.Proofs

/-! Quantiles of a stream of samples (C132). -/

namespace VW.CDF

/-- `m` is the least of the numbers. -/
def IsMin (l : List ℚ) (m : ℚ) : Prop := m ∈ l ∧ ∀ x ∈ l, m ≤ x

/-- `m` is the greatest of the numbers. -/
def IsMax (l : List ℚ) (m : ℚ) : Prop := m ∈ l ∧ ∀ x ∈ l, x ≤ m

/-- The samples fed by a history. -/
def samples : List Op → List ℚ
  | [] => []
  | .sample x :: ops => x :: samples ops
  | .update :: ops => samples ops

/-- The state after the samples `merged` have been merged, those in the buffer not yet. -/
structure Inv (a : Acc) (merged : List ℚ) : Prop where
  nq : 3 ≤ a.nq
  cdf : CdfOk a.nq a.cdf
  buf : a.buf.length < a.bufSize
  n : a.n = merged.length
  empty : merged ++ a.buf = [] → a.q0 = dblMax ∧ a.qm = -dblMax
  q0 : merged ++ a.buf ≠ [] → IsMin (merged ++ a.buf) a.q0
  qm : merged ++ a.buf ≠ [] → IsMax (merged ++ a.buf) a.qm
  mono : merged ≠ [] → Mono a.nq a.quant
  first : merged ≠ [] → IsMin merged (a.quant 0)
  last : merged ≠ [] → IsMax merged (a.quant (a.nq - 1))

/-! ### Probabilities -/

theorem cdfOk_of_step {nq : ℕ} {cdf : ℕ → ℚ} (hn : 1 ≤ nq) (h0 : 0 < cdf 0) (h1 : cdf (nq - 1) < 1)
    (hs : ∀ i, i + 1 < nq → cdf i < cdf (i + 1)) : CdfOk nq cdf := by
  have strict : ∀ i j, i < j → j < nq → cdf i < cdf j := by
    intro i j hij
    induction j with
    | zero => omega
    | succ j ih =>
      intro hj
      rcases Nat.lt_or_ge i j with h | h
      · exact (ih h (by omega)).trans (hs j hj)
      · obtain rfl : i = j := by omega
        exact hs i hj
  refine ⟨strict, fun i hi => ?_, fun i hi => ?_⟩
  · rcases Nat.eq_zero_or_pos i with rfl | h
    · exact h0
    · exact h0.trans (strict 0 i h hi)
  · rcases Nat.lt_or_ge i (nq - 1) with h | h
    · exact (strict i (nq - 1) h (by omega)).trans h1
    · rw [show i = nq - 1 by omega]; exact h1

theorem midCdf_first (T : ℕ) : midCdf T T = 1 / 10 := by unfold midCdf; simp

theorem midCdf_last (T : ℕ) (hT : 0 < T) : midCdf T (T * 2) = 9 / 10 := by
  unfold midCdf
  have : (T : ℚ) ≠ 0 := by exact_mod_cast hT.ne'
  have h2 : ((T * 2 : ℕ) : ℚ) - T = T := by push_cast; ring
  rw [h2, div_self this]; norm_num

theorem midCdf_step (T j : ℕ) (hT : 0 < T) : midCdf T j < midCdf T (j + 1) := by
  unfold midCdf
  have hp : (0 : ℚ) < T := by exact_mod_cast hT
  have h2 : ((T * 2 : ℕ) : ℚ) - T = T := by push_cast; ring
  rw [h2]
  have : ((j : ℚ) - T) / T < (((j + 1 : ℕ) : ℚ) - T) / T := by
    apply div_lt_div_of_pos_right _ hp
    push_cast; linarith
  linarith

theorem gain (T : ℕ) (hT : 11 ≤ T) : 0 < 1 - 10 / (T : ℚ) ∧ 1 - 10 / (T : ℚ) < 1 := by
  have hp : (11 : ℚ) ≤ T := by exact_mod_cast hT
  have h1 : 10 / (T : ℚ) < 1 := by rw [div_lt_one (by linarith)]; linarith
  have h2 : 0 < 10 / (T : ℚ) := by positivity
  constructor <;> linarith

theorem lowCdf_pos (T : ℕ) (hT : 11 ≤ T) (k : ℕ) : 0 < lowCdf T k := by
  induction k with
  | zero => unfold lowCdf; rw [midCdf_first]; norm_num
  | succ k ih => unfold lowCdf; exact mul_pos (gain T hT).1 ih

theorem lowCdf_step (T : ℕ) (hT : 11 ≤ T) (k : ℕ) : lowCdf T (k + 1) < lowCdf T k := by
  have := mul_lt_mul_of_pos_right (gain T hT).2 (lowCdf_pos T hT k)
  rw [one_mul] at this
  exact this

theorem highCdf_lt (T : ℕ) (hT : 11 ≤ T) (k : ℕ) : highCdf T k < 1 := by
  induction k with
  | zero => unfold highCdf; rw [midCdf_last T (by omega)]; norm_num
  | succ k ih =>
    unfold highCdf
    have := mul_pos (gain T hT).1 (by linarith : 0 < 1 - highCdf T k)
    linarith

theorem highCdf_step (T : ℕ) (hT : 11 ≤ T) (k : ℕ) : highCdf T k < highCdf T (k + 1) := by
  have h := mul_lt_mul_of_pos_right (gain T hT).2 (by have := highCdf_lt T hT k; linarith : 0 < 1 - highCdf T k)
  show _ < 1 - (1 - 10 / (T : ℚ)) * (1 - highCdf T k)
  linarith

theorem initCdf_ok {nq : ℕ} (h : 33 ≤ nq) : CdfOk nq (initCdf nq) := by
  have hT : 11 ≤ nq / 3 := by omega
  apply cdfOk_of_step (by omega)
  · unfold initCdf
    rw [if_pos (by omega)]
    exact lowCdf_pos _ hT _
  · unfold initCdf
    rw [if_neg (by omega)]
    by_cases he : nq - 1 ≤ nq / 3 * 2
    · omega
    · rw [if_neg he]; exact highCdf_lt _ hT _
  · intro i hi
    unfold initCdf
    by_cases h1 : i + 1 < nq / 3
    · rw [if_pos (by omega), if_pos h1, show nq / 3 - i = (nq / 3 - (i + 1)) + 1 by omega]
      exact lowCdf_step _ hT _
    · by_cases h2 : i < nq / 3
      · have e : i + 1 = nq / 3 := by omega
        rw [if_pos h2, if_neg h1, if_pos (by omega), show nq / 3 - i = 0 + 1 by omega]
        have := lowCdf_step (nq / 3) hT 0
        rw [e]
        exact this
      · rw [if_neg h2, if_neg h1]
        by_cases h3 : i + 1 ≤ nq / 3 * 2
        · rw [if_pos (by omega), if_pos h3]
          exact midCdf_step _ _ (by omega)
        · rw [if_neg h3]
          by_cases h4 : i ≤ nq / 3 * 2
          · have e : i = nq / 3 * 2 := by omega
            rw [if_pos h4, show i + 1 - nq / 3 * 2 = 0 + 1 by omega, e]
            exact highCdf_step _ hT 0
          · rw [if_neg h4, show i + 1 - nq / 3 * 2 = (i - nq / 3 * 2) + 1 by omega]
            exact highCdf_step _ hT _

theorem endCdf_ok {nq total : ℕ} {cdf : ℕ → ℚ} (hq : 3 ≤ nq) (ht : 0 < total) (h : CdfOk nq cdf) : CdfOk nq (endCdf nq total cdf) := by
  have hp : (0 : ℚ) < total := by exact_mod_cast ht
  have hs : 0 < 1 / 2 / (total : ℚ) := by positivity
  apply cdfOk_of_step (by omega)
  · unfold endCdf
    rw [if_neg (by omega), if_pos rfl]
    have := h.pos 1 (by omega)
    exact lt_min hs (by linarith)
  · unfold endCdf
    rw [if_pos rfl]
    have := h.lt_one (nq - 2) (by omega)
    exact max_lt (by linarith) (by linarith)
  · intro i hi
    unfold endCdf
    have p1 := h.pos 1 (by omega)
    have l2 := h.lt_one (nq - 2) (by omega)
    by_cases e0 : i = 0
    · subst e0
      rw [if_neg (by omega), if_pos rfl, if_neg (by omega), if_neg (by omega)]
      exact lt_of_le_of_lt (min_le_right _ _) (by simp only [Nat.zero_add]; linarith)
    · rw [if_neg (by omega : ¬ i = nq - 1), if_neg e0]
      by_cases e1 : i + 1 = nq - 1
      · rw [if_pos e1]
        have : i = nq - 2 := by omega
        subst this
        exact lt_of_lt_of_le (by linarith) (le_max_right _ _)
      · rw [if_neg e1, if_neg (by omega)]
        exact h.strict i (i + 1) (by omega) hi

/-! ### Update -/

theorem mem_sort {l : List ℚ} {x : ℚ} : x ∈ l.insertionSort (· ≤ ·) ↔ x ∈ l := (List.perm_insertionSort _ l).mem_iff

theorem sort_sorted (l : List ℚ) : (l.insertionSort (· ≤ ·)).Pairwise (· ≤ ·) := List.pairwise_insertionSort _ l

theorem sort_length (l : List ℚ) : (l.insertionSort (· ≤ ·)).length = l.length := List.length_insertionSort _ l

/-- The quantiles that `update` computes, in order and between the minimum and the maximum; those of the first batch are samples. -/
theorem update_list {a : Acc} {merged : List ℚ} (h : Inv a merged) (hb : a.buf ≠ []) :
    ∃ l, sweep a.nq a.n (endQuant a) (endCdf a.nq (a.buf.length + a.n) a.cdf) (a.buf.insertionSort (· ≤ ·)) (a.nq - 2) 1
        ⟨0, 1, 0, 0, a.q0, a.q0⟩ = some l ∧ l.length = a.nq - 2 ∧ l.Pairwise (· ≤ ·) ∧ (∀ x ∈ l, a.q0 ≤ x ∧ x ≤ a.qm) ∧
      (merged = [] → ∀ i, i < a.nq - 2 → ∃ m, m < a.buf.length ∧ l[i]? = some ((a.buf.insertionSort (· ≤ ·)).getD m 0) ∧
        (m : ℚ) < a.buf.length * a.cdf (1 + i) ∧ (a.buf.length : ℚ) * a.cdf (1 + i) ≤ m + 1) := by
  have hnq := h.nq
  have hlen : 0 < a.buf.length := List.length_pos_iff.2 hb
  have hne : merged ++ a.buf ≠ [] := by simp [hb]
  have hc := endCdf_ok (total := a.buf.length + a.n) h.nq (by omega) h.cdf
  have hlast : ∀ x ∈ a.buf.insertionSort (· ≤ ·), x ≤ endQuant a (a.nq - 1) := by
    intro x hx
    rw [mem_sort] at hx
    unfold endQuant
    rw [if_pos rfl]
    exact (h.qm hne).2 x (List.mem_append_right _ hx)
  by_cases hm : merged = []
  · have hn : a.n = 0 := by rw [h.n, hm]; rfl
    have hsne : a.buf.insertionSort (· ≤ ·) ≠ [] := by
      intro he
      have := sort_length a.buf
      rw [he] at this; simp at this; omega
    obtain ⟨l, e, hl, hv⟩ := sweep_first (cdf := endCdf a.nq (a.buf.length + a.n) a.cdf) hlast hc hsne (a.nq - 2) 1 ⟨0, 1, 0, 0, a.q0, a.q0⟩
      ⟨rfl, by simp, by simp only; omega, by simp, by simp⟩ (by omega) (by simp)
    rw [sort_length] at hv
    rw [hn] at hv e ⊢
    have hcdf : ∀ i, i < a.nq - 2 → endCdf a.nq (a.buf.length + 0) a.cdf (1 + i) = a.cdf (1 + i) := by
      intro i hi
      unfold endCdf
      rw [if_neg (by omega), if_neg (by omega)]
    have hpos : (0 : ℚ) < a.buf.length := by exact_mod_cast hlen
    refine ⟨l, e, hl, ?_, ?_, ?_⟩
    · rw [List.pairwise_iff_getElem]
      intro i j hi hj hij
      obtain ⟨m1, a1, a2, a3, a4⟩ := hv i (by omega)
      obtain ⟨m2, b1, b2, b3, b4⟩ := hv j (by omega)
      rw [List.getElem?_eq_getElem hi] at a2
      rw [List.getElem?_eq_getElem hj] at b2
      simp only [Option.some.injEq] at a2 b2
      rw [a2, b2]
      have hlt : (m1 : ℚ) < m2 + 1 := by
        rw [hcdf i (by omega)] at a3
        rw [hcdf j (by omega)] at b4
        have := mul_lt_mul_of_pos_left (h.cdf.strict (1 + i) (1 + j) (by omega) (by omega)) hpos
        linarith
      have : m1 ≤ m2 := by
        have : m1 < m2 + 1 := by exact_mod_cast hlt
        omega
      exact sorted_getD (sort_sorted _) this (by rw [sort_length]; exact b1)
    · intro x hx
      rw [List.mem_iff_getElem] at hx
      obtain ⟨i, hi, rfl⟩ := hx
      obtain ⟨m1, a1, a2, -, -⟩ := hv i (by omega)
      rw [List.getElem?_eq_getElem hi] at a2
      simp only [Option.some.injEq] at a2
      rw [a2, List.getD_eq_getElem _ _ (by rw [sort_length]; exact a1)]
      have hx : (a.buf.insertionSort (· ≤ ·))[m1]'(by rw [sort_length]; exact a1) ∈ merged ++ a.buf :=
        List.mem_append_right _ (mem_sort.1 (List.getElem_mem _))
      exact ⟨(h.q0 hne).2 _ hx, (h.qm hne).2 _ hx⟩
    · intro _ i hi
      obtain ⟨m1, a1, a2, a3, a4⟩ := hv i hi
      rw [hcdf i hi] at a3 a4
      exact ⟨m1, a1, a2, a3, a4⟩
  · have hq0 : a.q0 ≤ a.quant 0 := (h.q0 hne).2 _ (List.mem_append_left _ (h.first hm).1)
    have hqm : a.quant (a.nq - 1) ≤ a.qm := (h.qm hne).2 _ (List.mem_append_left _ (h.last hm).1)
    have hmono := h.mono hm
    have hq0m : a.q0 ≤ a.qm := hq0.trans ((hmono 0 (a.nq - 1) (by omega) (by omega)).trans hqm)
    have hQ : Mono a.nq (endQuant a) := by
      intro i j hij hj
      unfold endQuant
      by_cases hj1 : j = a.nq - 1
      · rw [if_pos hj1]
        by_cases hi1 : i = a.nq - 1
        · rw [if_pos hi1]
        · rw [if_neg hi1]
          by_cases hi0 : i = 0
          · rw [if_pos hi0]; exact hq0m
          · rw [if_neg hi0]
            exact (hmono i (a.nq - 1) (by omega) (by omega)).trans hqm
      · rw [if_neg hj1, if_neg (by omega : ¬ i = a.nq - 1)]
        by_cases hi0 : i = 0
        · rw [if_pos hi0]
          by_cases hj0 : j = 0
          · rw [if_pos hj0]
          · rw [if_neg hj0]
            exact hq0.trans (hmono 0 j (by omega) hj)
        · rw [if_neg hi0, if_neg (by omega)]
          exact hmono i j hij hj
    have hqend : endQuant a (a.nq - 1) = a.qm := by unfold endQuant; rw [if_pos rfl]
    have hQ0 : endQuant a 0 = a.q0 := by unfold endQuant; rw [if_neg (by omega), if_pos rfl]
    have hhead : Head a.nq a.n (endQuant a) (endCdf a.nq (a.buf.length + a.n) a.cdf) (a.buf.insertionSort (· ≤ ·)) ⟨0, 1, 0, 0, a.q0, a.q0⟩ := by
      refine ⟨rfl, rfl, Nat.zero_le _, by simp only; omega, le_refl _, ?_, ?_, ?_⟩
      · intro hlt
        simp only
        rw [← hQ0]
        exact hQ 0 1 (by omega) (by omega)
      · intro i _ hi
        simp only
        rw [List.getD_eq_getElem _ _ hi]
        exact (h.q0 hne).2 _ (List.mem_append_right _ (mem_sort.1 (List.getElem_mem hi)))
      · intro he; simp only at he; omega
    obtain ⟨l, e, h1, h2, h3⟩ := sweep_spec hQ (sort_sorted _) hlast hc (a.nq - 2) 1 _ hhead (by simp only; rw [hqend]; exact hq0m) (by omega)
    refine ⟨l, e, h1, h2, fun x hx => ?_, fun he => absurd he hm⟩
    have := h3 x hx
    rw [hqend] at this
    exact this

theorem update_inv {a : Acc} {merged : List ℚ} (h : Inv a merged) (hs : 0 < a.bufSize) :
    ∃ a', a.update = some a' ∧ Inv a' (merged ++ a.buf) ∧ a'.buf = [] ∧ a'.bufSize = a.bufSize ∧ a'.nq = a.nq ∧
      (∀ i, 0 < i → i < a.nq - 1 → a'.cdf i = a.cdf i) := by
  unfold Acc.update
  by_cases hb : a.buf.length = 0
  · rw [if_pos hb]
    have he : a.buf = [] := List.length_eq_zero_iff.1 hb
    exact ⟨a, rfl, by rw [he, List.append_nil]; exact h, he, rfl, rfl, fun _ _ _ => rfl⟩
  · rw [if_neg hb]
    have hbne : a.buf ≠ [] := fun he => hb (by rw [he]; rfl)
    obtain ⟨l, e, h1, h2, h3, -⟩ := update_list h hbne
    simp only []
    rw [e]
    have hnq := h.nq
    have hne : merged ++ a.buf ≠ [] := by simp [hbne]
    have hq := h.q0 hne
    have hM := h.qm hne
    have hq0m : a.q0 ≤ a.qm := hq.2 _ hM.1
    have hlen : (a.q0 :: l ++ [a.qm]).length = a.nq := by simp [h1]; omega
    have hsorted : (a.q0 :: l ++ [a.qm]).Pairwise (· ≤ ·) := by
      rw [List.pairwise_append]
      refine ⟨List.pairwise_cons.2 ⟨fun x hx => (h3 x hx).1, h2⟩, List.pairwise_singleton _ _, ?_⟩
      intro x hx y hy
      rw [List.mem_singleton] at hy
      subst hy
      rcases List.mem_cons.1 hx with rfl | hx
      · exact hq0m
      · exact (h3 x hx).2
    refine ⟨_, rfl, ⟨hnq, endCdf_ok hnq (by omega) h.cdf, hs, ?_, ?_, ?_, ?_, ?_, ?_, ?_⟩, rfl, rfl, rfl, ?_⟩
    · simp only; rw [h.n, List.length_append]
    · intro he; simp only [List.append_nil] at he; exact absurd he hne
    · intro _; simp only [List.append_nil]; exact hq
    · intro _; simp only [List.append_nil]; exact hM
    · intro _ i j hij hj
      simp only at hj ⊢
      exact sorted_getD hsorted hij (by rw [hlen]; exact hj)
    · intro _
      simp only [List.cons_append, List.getD_cons_zero]
      exact hq
    · intro _
      have : (a.q0 :: l ++ [a.qm]).getD (a.nq - 1) 0 = a.qm := by
        rw [List.getD_append_right _ _ _ _ (by simp [h1]; omega)]
        simp only [List.length_cons, h1]
        rw [show a.nq - 1 - (a.nq - 2 + 1) = 0 by omega]; rfl
      simp only
      rw [this]
      exact hM
    · intro i hi hi'
      simp only [endCdf]
      rw [if_neg (by omega), if_neg (by omega)]

theorem push_inv {a : Acc} {merged : List ℚ} (h : Inv a merged) (hs : 0 < a.bufSize) (x : ℚ) (hx : -dblMax ≤ x ∧ x ≤ dblMax) :
    ∃ a' merged', a.push x = some a' ∧ Inv a' merged' ∧ merged' ++ a'.buf = merged ++ a.buf ++ [x] ∧ a'.bufSize = a.bufSize ∧
      a'.nq = a.nq := by
  unfold Acc.push
  simp only []
  have key : ∀ (hlt : a.buf.length + 1 < a.bufSize + 1),
      Inv ⟨a.nq, a.bufSize + 1, a.buf ++ [x], a.n, a.cdf, a.quant, if x < a.q0 then x else a.q0, if x > a.qm then x else a.qm⟩ merged := by
    intro hlt
    have hmin : IsMin (merged ++ (a.buf ++ [x])) (if x < a.q0 then x else a.q0) := by
      rw [← List.append_assoc]
      by_cases he : merged ++ a.buf = []
      · rw [he, (h.empty he).1]
        refine ⟨?_, ?_⟩
        · split
          · simp
          · rename_i hge
            have : x = dblMax := le_antisymm hx.2 (not_lt.1 hge)
            simp [this]
        · intro y hy
          simp at hy
          subst hy
          split
          · exact le_refl _
          · rename_i hge; exact not_lt.1 hge
      · obtain ⟨m1, m2⟩ := h.q0 he
        refine ⟨?_, ?_⟩
        · split
          · simp
          · exact List.mem_append_left _ m1
        · intro y hy
          rcases List.mem_append.1 hy with hy | hy
          · have := m2 y hy
            split
            · rename_i hl; exact hl.le.trans this
            · exact this
          · rw [List.mem_singleton] at hy
            subst hy
            split
            · exact le_refl _
            · rename_i hge; exact not_lt.1 hge
    have hmax : IsMax (merged ++ (a.buf ++ [x])) (if x > a.qm then x else a.qm) := by
      rw [← List.append_assoc]
      by_cases he : merged ++ a.buf = []
      · rw [he, (h.empty he).2]
        refine ⟨?_, ?_⟩
        · split
          · simp
          · rename_i hge
            have : x = -dblMax := le_antisymm (not_lt.1 hge) hx.1
            simp [this]
        · intro y hy
          simp at hy
          subst hy
          split
          · exact le_refl _
          · rename_i hge; exact not_lt.1 hge
      · obtain ⟨m1, m2⟩ := h.qm he
        refine ⟨?_, ?_⟩
        · split
          · simp
          · exact List.mem_append_left _ m1
        · intro y hy
          rcases List.mem_append.1 hy with hy | hy
          · have := m2 y hy
            split
            · rename_i hl; exact this.trans hl.le
            · exact this
          · rw [List.mem_singleton] at hy
            subst hy
            split
            · exact le_refl _
            · rename_i hge; exact not_lt.1 hge
    refine ⟨h.nq, h.cdf, by simpa using hlt, h.n, fun he => by simp at he, fun _ => hmin, fun _ => hmax, h.mono, h.first, h.last⟩
  have hk := key (by have := h.buf; omega)
  by_cases hl : (a.buf ++ [x]).length = a.bufSize
  · rw [if_pos hl]
    obtain ⟨a', e, hi, hb, h4, h5, -⟩ := update_inv hk (Nat.succ_pos _)
    have e2 : Acc.update ⟨a.nq, a.bufSize, a.buf ++ [x], a.n, a.cdf, a.quant, if x < a.q0 then x else a.q0, if x > a.qm then x else a.qm⟩ =
        some ⟨a'.nq, a.bufSize, a'.buf, a'.n, a'.cdf, a'.quant, a'.q0, a'.qm⟩ := by
      unfold Acc.update at e ⊢
      rw [if_neg (by simp)] at e ⊢
      simp only [endQuant] at e ⊢
      rw [Option.map_eq_some_iff] at e
      obtain ⟨l, e1, e2⟩ := e
      rw [show endQuant (⟨a.nq, a.bufSize + 1, a.buf ++ [x], a.n, a.cdf, a.quant, if x < a.q0 then x else a.q0, if x > a.qm then x else a.qm⟩ : Acc) =
        endQuant (⟨a.nq, a.bufSize, a.buf ++ [x], a.n, a.cdf, a.quant, if x < a.q0 then x else a.q0, if x > a.qm then x else a.qm⟩ : Acc) from rfl] at e1
      rw [e1, ← e2]
      rfl
    refine ⟨_, merged ++ (a.buf ++ [x]), e2, ⟨hi.nq, hi.cdf, by rw [hb]; exact hs, hi.n, hi.empty, hi.q0, hi.qm, hi.mono, hi.first, hi.last⟩, ?_, rfl, h5⟩
    simp only [hb, List.append_nil, List.append_assoc]
  · rw [if_neg hl]
    refine ⟨_, merged, rfl, ⟨hk.nq, hk.cdf, ?_, hk.n, hk.empty, hk.q0, hk.qm, hk.mono, hk.first, hk.last⟩, ?_, rfl, rfl⟩
    · have := h.buf
      simp only [List.length_append, List.length_singleton] at hl ⊢
      omega
    · simp only [List.append_assoc]

/-- **C132 (histories).** An accumulator with a buffer and at least 32 quantiles, after any history of samples and updates: all reads
were in range, no sample was lost or repeated, and the state is as `Inv` says: the quantiles do not decrease, the first and the last
are the minimum and the maximum of the samples merged. After `update` all samples are merged. -/
theorem run_inv (bufSize quantiles : ℕ) (hb : 0 < bufSize) (hq : 32 ≤ quantiles) (ops : List Op)
    (hx : ∀ x ∈ samples ops, -dblMax ≤ x ∧ x ≤ dblMax) :
    ∃ a0 a merged, create bufSize quantiles = some a0 ∧ run ops a0 = some a ∧ Inv a merged ∧ merged ++ a.buf = samples ops ∧
      (∀ ops', ops = ops' ++ [.update] → merged = samples ops ∧ a.buf = []) := by
  have main : ∀ (ops : List Op) (a : Acc) (merged : List ℚ), Inv a merged → 0 < a.bufSize → (∀ x ∈ samples ops, -dblMax ≤ x ∧ x ≤ dblMax) →
      ∃ a' merged', run ops a = some a' ∧ Inv a' merged' ∧ merged' ++ a'.buf = merged ++ a.buf ++ samples ops ∧
        (∀ ops', ops = ops' ++ [.update] → a'.buf = []) := by
    intro ops
    induction ops with
    | nil =>
      intro a merged h _ _
      refine ⟨a, merged, rfl, h, by simp [samples], fun ops' he => by simp at he⟩
    | cons op ops ih =>
      intro a merged h hbs hxs
      cases op with
      | sample x =>
        obtain ⟨a1, m1, e1, i1, c1, b1, -⟩ := push_inv h hbs x (hxs x (by simp [samples]))
        obtain ⟨a2, m2, e2, i2, c2, u2⟩ := ih a1 m1 i1 (by rw [b1]; exact hbs) (fun y hy => hxs y (by simp [samples, hy]))
        refine ⟨a2, m2, by simp [run, e1, e2], i2, by rw [c2, c1]; simp [samples], ?_⟩
        intro ops' he
        cases ops' with
        | nil => simp at he
        | cons o ops' => simp only [List.cons_append, List.cons.injEq] at he; exact u2 ops' he.2
      | update =>
        obtain ⟨a1, e1, i1, b1, s1, -⟩ := update_inv h hbs
        obtain ⟨a2, m2, e2, i2, c2, u2⟩ := ih a1 _ i1 (by rw [s1]; exact hbs) (fun y hy => hxs y (by simpa [samples] using hy))
        refine ⟨a2, m2, by simp [run, e1, e2], i2, by rw [c2, b1]; simp [samples], ?_⟩
        intro ops' he
        cases ops' with
        | nil =>
          simp only [List.nil_append, List.cons.injEq, true_and] at he
          subst he
          simp only [run, Option.some.injEq] at e2
          subst e2
          exact b1
        | cons o ops' => simp only [List.cons_append, List.cons.injEq] at he; exact u2 ops' he.2
  have hodd : 33 ≤ oddUp quantiles := by unfold oddUp; split <;> omega
  have h0 : Inv ⟨oddUp quantiles, bufSize, [], 0, initCdf (oddUp quantiles), fun _ => 0, dblMax, -dblMax⟩ [] :=
    ⟨by simp only; omega, initCdf_ok hodd, hb, rfl, fun _ => ⟨rfl, rfl⟩, fun h => by simp at h, fun h => by simp at h, fun h => absurd rfl h,
      fun h => absurd rfl h, fun h => absurd rfl h⟩
  obtain ⟨a, m, e, i, c, u⟩ := main ops _ [] h0 hb hx
  refine ⟨_, a, m, by unfold create; rw [if_pos (by omega)], e, i, by simpa using c, ?_⟩
  intro ops' he
  have := u ops' he
  rw [this] at c
  exact ⟨by simpa using c, this⟩

/-! ### Queries -/

/-- The binary search finds the interval of the argument. -/
theorem bisect_spec (cdf : ℕ → ℚ) (arg : ℚ) : ∀ (fuel jl jh : ℕ), jl < jh → jh - jl ≤ fuel + 1 →
    jl ≤ bisect cdf arg fuel jl jh ∧ bisect cdf arg fuel jl jh < jh ∧
      (bisect cdf arg fuel jl jh = jl ∨ cdf (bisect cdf arg fuel jl jh) < arg) ∧
      (bisect cdf arg fuel jl jh + 1 = jh ∨ arg ≤ cdf (bisect cdf arg fuel jl jh + 1)) := by
  intro fuel
  induction fuel with
  | zero => intro jl jh h1 h2; unfold bisect; exact ⟨le_refl _, h1, Or.inl rfl, Or.inl (by omega)⟩
  | succ fuel ih =>
    intro jl jh h1 h2
    unfold bisect
    by_cases h : jh - jl > 1
    · rw [if_pos h]
      by_cases hg : arg > cdf ((jh + jl) / 2)
      · rw [if_pos hg]
        obtain ⟨a1, a2, a3, a4⟩ := ih ((jh + jl) / 2) jh (by omega) (by omega)
        refine ⟨by omega, a2, ?_, a4⟩
        right
        rcases a3 with a3 | a3
        · rw [a3]; exact hg
        · exact a3
      · rw [if_neg hg]
        obtain ⟨a1, a2, a3, a4⟩ := ih jl ((jh + jl) / 2) (by omega) (by omega)
        refine ⟨a1, by omega, a3, ?_⟩
        right
        rcases a4 with a4 | a4
        · rw [a4]; exact not_lt.1 hg
        · exact a4
    · rw [if_neg h]
      exact ⟨le_refl _, h1, Or.inl rfl, Or.inl (by omega)⟩

/-- **C132 (queries).** If samples have been merged, `quantile` does not decrease with its argument, is between the minimum and the
maximum of the samples merged, is the minimum at 0 and the maximum at 1, and at a stored probability the stored quantile. -/
theorem quantile_spec {a : Acc} {merged : List ℚ} (h : Inv a merged) (hm : merged ≠ []) :
    (∀ s t, s ≤ t → a.quantile s ≤ a.quantile t) ∧ (∀ t m, IsMin merged m → m ≤ a.quantile t) ∧
      (∀ t m, IsMax merged m → a.quantile t ≤ m) ∧ (∀ t ≤ 0, IsMin merged (a.quantile t)) ∧ (∀ t ≥ 1, IsMax merged (a.quantile t)) ∧
      (∀ i, i < a.nq → a.quantile (a.cdf i) = a.quant i) := by
  have hnq := h.nq
  have hmono := h.mono hm
  have hc := h.cdf
  have hn : a.n + a.buf.length ≠ 0 := by
    have := List.length_pos_iff.2 hm
    rw [h.n]; omega
  have hQ : a.quant 0 ≤ a.quant (a.nq - 1) := hmono _ _ (by omega) (by omega)
  -- the interval and the value before clamping
  have cell : ∀ t, ∃ j q, j + 1 < a.nq ∧ (j = 0 ∨ a.cdf j < t) ∧ (j + 2 = a.nq ∨ t ≤ a.cdf (j + 1)) ∧
      q = a.quant j + (a.quant (j + 1) - a.quant j) * ((t - a.cdf j) / (a.cdf (j + 1) - a.cdf j)) ∧
      a.quantile t = max (a.quant 0) (min (a.quant (a.nq - 1)) q) := by
    intro t
    obtain ⟨b1, b2, b3, b4⟩ := bisect_spec a.cdf t a.nq 0 (a.nq - 1) (by omega) (by omega)
    refine ⟨bisect a.cdf t a.nq 0 (a.nq - 1), _, by omega, b3, ?_, rfl, ?_⟩
    · rcases b4 with b4 | b4
      · left; omega
      · right; exact b4
    · unfold Acc.quantile
      rw [if_neg hn]
      simp only []
      rw [mul_div_assoc]
  have dQ : ∀ j, j + 1 < a.nq → 0 ≤ a.quant (j + 1) - a.quant j := fun j hj => by have := hmono j (j + 1) (by omega) hj; linarith
  have dC : ∀ j, j + 1 < a.nq → 0 < a.cdf (j + 1) - a.cdf j := fun j hj => by have := h.cdf.strict j (j + 1) (by omega) hj; linarith
  have low : ∀ j t, j + 1 < a.nq → a.cdf j ≤ t → a.quant j ≤ a.quant j + (a.quant (j + 1) - a.quant j) * ((t - a.cdf j) / (a.cdf (j + 1) - a.cdf j)) := by
    intro j t hj ht
    have := mul_nonneg (dQ j hj) (div_nonneg (by linarith : 0 ≤ t - a.cdf j) (dC j hj).le)
    linarith
  have high : ∀ j t, j + 1 < a.nq → t ≤ a.cdf (j + 1) → a.quant j + (a.quant (j + 1) - a.quant j) * ((t - a.cdf j) / (a.cdf (j + 1) - a.cdf j)) ≤ a.quant (j + 1) := by
    intro j t hj ht
    have : (t - a.cdf j) / (a.cdf (j + 1) - a.cdf j) ≤ 1 := by rw [div_le_one (dC j hj)]; linarith
    have := mul_le_mul_of_nonneg_left this (dQ j hj)
    linarith
  have bounds : ∀ t, a.quant 0 ≤ a.quantile t ∧ a.quantile t ≤ a.quant (a.nq - 1) := by
    intro t
    obtain ⟨j, q, -, -, -, -, e⟩ := cell t
    rw [e]
    exact ⟨le_max_left _ _, max_le hQ (min_le_left _ _)⟩
  have uniqMin : ∀ m, IsMin merged m → m = a.quant 0 := fun m hmm =>
    le_antisymm (hmm.2 _ (h.first hm).1) ((h.first hm).2 _ hmm.1)
  have uniqMax : ∀ m, IsMax merged m → m = a.quant (a.nq - 1) := fun m hmm =>
    le_antisymm ((h.last hm).2 _ hmm.1) (hmm.2 _ (h.last hm).1)
  have mono : ∀ s t, s ≤ t → a.quantile s ≤ a.quantile t := by
    intro s t hst
    obtain ⟨i, p, hi, hi1, hi2, hp, e1⟩ := cell s
    obtain ⟨j, q, hj, hj1, hj2, hq, e2⟩ := cell t
    have hpq : p ≤ q := by
      rcases Nat.lt_trichotomy i j with hij | hij | hij
      · -- different intervals
        have h1 : p ≤ a.quant (i + 1) := by
          rw [hp]
          apply high i s hi
          rcases hi2 with hi2 | hi2
          · omega
          · exact hi2
        have h2 : a.quant j ≤ q := by
          rw [hq]
          apply low j t hj
          rcases hj1 with hj1 | hj1
          · omega
          · exact hj1.le
        exact h1.trans ((hmono (i + 1) j (by omega) (by omega)).trans h2)
      · subst hij
        rw [hp, hq]
        have h1 : (s - a.cdf i) / (a.cdf (i + 1) - a.cdf i) ≤ (t - a.cdf i) / (a.cdf (i + 1) - a.cdf i) :=
          div_le_div_of_nonneg_right (by linarith) (dC i hi).le
        have := mul_le_mul_of_nonneg_left h1 (dQ i hi)
        linarith
      · exfalso
        have h1 : a.cdf i < s := by
          rcases hi1 with hi1 | hi1
          · omega
          · exact hi1
        have h2 : t ≤ a.cdf (j + 1) := by
          rcases hj2 with hj2 | hj2
          · omega
          · exact hj2
        have h3 : a.cdf (j + 1) ≤ a.cdf i := by
          rcases Nat.lt_or_ge (j + 1) i with h | h
          · exact (hc.strict (j + 1) i h (by omega)).le
          · rw [show j + 1 = i by omega]
        linarith
    rw [e1, e2]
    exact max_le_max (le_refl _) (min_le_min (le_refl _) hpq)
  have atCdf : ∀ i, i < a.nq → a.quantile (a.cdf i) = a.quant i := by
    intro i hi
    obtain ⟨j, q, hj, hj1, hj2, hq, e⟩ := cell (a.cdf i)
    have hqi : q = a.quant i := by
      have cases' : i = j ∨ i = j + 1 := by
        rcases Nat.lt_trichotomy i j with hlt | he | hgt
        · exfalso
          rcases hj1 with hj1 | hj1
          · omega
          · have := h.cdf.strict i j hlt (by omega); linarith
        · exact Or.inl he
        · rcases Nat.lt_or_ge (j + 1) i with hlt | hge
          · exfalso
            rcases hj2 with hj2 | hj2
            · omega
            · have := h.cdf.strict (j + 1) i hlt hi; linarith
          · right; omega
      rw [hq]
      rcases cases' with rfl | rfl
      · simp
      · rw [div_self (dC j hj).ne']; ring
    rw [e, hqi, min_eq_right (hmono i (a.nq - 1) (by omega) (by omega)), max_eq_right (hmono 0 i (by omega) hi)]
  refine ⟨mono, fun t m hmm => ?_, fun t m hmm => ?_, fun t ht => ?_, fun t ht => ?_, atCdf⟩
  · rw [uniqMin m hmm]; exact (bounds t).1
  · rw [uniqMax m hmm]; exact (bounds t).2
  · have h1 := mono t (a.cdf 0) (ht.trans (h.cdf.pos 0 (by omega)).le)
    rw [atCdf 0 (by omega)] at h1
    rw [le_antisymm h1 (bounds t).1]
    exact h.first hm
  · have h1 := mono (a.cdf (a.nq - 1)) t ((h.cdf.lt_one _ (by omega)).le.trans ht)
    rw [atCdf _ (by omega)] at h1
    rw [le_antisymm (bounds t).2 h1]
    exact h.last hm

/-- **C132 (first batch).** At the stored probabilities the quantiles of the first batch are exact: for `p` of `N` samples, the sample with
number ⌈p N⌉ in ascending order. -/
theorem first_batch_exact {a : Acc} (h : Inv a []) (hb : a.buf ≠ []) :
    ∃ a', a.update = some a' ∧ ∀ i, 0 < i → i < a.nq - 1 → a'.cdf i = a.cdf i ∧
      ∃ m, m < a.buf.length ∧ a'.quantile (a.cdf i) = (a.buf.insertionSort (· ≤ ·)).getD m 0 ∧
        (m : ℚ) < a.buf.length * a.cdf i ∧ (a.buf.length : ℚ) * a.cdf i ≤ m + 1 := by
  have hs : 0 < a.bufSize := lt_of_le_of_lt (Nat.zero_le _) h.buf
  obtain ⟨a', e, hi, -, -, hnq, hcdf⟩ := update_inv h hs
  refine ⟨a', e, fun i h0 h1 => ⟨hcdf i h0 h1, ?_⟩⟩
  obtain ⟨l, el, ll, -, -, hf⟩ := update_list h hb
  obtain ⟨m, m1, m2, m3, m4⟩ := hf rfl (i - 1) (by omega)
  rw [show 1 + (i - 1) = i by omega] at m3 m4
  refine ⟨m, m1, ?_, m3, m4⟩
  rw [← hcdf i h0 h1, (quantile_spec hi (by simpa using hb)).2.2.2.2.2 i (by omega)]
  have hq : a'.quant = fun j => (a.q0 :: l ++ [a.qm]).getD j 0 := by
    unfold Acc.update at e
    rw [if_neg (by simpa using hb)] at e
    simp only [] at e
    rw [el] at e
    simp only [Option.map_some, Option.some.injEq] at e
    rw [← e]
  rw [hq]
  obtain ⟨i, rfl⟩ : ∃ k, i = k + 1 := ⟨i - 1, by omega⟩
  simp only [Nat.add_sub_cancel] at m2
  simp only [List.cons_append, List.getD_cons_succ]
  rw [List.getD_append _ _ _ _ (by omega), List.getD_eq_getElem?_getD, m2]
  rfl

/-- A case: a history with a full buffer, a partial update and samples still in the buffer. -/
example : ∀ x ∈ samples [.sample 3, .sample (-1), .sample 7, .sample 4, .update, .sample 9], -dblMax ≤ x ∧ x ≤ dblMax := by
  intro x hx
  simp only [samples, List.mem_cons, List.not_mem_nil, or_false] at hx
  have : (10 : ℚ) ≤ dblMax := by
    unfold dblMax
    have h1 : (1 : ℚ) ≤ 2 ^ 971 := one_le_pow₀ (by norm_num)
    generalize (2 : ℚ) ^ 971 = b at h1 ⊢
    norm_num
    linarith
  rcases hx with rfl | rfl | rfl | rfl | rfl <;> constructor <;> linarith

example : ((create 3 33).bind (run [.sample 3, .sample (-1), .sample 7, .sample 4, .update, .sample 9])).map
    (fun a => (a.n, a.buf, a.quantile 0, a.quantile 1)) = some (4, [9], -1, 7) := by decide +kernel

/-! ### Refutations -/

/-- **Refuted (C132).** Before the first merge every quantile is 0, whatever the samples fed: `quantile` does not merge the buffer. -/
theorem quantile_unmerged (bufSize quantiles : ℕ) (xs : List ℚ) (hl : xs.length < bufSize) (hq : 0 < quantiles) (t : ℚ) :
    ∃ a0 a, create bufSize quantiles = some a0 ∧ run (xs.map .sample) a0 = some a ∧ a.quantile t = 0 := by
  have main : ∀ (xs : List ℚ) (a : Acc), a.buf.length + xs.length < a.bufSize → (∀ j, a.quant j = 0) →
      ∃ a', run (xs.map .sample) a = some a' ∧ ∀ j, a'.quant j = 0 := by
    intro xs
    induction xs with
    | nil => intro a _ h; exact ⟨a, rfl, h⟩
    | cons x xs ih =>
      intro a hl h
      have hp : a.push x = some ⟨a.nq, a.bufSize, a.buf ++ [x], a.n, a.cdf, a.quant, if x < a.q0 then x else a.q0, if x > a.qm then x else a.qm⟩ := by
        unfold Acc.push
        simp only []
        rw [if_neg]
        simp only [List.length_append, List.length_cons, List.length_nil] at hl ⊢
        omega
      obtain ⟨a', e, h'⟩ := ih ⟨a.nq, a.bufSize, a.buf ++ [x], a.n, a.cdf, a.quant, if x < a.q0 then x else a.q0, if x > a.qm then x else a.qm⟩
        (by simp only [List.length_append, List.length_cons, List.length_nil] at hl ⊢; omega) h
      exact ⟨a', by simp only [List.map_cons, run, hp, Option.bind_some]; exact e, h'⟩
  obtain ⟨a', e, h'⟩ := main xs ⟨oddUp quantiles, bufSize, [], 0, initCdf (oddUp quantiles), fun _ => 0, dblMax, -dblMax⟩ (by simpa using hl)
    (fun _ => rfl)
  refine ⟨_, a', by unfold create; rw [if_pos hq], e, ?_⟩
  unfold Acc.quantile
  simp only [h']
  split <;> simp

/-- **Refuted (C132).** With nine quantiles the probabilities at the start do not increase, and merging eight samples reads outside of them. -/
theorem few_quantiles :
    ((create 8 9).map (fun a => decide (a.cdf 1 > a.cdf 2))) = some true ∧
      ((create 8 9).bind (fun a => (run ([1, 2, 3, 4, 5, 6, 7, 8].map Op.sample) a).map (fun _ => ()))) = none := by
  decide +kernel

end VW.CDF
