import Verif.Otsu.Model
import Mathlib.Tactic.FieldSimp
import Mathlib.Tactic.Positivity
import Mathlib.Tactic.Linarith
import Mathlib.Tactic.LinearCombination
import Mathlib.Tactic.SplitIfs
import Mathlib.Tactic.Tauto
import Mathlib.Algebra.Order.BigOperators.Ring.Finset
import Mathlib.Algebra.BigOperators.Intervals
import Mathlib.Algebra.BigOperators.Field

/-! C152 (threshold of Otsu) and C153 (the sampled version). -/

namespace VW.Otsu

open Finset

/-! ### Specification -/

/-- Mean of the bin numbers in `F`, weighted by the counts. -/
def meanOn (F : Finset Nat) (b : Nat → Rat) : Rat := (∑ k ∈ F, (k : Rat) * b k) / ∑ k ∈ F, b k

/-- Sum of squared distances to that mean. -/
def spread (F : Finset Nat) (b : Nat → Rat) : Rat := ∑ k ∈ F, b k * ((k : Rat) - meanOn F b) ^ 2

/-- What Otsu's method makes small: the spread within the bins up to `i` and within those above. -/
def within (n : Nat) (b : Nat → Rat) (i : Nat) : Rat := spread (range (i + 1)) b + spread (Ico (i + 1) n) b

/-- The best places to split. -/
def best (n : Nat) (b : Nat → Rat) : Finset Nat := (range n).filter fun i => ∀ j ∈ range n, within n b i ≤ within n b j

/-- The level nearest to a value among `n` equidistant ones from lo to hi. -/
def nearest (n : Nat) (lo hi v : Rat) : Int := ⌊((n : Rat) - 1) * ((v - lo) / (hi - lo)) + 1 / 2⌋

/-- How many values are nearest to level `i`. -/
def counts (n : Nat) (lo hi : Rat) (vs : List Rat) (i : Nat) : Rat := (vs.countP fun v => nearest n lo hi v = i : Nat)

/-! ### Between and within -/

theorem spread_eq (F : Finset Nat) (b : Nat → Rat) (h : (∑ k ∈ F, b k) ≠ 0) :
    spread F b = ∑ k ∈ F, (k : Rat) ^ 2 * b k - (∑ k ∈ F, (k : Rat) * b k) ^ 2 / ∑ k ∈ F, b k := by
  unfold spread
  have e : ∀ k ∈ F, b k * ((k : Rat) - meanOn F b) ^ 2 =
      (k : Rat) ^ 2 * b k - 2 * meanOn F b * ((k : Rat) * b k) + meanOn F b ^ 2 * b k := by intro k _; ring
  rw [sum_congr rfl e, sum_add_distrib, sum_sub_distrib, ← mul_sum, ← mul_sum]
  unfold meanOn
  field_simp
  ring

theorem spread_zero (F : Finset Nat) (b : Nat → Rat) (hb : ∀ k, 0 ≤ b k) (h : (∑ k ∈ F, b k) = 0) :
    spread F b = 0 ∧ (∑ k ∈ F, (k : Rat) * b k) = 0 ∧ (∑ k ∈ F, (k : Rat) ^ 2 * b k) = 0 := by
  have h0 := (sum_eq_zero_iff_of_nonneg (fun k _ => hb k)).1 h
  refine ⟨?_, ?_, ?_⟩ <;> apply sum_eq_zero <;> intro k hk <;> rw [h0 k hk] <;> ring

theorem split_sum (n i : Nat) (hi : i < n) (f : Nat → Rat) : ∑ k ∈ range n, f k = ∑ k ∈ range (i + 1), f k + ∑ k ∈ Ico (i + 1) n, f k := by
  rw [sum_range_add_sum_Ico f (by omega)]

/-- The value of `V` as computed, from the left sums. -/
def vVal (tot lp la : Rat) : Rat :=
  if lp = 0 ∨ 1 - lp = 0 then 0 else lp * (1 - lp) * (la / lp - (tot - la) / (1 - lp)) * (la / lp - (tot - la) / (1 - lp))

/-- The same from the histogram. -/
def V (n : Nat) (b : Nat → Rat) (s : Rat) (i : Nat) : Rat :=
  vVal (∑ k ∈ range n, (k : Rat) * (b k / s)) (∑ k ∈ range (i + 1), b k / s) (∑ k ∈ range (i + 1), (k : Rat) * (b k / s))

theorem V_eq (n : Nat) (b : Nat → Rat) (s : Rat) (hb : ∀ k, 0 ≤ b k) (hs : ∑ k ∈ range n, b k = s) (h0 : 0 < s) (i : Nat) (hi : i < n) :
    V n b s i = (spread (range n) b - within n b i) / s := by
  have hs' : s ≠ 0 := h0.ne'
  have e1 : ∀ F : Finset Nat, ∑ k ∈ F, b k / s = (∑ k ∈ F, b k) / s := fun F => (sum_div _ _ _).symm
  have e2 : ∀ F : Finset Nat, ∑ k ∈ F, (k : Rat) * (b k / s) = (∑ k ∈ F, (k : Rat) * b k) / s := by
    intro F; rw [sum_div]; exact sum_congr rfl fun k _ => by ring
  unfold V vVal within
  rw [e1, e2, e2]
  have a0 := split_sum n i hi b
  have a1 := split_sum n i hi fun k => (k : Rat) * b k
  have a2 := split_sum n i hi fun k => (k : Rat) ^ 2 * b k
  rw [hs] at a0
  rw [spread_eq (range n) b (by rw [hs]; exact hs'), hs, a1, a2]
  by_cases hl : ∑ k ∈ range (i + 1), b k = 0
  · obtain ⟨z1, z2, z3⟩ := spread_zero _ b hb hl
    have hr : ∑ k ∈ Ico (i + 1) n, b k = s := by rw [hl, zero_add] at a0; exact a0.symm
    rw [if_pos (Or.inl (by rw [hl, zero_div])), z1, spread_eq _ b (by rw [hr]; exact hs'), hr, z2, z3]
    ring
  · by_cases hr : ∑ k ∈ Ico (i + 1) n, b k = 0
    · obtain ⟨z1, z2, z3⟩ := spread_zero _ b hb hr
      have hl' : ∑ k ∈ range (i + 1), b k = s := by rw [hr, add_zero] at a0; exact a0.symm
      rw [if_pos (Or.inr (by rw [hl', div_self hs', sub_self])), z1, spread_eq _ b (by rw [hl']; exact hs'), hl', z2, z3]
      ring
    · rw [spread_eq _ b hl, spread_eq _ b hr]
      generalize ∑ k ∈ range (i + 1), b k = x at *
      generalize ∑ k ∈ Ico (i + 1) n, b k = y at *
      generalize ∑ k ∈ range (i + 1), (k : Rat) * b k = x1 at *
      generalize ∑ k ∈ Ico (i + 1) n, (k : Rat) * b k = y1 at *
      generalize ∑ k ∈ range (i + 1), (k : Rat) ^ 2 * b k = x2 at *
      generalize ∑ k ∈ Ico (i + 1) n, (k : Rat) ^ 2 * b k = y2 at *
      subst a0
      have h1 : 1 - x / (x + y) = y / (x + y) := by field_simp; ring
      rw [h1, if_neg (by
        rintro (h | h)
        · exact hl ((div_eq_zero_iff.1 h).resolve_right hs')
        · exact hr ((div_eq_zero_iff.1 h).resolve_right hs'))]
      have h2 : (x1 + y1) / (x + y) - x1 / (x + y) = y1 / (x + y) := by ring
      rw [h2]
      field_simp
      ring

theorem vLoop_get (b : Nat → Rat) (s tot : Rat) (k i : Nat) (lp la : Rat) (j : Nat) (hj : j < k) :
    (vLoop b s tot k i lp la)[j]? =
      some (vVal tot (lp + ∑ t ∈ range (j + 1), b (i + t) / s) (la + ∑ t ∈ range (j + 1), ((i + t : Nat) : Rat) * (b (i + t) / s))) := by
  induction k generalizing i lp la j with
  | zero => omega
  | succ k ih =>
    cases j with
    | zero => simp [vLoop, vVal]
    | succ j =>
      have e : (vLoop b s tot (k + 1) i lp la)[j + 1]? = (vLoop b s tot k (i + 1) (lp + b i / s) (la + i * (b i / s)))[j]? := rfl
      rw [e, ih _ _ _ j (by omega)]
      have s1 : lp + b i / s + ∑ t ∈ range (j + 1), b (i + 1 + t) / s = lp + ∑ t ∈ range (j + 1 + 1), b (i + t) / s := by
        rw [sum_range_succ' _ (j + 1), Nat.add_zero]
        have : ∀ t, i + 1 + t = i + (t + 1) := fun t => by omega
        simp only [this]; ring
      have s2 : la + i * (b i / s) + ∑ t ∈ range (j + 1), ((i + 1 + t : Nat) : Rat) * (b (i + 1 + t) / s) =
          la + ∑ t ∈ range (j + 1 + 1), ((i + t : Nat) : Rat) * (b (i + t) / s) := by
        rw [sum_range_succ' _ (j + 1), Nat.add_zero]
        have : ∀ t, i + 1 + t = i + (t + 1) := fun t => by omega
        simp only [this]; ring
      rw [s1, s2]

theorem vLoop_length (b : Nat → Rat) (s tot : Rat) (k i : Nat) (lp la : Rat) : (vLoop b s tot k i lp la).length = k := by
  induction k generalizing i lp la with
  | zero => rfl
  | succ k ih => simp [vLoop, ih]

theorem foldl_sum (n : Nat) (f : Nat → Rat) : (List.range n).foldl (fun t i => t + f i) 0 = ∑ k ∈ range n, f k := by
  induction n with
  | zero => rfl
  | succ n ih => rw [List.range_succ, List.foldl_append, ih, sum_range_succ]; rfl

theorem betweenList_get (n : Nat) (b : Nat → Rat) (s : Rat) (i : Nat) (hi : i < n) : (betweenList n b s)[i]? = some (V n b s i) := by
  unfold betweenList
  dsimp only
  rw [vLoop_get _ _ _ _ _ _ _ _ hi, foldl_sum n fun i => (i : Rat) * (b i / s)]
  simp [V]

theorem betweenList_length (n : Nat) (b : Nat → Rat) (s : Rat) : (betweenList n b s).length = n := vLoop_length _ _ _ _ _ _ _

/-- **C152 (between-class variance)**: entry `i` of `V` is the variance of the bin numbers less the variance left within the two classes when
they are split after bin `i`. -/
theorem between_spec (n : Nat) (b : Nat → Rat) (s : Rat) (hb : ∀ k, 0 ≤ b k) (hs : ∑ k ∈ range n, b k = s) (h0 : 0 < s) :
    (betweenList n b s).length = n ∧
    ∀ i, i < n → (betweenList n b s)[i]? = some (spread (range n) b / s - within n b i / s) := by
  refine ⟨betweenList_length _ _ _, fun i hi => ?_⟩
  rw [betweenList_get n b s i hi, V_eq n b s hb hs h0 i hi, sub_div]

example : within 3 (fun i => if i = 1 then 0 else 2) 0 = 0 ∧ within 3 (fun i => if i = 1 then 0 else 2) 2 = 4 := by
  constructor <;> decide +kernel

/-! ### The mean index -/

theorem maxOf_spec (l : List Rat) (h : l ≠ []) : maxOf l ∈ l ∧ ∀ x ∈ l, x ≤ maxOf l := by
  induction l with
  | nil => exact absurd rfl h
  | cons x l ih =>
    cases l with
    | nil => simp [maxOf]
    | cons y l =>
      obtain ⟨i1, i2⟩ := ih (by simp)
      show (if maxOf (y :: l) > x then maxOf (y :: l) else x) ∈ _ ∧ ∀ z ∈ _, z ≤ if maxOf (y :: l) > x then maxOf (y :: l) else x
      by_cases hx : maxOf (y :: l) > x
      · rw [if_pos hx]
        refine ⟨List.mem_cons_of_mem _ i1, fun z hz => ?_⟩
        rcases List.mem_cons.1 hz with rfl | hz
        · exact hx.le
        · exact i2 z hz
      · rw [if_neg hx]
        refine ⟨List.mem_cons_self, fun z hz => ?_⟩
        rcases List.mem_cons.1 hz with rfl | hz
        · exact le_refl _
        · exact le_trans (i2 z hz) (not_lt.1 hx)

theorem index_fold (m : Rat) (V : List Rat) (k : Nat) (a c : Rat) :
    (V.zipIdx k).foldl (fun (st : Rat × Rat) (p : Rat × Nat) => if p.1 = m then (st.1 + p.2, st.2 + 1) else st) (a, c) =
      (a + ∑ i ∈ range V.length, (if V[i]? = some m then ((k + i : Nat) : Rat) else 0),
       c + ∑ i ∈ range V.length, (if V[i]? = some m then 1 else 0)) := by
  induction V generalizing k a c with
  | nil => simp
  | cons x V ih =>
    rw [List.zipIdx_cons, List.foldl_cons, List.length_cons, sum_range_succ' _ V.length, sum_range_succ' _ V.length]
    have hk : ∀ i, k + 1 + i = k + (i + 1) := fun i => by omega
    by_cases hx : x = m
    · rw [if_pos hx, ih]
      subst hx
      simp only [List.getElem?_cons_succ, List.getElem?_cons_zero, if_true, hk, Nat.add_zero]
      refine Prod.ext ?_ ?_ <;> dsimp only <;> ring
    · rw [if_neg hx, ih]
      simp only [List.getElem?_cons_succ, List.getElem?_cons_zero, Option.some.injEq, hx, if_false, hk, add_zero]

theorem meanIndex_spec (n : Nat) (hn : 0 < n) (b : Nat → Rat) (s : Rat) (hb : ∀ k, 0 ≤ b k) (hs : ∑ k ∈ range n, b k = s) (h0 : 0 < s) :
    meanIndex (betweenList n b s) = (∑ i ∈ best n b, (i : Rat)) / (best n b).card ∧ (best n b).Nonempty := by
  have hlen := betweenList_length n b s
  have hget := betweenList_get n b s
  have hV := V_eq n b s hb hs h0
  set L := betweenList n b s with hL
  have hne : L ≠ [] := by intro h; rw [h] at hlen; simp at hlen; omega
  obtain ⟨m1, m2⟩ := maxOf_spec L hne
  have key : ∀ i, i < n → (L[i]? = some (maxOf L) ↔ i ∈ best n b) := by
    intro i hi
    unfold best
    rw [mem_filter, hget i hi]
    constructor
    · intro h
      refine ⟨mem_range.2 hi, fun j hj => ?_⟩
      rw [mem_range] at hj
      have hm : V n b s j ≤ maxOf L := m2 _ (List.mem_of_getElem? (hget j hj))
      rw [← Option.some.inj h, hV j hj, hV i hi] at hm
      have := (div_le_div_iff_of_pos_right h0).1 hm
      linarith
    · rintro ⟨_, h⟩
      obtain ⟨j, hj, e⟩ := List.mem_iff_getElem.1 m1
      rw [hlen] at hj
      have e' : L[j]? = some (maxOf L) := by rw [List.getElem?_eq_getElem (by omega), e]
      rw [hget j hj] at e'
      rw [← e']
      congr 1
      apply le_antisymm
      · rw [Option.some.inj e']
        exact m2 _ (List.mem_of_getElem? (hget i hi))
      · rw [hV i hi, hV j hj]
        apply (div_le_div_iff_of_pos_right h0).2
        have := h j (mem_range.2 hj)
        linarith
  have hsub : best n b = (range n).filter fun i => L[i]? = some (maxOf L) := by
    ext i
    rw [mem_filter]
    constructor
    · intro h
      have hi : i < n := mem_range.1 (mem_filter.1 h).1
      exact ⟨mem_range.2 hi, (key i hi).2 h⟩
    · rintro ⟨h1, h2⟩
      exact (key i (mem_range.1 h1)).1 h2
  constructor
  · unfold meanIndex
    dsimp only
    rw [index_fold, hlen, hsub]
    dsimp only
    rw [zero_add, zero_add, sum_filter, card_filter]
    push_cast
    simp
  · obtain ⟨j, hj, e⟩ := List.mem_iff_getElem.1 m1
    rw [hlen] at hj
    exact ⟨j, (key j hj).1 (by rw [List.getElem?_eq_getElem (by omega), e])⟩

/-! ### Values -/

theorem minMax_spec (vs : List Rat) : (vs = [] ∧ minMax vs = none) ∨
    ∃ lo hi, minMax vs = some (lo, hi) ∧ lo ∈ vs ∧ hi ∈ vs ∧ ∀ v ∈ vs, lo ≤ v ∧ v ≤ hi := by
  induction vs using List.reverseRecOn with
  | nil => left; exact ⟨rfl, rfl⟩
  | append_singleton l x ih =>
    right
    have e : minMax (l ++ [x]) = some (match minMax l with
        | none => (x, x)
        | some (a, b) => (if x < a then x else a, if x > b then x else b)) := by
      unfold minMax; rw [List.foldl_append]; rfl
    rcases ih with ⟨rfl, h⟩ | ⟨lo, hi, h, h1, h2, h3⟩
    · rw [e, h]
      exact ⟨x, x, rfl, by simp, by simp, by simp⟩
    · rw [e, h]
      refine ⟨_, _, rfl, ?_, ?_, ?_⟩
      · by_cases hx : x < lo
        · rw [if_pos hx]; simp
        · rw [if_neg hx]; exact List.mem_append_left _ h1
      · by_cases hx : x > hi
        · rw [if_pos hx]; simp
        · rw [if_neg hx]; exact List.mem_append_left _ h2
      · intro v hv
        rw [List.mem_append, List.mem_singleton] at hv
        rcases hv with hv | rfl
        · obtain ⟨a, b⟩ := h3 v hv
          constructor
          · split_ifs <;> linarith
          · split_ifs <;> linarith
        · constructor
          · split_ifs <;> linarith
          · split_ifs <;> linarith

theorem nearest_range (n : Nat) (hn : 0 < n) (lo hi v : Rat) (h : lo < hi) (h1 : lo ≤ v) (h2 : v ≤ hi) :
    0 ≤ nearest n lo hi v ∧ nearest n lo hi v < n := by
  have n1 : (1 : Rat) ≤ n := by exact_mod_cast hn
  have t0 : 0 ≤ (v - lo) / (hi - lo) := div_nonneg (by linarith) (by linarith)
  have t1 : (v - lo) / (hi - lo) ≤ 1 := (div_le_one (by linarith)).2 (by linarith)
  unfold nearest
  constructor
  · apply Int.floor_nonneg.2
    have := mul_nonneg (show (0 : Rat) ≤ (n : Rat) - 1 by linarith) t0
    linarith
  · rw [Int.floor_lt]
    have := mul_le_mul_of_nonneg_left t1 (show (0 : Rat) ≤ (n : Rat) - 1 by linarith)
    push_cast
    linarith

theorem round_nearest (n : Nat) (hn : 0 < n) (lo hi v : Rat) (h : lo < hi) (h1 : lo ≤ v) :
    Stats.round (((n : Rat) - 1) * ((v - lo) / (hi - lo))) = nearest n lo hi v := by
  have n1 : (1 : Rat) ≤ n := by exact_mod_cast hn
  rw [Stats.round_nonneg (mul_nonneg (by linarith) (div_nonneg (by linarith) (by linarith)))]
  rfl

theorem binOf_nearest (n : Nat) (hn : 0 < n) (lo hi v : Rat) (h : lo < hi) (h1 : lo ≤ v) (h2 : v ≤ hi) :
    (binOf n lo hi v : Int) = nearest n lo hi v := by
  obtain ⟨a, b⟩ := nearest_range n hn lo hi v h h1 h2
  unfold binOf
  dsimp only
  rw [round_nearest n hn lo hi v h h1, if_neg (by omega), if_neg (by omega), Int.toNat_of_nonneg a]

theorem counts_nonneg (n : Nat) (lo hi : Rat) (vs : List Rat) (i : Nat) : 0 ≤ counts n lo hi vs i := Nat.cast_nonneg _

theorem counts_sum (n : Nat) (hn : 0 < n) (lo hi : Rat) (h : lo < hi) (vs : List Rat) (hv : ∀ v ∈ vs, lo ≤ v ∧ v ≤ hi) :
    ∑ k ∈ range n, counts n lo hi vs k = vs.length := by
  unfold counts
  rw [← Nat.cast_sum]
  congr 1
  induction vs with
  | nil => simp
  | cons v vs ih =>
    simp only [List.countP_cons, List.length_cons, sum_add_distrib]
    rw [ih fun w hw => hv w (List.mem_cons_of_mem _ hw)]
    congr 1
    obtain ⟨a, b⟩ := nearest_range n hn lo hi v h (hv v List.mem_cons_self).1 (hv v List.mem_cons_self).2
    have : ∀ k ∈ range n, (if decide (nearest n lo hi v = (k : Int)) = true then 1 else 0) =
        if k = (nearest n lo hi v).toNat then 1 else 0 := by
      intro k _
      by_cases hk : k = (nearest n lo hi v).toNat
      · rw [if_pos hk, if_pos (by simp; omega)]
      · rw [if_neg hk, if_neg (by simp; omega)]
    rw [sum_congr rfl this, sum_ite_eq', if_pos (mem_range.2 (by omega))]

theorem histOf_spec (n : Nat) (hn : 0 < n) (lo hi : Rat) (h : lo < hi) (vs : List Rat) (hv : ∀ v ∈ vs, lo ≤ v ∧ v ≤ hi) :
    ∃ H, histOf n lo hi vs = some H ∧ H.total = vs.length ∧ ∀ i, (H.bins i : Rat) = counts n lo hi vs i := by
  unfold histOf
  have hi0 : Stats.Hist.init n lo hi = some { n, total := 0, lo, hi, centers := fun i => lo + i * ((hi - lo) / n) + (hi - lo) / n / 2, bins := fun _ => 0 } := by
    unfold Stats.Hist.init; rw [if_neg (by omega)]
  rw [hi0]
  refine ⟨_, rfl, ?_, ?_⟩
  · obtain ⟨_, f2, _⟩ := Stats.fill_bins { n, total := 0, lo, hi, centers := fun i => lo + i * ((hi - lo) / n) + (hi - lo) / n / 2, bins := fun _ => 0 }
      hn true vs
    rw [f2, Nat.zero_add, List.countP_eq_length.2]
    intro v _
    unfold Stats.target
    split
    · rfl
    · rfl
  · intro i
    obtain ⟨f1, _⟩ := Stats.fill_bins { n, total := 0, lo, hi, centers := fun i => lo + i * ((hi - lo) / n) + (hi - lo) / n / 2, bins := fun _ => 0 }
      hn true vs
    rw [f1 i, Nat.zero_add]
    unfold counts
    congr 1
    apply List.countP_congr
    intro v hvm
    obtain ⟨a, b⟩ := hv v hvm
    obtain ⟨c, d⟩ := nearest_range n hn lo hi v h a b
    have e : Stats.Hist.bin { n, total := 0, lo, hi, centers := fun i => lo + i * ((hi - lo) / n) + (hi - lo) / n / 2, bins := fun _ => 0 } v =
        nearest n lo hi v := by
      unfold Stats.Hist.bin
      dsimp only
      rw [Nat.cast_sub (by omega), Nat.cast_one, round_nearest n hn lo hi v h a]
    rw [e]
    unfold Stats.target
    rw [if_pos ⟨c, d⟩]
    simp only [beq_iff_eq, Option.some.injEq, decide_eq_true_eq]
    omega

/-- The upper end of the range used: one more than the lower end if all values are equal. -/
def upper (lo hi : Rat) : Rat := if hi = lo then lo + 1 else hi

theorem upper_gt (lo hi : Rat) (h : lo ≤ hi) : lo < upper lo hi ∧ hi ≤ upper lo hi := by
  unfold upper
  split_ifs with e
  · constructor <;> linarith
  · exact ⟨lt_of_le_of_ne h (Ne.symm e), le_refl _⟩

/-- The mean of the best places to split. -/
def meanBest (n : Nat) (b : Nat → Rat) : Rat := (∑ i ∈ best n b, (i : Rat)) / (best n b).card

/-- **C152**: the threshold is the level at the mean of all best places to split the 256 levels between the least and the greatest valid
value. Without valid pixels it is 0. -/
theorem otsu_spec (I : Image) :
    (I.all = [] → otsu I = some 0) ∧
    (I.all ≠ [] → ∃ lo hi, lo ∈ I.all ∧ hi ∈ I.all ∧ (∀ v ∈ I.all, lo ≤ v ∧ v ≤ hi) ∧
      (best 256 (counts 256 lo (upper lo hi) I.all)).Nonempty ∧
      otsu I = some (lo + meanBest 256 (counts 256 lo (upper lo hi) I.all) / 255 * (upper lo hi - lo))) := by
  unfold otsu
  rcases minMax_spec I.all with ⟨e, h⟩ | ⟨lo, hi, h, h1, h2, h3⟩
  · rw [h]
    exact ⟨fun _ => rfl, fun hne => absurd e hne⟩
  · refine ⟨fun e => by rw [e] at h1; simp at h1, fun hne => ⟨lo, hi, h1, h2, h3, ?_⟩⟩
    have hle := (h3 lo h1).2
    obtain ⟨u1, u2⟩ := upper_gt lo hi hle
    have hu : (if hi = lo then hi + 1 else hi) = upper lo hi := by
      unfold upper
      by_cases e : hi = lo
      · rw [if_pos e, if_pos e, e]
      · rw [if_neg e, if_neg e]
    have hv : ∀ v ∈ I.all, lo ≤ v ∧ v ≤ upper lo hi := fun v hv => ⟨(h3 v hv).1, le_trans (h3 v hv).2 u2⟩
    obtain ⟨H, e1, e2, e3⟩ := histOf_spec 256 (by omega) lo (upper lo hi) u1 I.all hv
    have hlen : 0 < I.all.length := List.length_pos_of_ne_nil hne
    have hc := counts_sum 256 (by omega) lo (upper lo hi) u1 I.all hv
    have hfun : (fun i => (H.bins i : Rat)) = counts 256 lo (upper lo hi) I.all := funext e3
    obtain ⟨m1, m2⟩ := meanIndex_spec 256 (by omega) (counts 256 lo (upper lo hi) I.all) I.all.length
      (counts_nonneg _ _ _ _) hc (by exact_mod_cast hlen)
    refine ⟨m2, ?_⟩
    rw [h]
    dsimp only
    rw [hu, e1]
    simp only [Option.map_some]
    rw [if_neg (by omega), e2, hfun, m1]
    unfold meanBest
    norm_num

theorem nearest_lo (n : Nat) (lo hi : Rat) : nearest n lo hi lo = 0 := by
  unfold nearest
  rw [sub_self, zero_div, mul_zero, zero_add]
  norm_num

theorem nearest_hi (n : Nat) (lo hi : Rat) (h : lo < hi) : nearest n lo hi hi = (n : Int) - 1 := by
  unfold nearest
  rw [div_self (by linarith), mul_one, Int.floor_eq_iff]
  push_cast
  constructor <;> linarith

theorem counts_pos (n : Nat) (lo hi v : Rat) (vs : List Rat) (i : Nat) (hv : v ∈ vs) (h : nearest n lo hi v = i) : 1 ≤ counts n lo hi vs i := by
  unfold counts
  have : 0 < vs.countP fun v => nearest n lo hi v = i := List.countP_pos_iff.2 ⟨v, hv, by simpa using h⟩
  exact_mod_cast this

/-- The last bin is not a best place to split if the first and the last one are not empty: nothing would be above. -/
theorem best_lt (n : Nat) (hn : 2 ≤ n) (b : Nat → Rat) (hb : ∀ k, 0 ≤ b k) (h0 : 0 < b 0) (h1 : 0 < b (n - 1)) (i : Nat) (hi : i ∈ best n b) :
    i + 1 < n := by
  unfold best at hi
  rw [mem_filter, mem_range] at hi
  obtain ⟨hi1, hi2⟩ := hi
  by_contra hc
  have hin : i = n - 1 := by omega
  have hlt : within n b 0 < within n b i := by
    have hpos : 0 < ∑ k ∈ range n, b k := sum_pos' (fun k _ => hb k) ⟨0, mem_range.2 (by omega), h0⟩
    have v0 := V_eq n b _ hb rfl hpos 0 (by omega)
    have vi := V_eq n b _ hb rfl hpos i hi1
    have zi : V n b (∑ k ∈ range n, b k) i = 0 := by
      unfold V vVal
      rw [if_pos]
      right
      rw [show i + 1 = n by omega, ← sum_div, div_self hpos.ne', sub_self]
    have p0 : 0 < V n b (∑ k ∈ range n, b k) 0 := by
      have hs := split_sum n 0 (by omega) b
      have hs1 := split_sum n 0 (by omega) fun k => (k : Rat) * b k
      rw [zero_add, sum_range_one] at hs
      simp only [zero_add, sum_range_one, Nat.cast_zero, zero_mul] at hs1
      have hR : 0 < ∑ k ∈ Ico 1 n, b k := sum_pos' (fun k _ => hb k) ⟨n - 1, mem_Ico.2 ⟨by omega, by omega⟩, h1⟩
      have hR1 : 0 < ∑ k ∈ Ico 1 n, (k : Rat) * b k := by
        apply sum_pos'
        · intro k _; exact mul_nonneg (Nat.cast_nonneg _) (hb k)
        · refine ⟨n - 1, mem_Ico.2 ⟨by omega, by omega⟩, mul_pos ?_ h1⟩
          have : 0 < n - 1 := by omega
          exact_mod_cast this
      unfold V vVal
      simp only [zero_add, sum_range_one, Nat.cast_zero, zero_mul, zero_div, sub_zero, zero_sub]
      rw [hs]
      generalize hx : b 0 = x at *
      generalize ∑ k ∈ Ico 1 n, b k = y at *
      have e : 1 - x / (x + y) = y / (x + y) := by field_simp; ring
      have hxy : 0 < x + y := by linarith
      rw [e, if_neg (by
        rintro (h | h)
        · exact h0.ne' ((div_eq_zero_iff.1 h).resolve_right hxy.ne')
        · exact hR.ne' ((div_eq_zero_iff.1 h).resolve_right hxy.ne'))]
      have ht : ∑ k ∈ range n, (k : Rat) * (b k / (x + y)) = (∑ k ∈ Ico 1 n, (k : Rat) * b k) / (x + y) := by
        rw [← hs1, sum_div]; exact sum_congr rfl fun k _ => by ring
      rw [ht]
      have hA : 0 < (∑ k ∈ Ico 1 n, (k : Rat) * b k) / (x + y) / (y / (x + y)) := by positivity
      have hB : 0 < x / (x + y) * (y / (x + y)) := by positivity
      have := mul_pos hB (mul_pos hA hA)
      linarith [mul_assoc (x / (x + y) * (y / (x + y))) (-((∑ k ∈ Ico 1 n, (k : Rat) * b k) / (x + y) / (y / (x + y)))) (-((∑ k ∈ Ico 1 n, (k : Rat) * b k) / (x + y) / (y / (x + y)))), neg_mul_neg ((∑ k ∈ Ico 1 n, (k : Rat) * b k) / (x + y) / (y / (x + y))) ((∑ k ∈ Ico 1 n, (k : Rat) * b k) / (x + y) / (y / (x + y)))]
    rw [zi] at vi
    rw [v0] at p0
    have a1 : spread (range n) b - within n b i = 0 := by
      have := vi.symm
      rw [div_eq_zero_iff] at this
      exact this.resolve_right hpos.ne'
    have a2 : 0 < spread (range n) b - within n b 0 := (div_pos_iff_of_pos_right hpos).1 p0
    linarith
  have := hi2 0 (mem_range.2 (by omega))
  linarith

theorem meanBest_bounds (n : Nat) (b : Nat → Rat) (h : (best n b).Nonempty) (m : Nat) (hm : ∀ i ∈ best n b, i ≤ m) :
    0 ≤ meanBest n b ∧ meanBest n b ≤ m := by
  have hc : (0 : Rat) < (best n b).card := by exact_mod_cast card_pos.2 h
  unfold meanBest
  constructor
  · exact div_nonneg (sum_nonneg fun i _ => Nat.cast_nonneg _) hc.le
  · rw [div_le_iff₀ hc]
    calc ∑ i ∈ best n b, (i : Rat) ≤ ∑ i ∈ best n b, (m : Rat) := sum_le_sum fun i hi => by exact_mod_cast hm i hi
      _ = m * (best n b).card := by rw [sum_const, nsmul_eq_mul, mul_comm]

/-- **C152 (range)**: if not all valid values are equal, the threshold is not below the least value and below the greatest one. -/
theorem otsu_range (I : Image) (lo hi : Rat) (h1 : lo ∈ I.all) (h2 : hi ∈ I.all) (h3 : ∀ v ∈ I.all, lo ≤ v ∧ v ≤ hi) (h : lo < hi) :
    ∃ t, otsu I = some t ∧ lo ≤ t ∧ t < hi := by
  obtain ⟨lo', hi', a1, a2, a3, a4, a5⟩ := (otsu_spec I).2 (List.ne_nil_of_mem h1)
  obtain rfl : lo' = lo := le_antisymm (a3 lo h1).1 (h3 lo' a1).1
  obtain rfl : hi' = hi := le_antisymm (h3 hi' a2).2 (a3 hi h2).2
  have hu : upper lo' hi' = hi' := by unfold upper; rw [if_neg h.ne']
  rw [hu] at a4 a5
  set b := counts 256 lo' hi' I.all with hb
  have b0 : 0 < b 0 := by
    have := counts_pos 256 lo' hi' lo' I.all 0 h1 (by rw [nearest_lo]; rfl)
    linarith
  have b1 : 0 < b (256 - 1) := by
    have := counts_pos 256 lo' hi' hi' I.all 255 h2 (by rw [nearest_hi _ _ _ h]; norm_num)
    linarith
  have hm := meanBest_bounds 256 b a4 254 (fun i hi => by
    have := best_lt 256 (by omega) b (counts_nonneg _ _ _ _) b0 b1 i hi; omega)
  refine ⟨_, a5, ?_, ?_⟩
  · have := mul_nonneg (div_nonneg hm.1 (show (0 : Rat) ≤ 255 by norm_num)) (show 0 ≤ hi' - lo' by linarith)
    linarith
  · have e : meanBest 256 b / 255 ≤ 254 / 255 := by
      apply (div_le_div_iff_of_pos_right (by norm_num)).2
      exact_mod_cast hm.2
    have := mul_le_mul_of_nonneg_right e (show 0 ≤ hi' - lo' by linarith)
    linarith

/-! ### The second version -/

theorem buffer_spec (n : Nat) (hn : 0 < n) (lo hi : Rat) (h : lo < hi) (vs : List Rat) (hv : ∀ v ∈ vs, lo ≤ v ∧ v ≤ hi) (i : Nat) :
    buffer n lo hi vs i = counts n lo hi vs i := by
  induction vs using List.reverseRecOn with
  | nil => simp [buffer, counts]
  | append_singleton l x ih =>
    have ih' := ih fun v hvm => hv v (List.mem_append_left _ hvm)
    have e : buffer n lo hi (l ++ [x]) i = if i = binOf n lo hi x then buffer n lo hi l i + 1 else buffer n lo hi l i := by
      unfold buffer; rw [List.foldl_append]; rfl
    obtain ⟨a, b⟩ := hv x (by simp)
    have hbin := binOf_nearest n hn lo hi x h a b
    rw [e, ih']
    unfold counts
    rw [List.countP_append]
    by_cases hi' : i = binOf n lo hi x
    · rw [if_pos hi', List.countP_singleton, if_pos (by simp; omega)]; push_cast; ring
    · rw [if_neg hi', List.countP_singleton, if_neg (by simp; omega)]; simp

/-- The steps skip exactly the splits with an empty class, provided that one value weighs at least `eps`. -/
theorem skip_iff (c N : Nat) (hc : c ≤ N) (hN : 0 < N) (eps : Rat) (h0 : 0 < eps) (h1 : eps * N ≤ 1) :
    (min ((c : Rat) / N) (1 - (c : Rat) / N) < eps ∨ max ((c : Rat) / N) (1 - (c : Rat) / N) > 1 - eps) ↔
      ((c : Rat) / N = 0 ∨ 1 - (c : Rat) / N = 0) := by
  have hN' : (0 : Rat) < N := by exact_mod_cast hN
  have he : eps ≤ 1 / N := by rw [le_div_iff₀ hN']; exact h1
  constructor
  · intro h
    by_contra hc'
    push Not at hc'
    have c1 : 1 ≤ c := by
      by_contra hz
      have : c = 0 := by omega
      exact hc'.1 (by rw [this]; simp)
    have c2 : c + 1 ≤ N := by
      by_contra hz
      have : c = N := by omega
      exact hc'.2 (by rw [this, div_self hN'.ne', sub_self])
    have d1 : 1 / (N : Rat) ≤ c / N := (div_le_div_iff_of_pos_right hN').2 (by exact_mod_cast c1)
    have d2 : 1 / (N : Rat) ≤ 1 - c / N := by
      have : ((c : Rat) + 1) / N ≤ 1 := (div_le_one hN').2 (by exact_mod_cast c2)
      rw [add_div] at this
      linarith
    rcases h with h | h
    · rw [min_lt_iff] at h
      rcases h with h | h <;> linarith
    · rw [gt_iff_lt, lt_max_iff] at h
      rcases h with h | h <;> linarith
  · rintro (h | h)
    · left; rw [h]; exact min_lt_of_left_lt h0
    · left; rw [h]; exact min_lt_of_right_lt h0

theorem maxPos_inv (c : Nat → Nat) (n N : Nat) (hs : ∑ k ∈ range n, c k = N) (hN : 0 < N) (eps : Rat) (h0 : 0 < eps)
    (h1 : eps * N ≤ 1) (m : Nat) (hm : m ≤ n) :
    let b : Nat → Rat := fun k => c k
    let tot := ∑ k ∈ range n, (k : Rat) * (b k / N)
    let S := (List.range m).foldl (St.step b (1 / N) tot eps) ⟨0, 0, 0, 0⟩
    S.q1 = ∑ k ∈ range m, b k / N ∧ (S.q1 ≠ 1 → S.mu1 * S.q1 = ∑ k ∈ range m, (k : Rat) * (b k / N)) ∧ 0 ≤ S.maxSigma ∧
    (∀ t, t < m → V n b N t ≤ S.maxSigma) ∧
    ((S.maxSigma = 0 ∧ S.maxPos = 0) ∨ (S.maxPos < m ∧ V n b N S.maxPos = S.maxSigma ∧ ∀ t, t < S.maxPos → V n b N t < S.maxSigma)) := by
  intro b tot
  have hN' : (0 : Rat) < N := by exact_mod_cast hN
  induction m with
  | zero => simp
  | succ m ih =>
    intro S
    obtain ⟨i1, i2, i3, i4, i5⟩ := ih (by omega)
    have hS : S = St.step b (1 / N) tot eps ((List.range m).foldl (St.step b (1 / N) tot eps) ⟨0, 0, 0, 0⟩) m := by
      show (List.range (m + 1)).foldl _ _ = _
      rw [List.range_succ, List.foldl_append]; rfl
    generalize (List.range m).foldl (St.step b (1 / N) tot eps) ⟨0, 0, 0, 0⟩ = P at *
    have hq : P.q1 + b m * (1 / N) = ∑ k ∈ range (m + 1), b k / N := by rw [sum_range_succ, i1]; ring
    have hcnt : ∑ k ∈ range (m + 1), b k / N = ((∑ k ∈ range (m + 1), c k : Nat) : Rat) / N := by
      rw [← sum_div]; push_cast; rfl
    have hle : ∑ k ∈ range (m + 1), c k ≤ N := by
      rw [← hs]; exact sum_le_sum_of_subset (range_subset_range.2 hm)
    have hskip := skip_iff _ N hle hN eps h0 h1
    rw [← hcnt] at hskip
    have hV : V n b N m = vVal tot (∑ k ∈ range (m + 1), b k / N) (∑ k ∈ range (m + 1), (k : Rat) * (b k / N)) := rfl
    unfold St.step at hS
    dsimp only at hS
    rw [hq] at hS
    set q := ∑ k ∈ range (m + 1), b k / N with hqdef
    by_cases hz : q = 0 ∨ 1 - q = 0
    · rw [if_pos (hskip.2 hz)] at hS
      have hV0 : V n b N m = 0 := by rw [hV]; unfold vVal; rw [if_pos hz]
      rw [hS]
      refine ⟨rfl, ?_, i3, ?_, ?_⟩
      · intro hq1
        dsimp only at hq1 ⊢
        rcases hz with hz | hz
        · rw [hz, mul_zero]
          have hall : ∀ k ∈ range (m + 1), b k / N = 0 :=
            (sum_eq_zero_iff_of_nonneg (fun k _ => div_nonneg (Nat.cast_nonneg _) hN'.le)).1 (hqdef ▸ hz)
          symm
          apply sum_eq_zero
          intro k hk
          rw [hall k hk, mul_zero]
        · exact absurd (by linarith) hq1
      · intro t ht
        dsimp only
        rcases Nat.lt_succ_iff_lt_or_eq.1 ht with ht | rfl
        · exact i4 t ht
        · rw [hV0]; exact i3
      · dsimp only
        rcases i5 with ⟨z1, z2⟩ | ⟨z1, z2, z3⟩
        · exact Or.inl ⟨z1, z2⟩
        · exact Or.inr ⟨by omega, z2, z3⟩
    · rw [if_neg (fun h => hz (hskip.1 h))] at hS
      push Not at hz
      obtain ⟨hz1, hz2⟩ := hz
      have hP1 : P.q1 ≠ 1 := by
        intro h
        have hge : P.q1 ≤ q := by
          rw [← hq]
          have : 0 ≤ b m * (1 / N) := mul_nonneg (Nat.cast_nonneg _) (by positivity)
          linarith
        have hq1 : q ≤ 1 := by
          rw [hcnt]
          rw [div_le_one hN']
          exact_mod_cast hle
        apply hz2
        linarith
      have hB : P.mu1 * P.q1 + (m : Rat) * (b m * (1 / N)) = ∑ k ∈ range (m + 1), (k : Rat) * (b k / N) := by
        rw [sum_range_succ, i2 hP1]; ring
      rw [hB] at hS
      set B := ∑ k ∈ range (m + 1), (k : Rat) * (b k / N) with hBdef
      have hsig : q * (1 - q) * (B / q - (tot - q * (B / q)) / (1 - q)) * (B / q - (tot - q * (B / q)) / (1 - q)) = V n b N m := by
        rw [hV]
        unfold vVal
        rw [if_neg (by push Not; exact ⟨hz1, hz2⟩), mul_div_cancel₀ B hz1]
      rw [hsig] at hS
      by_cases hgt : V n b N m > P.maxSigma
      · rw [if_pos hgt] at hS
        rw [hS]
        refine ⟨rfl, fun _ => by dsimp only; rw [div_mul_cancel₀ B hz1], by dsimp only; linarith, ?_, ?_⟩
        · intro t ht
          dsimp only
          rcases Nat.lt_succ_iff_lt_or_eq.1 ht with ht | rfl
          · exact le_trans (i4 t ht) hgt.le
          · exact le_refl _
        · dsimp only
          exact Or.inr ⟨by omega, rfl, fun t ht => lt_of_le_of_lt (i4 t ht) hgt⟩
      · rw [if_neg hgt] at hS
        rw [hS]
        refine ⟨rfl, fun _ => by dsimp only; rw [div_mul_cancel₀ B hz1], i3, ?_, ?_⟩
        · intro t ht
          dsimp only
          rcases Nat.lt_succ_iff_lt_or_eq.1 ht with ht | rfl
          · exact i4 t ht
          · exact not_lt.1 hgt
        · dsimp only
          rcases i5 with ⟨z1, z2⟩ | ⟨z1, z2, z3⟩
          · exact Or.inl ⟨z1, z2⟩
          · exact Or.inr ⟨by omega, z2, z3⟩

/-- The position found is the first best place to split. -/
theorem maxPos_spec (c : Nat → Nat) (n N : Nat) (hn : 0 < n) (hs : ∑ k ∈ range n, c k = N) (hN : 0 < N) (eps : Rat) (h0 : 0 < eps)
    (h1 : eps * N ≤ 1) :
    maxPos n (fun k => c k) N eps ∈ best n (fun k => c k) ∧ ∀ i ∈ best n (fun k => c k), maxPos n (fun k => c k) N eps ≤ i := by
  have hN' : (0 : Rat) < N := by exact_mod_cast hN
  have hb : ∀ k, (0 : Rat) ≤ (fun k => (c k : Rat)) k := fun k => Nat.cast_nonneg _
  have hs' : ∑ k ∈ range n, (fun k => (c k : Rat)) k = N := by rw [← hs]; push_cast; rfl
  have hV := V_eq n (fun k => (c k : Rat)) N hb hs' hN'
  have hmu : (List.range n).foldl (fun (m : Rat) (i : Nat) => m + i * (c i : Rat)) 0 * (1 / N) =
      ∑ k ∈ range n, (k : Rat) * ((c k : Rat) / N) := by
    rw [foldl_sum n fun i => (i : Rat) * (c i : Rat), sum_mul]; exact sum_congr rfl fun k _ => by ring
  have hinv := maxPos_inv c n N hs hN eps h0 h1 n (le_refl _)
  unfold maxPos
  dsimp only at hinv ⊢
  rw [hmu]
  generalize (List.range n).foldl (St.step (fun k => (c k : Rat)) (1 / N) (∑ k ∈ range n, (k : Rat) * ((c k : Rat) / N)) eps) ⟨0, 0, 0, 0⟩ = S at *
  obtain ⟨_, _, i3, i4, i5⟩ := hinv
  have hmem : ∀ i, i ∈ best n (fun k => (c k : Rat)) ↔ i < n ∧ ∀ j, j < n → V n (fun k => (c k : Rat)) N j ≤ V n (fun k => (c k : Rat)) N i := by
    intro i
    unfold best
    rw [mem_filter, mem_range]
    constructor
    · rintro ⟨a, h⟩
      refine ⟨a, fun j hj => ?_⟩
      rw [hV j hj, hV i a]
      apply (div_le_div_iff_of_pos_right hN').2
      have := h j (mem_range.2 hj)
      linarith
    · rintro ⟨a, h⟩
      refine ⟨a, fun j hj => ?_⟩
      rw [mem_range] at hj
      have := h j hj
      rw [hV j hj, hV i a] at this
      have := (div_le_div_iff_of_pos_right hN').1 this
      linarith
  have vnn : ∀ t, t < n → 0 ≤ V n (fun k => (c k : Rat)) N t := by
    intro t ht
    unfold V vVal
    split_ifs with hz
    · exact le_refl _
    · rw [mul_assoc]
      apply mul_nonneg _ (mul_self_nonneg _)
      have hq0 : 0 ≤ ∑ k ∈ range (t + 1), (c k : Rat) / N := sum_nonneg fun k _ => div_nonneg (Nat.cast_nonneg _) hN'.le
      · have hq1 : ∑ k ∈ range (t + 1), (c k : Rat) / N ≤ 1 := by
          rw [← sum_div, div_le_one hN', ← hs']
          exact sum_le_sum_of_subset_of_nonneg (range_subset_range.2 ht) fun k _ _ => Nat.cast_nonneg _
        exact mul_nonneg hq0 (by linarith)
  rcases i5 with ⟨z1, z2⟩ | ⟨z1, z2, z3⟩
  · have hall : ∀ t, t < n → V n (fun k => (c k : Rat)) N t = 0 := fun t ht => le_antisymm (by rw [← z1]; exact i4 t ht) (vnn t ht)
    rw [z2]
    refine ⟨(hmem 0).2 ⟨hn, fun j hj => by rw [hall j hj, hall 0 hn]⟩, fun i _ => Nat.zero_le i⟩
  · refine ⟨(hmem _).2 ⟨z1, fun j hj => by rw [z2]; exact i4 j hj⟩, fun i hi => ?_⟩
    by_contra hlt
    obtain ⟨a, h⟩ := (hmem i).1 hi
    have := z3 i (by omega)
    have := h _ z1
    rw [z2] at this
    linarith

/-! ### Samples -/

/-- **C153 (samples)**: at least two samples begin with the first row (or column), end with the last one and are all in the image; as many
samples as rows are all rows. One sample is not defined. -/
theorem samples_spec (total num : Nat) (ht : 0 < total) (hn : 2 ≤ num) :
    ∃ l, samples total num = some l ∧ l.length = num ∧ (∀ r ∈ l, r < total) ∧ l[0]? = some 0 ∧ l[num - 1]? = some (total - 1) ∧
      (num = total → l = List.range total) := by
  have t1 : (1 : Rat) ≤ total := by exact_mod_cast ht
  have n2 : (2 : Rat) ≤ num := by exact_mod_cast hn
  have hd : (0 : Rat) < (num : Rat) - 1 := by linarith
  have hr : 0 ≤ ((total : Rat) - 1) / ((num : Rat) - 1) := div_nonneg (by linarith) hd.le
  have hround : ∀ s : Nat, Stats.round ((s : Rat) * (((total : Rat) - 1) / ((num : Rat) - 1))) =
      ⌊(s : Rat) * (((total : Rat) - 1) / ((num : Rat) - 1)) + 1 / 2⌋ :=
    fun s => Stats.round_nonneg (mul_nonneg (Nat.cast_nonneg _) hr)
  refine ⟨_, by unfold samples; rw [if_neg (by omega)], by simp, ?_, ?_, ?_, ?_⟩
  · intro r hm
    rw [List.mem_map] at hm
    obtain ⟨s, hs, rfl⟩ := hm
    rw [List.mem_range] at hs
    rw [hround]
    have hs' : (s : Rat) ≤ (num : Rat) - 1 := by
      have : (s : Rat) + 1 ≤ num := by exact_mod_cast hs
      linarith
    have : (s : Rat) * (((total : Rat) - 1) / ((num : Rat) - 1)) ≤ (total : Rat) - 1 := by
      calc (s : Rat) * (((total : Rat) - 1) / ((num : Rat) - 1)) ≤ ((num : Rat) - 1) * (((total : Rat) - 1) / ((num : Rat) - 1)) :=
            mul_le_mul_of_nonneg_right hs' hr
        _ = (total : Rat) - 1 := by field_simp
    have hfl : ⌊(s : Rat) * (((total : Rat) - 1) / ((num : Rat) - 1)) + 1 / 2⌋ < (total : Int) := by
      rw [Int.floor_lt]; push_cast; linarith
    omega
  · rw [List.getElem?_map, List.getElem?_range (by omega)]
    simp only [Option.map_some, Nat.cast_zero, zero_mul, Option.some.injEq]
    rw [Stats.round_nonneg (le_refl _), zero_add]
    norm_num
  · rw [List.getElem?_map, List.getElem?_range (by omega)]
    simp only [Option.map_some, Option.some.injEq]
    have e : ((num - 1 : Nat) : Rat) * (((total : Rat) - 1) / ((num : Rat) - 1)) = ((total - 1 : Nat) : Rat) := by
      rw [Nat.cast_sub (by omega), Nat.cast_sub (by omega)]
      push_cast
      field_simp
    rw [hround, e]
    have : ⌊((total - 1 : Nat) : Rat) + 1 / 2⌋ = ((total - 1 : Nat) : Int) := by
      rw [Int.floor_eq_iff]; push_cast; constructor <;> linarith
    rw [this, Int.toNat_natCast]
  · rintro rfl
    apply List.ext_getElem
    · simp
    · intro i h1 h2
      rw [List.getElem_map, List.getElem_range, hround]
      rw [div_self hd.ne', mul_one]
      have : ⌊(i : Rat) + 1 / 2⌋ = (i : Int) := by
        rw [Int.floor_eq_iff]; push_cast; constructor <;> linarith
      rw [this, Int.toNat_natCast]

theorem samples_one (total : Nat) : samples total 1 = none := rfl

/-- **C153**: the threshold from samples is the level at the first of the best places to split the levels between the least and the
greatest of the valid samples, if there are not more than 1/eps (8388608) of them. -/
theorem otsuSampled_spec (eps : Rat) (he : 0 < eps) (I : Image) (numRows numCols n : Nat) (hn : 2 ≤ n) (rs cs : List Nat)
    (hr : samples I.rows numRows = some rs) (hc : samples I.cols numCols = some cs) (h1 : eps * (I.values rs cs).length ≤ 1) :
    (I.values rs cs = [] → otsuSampled eps I numRows numCols n = some 0) ∧
    (I.values rs cs ≠ [] → ∃ lo hi, lo ∈ I.values rs cs ∧ hi ∈ I.values rs cs ∧ (∀ v ∈ I.values rs cs, lo ≤ v ∧ v ≤ hi) ∧
      ∃ p ∈ best n (counts n lo (upper lo hi) (I.values rs cs)), (∀ q ∈ best n (counts n lo (upper lo hi) (I.values rs cs)), p ≤ q) ∧
      otsuSampled eps I numRows numCols n = some (lo + (p : Rat) / ((n : Rat) - 1) * (upper lo hi - lo))) := by
  unfold otsuSampled
  rw [hr, hc]
  simp only [Option.bind_eq_bind, Option.bind_some, Option.pure_def]
  rcases minMax_spec (I.values rs cs) with ⟨e, h⟩ | ⟨lo, hi, h, g1, g2, g3⟩
  · rw [h]
    exact ⟨fun _ => rfl, fun hne => absurd e hne⟩
  · refine ⟨fun e => by rw [e] at g1; simp at g1, fun hne => ⟨lo, hi, g1, g2, g3, ?_⟩⟩
    have hle := (g3 lo g1).2
    obtain ⟨u1, u2⟩ := upper_gt lo hi hle
    have hu : (if hi = lo then hi + 1 else hi) = upper lo hi := by
      unfold upper
      by_cases e : hi = lo
      · rw [if_pos e, if_pos e, e]
      · rw [if_neg e, if_neg e]
    have hv : ∀ v ∈ I.values rs cs, lo ≤ v ∧ v ≤ upper lo hi := fun v hv => ⟨(g3 v hv).1, le_trans (g3 v hv).2 u2⟩
    have hlen : 0 < (I.values rs cs).length := List.length_pos_of_ne_nil hne
    have hcs := counts_sum n (by omega) lo (upper lo hi) u1 (I.values rs cs) hv
    have hbuf : buffer n lo (upper lo hi) (I.values rs cs) =
        fun (i : Nat) => (((I.values rs cs).countP fun v => nearest n lo (upper lo hi) v = i : Nat) : Rat) :=
      funext fun i => buffer_spec n (by omega) lo (upper lo hi) u1 _ hv i
    have hsum : ∑ k ∈ range n, ((I.values rs cs).countP fun v => nearest n lo (upper lo hi) v = k) = (I.values rs cs).length := by
      have : ((∑ k ∈ range n, ((I.values rs cs).countP fun v => nearest n lo (upper lo hi) v = k) : Nat) : Rat) = (I.values rs cs).length := by
        rw [← hcs]; push_cast; rfl
      exact_mod_cast this
    obtain ⟨m1, m2⟩ := maxPos_spec (fun (i : Nat) => (I.values rs cs).countP fun v => nearest n lo (upper lo hi) v = i) n (I.values rs cs).length
      (by omega) hsum hlen eps he h1
    refine ⟨_, m1, m2, ?_⟩
    rw [h]
    dsimp only
    rw [hu, if_neg (by omega), hbuf]
    congr 1
    ring

/-- All pixels are sampled if there are as many samples as rows and columns, at least two each. -/
theorem sampled_all (I : Image) (hr : 2 ≤ I.rows) (hc : 2 ≤ I.cols) :
    samples I.rows I.rows = some (List.range I.rows) ∧ samples I.cols I.cols = some (List.range I.cols) := by
  obtain ⟨l, a1, _, _, _, _, a2⟩ := samples_spec I.rows I.rows (by omega) hr
  obtain ⟨l', b1, _, _, _, _, b2⟩ := samples_spec I.cols I.cols (by omega) hc
  rw [a1, b1, a2 rfl, b2 rfl]
  exact ⟨rfl, rfl⟩

/-- **C153 (same result)**: with 256 bins and all pixels sampled the second version gives the result of the first one exactly if there is
only one best place to split. -/
theorem same_iff (eps : Rat) (he : 0 < eps) (I : Image) (hr : 2 ≤ I.rows) (hc : 2 ≤ I.cols) (h1 : eps * I.all.length ≤ 1)
    (lo hi : Rat) (g1 : lo ∈ I.all) (g2 : hi ∈ I.all) (g3 : ∀ v ∈ I.all, lo ≤ v ∧ v ≤ hi) :
    otsuSampled eps I I.rows I.cols 256 = otsu I ↔ (best 256 (counts 256 lo (upper lo hi) I.all)).card = 1 := by
  obtain ⟨sr, sc⟩ := sampled_all I hr hc
  obtain ⟨lo', hi', a1, a2, a3, a4, a5⟩ := (otsu_spec I).2 (List.ne_nil_of_mem g1)
  obtain rfl : lo' = lo := le_antisymm (a3 lo g1).1 (g3 lo' a1).1
  obtain rfl : hi' = hi := le_antisymm (g3 hi' a2).2 (a3 hi g2).2
  obtain ⟨lo, hi, b1, b2, b3, p, b4, b5, b6⟩ := (otsuSampled_spec eps he I I.rows I.cols 256 (by omega) _ _ sr sc h1).2 (List.ne_nil_of_mem g1)
  have b1' : lo ∈ I.all := b1
  have b2' : hi ∈ I.all := b2
  obtain rfl : lo' = lo := le_antisymm (a3 lo b1').1 (b3 lo' g1).1
  obtain rfl : hi' = hi := le_antisymm (b3 hi' g2).2 (a3 hi b2').2
  rw [a5, b6]
  change p ∈ best 256 (counts 256 lo' (upper lo' hi') I.all) at b4
  change ∀ q ∈ best 256 (counts 256 lo' (upper lo' hi') I.all), p ≤ q at b5
  set B := best 256 (counts 256 lo' (upper lo' hi') I.all) with hB
  have hu := (upper_gt lo' hi' (a3 lo' g1).2).1
  have hc0 : (0 : Rat) < B.card := by exact_mod_cast card_pos.2 a4
  have hne : upper lo' hi' - lo' ≠ 0 := by linarith
  have key : (p : Rat) = meanBest 256 (counts 256 lo' (upper lo' hi') I.all) ↔ B.card = 1 := by
    unfold meanBest
    rw [← hB, eq_div_iff hc0.ne']
    constructor
    · intro h
      have h0 : ∑ i ∈ B, ((i : Rat) - p) = 0 := by
        rw [sum_sub_distrib, sum_const, nsmul_eq_mul, ← h]; ring
      have hz := (sum_eq_zero_iff_of_nonneg (fun i hi => by
        have : (p : Rat) ≤ i := by exact_mod_cast b5 i hi
        linarith)).1 h0
      rw [card_eq_one]
      refine ⟨p, ?_⟩
      ext i
      rw [mem_singleton]
      constructor
      · intro hi
        have := hz i hi
        have : (i : Rat) = p := by linarith
        exact_mod_cast this
      · rintro rfl; exact b4
    · intro h
      obtain ⟨q, hq⟩ := card_eq_one.1 h
      have : p = q := by rw [hq, mem_singleton] at b4; exact b4
      rw [h, hq, this]
      simp
  rw [← key]
  constructor
  · intro h
    have h' := Option.some.inj h
    have e : (p : Rat) / ((256 : Nat) - 1) * (upper lo' hi' - lo') =
        meanBest 256 (counts 256 lo' (upper lo' hi') I.all) / 255 * (upper lo' hi' - lo') := by linarith
    have e2 := mul_right_cancel₀ hne e
    norm_num at e2
    linarith
  · intro h
    rw [h]
    norm_num

theorem spread_single (F : Finset Nat) (b : Nat → Rat) (k0 : Nat) (hb : ∀ k ∈ F, k ≠ k0 → b k = 0) : spread F b = 0 := by
  unfold spread
  by_cases h0 : b k0 = 0
  · apply sum_eq_zero
    intro k hk
    by_cases e : k = k0
    · rw [e, h0, zero_mul]
    · rw [hb k hk e, zero_mul]
  · by_cases hk0 : k0 ∈ F
    · have hm : meanOn F b = k0 := by
        unfold meanOn
        rw [sum_eq_single k0 (fun k hk e => by rw [hb k hk e, mul_zero]) (fun h => absurd hk0 h),
          sum_eq_single k0 (fun k hk e => hb k hk e) (fun h => absurd hk0 h)]
        field_simp
      apply sum_eq_zero
      intro k hk
      by_cases e : k = k0
      · rw [e, hm]; ring
      · rw [hb k hk e, zero_mul]
    · apply sum_eq_zero
      intro k hk
      rw [hb k hk (fun e => hk0 (e ▸ hk)), zero_mul]

theorem spread_nonneg (F : Finset Nat) (b : Nat → Rat) (hb : ∀ k, 0 ≤ b k) : 0 ≤ spread F b :=
  sum_nonneg fun k _ => mul_nonneg (hb k) (sq_nonneg _)

theorem mem4 (v : Rat) (h : v ∈ ([0, 1, 0, 1] : List Rat)) : v = 0 ∨ v = 1 := by
  simp at h; tauto

/-- An image with two columns, 0 and 1. -/
def twoTone : Image := { rows := 2, cols := 2, px := fun c _ => some (if c = 0 then 0 else 1) }

/-- **C153 (refuted)**: for an image of two values the first version gives the level in the middle, 127 of 255, and the second one the
lower of the two values. -/
theorem versions_differ (eps : Rat) (he : 0 < eps) (h1 : eps * 4 ≤ 1) :
    otsu twoTone = some (127 / 255) ∧ otsuSampled eps twoTone 2 2 256 = some 0 := by
  have hall : twoTone.all = [0, 1, 0, 1] := by decide +kernel
  have hu : upper 0 1 = 1 := by unfold upper; norm_num
  have n0 : nearest 256 0 1 0 = 0 := nearest_lo _ _ _
  have n1 : nearest 256 0 1 1 = 255 := by rw [nearest_hi _ _ _ (by norm_num)]; norm_num
  have hcnt : ∀ i : Nat, i ≠ 0 → i ≠ 255 → counts 256 0 1 [0, 1, 0, 1] i = 0 := by
    intro i h0 h255
    unfold counts
    have : List.countP (fun v => decide (nearest 256 0 1 v = (i : Int))) [0, 1, 0, 1] = 0 := by
      rw [List.countP_eq_zero]
      intro v hv
      have hv' : v = 0 ∨ v = 1 := mem4 v hv
      rcases hv' with rfl | rfl
      · rw [n0]; simp; omega
      · rw [n1]; simp; omega
    rw [this]; rfl
  have c0 : 0 < counts 256 0 1 [0, 1, 0, 1] 0 := by
    have := counts_pos 256 0 1 0 [0, 1, 0, 1] 0 (by simp) (by rw [n0]; rfl)
    linarith
  have c1 : 0 < counts 256 0 1 [0, 1, 0, 1] (256 - 1) := by
    have := counts_pos 256 0 1 1 [0, 1, 0, 1] 255 (by simp) (by rw [n1]; rfl)
    linarith
  have hw : ∀ i, i < 255 → within 256 (counts 256 0 1 [0, 1, 0, 1]) i = 0 := by
    intro i hi
    unfold within
    rw [spread_single _ _ 0 (fun k hk e => hcnt k e (by rw [mem_range] at hk; omega)),
      spread_single _ _ 255 (fun k hk e => hcnt k (by rw [mem_Ico] at hk; omega) e), add_zero]
  have hbest : best 256 (counts 256 0 1 [0, 1, 0, 1]) = range 255 := by
    ext i
    constructor
    · intro hi
      have := best_lt 256 (by omega) _ (counts_nonneg _ _ _ _) c0 c1 i hi
      rw [mem_range]; omega
    · intro hi
      rw [mem_range] at hi
      unfold best
      rw [mem_filter, mem_range]
      refine ⟨by omega, fun j _ => ?_⟩
      rw [hw i hi]
      exact add_nonneg (spread_nonneg _ _ (counts_nonneg _ _ _ _)) (spread_nonneg _ _ (counts_nonneg _ _ _ _))
  constructor
  · obtain ⟨lo, hi, a1, a2, a3, a4, a5⟩ := (otsu_spec twoTone).2 (by rw [hall]; simp)
    rw [hall] at a1 a2 a3 a5
    have e1 : lo = 0 := by
      have := (a3 0 (by simp)).1
      have h : lo = 0 ∨ lo = 1 := mem4 lo a1
      rcases h with h | h
      · exact h
      · rw [h] at this; norm_num at this
    have e2 : hi = 1 := by
      have := (a3 1 (by simp)).2
      have h : hi = 0 ∨ hi = 1 := mem4 hi a2
      rcases h with h | h
      · rw [h] at this; norm_num at this
      · exact h
    rw [a5, e1, e2, hu]
    unfold meanBest
    rw [hbest, card_range]
    have hsum : ∑ i ∈ range 255, (i : Rat) = 32385 := by
      have h : ∑ i ∈ range 255, i = 32385 := by decide +kernel
      have : ((∑ i ∈ range 255, i : Nat) : Rat) = (32385 : Nat) := by rw [h]
      push_cast at this
      exact this
    rw [hsum]
    norm_num
  · obtain ⟨sr, sc⟩ := sampled_all twoTone (le_refl _) (le_refl _)
    have hvals : twoTone.values (List.range twoTone.rows) (List.range twoTone.cols) = [0, 1, 0, 1] := hall
    obtain ⟨lo, hi, a1, a2, a3, p, p1, p2, a5⟩ := (otsuSampled_spec eps he twoTone 2 2 256 (by omega) _ _ sr sc
      (by rw [hvals]; simpa using h1)).2 (by rw [hvals]; simp)
    rw [hvals] at a1 a2 a3 p1 p2
    have e1 : lo = 0 := by
      have := (a3 0 (by simp)).1
      have h : lo = 0 ∨ lo = 1 := mem4 lo a1
      rcases h with h | h
      · exact h
      · rw [h] at this; norm_num at this
    have e2 : hi = 1 := by
      have := (a3 1 (by simp)).2
      have h : hi = 0 ∨ hi = 1 := mem4 hi a2
      rcases h with h | h
      · rw [h] at this; norm_num at this
      · exact h
    rw [e1, e2, hu, hbest] at p2
    have p0 : p = 0 := by have := p2 0 (by rw [mem_range]; omega); omega
    rw [a5, e1, p0]
    norm_num

/-- The hypotheses of `same_iff` and of `otsu_range` hold for that image. -/
example : (1 : Rat) / 8388608 * twoTone.all.length ≤ 1 ∧ (0 : Rat) ∈ twoTone.all ∧ (1 : Rat) ∈ twoTone.all ∧
    ∀ v ∈ twoTone.all, (0 : Rat) ≤ v ∧ v ≤ 1 := by decide +kernel

end VW.Otsu
