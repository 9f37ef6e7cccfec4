import Verif.Stats.Hist
import Mathlib.Algebra.BigOperators.Ring.List
import Mathlib.Algebra.Order.BigOperators.Group.List
/-
Property C49, second part: accumulators and the sliding deviation.
-/
namespace VW.Stats

variable {K : Type} [Field K] [LinearOrder K] [IsStrictOrderedRing K]

/-! ### Least and greatest -/

/-- a is the least of the values and b the greatest. -/
def IsMinMax (l : List K) (a b : K) : Prop := (a ∈ l ∧ ∀ x ∈ l, a ≤ x) ∧ b ∈ l ∧ ∀ x ∈ l, x ≤ b

theorem minMax_append (l : List K) (x : K) :
    minMax (l ++ [x]) = match minMax l with
      | none => some (x, x)
      | some (a, b) => some (if x < a then x else a, if b < x then x else b) := by
  unfold minMax; rw [List.foldl_append]; rfl

theorem ewMinMax_append (l : List K) (x : K) :
    ewMinMax (l ++ [x]) = match ewMinMax l with
      | none => some (x, x)
      | some (a, b) => if x < a then some (x, b) else some (a, if x > b then x else b) := by
  unfold ewMinMax; rw [List.foldl_append]; rfl

theorem isMinMax_append {l : List K} {a b : K} (h : IsMinMax l a b) (x : K) :
    IsMinMax (l ++ [x]) (if x < a then x else a) (if b < x then x else b) := by
  obtain ⟨⟨h1, h2⟩, h3, h4⟩ := h
  refine ⟨⟨?_, ?_⟩, ?_, ?_⟩
  · split <;> simp [h1]
  · intro y hy
    rw [List.mem_append, List.mem_singleton] at hy
    rcases hy with hy | rfl
    · have := h2 y hy; split <;> linarith
    · split
      · exact le_refl _
      · linarith
  · split <;> simp [h3]
  · intro y hy
    rw [List.mem_append, List.mem_singleton] at hy
    rcases hy with hy | rfl
    · have := h4 y hy; split <;> linarith
    · split
      · exact le_refl _
      · linarith

theorem isMinMax_le {l : List K} {a b : K} (h : IsMinMax l a b) : a ≤ b := h.1.2 b h.2.1

theorem isMinMax_unique {l : List K} {a b a' b' : K} (h : IsMinMax l a b) (h' : IsMinMax l a' b') : a = a' ∧ b = b' :=
  ⟨le_antisymm (h.1.2 _ h'.1.1) (h'.1.2 _ h.1.1), le_antisymm (h'.2.2 _ h.2.1) (h.2.2 _ h'.2.1)⟩

/-- **C49 (min/max accumulators)**: for every non-empty sequence both accumulators hold the least and the greatest
value seen. -/
theorem minMax_spec (l : List K) (hl : l ≠ []) :
    ∃ a b, minMax l = some (a, b) ∧ ewMinMax l = some (a, b) ∧ IsMinMax l a b := by
  induction l using List.reverseRecOn with
  | nil => exact absurd rfl hl
  | append_singleton l x ih =>
    by_cases hl' : l = []
    · subst hl'
      exact ⟨x, x, rfl, rfl, ⟨by simp, by simp⟩, by simp, by simp⟩
    · obtain ⟨a, b, h1, h2, h3⟩ := ih hl'
      refine ⟨_, _, ?_, ?_, isMinMax_append h3 x⟩
      · rw [minMax_append, h1]
      · rw [ewMinMax_append, h2]
        have := isMinMax_le h3
        dsimp only
        by_cases hx : x < a
        · rw [if_pos hx, if_pos hx, if_neg (show ¬ b < x by linarith)]
        · rw [if_neg hx, if_neg hx]

/-- With no value: an exception. -/
theorem minMax_empty : minMax ([] : List K) = none ∧ ewMinMax ([] : List K) = none := ⟨rfl, rfl⟩

/-! ### Mean and deviation -/

theorem meanState (l : List K) (s n : K) :
    l.foldl (fun (st : K × K) x => (st.1 + x, st.2 + 1)) (s, n) = (s + l.sum, n + l.length) := by
  induction l generalizing s n with
  | nil => simp
  | cons x l ih => rw [List.foldl_cons, ih]; simp; constructor <;> ring

/-- **C49 (mean accumulator)**: the sum of the values divided by their number; an exception for none. -/
theorem meanAcc_spec (l : List K) : meanAcc l = if l = [] then none else some (l.sum / l.length) := by
  unfold meanAcc
  rw [meanState]
  dsimp only
  rw [zero_add, zero_add]
  by_cases h : l = []
  · subst h; simp
  · rw [if_neg h, if_neg (by simpa using h)]

theorem varState (l : List K) (s q n : K) :
    l.foldl (fun (st : K × K × K) x => (st.1 + x, st.2.1 + x * x, st.2.2 + 1)) (s, q, n) =
      (s + l.sum, q + (l.map (fun x => x * x)).sum, n + l.length) := by
  induction l generalizing s q n with
  | nil => simp
  | cons x l ih => rw [List.foldl_cons, ih]; simp; refine ⟨?_, ?_, ?_⟩ <;> ring

/-- Sum of squared distances from c. -/
def sqDist (l : List K) (c : K) : K := (l.map (fun x => (x - c) * (x - c))).sum

theorem sqDist_eq (l : List K) (c : K) :
    sqDist l c = (l.map (fun x => x * x)).sum - 2 * c * l.sum + l.length * (c * c) := by
  unfold sqDist
  induction l with
  | nil => simp
  | cons x l ih =>
    rw [List.map_cons, List.sum_cons, ih, List.map_cons, List.sum_cons, List.sum_cons, List.length_cons]
    push_cast; ring

theorem sqDist_nonneg (l : List K) (c : K) : 0 ≤ sqDist l c := by
  unfold sqDist
  apply List.sum_nonneg
  intro y hy
  obtain ⟨x, _, rfl⟩ := List.mem_map.1 hy
  exact mul_self_nonneg _

/-- **C49 (deviation accumulator)**: what it takes the square root of is the mean squared distance of the values from
their mean, so never negative; an exception for no values. -/
theorem varAcc_spec (l : List K) :
    (l = [] → varAcc l = none) ∧
    (l ≠ [] → varAcc l = some (sqDist l (l.sum / l.length) / l.length) ∧ 0 ≤ sqDist l (l.sum / l.length) / l.length) := by
  constructor
  · rintro rfl; simp [varAcc]
  · intro h
    have hn : (0 : K) < l.length := by exact_mod_cast List.length_pos_iff.2 h
    refine ⟨?_, div_nonneg (sqDist_nonneg _ _) hn.le⟩
    unfold varAcc
    rw [varState]
    dsimp only
    simp only [zero_add]
    rw [if_neg (ne_of_gt hn), sqDist_eq]
    congr 1
    field_simp
    ring

/-- A negative "variance" of one channel of bytes: the sums are kept in the type of the channel. For the values
16 and 16 the variance is 0; the sums are 32 and 512 mod 256 = 0, and the root is taken of -256. -/
theorem ewVarU8_wrong : (ewVarU8 [16, 16] : Option ℚ) = some (-256) ∧ (varAcc [16, 16] : Option ℚ) = some 0 := by
  constructor <;> decide +kernel

/-- `mean` and the accumulator agree. -/
theorem mean_eq (l : List K) : mean l = meanAcc l := by
  rw [meanAcc_spec]
  unfold mean
  have : l.foldl (· + ·) 0 = l.sum := by rw [List.sum_eq_foldl]
  rw [this]

/-- `standard_deviation` is the root of the squared distances from the given mean over n-1. -/
theorem sampleVariance_spec (l : List K) (m : K) :
    sampleVariance l m = if l.length ≤ 1 then none else some (sqDist l m / ((l.length : K) - 1)) := by
  unfold sampleVariance
  have : ∀ (l : List K) (r : K), l.foldl (fun r x => r + (x - m) * (x - m)) r = r + sqDist l m := by
    intro l
    induction l with
    | nil => intro r; simp [sqDist]
    | cons x l ih => intro r; rw [List.foldl_cons, ih]; simp [sqDist]; ring
  rw [this, zero_add]

/-! ### The sliding deviation -/

/-- The state describes the values it holds. -/
structure Good (s : Sliding K) : Prop where
  stats : ∃ m q, s.stats = some (m, q) ∧ (s.values.length : K) * m = s.values.sum ∧
    (s.values = [] → m = 0) ∧ q = sqDist s.values m

theorem good_new (n : Nat) : Good (Sliding.new n : Sliding K) :=
  ⟨0, 0, rfl, by simp [Sliding.new], fun _ => rfl, by simp [Sliding.new, sqDist]⟩

theorem good_pop {s : Sliding K} (h : Good s) (h2 : 2 ≤ s.values.length) :
    Good s.pop ∧ s.pop.values = s.values.tail ∧ s.pop.maxSize = s.maxSize := by
  obtain ⟨m, q, hs, hm, _, hq⟩ := h.stats
  unfold Sliding.pop
  cases hv : s.values with
  | nil => rw [hv] at h2; simp at h2
  | cons old rest =>
    rw [hv] at h2 hm hq
    have hr : 0 < rest.length := by rw [List.length_cons] at h2; omega
    have hrK : (0 : K) < rest.length := by exact_mod_cast hr
    rw [List.length_cons, List.sum_cons] at hm
    push_cast at hm
    refine ⟨?_, rfl, rfl⟩
    have e : (((old :: rest).length : Nat) : K) - 1 = rest.length := by rw [List.length_cons]; push_cast; ring
    have hm' : (((old :: rest).length : Nat) : K) * m - old = rest.sum := by rw [List.length_cons]; push_cast; linarith
    refine ⟨rest.sum / rest.length, q - (old - m) * (old - rest.sum / rest.length), ?_, ?_, ?_, ?_⟩
    · dsimp only
      rw [hs]
      dsimp only
      rw [e, if_neg (ne_of_gt hrK), hm']
    · dsimp only; field_simp
    · intro h0; simp only at h0; rw [h0] at hr; simp at hr
    · dsimp only
      rw [hq, sqDist_eq, sqDist_eq, List.map_cons, List.sum_cons, List.sum_cons, List.length_cons]
      push_cast
      have hR : rest.sum = ((rest.length : K) + 1) * m - old := by linarith
      rw [hR]
      field_simp
      ring

theorem good_snoc {s : Sliding K} (h : Good s) (x : K) :
    Good { s with
      values := s.values ++ [x]
      stats := match s.stats with
        | none => none
        | some (m, q) =>
          some (m + (x - m) / ((s.values ++ [x]).length : K), q + (x - m) * (x - (m + (x - m) / ((s.values ++ [x]).length : K)))) } := by
  obtain ⟨m, q, hs, hm, h0, hq⟩ := h.stats
  have hn : (0 : K) < (s.values.length : K) + 1 := by positivity
  refine ⟨_, _, by dsimp only; rw [hs], ?_, ?_, ?_⟩
  · dsimp only
    rw [List.sum_append, ← hm, List.length_append]
    simp only [List.length_singleton, List.sum_singleton]
    push_cast
    field_simp
    ring
  · intro h; simp at h
  · dsimp only
    rw [hq, sqDist_eq, sqDist_eq, List.map_append, List.sum_append, List.sum_append, ← hm, List.length_append]
    simp only [List.length_singleton, List.sum_singleton, List.map_cons, List.map_nil]
    push_cast
    field_simp
    ring

theorem good_push {s : Sliding K} (h : Good s) (hk : 2 ≤ s.maxSize) (x : K) :
    Good (s.push x) ∧ (s.push x).maxSize = s.maxSize ∧
    (s.push x).values = (if s.values.length ≥ s.maxSize then s.values.tail else s.values) ++ [x] := by
  unfold Sliding.push
  by_cases hf : s.values.length ≥ s.maxSize
  · obtain ⟨g, gv, gm⟩ := good_pop h (by omega)
    dsimp only
    rw [if_pos hf, if_pos hf]
    exact ⟨good_snoc g x, gm, by rw [gv]⟩
  · dsimp only
    rw [if_neg hf, if_neg hf]
    exact ⟨good_snoc h x, rfl, rfl⟩

/-- The last n of a list. -/
def lastN (n : Nat) (l : List K) : List K := l.drop (l.length - n)

theorem sliding_values (n : Nat) (hn : 2 ≤ n) (l : List K) :
    Good (l.foldl Sliding.push (Sliding.new n)) ∧ (l.foldl Sliding.push (Sliding.new n)).maxSize = n ∧
    (l.foldl Sliding.push (Sliding.new n)).values = lastN n l := by
  induction l using List.reverseRecOn with
  | nil => exact ⟨good_new n, rfl, by simp [Sliding.new, lastN]⟩
  | append_singleton l x ih =>
    rw [List.foldl_append]
    simp only [List.foldl_cons, List.foldl_nil]
    obtain ⟨g, gm, gv⟩ := ih
    obtain ⟨h1, h2, h3⟩ := good_push g (by omega) x
    refine ⟨h1, by omega, ?_⟩
    rw [h3, gv, gm]
    unfold lastN
    rw [List.length_drop, List.length_append, List.length_singleton]
    by_cases hl : n ≤ l.length
    · rw [if_pos (by omega), List.drop_append_of_le_length (by omega), List.tail_drop]
      congr 2
      omega
    · rw [if_neg (by omega)]
      have : l.length - n = 0 := by omega
      have h' : l.length + 1 - n = 0 := by omega
      rw [this, h', List.drop_zero, List.drop_zero]

/-- **C49 (sliding deviation)**: with a window of at least two values, after any sequence of values the result is the
deviation (its square) of the last n of them, and 0 for fewer than two. -/
theorem sliding_spec (n : Nat) (hn : 2 ≤ n) (l : List K) :
    let w := lastN n l
    (l.foldl Sliding.push (Sliding.new n)).variance =
      if w.length < 2 then some 0 else some (sqDist w (w.sum / w.length) / w.length) := by
  obtain ⟨g, _, gv⟩ := sliding_values n hn l
  dsimp only
  unfold Sliding.variance
  rw [gv]
  by_cases h : (lastN n l).length < 2
  · rw [if_pos h, if_pos h]
  · rw [if_neg h, if_neg h]
    obtain ⟨m, q, hs, hm, _, hq⟩ := g.stats
    rw [gv] at hm hq
    have hp : (0 : K) < (lastN n l).length := by
      have : 0 < (lastN n l).length := by omega
      exact_mod_cast this
    have : m = (lastN n l).sum / (lastN n l).length := by rw [← hm]; field_simp
    rw [hs, ← this, hq]
    rfl

/-- Once the statistics are not numbers they stay so. -/
theorem sliding_poisoned (s : Sliding K) (h : s.stats = none) (l : List K) : (l.foldl Sliding.push s).stats = none := by
  induction l generalizing s with
  | nil => exact h
  | cons x l ih =>
    apply ih
    unfold Sliding.push
    by_cases hf : s.values.length ≥ s.maxSize
    · rw [if_pos hf]
      unfold Sliding.pop
      cases s.values <;> simp [h]
    · rw [if_neg hf]; simp [h]

/-- What a caller of `pop` must know: removing the only value divides by zero, and from then on every result over two
or more values is not a number. -/
theorem sliding_pop_last (n : Nat) (x : K) (l : List K) :
    (l.foldl Sliding.push ((Sliding.new (n + 1)).push x).pop).stats = none := by
  apply sliding_poisoned
  simp [Sliding.push, Sliding.new, Sliding.pop]

/-- A case: window 3 over 1, 5, 2, 4, 9: the last three are 2, 4, 9. -/
example : (([1, 5, 2, 4, 9] : List ℚ).foldl Sliding.push (Sliding.new 3)).variance = some (26/3) := by decide +kernel

end VW.Stats
