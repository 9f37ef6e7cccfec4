import Verif.Math.Skyline
import Mathlib.Algebra.BigOperators.Intervals
import Mathlib.Algebra.BigOperators.Ring.Finset
import Mathlib.Algebra.Order.BigOperators.Ring.Finset
import Mathlib.Algebra.Order.Field.Basic
import Mathlib.Algebra.Order.Field.Rat
import Mathlib.Tactic.Ring
import Mathlib.Tactic.Linarith
import Mathlib.Tactic.FieldSimp
import Mathlib.Tactic.ByContra

namespace VW.Skyline

open Finset

variable {K : Type} [Field K]

/-! ### Specification -/

/-- `x` solves `A·x = b` for the `n × n` matrix `A`. -/
def Solves (n : Nat) (A : Mat K) (x b : Nat → K) : Prop := ∀ i, i < n → ∑ k ∈ range n, A i k * x k = b i

def Symmetric (n : Nat) (A : Mat K) : Prop := ∀ i j, i < n → j < n → A i j = A j i

/-- The skyline fits: it is not right of the diagonal and everything left of it is zero. -/
def Fits (n : Nat) (sky : Nat → Nat) (A : Mat K) : Prop := ∀ i, i < n → sky i ≤ i ∧ ∀ j, j < sky i → A i j = 0

def PosDef [LinearOrder K] (n : Nat) (A : Mat K) : Prop :=
  ∀ u : Nat → K, (∃ i, i < n ∧ u i ≠ 0) → 0 < ∑ i ∈ range n, ∑ k ∈ range n, u i * A i k * u k

/-! ### Loops as sums -/

theorem foldl_sum (f : Nat → K) (a k : Nat) (s : K) :
    (List.range' a k).foldl (fun s j => s + f j) s = s + ∑ j ∈ Ico a (a + k), f j := by
  induction k generalizing a s with
  | zero => simp
  | succ k ih =>
    rw [List.range'_succ, List.foldl_cons, ih, add_assoc]
    congr 1
    rw [show a + 1 + k = a + (k + 1) by omega, ← Finset.sum_eq_sum_Ico_succ_bot (by omega)]

/-- A sum from the skyline on is the whole sum. -/
theorem sum_sky (f : Nat → K) (s j : Nat) (h : ∀ m, m < s → m < j → f m = 0) :
    ∑ m ∈ Ico s (s + (j - s)), f m = ∑ m ∈ range j, f m := by
  rw [Finset.range_eq_Ico]
  rcases Nat.le_total s j with hs | hs
  · rw [show s + (j - s) = j by omega, ← Finset.sum_Ico_consecutive f (Nat.zero_le s) hs]
    rw [Finset.sum_eq_zero (s := Ico 0 s), zero_add]
    intro m hm
    rw [mem_Ico] at hm
    exact h m hm.2 (by omega)
  · rw [show s + (j - s) = s by omega, Ico_self, Finset.sum_empty]
    symm; apply Finset.sum_eq_zero
    intro m hm
    rw [mem_Ico] at hm
    exact h m (by omega) hm.2

theorem colV_aux (j : Nat) (A : Mat K) (s k : Nat) (hk : s + k ≤ j) :
    let v := (List.range' s k).foldl (fun v i =>
      let v := setV v i (A j i * A i i)
      setV v j (v j - A j i * v i)) (setV (fun _ => 0) j (A j j))
    (∀ m, s ≤ m → m < s + k → v m = A j m * A m m) ∧ (∀ m, ¬ (s ≤ m ∧ m < s + k) → m ≠ j → v m = 0) ∧
      v j = A j j - ∑ m ∈ Ico s (s + k), A j m * (A j m * A m m) := by
  induction k with
  | zero =>
    refine ⟨fun m a b => absurd b (by omega), fun m _ h => ?_, ?_⟩
    · show setV _ _ _ m = 0
      unfold setV; rw [if_neg h]
    · show setV _ _ _ j = _
      simp [setV]
  | succ k ih =>
    obtain ⟨h1, h2, h3⟩ := ih (by omega)
    rw [List.range'_concat, List.foldl_append, Nat.one_mul]
    generalize (List.range' s k).foldl _ _ = v at *
    dsimp only [List.foldl_cons, List.foldl_nil]
    have hne : j ≠ s + k := by omega
    refine ⟨?_, ?_, ?_⟩
    · intro m a b
      unfold setV
      rw [if_neg (by omega)]
      by_cases e : m = s + k
      · rw [if_pos e, e]
      · rw [if_neg e]; exact h1 m a (by omega)
    · intro m a b
      unfold setV
      rw [if_neg b, if_neg (by omega)]
      exact h2 m (by omega) b
    · unfold setV
      rw [if_pos rfl, if_neg hne, if_pos rfl, h3, show s + (k + 1) = s + k + 1 by omega, Finset.sum_Ico_succ_top (by omega)]
      ring

theorem colV_spec (sky : Nat → Nat) (j : Nat) (A : Mat K) (hs : sky j ≤ j) (h0 : ∀ m, m < sky j → A j m = 0) :
    (∀ m, m < j → colV sky j A m = A j m * A m m) ∧ colV sky j A j = A j j - ∑ m ∈ range j, A j m * (A j m * A m m) := by
  obtain ⟨h1, h2, h3⟩ := colV_aux j A (sky j) (j - sky j) (by omega)
  refine ⟨?_, ?_⟩
  · intro m hm
    by_cases hc : sky j ≤ m
    · exact h1 m hc (by omega)
    · rw [h0 m (by omega), zero_mul]
      exact h2 m (by omega) (by omega)
  · unfold colV
    rw [h3, sum_sky _ _ _ (fun m a b => by rw [h0 m a, zero_mul])]

theorem rowSum_eq (sky : Nat → Nat) (A : Mat K) (v : Nat → K) (i j : Nat) (h0 : ∀ m, m < sky i → A i m = 0) :
    rowSum sky A v i j = ∑ m ∈ range j, A i m * v m := by
  unfold rowSum
  rw [foldl_sum, zero_add, sum_sky _ _ _ (fun m a _ => by rw [h0 m a, zero_mul])]

theorem rowSum_congr (sky : Nat → Nat) (A B : Mat K) (v : Nat → K) (i j : Nat) (h : ∀ m, m < j → A i m = B i m) :
    rowSum sky A v i j = rowSum sky B v i j := by
  unfold rowSum
  rw [foldl_sum, foldl_sum]
  congr 1
  apply Finset.sum_congr rfl
  intro m hm
  rw [mem_Ico] at hm
  rw [h m (by omega)]

theorem fillCol_aux (sky : Nat → Nat) (j : Nat) (v : Nat → K) (A : Mat K) (k a b : Nat) :
    (List.range' (j + 1) k).foldl (fun A i =>
      if j ≥ sky i then setM A i j ((A i j - rowSum sky A v i j) / v j) else A) A a b =
    if b = j ∧ j < a ∧ a < j + 1 + k ∧ sky a ≤ j then (A a j - rowSum sky A v a j) / v j else A a b := by
  induction k generalizing a b with
  | zero => rw [if_neg (by omega)]; rfl
  | succ k ih =>
    rw [List.range'_concat, List.foldl_append, Nat.one_mul]
    generalize hB : (List.range' (j + 1) k).foldl _ A = B at *
    dsimp only [List.foldl_cons, List.foldl_nil]
    have hrow : ∀ m, m ≤ j → B (j + 1 + k) m = A (j + 1 + k) m := by
      intro m _; rw [ih, if_neg (by omega)]
    by_cases hs : j ≥ sky (j + 1 + k)
    · rw [if_pos hs]
      unfold setM
      by_cases hab : a = j + 1 + k ∧ b = j
      · rw [if_pos hab, if_pos (by obtain ⟨rfl, rfl⟩ := hab; omega), hab.1, hrow j (Nat.le_refl _),
          rowSum_congr sky B A v _ j (fun m hm => hrow m (by omega))]
      · rw [if_neg hab, ih]
        by_cases hc : b = j ∧ j < a ∧ a < j + 1 + k ∧ sky a ≤ j
        · rw [if_pos hc, if_pos (by omega)]
        · rw [if_neg hc, if_neg (by omega)]
    · rw [if_neg hs, ih]
      by_cases hc : b = j ∧ j < a ∧ a < j + 1 + k ∧ sky a ≤ j
      · rw [if_pos hc, if_pos (by omega)]
      · rw [if_neg hc, if_neg]
        rintro ⟨h1, h2, h3, h4⟩
        by_cases e : a = j + 1 + k
        · subst e; exact hs h4
        · exact hc ⟨h1, h2, by omega, h4⟩

/-! ### The decomposition -/

/-- The columns left of `j` are done. -/
structure Done (n : Nat) (sky : Nat → Nat) (A0 : Mat K) (j : Nat) (A : Mat K) : Prop where
  rest : ∀ a b, j ≤ b → A a b = A0 a b
  zero : ∀ a b, a < n → b < sky a → A a b = 0
  below : ∀ k a, k < j → k < a → a < n → A0 a k = (∑ m ∈ range k, A a m * A m m * A k m) + A a k * A k k
  diag : ∀ k, k < j → A0 k k = (∑ m ∈ range k, A k m * A m m * A k m) + A k k

theorem ldlCol_get (sky : Nat → Nat) (n j : Nat) (A : Mat K) (a b : Nat) :
    ldlCol sky n j A a b = if a = j ∧ b = j then colV sky j A j else
      if b = j ∧ j < a ∧ a < n ∧ sky a ≤ j then (A a j - rowSum sky A (colV sky j A) a j) / colV sky j A j else A a b := by
  unfold ldlCol fillCol
  rw [fillCol_aux]
  have hc : ∀ a, setM A j j (colV sky j A j) a b = if a = j ∧ b = j then colV sky j A j else A a b := fun a => rfl
  by_cases h1 : a = j ∧ b = j
  · rw [if_pos h1, if_neg (by omega), hc, if_pos h1]
  · rw [if_neg h1]
    by_cases h2 : b = j ∧ j < a ∧ a < n ∧ sky a ≤ j
    · rw [if_pos h2, if_pos (by omega)]
      have e1 : setM A j j (colV sky j A j) a j = A a j := by unfold setM; rw [if_neg (by omega)]
      rw [e1, rowSum_congr sky _ A _ a j]
      intro m hm; unfold setM; rw [if_neg (by omega)]
    · rw [if_neg h2, if_neg (by omega), hc, if_neg h1]

theorem pivot_eq {n : Nat} {sky : Nat → Nat} {A0 A : Mat K} {j : Nat} (hF : Fits n sky A0) (hj : j < n) (h : Done n sky A0 j A) :
    A0 j j = (∑ m ∈ range j, A j m * A m m * A j m) + ldlCol sky n j A j j := by
  rw [ldlCol_get, if_pos ⟨rfl, rfl⟩, (colV_spec sky j A (hF j hj).1 (fun m hm => h.zero j m hj hm)).2, h.rest j j (Nat.le_refl _)]
  have : ∑ m ∈ range j, A j m * A m m * A j m = ∑ m ∈ range j, A j m * (A j m * A m m) :=
    Finset.sum_congr rfl fun m _ => by ring
  rw [this]; ring

theorem done_step {n : Nat} {sky : Nat → Nat} {A0 A : Mat K} {j : Nat} (hF : Fits n sky A0) (hj : j < n) (h : Done n sky A0 j A)
    (hp : ldlCol sky n j A j j ≠ 0) : Done n sky A0 (j + 1) (ldlCol sky n j A) := by
  have hlt : ∀ a b, b ≠ j → ldlCol sky n j A a b = A a b := by
    intro a b hb; rw [ldlCol_get, if_neg (by omega), if_neg (by omega)]
  obtain ⟨hv1, hv2⟩ := colV_spec sky j A (hF j hj).1 (fun m hm => h.zero j m hj hm)
  have hd : ldlCol sky n j A j j = colV sky j A j := by rw [ldlCol_get, if_pos ⟨rfl, rfl⟩]
  refine ⟨?_, ?_, ?_, ?_⟩
  · intro a b hb; rw [hlt a b (by omega)]; exact h.rest a b (by omega)
  · intro a b ha hb
    by_cases e : b = j
    · subst e
      have := (hF a ha).1
      rw [ldlCol_get, if_neg (by omega), if_neg (by omega)]
      exact h.zero a b ha hb
    · rw [hlt a b e]; exact h.zero a b ha hb
  · intro k a hk hka ha
    rcases Nat.lt_or_ge k j with hkj | hkj
    · rw [hlt a k (by omega), hlt k k (by omega), h.below k a hkj hka ha]
      congr 1
      apply Finset.sum_congr rfl
      intro m hm
      rw [mem_range] at hm
      rw [hlt a m (by omega), hlt m m (by omega), hlt k m (by omega)]
    · have e : k = j := by omega
      subst e
      have esum : ∑ m ∈ range k, ldlCol sky n k A a m * ldlCol sky n k A m m * ldlCol sky n k A k m =
          ∑ m ∈ range k, A a m * colV sky k A m := by
        apply Finset.sum_congr rfl
        intro m hm
        rw [mem_range] at hm
        rw [hlt a m (by omega), hlt m m (by omega), hlt k m (by omega), hv1 m hm]; ring
      rw [esum]
      by_cases hs : sky a ≤ k
      · have e1 : ldlCol sky n k A a k = (A a k - rowSum sky A (colV sky k A) a k) / colV sky k A k := by
          rw [ldlCol_get, if_neg (by omega), if_pos ⟨rfl, hka, ha, hs⟩]
        rw [e1, hd, rowSum_eq sky A _ a k (fun m hm => h.zero a m ha hm), h.rest a k (Nat.le_refl _)]
        rw [hd] at hp
        rw [div_mul_cancel₀ _ hp]; ring
      · have e1 : ldlCol sky n k A a k = A a k := by rw [ldlCol_get, if_neg (by omega), if_neg (by omega)]
        rw [e1, h.zero a k ha (by omega), zero_mul, add_zero, (hF a ha).2 k (by omega)]
        symm; apply Finset.sum_eq_zero
        intro m hm
        rw [mem_range] at hm
        rw [h.zero a m ha (by omega), zero_mul]
  · intro k hk
    rcases Nat.lt_or_ge k j with hkj | hkj
    · rw [hlt k k (by omega), h.diag k hkj]
      congr 1
      apply Finset.sum_congr rfl
      intro m hm
      rw [mem_range] at hm
      rw [hlt k m (by omega), hlt m m (by omega)]
    · have e : k = j := by omega
      subst e
      rw [pivot_eq hF hj h]
      congr 1
      apply Finset.sum_congr rfl
      intro m hm
      rw [mem_range] at hm
      rw [hlt k m (by omega), hlt m m (by omega)]

/-- The matrix after `j` columns. -/
def ldlTo (sky : Nat → Nat) (n j : Nat) (A : Mat K) : Mat K := (List.range j).foldl (fun A j => ldlCol sky n j A) A

theorem ldlTo_succ (sky : Nat → Nat) (n j : Nat) (A : Mat K) : ldlTo sky n (j + 1) A = ldlCol sky n j (ldlTo sky n j A) := by
  unfold ldlTo; rw [List.range_succ, List.foldl_append]; rfl

theorem ldlTo_col (sky : Nat → Nat) (n j k : Nat) (A : Mat K) (a b : Nat) (hb : b < j) :
    ldlTo sky n (j + k) A a b = ldlTo sky n j A a b := by
  induction k with
  | zero => rfl
  | succ k ih =>
    rw [← Nat.add_assoc, ldlTo_succ, ldlCol_get, if_neg (by omega), if_neg (by omega), ih]

theorem done_zero {n : Nat} {sky : Nat → Nat} {A0 : Mat K} (hF : Fits n sky A0) : Done n sky A0 0 (ldlTo sky n 0 A0) :=
  ⟨fun _ _ _ => rfl, fun a b ha hb => (hF a ha).2 b hb, fun k a hk => absurd hk (by omega), fun k hk => absurd hk (by omega)⟩

theorem done_all {n : Nat} {sky : Nat → Nat} {A0 : Mat K} (hF : Fits n sky A0) (hp : ∀ j, j < n → ldl sky n A0 j j ≠ 0) :
    Done n sky A0 n (ldl sky n A0) := by
  have key : ∀ j, j ≤ n → Done n sky A0 j (ldlTo sky n j A0) := by
    intro j
    induction j with
    | zero => intro _; exact done_zero hF
    | succ j ih =>
      intro hj
      rw [ldlTo_succ]
      apply done_step hF (by omega) (ih (by omega))
      rw [← ldlTo_succ]
      have := ldlTo_col sky n (j + 1) (n - (j + 1)) A0 j j (by omega)
      rw [show j + 1 + (n - (j + 1)) = n by omega] at this
      rw [← this]; exact hp j (by omega)
  exact key n (Nat.le_refl _)

/-- `L` of the decomposition: ones on the diagonal. -/
def low (A : Mat K) (i m : Nat) : K := if m = i then 1 else if m < i then A i m else 0

theorem low_sum (A : Mat K) (i n : Nat) (hi : i < n) (f : Nat → K) :
    ∑ m ∈ range n, low A i m * f m = (∑ m ∈ range i, A i m * f m) + f i := by
  rw [Finset.range_eq_Ico, ← Finset.sum_Ico_consecutive _ (Nat.zero_le (i + 1)) (by omega : i + 1 ≤ n),
    Finset.sum_eq_zero (s := Ico (i + 1) n), add_zero, Finset.sum_Ico_succ_top (Nat.zero_le i), ← Finset.range_eq_Ico]
  · congr 1
    · apply Finset.sum_congr rfl
      intro m hm
      rw [mem_range] at hm
      unfold low; rw [if_neg (by omega), if_pos hm]
    · unfold low; rw [if_pos rfl, one_mul]
  · intro m hm
    rw [mem_Ico] at hm
    unfold low; rw [if_neg (by omega), if_neg (by omega), zero_mul]

/-- The decomposition of a leading block: `A = L·D·Lᵀ`. -/
theorem factor {n : Nat} {A0 A : Mat K} (j : Nat) (D : Nat → K) (hsym : Symmetric n A0) (hj : j ≤ n)
    (hD : ∀ k, k < j → D k = A k k)
    (hb : ∀ k a, k < a → a < j → A0 a k = (∑ m ∈ range k, A a m * A m m * A k m) + A a k * A k k)
    (hd : ∀ k, k < j → A0 k k = (∑ m ∈ range k, A k m * A m m * A k m) + A k k) (i k : Nat) (hi : i < j) (hk : k < j) :
    A0 i k = ∑ m ∈ range j, low A i m * D m * low A k m := by
  have main : ∀ i k, i < j → k ≤ i → A0 i k = ∑ m ∈ range j, low A i m * D m * low A k m := by
    intro i k hi hki
    have e : ∑ m ∈ range j, low A i m * D m * low A k m = ∑ m ∈ range j, low A k m * (low A i m * D m) :=
      Finset.sum_congr rfl fun m _ => by ring
    rw [e, low_sum A k j (by omega)]
    have e2 : ∑ m ∈ range k, A k m * (low A i m * D m) = ∑ m ∈ range k, A i m * A m m * A k m := by
      apply Finset.sum_congr rfl
      intro m hm
      rw [mem_range] at hm
      rw [hD m (by omega)]
      unfold low; rw [if_neg (by omega), if_pos (by omega)]; ring
    rw [e2, hD k (by omega)]
    rcases Nat.eq_or_lt_of_le hki with e | e
    · subst e
      unfold low; rw [if_pos rfl, one_mul]; exact hd k hi
    · unfold low; rw [if_neg (by omega), if_pos e]; exact hb k i e hi
  rcases Nat.le_total k i with h | h
  · exact main i k hi h
  · rw [hsym i k (by omega) (by omega), main k i hk h]
    exact Finset.sum_congr rfl fun m _ => by ring

/-! ### Substitution -/

theorem forward_spec (sky : Nat → Nat) (n : Nat) (A : Mat K) (b : Nat → K) (h0 : ∀ i, i < n → ∀ m, m < sky i → A i m = 0)
    (i : Nat) (hi : i < n) : (∑ m ∈ range i, A i m * forward sky n A b m) + forward sky n A b i = b i := by
  have key : ∀ k, k ≤ n →
      let x := (List.range k).foldl (fun x i =>
        setV x i (b i - (List.range' (sky i) (i - sky i)).foldl (fun s j => s + A i j * x j) 0)) fun _ => 0
      ∀ i, i < k → (∑ m ∈ range i, A i m * x m) + x i = b i := by
    intro k
    induction k with
    | zero => intro _ x i hi; omega
    | succ k ih =>
      intro hk
      have ih := ih (by omega)
      rw [List.range_succ, List.foldl_append]
      generalize (List.range k).foldl _ _ = x at *
      dsimp only [List.foldl_cons, List.foldl_nil] at *
      intro i hi
      have hsum : ∀ y, ∑ m ∈ range i, A i m * setV x k y m = ∑ m ∈ range i, A i m * x m := by
        intro y
        apply Finset.sum_congr rfl
        intro m hm
        rw [mem_range] at hm
        unfold setV; rw [if_neg (by omega)]
      rw [hsum]
      by_cases e : i = k
      · subst e
        unfold setV
        rw [if_pos rfl, foldl_sum, zero_add, sum_sky _ _ _ (fun m a _ => by rw [h0 i (by omega) m a, zero_mul])]
        ring
      · unfold setV; rw [if_neg e]; exact ih i (by omega)
  exact key n (Nat.le_refl _) i hi

/-- Rows from `n - inverseSky` on start right of column `j`. -/
theorem inverseSky_spec (sky : Nat → Nat) (n j i : Nat) (hi : i < n) (h : n - inverseSky sky n j ≤ i) : j < sky i := by
  have hmem : i ∈ (List.range n).reverse.takeWhile fun i => decide (j < sky i) := by
    have hpre := List.takeWhile_prefix (fun i => decide (j < sky i)) (l := (List.range n).reverse)
    have e := List.prefix_iff_eq_take.mp hpre
    rw [e]
    have hl : ((List.range n).reverse.takeWhile fun i => decide (j < sky i)).length = inverseSky sky n j := rfl
    rw [hl]
    apply List.mem_take_iff_getElem.mpr
    refine ⟨n - 1 - i, by simp; omega, ?_⟩
    simp; omega
  have := List.all_eq_true.mp (List.all_takeWhile (p := fun i => decide (j < sky i)) (l := (List.range n).reverse)) i hmem
  simpa using this

theorem inverseSky_le (sky : Nat → Nat) (n j : Nat) (hj : j < n) (h : sky j ≤ j) : j + 1 ≤ n - inverseSky sky n j := by
  by_contra hc
  have := inverseSky_spec sky n j j hj (by omega)
  omega

theorem backward_spec (sky : Nat → Nat) (n : Nat) (A : Mat K) (z : Nat → K) (hs : ∀ i, i < n → sky i ≤ i)
    (h0 : ∀ i, i < n → ∀ m, m < sky i → A i m = 0)
    (i : Nat) (hi : i < n) : backward sky n A z i + (∑ m ∈ Ico (i + 1) n, A m i * backward sky n A z m) = z i := by
  have key : ∀ k, k ≤ n → ∀ x0 : Nat → K,
      (∀ i, i < n → k ≤ i → x0 i + (∑ m ∈ Ico (i + 1) n, A m i * x0 m) = z i) →
      let x := (List.range k).reverse.foldl (fun x i =>
        setV x i (z i - (List.range' (i + 1) (n - inverseSky sky n i - (i + 1))).foldl (fun s j => s + A j i * x j) 0)) x0
      ∀ i, i < n → x i + (∑ m ∈ Ico (i + 1) n, A m i * x m) = z i := by
    intro k
    induction k with
    | zero => intro _ x0 h x i hi; exact h i hi (Nat.zero_le _)
    | succ k ih =>
      intro hk x0 h
      rw [List.range_succ, List.reverse_append, List.reverse_singleton, List.singleton_append, List.foldl_cons]
      apply ih (by omega)
      intro i hi hki
      have hsum : ∀ y, ∑ m ∈ Ico (i + 1) n, A m i * setV x0 k y m = ∑ m ∈ Ico (i + 1) n, A m i * x0 m := by
        intro y
        apply Finset.sum_congr rfl
        intro m hm
        rw [mem_Ico] at hm
        unfold setV; rw [if_neg (by omega)]
      rw [hsum]
      by_cases e : i = k
      · subst e
        have hle := inverseSky_le sky n i hi (hs i hi)
        unfold setV
        rw [if_pos rfl, foldl_sum, zero_add]
        have e2 : ∑ j ∈ Ico (i + 1) (i + 1 + (n - inverseSky sky n i - (i + 1))), A j i * x0 j =
            ∑ m ∈ Ico (i + 1) n, A m i * x0 m := by
          rw [show i + 1 + (n - inverseSky sky n i - (i + 1)) = n - inverseSky sky n i by omega,
            ← Finset.sum_Ico_consecutive _ hle (Nat.sub_le n _), Finset.sum_eq_zero (s := Ico (n - inverseSky sky n i) n), add_zero]
          intro m hm
          rw [mem_Ico] at hm
          rw [h0 m hm.2 i (inverseSky_spec sky n i m hm.2 hm.1), zero_mul]
        rw [e2]; ring
      · unfold setV; rw [if_neg e]; exact h i hi (by omega)
  exact key n (Nat.le_refl _) _ (fun i hi h => absurd hi (by omega)) i hi

theorem low_sum_up (A : Mat K) (m n : Nat) (hm : m < n) (f : Nat → K) :
    ∑ k ∈ range n, low A k m * f k = f m + ∑ k ∈ Ico (m + 1) n, A k m * f k := by
  rw [Finset.range_eq_Ico, ← Finset.sum_Ico_consecutive _ (Nat.zero_le m) (by omega : m ≤ n),
    Finset.sum_eq_zero (s := Ico 0 m), zero_add, Finset.sum_eq_sum_Ico_succ_bot hm]
  · congr 1
    · unfold low; rw [if_pos rfl, one_mul]
    · apply Finset.sum_congr rfl
      intro k hk
      rw [mem_Ico] at hk
      unfold low; rw [if_neg (by omega), if_pos (by omega)]
  · intro k hk
    rw [mem_Ico] at hk
    unfold low; rw [if_neg (by omega), if_neg (by omega), zero_mul]

theorem solveLdl_solves {n : Nat} {sky : Nat → Nat} {A0 A : Mat K} (hsym : Symmetric n A0) (hF : Fits n sky A0)
    (h : Done n sky A0 n A) (hp : ∀ j, j < n → A j j ≠ 0) (b : Nat → K) : Solves n A0 (solveLdl sky n A b) b := by
  intro i hi
  unfold solveLdl
  have hy := forward_spec sky n A b (fun i hi m hm => h.zero i m hi hm)
  generalize forward sky n A b = y at *
  have hx := backward_spec sky n A (divide A y) (fun i hi => (hF i hi).1) (fun i hi m hm => h.zero i m hi hm)
  generalize backward sky n A (divide A y) = x at *
  have hfac := factor (A := A) n (fun k => A k k) hsym (Nat.le_refl _) (fun _ _ => rfl)
    (fun k a hka ha => h.below k a (by omega) hka ha) (fun k hk => h.diag k hk)
  calc ∑ k ∈ range n, A0 i k * x k
      = ∑ k ∈ range n, ∑ m ∈ range n, low A i m * A m m * (low A k m * x k) := by
        apply Finset.sum_congr rfl
        intro k hk
        rw [mem_range] at hk
        rw [hfac i k hi hk, Finset.sum_mul]
        exact Finset.sum_congr rfl fun m _ => by ring
    _ = ∑ m ∈ range n, low A i m * (A m m * ∑ k ∈ range n, low A k m * x k) := by
        rw [Finset.sum_comm]
        apply Finset.sum_congr rfl
        intro m _
        rw [Finset.mul_sum, Finset.mul_sum]
        exact Finset.sum_congr rfl fun k _ => by ring
    _ = ∑ m ∈ range n, low A i m * y m := by
        apply Finset.sum_congr rfl
        intro m hm
        rw [mem_range] at hm
        rw [low_sum_up A m n hm, hx m hm]
        unfold divide
        rw [mul_div_cancel₀ _ (hp m hm)]
    _ = b i := by rw [low_sum A i n hi]; exact hy i hi

/-- **C56 (general)**: when no pivot vanishes, `sparse_solve` returns a solution of the system, whatever the skyline, provided
it fits. -/
theorem solve_solves (n : Nat) (sky : Nat → Nat) (A : Mat K) (b : Nat → K) (hsym : Symmetric n A) (hF : Fits n sky A)
    (hp : ∀ j, j < n → ldl sky n A j j ≠ 0) : Solves n A (solve sky n A b) b :=
  solveLdl_solves hsym hF (done_all hF hp) hp b

/-- **C56 (decomposition)**: when no pivot vanishes, the result of `sparse_ldl_decomposition` holds `L` below the diagonal and
`D` on it, with `A = L·D·Lᵀ`, and `L` is zero left of the skyline. -/
theorem ldl_factors (n : Nat) (sky : Nat → Nat) (A : Mat K) (hsym : Symmetric n A) (hF : Fits n sky A)
    (hp : ∀ j, j < n → ldl sky n A j j ≠ 0) :
    let R := ldl sky n A
    let L : Mat K := fun i m => if m = i then 1 else if m < i then R i m else 0
    (∀ i k, i < n → k < n → A i k = ∑ m ∈ range n, L i m * R m m * L k m) ∧ ∀ i m, i < n → m < sky i → R i m = 0 := by
  have h := done_all hF hp
  refine ⟨?_, fun i m hi hm => h.zero i m hi hm⟩
  intro i k hi hk
  exact factor (A := ldl sky n A) n (fun k => ldl sky n A k k) hsym (Nat.le_refl _) (fun _ _ => rfl)
    (fun k a hka ha => h.below k a (by omega) hka ha) (fun k hk => h.diag k hk) i k hi hk

/-! ### Positive definite matrices -/

section ordered
variable [LinearOrder K] [IsStrictOrderedRing K]

/-- A pivot of a positive definite matrix is positive: it is the value of the form at a vector. -/
theorem pivot_pos {n : Nat} {sky : Nat → Nat} {A0 A : Mat K} {j : Nat} (hsym : Symmetric n A0) (hpd : PosDef n A0)
    (hF : Fits n sky A0) (hj : j < n) (h : Done n sky A0 j A) : 0 < ldlCol sky n j A j j := by
  generalize hd : ldlCol sky n j A j j = d
  have hpiv := pivot_eq hF hj h
  rw [hd] at hpiv
  let D : Nat → K := fun k => if k = j then d else A k k
  -- the vector `u` with `Lᵀ·u = e_j`
  have hx := backward_spec (fun _ => 0) (j + 1) A (fun m => if m = j then 1 else 0) (fun _ _ => Nat.zero_le _)
    (fun _ _ m hm => absurd hm (by omega))
  generalize backward (fun _ => 0) (j + 1) A (fun m => if m = j then (1 : K) else 0) = x at hx
  have hLx : ∀ m, m < j + 1 → ∑ k ∈ range (j + 1), low A k m * x k = if m = j then 1 else 0 := by
    intro m hm; rw [low_sum_up A m (j + 1) hm]; exact hx m hm
  have hxj : x j = 1 := by
    have := hx j (by omega)
    simpa using this
  have hfac : ∀ i k, i < j + 1 → k < j + 1 → A0 i k = ∑ m ∈ range (j + 1), low A i m * D m * low A k m := by
    let A' : Mat K := fun a b => if a = j ∧ b = j then d else A a b
    have hlow : ∀ i m, low A' i m = low A i m := by
      intro i m
      unfold low
      by_cases e : m = i
      · rw [if_pos e, if_pos e]
      · rw [if_neg e, if_neg e]
        by_cases e2 : m < i
        · rw [if_pos e2, if_pos e2]
          show (if i = j ∧ m = j then d else A i m) = _
          rw [if_neg (by omega)]
        · rw [if_neg e2, if_neg e2]
    have hA' : ∀ a b, ¬ (a = j ∧ b = j) → A' a b = A a b := fun a b h => if_neg h
    intro i k hi hk
    rw [factor (A := A') (n := n) (j + 1) D hsym (by omega) ?_ ?_ ?_ i k hi hk]
    · apply Finset.sum_congr rfl
      intro m _; rw [hlow, hlow]
    · intro k hk
      show (if k = j then d else A k k) = if k = j ∧ k = j then d else A k k
      by_cases e : k = j
      · rw [if_pos e, if_pos ⟨e, e⟩]
      · rw [if_neg e, if_neg (fun h => e h.1)]
    · intro k a hka ha
      rw [h.below k a (by omega) hka (by omega), hA' a k (by omega), hA' k k (by omega)]
      congr 1
      apply Finset.sum_congr rfl
      intro m hm
      rw [mem_range] at hm
      rw [hA' a m (by omega), hA' m m (by omega), hA' k m (by omega)]
    · intro k hk
      have es : ∑ m ∈ range k, A' k m * A' m m * A' k m = ∑ m ∈ range k, A k m * A m m * A k m := by
        apply Finset.sum_congr rfl
        intro m hm
        rw [mem_range] at hm
        rw [hA' k m (by omega), hA' m m (by omega)]
      rw [es]
      by_cases e : k = j
      · subst e
        rw [hpiv]; congr 1
        show d = if k = k ∧ k = k then d else _
        rw [if_pos ⟨rfl, rfl⟩]
      · rw [hA' k k (by omega)]; exact h.diag k (by omega)
  -- the form at `u`
  let u : Nat → K := fun k => if k < j + 1 then x k else 0
  have hu : ∃ i, i < n ∧ u i ≠ 0 := ⟨j, hj, by
    show (if j < j + 1 then x j else 0) ≠ 0
    rw [if_pos (by omega), hxj]; exact one_ne_zero⟩
  have hform := hpd u hu
  have cut : ∀ f : Nat → K, ∑ k ∈ range n, u k * f k = ∑ k ∈ range (j + 1), x k * f k := by
    intro f
    rw [Finset.range_eq_Ico, ← Finset.sum_Ico_consecutive _ (Nat.zero_le (j + 1)) (by omega : j + 1 ≤ n),
      Finset.sum_eq_zero (s := Ico (j + 1) n), add_zero]
    · rw [← Finset.range_eq_Ico]
      apply Finset.sum_congr rfl
      intro k hk
      rw [mem_range] at hk
      show (if k < j + 1 then x k else 0) * _ = _
      rw [if_pos hk]
    · intro k hk
      rw [mem_Ico] at hk
      show (if k < j + 1 then x k else 0) * _ = _
      rw [if_neg (by omega), zero_mul]
  have e1 : ∑ i ∈ range n, ∑ k ∈ range n, u i * A0 i k * u k = d := by
    calc ∑ i ∈ range n, ∑ k ∈ range n, u i * A0 i k * u k
        = ∑ i ∈ range n, u i * ∑ k ∈ range n, u k * A0 i k := by
          apply Finset.sum_congr rfl
          intro i _
          rw [Finset.mul_sum]
          exact Finset.sum_congr rfl fun k _ => by ring
      _ = ∑ i ∈ range (j + 1), x i * ∑ k ∈ range (j + 1), x k * A0 i k := by
          rw [cut]
          apply Finset.sum_congr rfl
          intro i _; rw [cut]
      _ = ∑ i ∈ range (j + 1), ∑ m ∈ range (j + 1), x i * (low A i m * D m * ∑ k ∈ range (j + 1), low A k m * x k) := by
          apply Finset.sum_congr rfl
          intro i hi
          rw [mem_range] at hi
          rw [← Finset.mul_sum]
          congr 1
          have : ∀ k ∈ range (j + 1), x k * A0 i k = ∑ m ∈ range (j + 1), low A i m * D m * (low A k m * x k) := by
            intro k hk
            rw [mem_range] at hk
            rw [hfac i k hi hk, Finset.mul_sum]
            exact Finset.sum_congr rfl fun m _ => by ring
          rw [Finset.sum_congr rfl this, Finset.sum_comm]
          apply Finset.sum_congr rfl
          intro m _; rw [Finset.mul_sum]
      _ = ∑ m ∈ range (j + 1), D m * ((∑ k ∈ range (j + 1), low A k m * x k) * (∑ k ∈ range (j + 1), low A k m * x k)) := by
          rw [Finset.sum_comm]
          apply Finset.sum_congr rfl
          intro m _
          generalize hS : ∑ k ∈ range (j + 1), low A k m * x k = S
          have : ∑ i ∈ range (j + 1), x i * (low A i m * D m * S) = (D m * S) * ∑ i ∈ range (j + 1), low A i m * x i := by
            rw [Finset.mul_sum]
            exact Finset.sum_congr rfl fun i _ => by ring
          rw [this, hS]; ring
      _ = D j := by
          rw [Finset.sum_range_succ, Finset.sum_eq_zero, zero_add, hLx j (by omega), if_pos rfl]
          · ring
          · intro m hm
            rw [mem_range] at hm
            rw [hLx m (by omega), if_neg (by omega)]; ring
      _ = d := if_pos rfl
  rw [e1] at hform
  exact hform

theorem pivots_pos {n : Nat} {sky : Nat → Nat} {A : Mat K} (hsym : Symmetric n A) (hpd : PosDef n A) (hF : Fits n sky A) :
    ∀ j, j < n → 0 < ldl sky n A j j := by
  have key : ∀ j, j ≤ n → Done n sky A j (ldlTo sky n j A) := by
    intro j
    induction j with
    | zero => intro _; exact done_zero hF
    | succ j ih =>
      intro hj
      rw [ldlTo_succ]
      exact done_step hF (by omega) (ih (by omega)) (ne_of_gt (pivot_pos hsym hpd hF (by omega) (ih (by omega))))
  intro j hj
  have := ldlTo_col sky n (j + 1) (n - (j + 1)) A j j (by omega)
  rw [show j + 1 + (n - (j + 1)) = n by omega] at this
  show 0 < ldlTo sky n n A j j
  rw [this, ldlTo_succ]
  exact pivot_pos hsym hpd hF hj (key j (by omega))

/-- **C56**: for a symmetric positive definite matrix and any skyline that fits, `sparse_solve` returns the one solution. -/
theorem solve_posdef (n : Nat) (sky : Nat → Nat) (A : Mat K) (b : Nat → K) (hsym : Symmetric n A) (hpd : PosDef n A)
    (hF : Fits n sky A) :
    Solves n A (solve sky n A b) b ∧ ∀ y, Solves n A y b → ∀ i, i < n → y i = solve sky n A b i := by
  have hs := solve_solves n sky A b hsym hF fun j hj => ne_of_gt (pivots_pos hsym hpd hF j hj)
  refine ⟨hs, ?_⟩
  intro y hy i hi
  by_contra hne
  have hform := hpd (fun k => y k - solve sky n A b k) ⟨i, hi, sub_ne_zero.mpr hne⟩
  have e : ∑ i ∈ range n, ∑ k ∈ range n, (y i - solve sky n A b i) * A i k * (y k - solve sky n A b k) = 0 := by
    apply Finset.sum_eq_zero
    intro i hi
    rw [mem_range] at hi
    have : ∀ k ∈ range n, (y i - solve sky n A b i) * A i k * (y k - solve sky n A b k) =
        (y i - solve sky n A b i) * (A i k * y k) - (y i - solve sky n A b i) * (A i k * solve sky n A b k) :=
      fun k _ => by ring
    rw [Finset.sum_congr rfl this, Finset.sum_sub_distrib, ← Finset.mul_sum, ← Finset.mul_sum, hy i hi, hs i hi, sub_self]
  rw [e] at hform
  exact absurd hform (lt_irrefl _)

/-- **C56 (many right sides)**: `multi_sparse_solve` solves every column. -/
theorem multiSolve_posdef (n : Nat) (sky : Nat → Nat) (A B : Mat K) (hsym : Symmetric n A) (hpd : PosDef n A)
    (hF : Fits n sky A) (c : Nat) : Solves n A (fun i => multiSolve sky n A B i c) (fun i => B i c) :=
  (solve_posdef n sky A (fun i => B i c) hsym hpd hF).1

end ordered

/-! ### The skyline -/

/-- What can be done to a matrix from outside. -/
inductive Op (K : Type)
  | put (row col : Nat) (x : K)
  | read (row col : Nat)

def apply (s : Sky K) : Op K → Sky K
  | .put r c x => s.put r c x
  | .read r c => s.touch r c

theorem stored_le (r c : Nat) : (stored r c).2 ≤ (stored r c).1 := by
  unfold stored; split
  · dsimp only; omega
  · dsimp only; omega

theorem touch_spec (s : Sky K) (r c i : Nat) : (s.touch r c).m = s.m ∧ (s.touch r c).sky i ≤ s.sky i ∧
    (i = (stored r c).1 → (s.touch r c).sky i ≤ (stored r c).2) := by
  unfold Sky.touch
  dsimp only
  by_cases h : (stored r c).2 < s.sky (stored r c).1
  · rw [if_pos h]
    dsimp only
    by_cases e : i = (stored r c).1
    · rw [if_pos e]
      exact ⟨rfl, by rw [e]; omega, fun _ => Nat.le_refl _⟩
    · rw [if_neg e]
      exact ⟨rfl, Nat.le_refl _, fun h => absurd h e⟩
  · rw [if_neg h]
    exact ⟨rfl, Nat.le_refl _, fun e => by rw [e]; omega⟩

/-- **C56 (skyline)**: however a matrix is filled and read, its skyline fits, and it holds for each pair of indices, in either
order, the value written last. -/
theorem skyline_fits (ops : List (Op K)) (n : Nat) : let s := ops.foldl apply Sky.new
    Fits n s.sky (fun i j => s.get i j) ∧ Symmetric n (fun i j => s.get i j) := by
  have key : ∀ (ops : List (Op K)) (s : Sky K), (∀ i, s.sky i ≤ i ∧ ∀ j, j < s.sky i → s.m i j = 0) →
      ∀ i, (ops.foldl apply s).sky i ≤ i ∧ ∀ j, j < (ops.foldl apply s).sky i → (ops.foldl apply s).m i j = 0 := by
    intro ops
    induction ops with
    | nil => intro s h; exact h
    | cons o ops ih =>
      intro s h
      apply ih
      intro i
      obtain ⟨h1, h2⟩ := h i
      cases o with
      | read r c =>
        obtain ⟨t1, t2, _⟩ := touch_spec s r c i
        refine ⟨Nat.le_trans t2 h1, ?_⟩
        intro j hj
        show (s.touch r c).m i j = 0
        rw [t1]; exact h2 j (Nat.lt_of_lt_of_le hj t2)
      | put r c x =>
        obtain ⟨t1, t2, t3⟩ := touch_spec s r c i
        refine ⟨Nat.le_trans t2 h1, ?_⟩
        intro j hj
        show setM (s.touch r c).m (stored r c).1 (stored r c).2 x i j = 0
        unfold setM
        have hj : j < (s.touch r c).sky i := hj
        rw [if_neg, t1]
        · exact h2 j (Nat.lt_of_lt_of_le hj t2)
        · rintro ⟨e1, e2⟩
          have := t3 e1
          omega
  intro s
  have h := key ops Sky.new (fun i => ⟨Nat.le_refl _, fun j _ => rfl⟩)
  constructor
  · intro i _
    obtain ⟨h1, h2⟩ := h i
    refine ⟨h1, ?_⟩
    intro j hj
    show (if j > i then s.m j i else s.m i j) = 0
    have : s.sky i ≤ i := h1
    rw [if_neg (by omega)]
    exact h2 j hj
  · intro i j _ _
    show (if j > i then s.m j i else s.m i j) = if i > j then s.m i j else s.m j i
    rcases Nat.lt_trichotomy i j with h | h | h
    · rw [if_pos h, if_neg (by omega)]
    · subst h; rfl
    · rw [if_neg (by omega), if_pos h]

/-- Reading back what was written. -/
theorem get_put (s : Sky K) (r c r' c' : Nat) (x : K) :
    (s.put r c x).get r' c' = if (r' = r ∧ c' = c) ∨ (r' = c ∧ c' = r) then x else s.get r' c' := by
  have hm : (s.put r c x).m = setM s.m (stored r c).1 (stored r c).2 x := by
    show setM (s.touch r c).m _ _ _ = _
    rw [(touch_spec s r c 0).1]
  unfold Sky.get
  rw [hm]
  unfold setM stored
  by_cases h1 : c' > r' <;> by_cases h2 : c > r
  · rw [if_pos h1, if_pos h1, if_pos h2]
    dsimp only
    by_cases h3 : c' = c ∧ r' = r
    · rw [if_pos h3, if_pos (by omega)]
    · rw [if_neg h3, if_neg (by omega)]
  · rw [if_pos h1, if_pos h1, if_neg h2]
    dsimp only
    by_cases h3 : c' = r ∧ r' = c
    · rw [if_pos h3, if_pos (by omega)]
    · rw [if_neg h3, if_neg (by omega)]
  · rw [if_neg h1, if_neg h1, if_pos h2]
    dsimp only
    by_cases h3 : r' = c ∧ c' = r
    · rw [if_pos h3, if_pos (by omega)]
    · rw [if_neg h3, if_neg (by omega)]
  · rw [if_neg h1, if_neg h1, if_neg h2]
    dsimp only
    by_cases h3 : r' = r ∧ c' = c
    · rw [if_pos h3, if_pos (by omega)]
    · rw [if_neg h3, if_neg (by omega)]

theorem firstNonzero_spec [DecidableEq K] (A : Mat K) (i k j : Nat) (hk : k = i - j) (hj : j ≤ i) :
    let r := firstNonzero A i k j
    j ≤ r ∧ r ≤ i ∧ (∀ m, j ≤ m → m < r → A i m = 0) ∧ (r < i → A i r ≠ 0) := by
  induction k generalizing j with
  | zero =>
    show j ≤ j ∧ j ≤ i ∧ (∀ m, j ≤ m → m < j → A i m = 0) ∧ (j < i → A i j ≠ 0)
    exact ⟨Nat.le_refl _, hj, fun m a b => absurd b (by omega), fun h => absurd h (by omega)⟩
  | succ k ih =>
    unfold firstNonzero
    by_cases h : j < i ∧ A i j = 0
    · rw [if_pos h]
      obtain ⟨h1, h2, h3, h4⟩ := ih (j + 1) (by omega) (by omega)
      refine ⟨by omega, h2, ?_, h4⟩
      intro m a b
      rcases Nat.eq_or_lt_of_le a with e | e
      · rw [← e]; exact h.2
      · exact h3 m (by omega) b
    · rw [if_neg h]
      refine ⟨Nat.le_refl _, hj, fun m a b => absurd b (by omega), ?_⟩
      intro hlt e; exact h ⟨hlt, e⟩

/-- **C56 (finding a skyline)**: `solve_for_skyline` gives the skyline that fits and is nowhere further left than needed. -/
theorem solveForSkyline_spec [DecidableEq K] (n : Nat) (A : Mat K) : Fits n (solveForSkyline A) A ∧
    ∀ sky, Fits n sky A → ∀ i, i < n → sky i ≤ solveForSkyline A i := by
  constructor
  · intro i _
    obtain ⟨_, h2, h3, _⟩ := firstNonzero_spec A i i 0 (by omega) (Nat.zero_le _)
    exact ⟨h2, fun j hj => h3 j (Nat.zero_le _) hj⟩
  · intro sky hs i hi
    obtain ⟨_, _, _, h4⟩ := firstNonzero_spec A i i 0 (by omega) (Nat.zero_le _)
    obtain ⟨g1, g2⟩ := hs i hi
    by_contra hc
    have hlt : solveForSkyline A i < sky i := by omega
    exact h4 (show solveForSkyline A i < i by omega) (g2 _ hlt)

/-! ### Reordering -/

/-- `lookup` is a permutation of the first `n` numbers. -/
def IsPerm (n : Nat) (lookup : Nat → Nat) : Prop :=
  (∀ i, i < n → lookup i < n) ∧ ∀ i j, i < n → j < n → lookup i = lookup j → i = j

theorem inverse_spec (n : Nat) (lookup : Nat → Nat) (h : IsPerm n lookup) (i : Nat) (hi : i < n) :
    inverse lookup n (lookup i) = i := by
  have key : ∀ k, k ≤ n → i < k →
      (List.range k).foldl (fun inv i => fun a => if a = lookup i then i else inv a) (fun _ => 0) (lookup i) = i := by
    intro k
    induction k with
    | zero => intro _ h; omega
    | succ k ih =>
      intro hk hik
      rw [List.range_succ, List.foldl_append]
      dsimp only [List.foldl_cons, List.foldl_nil]
      by_cases e : lookup i = lookup k
      · rw [if_pos e]; exact (h.2 i k hi (by omega) e).symm
      · rw [if_neg e]
        apply ih (by omega)
        rcases Nat.eq_or_lt_of_le (Nat.le_of_lt_succ hik) with e' | e'
        · exact absurd (by rw [e']) e
        · exact e'
  exact key n (Nat.le_refl _) hi

/-- **C56 (reordering)**: to solve a system one may reorder it by any permutation, and put the solution back in the first
order by `reorganize` with the `inverse`. -/
theorem reorganize_solves (n : Nat) (lookup : Nat → Nat) (A : Mat K) (b x : Nat → K) (h : IsPerm n lookup)
    (hx : Solves n (reorganizeM A lookup) x (reorganizeV b lookup)) :
    Solves n A (reorganizeV x (inverse lookup n)) b := by
  intro r hr
  -- `r` is reached
  have hsurj : ∃ i, i < n ∧ lookup i = r := by
    have : (Finset.range n).image lookup = Finset.range n := by
      apply Finset.eq_of_subset_of_card_le
      · intro k hk
        rw [Finset.mem_image] at hk
        obtain ⟨i, hi, rfl⟩ := hk
        rw [mem_range] at hi ⊢
        exact h.1 i hi
      · rw [Finset.card_image_of_injOn]
        intro i hi j hj e
        have hi : i < n := by simpa using hi
        have hj : j < n := by simpa using hj
        exact h.2 i j hi hj e
    have hm : r ∈ (Finset.range n).image lookup := by rw [this, mem_range]; exact hr
    rw [Finset.mem_image] at hm
    obtain ⟨i, hi, e⟩ := hm
    exact ⟨i, mem_range.mp hi, e⟩
  obtain ⟨i, hi, rfl⟩ := hsurj
  have hxi := hx i hi
  unfold reorganizeV reorganizeM at *
  rw [← hxi]
  symm
  have inj : ∀ a ∈ range n, ∀ c ∈ range n, lookup a = lookup c → a = c := fun a ha c hc e =>
    h.2 a c (mem_range.mp ha) (mem_range.mp hc) e
  refine Finset.sum_nbij lookup (fun a ha => mem_range.mpr (h.1 a (mem_range.mp ha))) ?_ ?_ ?_
  · intro a ha c hc e; exact inj a ha c hc e
  · exact Finset.surjOn_of_injOn_of_card_le lookup (fun a ha => by
      have : a < n := by simpa using ha
      simpa using h.1 a this) (fun a ha c hc e => inj a ha c hc e) (Nat.le_refl _)
  · intro a ha
    rw [inverse_spec n lookup h a (mem_range.mp ha)]

/-- A symmetric positive definite matrix with a skyline that is not the diagonal. -/
def ex3 : Mat ℚ := fun i j => if i = j then 2 else if (i = 0 ∧ j = 1) ∨ (i = 1 ∧ j = 0) then 1 else 0

example : Symmetric 3 ex3 ∧ PosDef 3 ex3 ∧ Fits 3 (fun i => if i = 2 then 2 else 0) ex3 := by
  refine ⟨?_, ?_, ?_⟩
  · intro i j hi hj
    show (if i = j then (2 : ℚ) else if (i = 0 ∧ j = 1) ∨ (i = 1 ∧ j = 0) then 1 else 0) =
      if j = i then 2 else if (j = 0 ∧ i = 1) ∨ (j = 1 ∧ i = 0) then 1 else 0
    by_cases e : i = j
    · rw [if_pos e, if_pos e.symm]
    · rw [if_neg e, if_neg (show ¬ j = i from fun h => e h.symm)]
      by_cases e2 : (i = 0 ∧ j = 1) ∨ (i = 1 ∧ j = 0)
      · rw [if_pos e2, if_pos (by omega)]
      · rw [if_neg e2, if_neg (by omega)]
  · intro u ⟨i, hi, hu⟩
    have e : ∑ i ∈ range 3, ∑ k ∈ range 3, u i * ex3 i k * u k =
        (u 0 + u 1) * (u 0 + u 1) + u 0 * u 0 + u 1 * u 1 + 2 * (u 2 * u 2) := by
      simp only [Finset.sum_range_succ, Finset.sum_range_zero, ex3]
      norm_num
      ring
    rw [e]
    have h0 := mul_self_nonneg (u 0)
    have h1 := mul_self_nonneg (u 1)
    have h2 := mul_self_nonneg (u 2)
    have h3 := mul_self_nonneg (u 0 + u 1)
    have hp : 0 < u i * u i := mul_self_pos.mpr hu
    have : i = 0 ∨ i = 1 ∨ i = 2 := by omega
    rcases this with rfl | rfl | rfl <;> linarith
  · intro i hi
    have : i = 0 ∨ i = 1 ∨ i = 2 := by omega
    rcases this with rfl | rfl | rfl
    · exact ⟨by decide, fun j hj => absurd hj (by simp)⟩
    · exact ⟨by decide, fun j hj => absurd hj (by simp)⟩
    · refine ⟨by decide, fun j hj => ?_⟩
      have : j = 0 ∨ j = 1 := by simp at hj; omega
      rcases this with rfl | rfl <;> simp [ex3]

end VW.Skyline
