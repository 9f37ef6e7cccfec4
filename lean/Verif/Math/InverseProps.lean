import Verif.Math.Inverse
import Mathlib.LinearAlgebra.Matrix.NonsingularInverse
import Mathlib.LinearAlgebra.Matrix.ToLinearEquiv
import Mathlib.Algebra.BigOperators.Fin
import Mathlib.Algebra.BigOperators.Intervals
import Mathlib.Tactic.Ring
import Mathlib.Tactic.FieldSimp
/-
Proofs about matrix inversion and determinants.
-/
namespace VW.Matrix
open Finset

variable {K : Type} [Field K] [LinearOrder K] [IsStrictOrderedRing K]

/-! ### Specification -/

/-- The matrix in Mathlib's sense. -/
def toM {R : Type} (n : Nat) (A : Mat R) : _root_.Matrix (Fin n) (Fin n) R := fun i j => A i j

/-! ### Pivot -/

theorem indexNormInf_spec (v : Nat → K) (m : Nat) (hm : 0 < m) :
    indexNormInf v m < m ∧ ∀ k, k < m → |v k| ≤ |v (indexNormInf v m)| := by
  have key : ∀ m, let s := (List.range m).foldl (normStep v) (-1, 0)
      (m = 0 ∧ s = (-1, 0)) ∨ (s.2 < m ∧ s.1 = |v s.2| ∧ ∀ k, k < m → |v k| ≤ s.1) := by
    intro m
    induction m with
    | zero => left; exact ⟨rfl, rfl⟩
    | succ m ih =>
      right
      simp only [List.range_succ, List.foldl_append, List.foldl_cons, List.foldl_nil] at ih ⊢
      generalize (List.range m).foldl (normStep v) (-1, 0) = s at ih
      unfold normStep
      have hp : (-1 : K) < |v m| := lt_of_lt_of_le (by simp) (abs_nonneg _)
      rcases ih with ⟨h0, hs⟩ | ⟨h1, h2, h3⟩
      · subst h0
        have : |v 0| > s.1 := by rw [hs]; exact hp
        rw [if_pos this]
        refine ⟨by simp, rfl, ?_⟩
        intro k hk
        have : k = 0 := by omega
        subst this; exact le_refl _
      · by_cases h : |v m| > s.1
        · rw [if_pos h]
          refine ⟨by simp, rfl, ?_⟩
          intro k hk
          by_cases hkm : k = m
          · subst hkm; exact le_refl _
          · exact le_trans (h3 k (by omega)) (le_of_lt h)
        · rw [if_neg h]
          refine ⟨by omega, h2, ?_⟩
          intro k hk
          by_cases hkm : k = m
          · subst hkm; exact not_lt.1 h
          · exact h3 k (by omega)
  rcases key m with ⟨h, _⟩ | ⟨h1, h2, h3⟩
  · omega
  · refine ⟨h1, ?_⟩
    intro k hk
    have := h3 k hk
    rw [h2] at this
    exact this

/-! ### LU decomposition -/

/-- The upper triangular part. -/
def up (A : Mat K) (m c : Nat) : K := if m ≤ c then A m c else 0

/-- What the buffer stands for after `i` rounds. -/
def LuInv (n i : Nat) (M A : Mat K) (pm : Nat → Nat) : Prop :=
  ∀ r c, r < n → c < n → M (pm r) c =
    ∑ m ∈ range (min r i), A r m * up A m c + (if r < i then up A r c else if i ≤ c then A r c else 0)

/-- The rows are permuted. -/
def PermOn (n : Nat) (pm : Nat → Nat) : Prop :=
  (∀ r, r < n → pm r < n) ∧ ∀ r s, r < n → s < n → pm r = pm s → r = s

theorem permOn_swap {n : Nat} {pm : Nat → Nat} (h : PermOn n pm) {a b : Nat} (ha : a < n) (hb : b < n) :
    PermOn n (swap pm a b) := by
  obtain ⟨h1, h2⟩ := h
  constructor
  · intro r hr
    unfold swap
    split_ifs
    · exact h1 _ hb
    · exact h1 _ ha
    · exact h1 _ hr
  · intro r s hr hs
    unfold swap
    intro e
    split_ifs at e with h3 h4 h5 h6 h7 h8 h9
    all_goals (have := h2 _ _ ‹_› ‹_› e; omega)

omit [LinearOrder K] [IsStrictOrderedRing K] in
theorem luInv_swap {n i p : Nat} {M A : Mat K} {pm : Nat → Nat} (h : LuInv n i M A pm) (hi : i < n)
    (hp : i ≤ p) (hpn : p < n) : LuInv n i M (swap A i p) (swap pm i p) := by
  have hlow : ∀ m, m < i → swap A i p m = A m := by
    intro m hm; unfold swap; rw [if_neg (by omega), if_neg (by omega)]
  intro r c hr hc
  by_cases hri : r < i
  · have e1 : swap pm i p r = pm r := by unfold swap; rw [if_neg (by omega), if_neg (by omega)]
    rw [e1, h r c hr hc, if_pos hri, if_pos hri]
    congr 1
    · apply sum_congr rfl
      intro m hm
      have := mem_range.1 hm
      unfold up
      rw [hlow r hri, hlow m (by omega)]
    · unfold up; rw [hlow r hri]
  · have hst : ∀ q, i ≤ q → q < n → M (pm q) c = ∑ m ∈ range i, A q m * up A m c + (if i ≤ c then A q c else 0) := by
      intro q hq hqn
      have := h q c hqn hc
      rw [if_neg (by omega), Nat.min_eq_right hq] at this
      exact this
    obtain ⟨q, hq1, hq2, hq3⟩ : ∃ q, (i ≤ q ∧ q < n) ∧ swap A i p r = A q ∧ swap pm i p r = pm q := by
      unfold swap
      by_cases h1 : r = i
      · exact ⟨p, ⟨hp, hpn⟩, by rw [if_pos h1], by rw [if_pos h1]⟩
      · by_cases h2 : r = p
        · exact ⟨i, ⟨le_refl _, hi⟩, by rw [if_neg h1, if_pos h2], by rw [if_neg h1, if_pos h2]⟩
        · exact ⟨r, ⟨by omega, hr⟩, by rw [if_neg h1, if_neg h2], by rw [if_neg h1, if_neg h2]⟩
    rw [hq3, hst q hq1.1 hq1.2, if_neg hri, Nat.min_eq_right (by omega), hq2]
    congr 1
    apply sum_congr rfl
    intro m hm
    have := mem_range.1 hm
    unfold up
    rw [hlow m this]

theorem luInv_eliminate {n i : Nat} {M A : Mat K} {pm : Nat → Nat} (h : LuInv n i M A pm)
    (h0 : A i i ≠ 0) : LuInv n (i + 1) M (eliminate A i) pm := by
  have hrow : ∀ m, m ≤ i → eliminate A i m = A m := by
    intro m hm; funext c; unfold eliminate; rw [if_neg (by omega), if_neg (by omega)]
  have hcol : ∀ r c, c < i → eliminate A i r c = A r c := by
    intro r c hc; unfold eliminate; rw [if_neg (by omega), if_neg (by omega)]
  have hup : ∀ m c, m ≤ i → up (eliminate A i) m c = up A m c := by
    intro m c hm; unfold up; rw [hrow m hm]
  intro r c hr hc
  rw [h r c hr hc]
  rcases Nat.lt_trichotomy r i with hri | hri | hri
  · rw [if_pos hri, if_pos (by omega), hup r c (by omega), Nat.min_eq_left (by omega), Nat.min_eq_left (by omega)]
    congr 1
    apply sum_congr rfl
    intro m hm
    have := mem_range.1 hm
    rw [hrow r (by omega), hup m c (by omega)]
  · subst hri
    rw [if_neg (lt_irrefl _), if_pos (Nat.lt_succ_self r), hup r c (by omega), Nat.min_eq_left (by omega), Nat.min_eq_left (by omega)]
    congr 1
    apply sum_congr rfl
    intro m hm
    have := mem_range.1 hm
    rw [hrow r (by omega), hup m c (by omega)]
  · rw [if_neg (show ¬ r < i by omega), if_neg (show ¬ r < i + 1 by omega), Nat.min_eq_right (by omega),
      Nat.min_eq_right (by omega), sum_range_succ, hup i c (by omega)]
    have e1 : ∑ m ∈ range i, eliminate A i r m * up (eliminate A i) m c = ∑ m ∈ range i, A r m * up A m c := by
      apply sum_congr rfl
      intro m hm
      have := mem_range.1 hm
      rw [hcol r m this, hup m c (by omega)]
    rw [e1, add_assoc]
    congr 1
    have e2 : eliminate A i r i = A r i / A i i := by unfold eliminate; rw [if_pos ⟨hri, rfl⟩]
    rw [e2]
    unfold up
    rcases Nat.lt_trichotomy c i with hci | hci | hci
    · rw [if_neg (by omega), if_neg (by omega), if_neg (by omega)]; simp
    · subst hci
      rw [if_pos (le_refl _), if_pos (le_refl _), if_neg (by omega)]
      field_simp
      ring
    · rw [if_pos (by omega), if_pos (by omega), if_pos (by omega)]
      have : eliminate A i r c = A r c - A r i / A i i * A i c := by
        unfold eliminate; rw [if_neg (by omega), if_pos ⟨hri, hci⟩]
      rw [this]; ring

/-- The rounds of the decomposition up to `i`. -/
def luTo (n i : Nat) (A : Mat K) : Option (Mat K × (Nat → Nat)) := (List.range i).foldlM (luStep n) (A, id)

omit [IsStrictOrderedRing K] in
theorem luTo_succ (n i : Nat) (A : Mat K) : luTo n (i + 1) A = (luTo n i A).bind fun s => luStep n s i := by
  unfold luTo
  rw [List.range_succ, List.foldlM_append]
  simp [bind]

theorem luTo_inv {n i : Nat} (hi : i ≤ n) {M A : Mat K} {pm : Nat → Nat} (h : luTo n i M = some (A, pm)) :
    LuInv n i M A pm ∧ PermOn n pm ∧ ∀ m, m < i → A m m ≠ 0 := by
  induction i generalizing A pm with
  | zero =>
    simp only [luTo, List.range_zero, List.foldlM_nil, pure, Option.some.injEq, Prod.mk.injEq] at h
    obtain ⟨rfl, rfl⟩ := h
    refine ⟨?_, ⟨fun r hr => hr, fun r s _ _ e => e⟩, fun m hm => by omega⟩
    intro r c _ _
    simp
  | succ i ih =>
    rw [luTo_succ] at h
    cases hs : luTo n i M with
    | none => rw [hs] at h; simp at h
    | some s =>
      obtain ⟨B, pn⟩ := s
      rw [hs] at h
      obtain ⟨h1, h2, h3⟩ := ih (by omega) hs
      simp only [Option.bind_some, luStep] at h
      obtain ⟨hk, _⟩ := indexNormInf_spec (fun k => B (i + k) i) (n - i) (by omega)
      generalize indexNormInf (fun k => B (i + k) i) (n - i) = k at h hk
      by_cases h0 : B (i + k) i = 0
      · rw [if_pos h0] at h; simp at h
      · rw [if_neg h0] at h
        simp only [Option.some.injEq, Prod.mk.injEq] at h
        obtain ⟨rfl, rfl⟩ := h
        have hpiv : swap B i (i + k) i i ≠ 0 := by unfold swap; rw [if_pos rfl]; exact h0
        refine ⟨luInv_eliminate (luInv_swap h1 (by omega) (by omega) (by omega)) hpiv,
          permOn_swap h2 (by omega) (by omega), ?_⟩
        intro m hm
        have e : eliminate (swap B i (i + k)) i m m = swap B i (i + k) m m := by
          unfold eliminate; rw [if_neg (by omega), if_neg (by omega)]
        rw [e]
        by_cases hmi : m = i
        · subst hmi; exact hpiv
        · unfold swap; rw [if_neg (by omega), if_neg (by omega)]; exact h3 m (by omega)

/-! ### The two triangular systems -/

omit [IsStrictOrderedRing K] in
/-- The rounds of the division by the lower triangle up to `i`. -/
theorem lower_inv (n : Nat) (L P : Mat K) (i : Nat) (j : Nat) :
    ∀ r, r < n → P r j = ∑ m ∈ range (min r i), L r m * (List.range i).foldl (lowerStep n L) P m j
      + (List.range i).foldl (lowerStep n L) P r j := by
  induction i with
  | zero => intro r _; simp
  | succ i ih =>
    intro r hr
    rw [List.range_succ, List.foldl_append, List.foldl_cons, List.foldl_nil, ih r hr]
    generalize (List.range i).foldl (lowerStep n L) P = X at ih
    have hlow : ∀ m, m ≤ i → lowerStep n L X i m j = X m j := by
      intro m hm; unfold lowerStep; rw [if_neg (by omega)]
    by_cases hri : r ≤ i
    · rw [Nat.min_eq_left hri, Nat.min_eq_left (by omega), hlow r hri]
      congr 1
      apply sum_congr rfl
      intro m hm
      have := mem_range.1 hm
      rw [hlow m (by omega)]
    · rw [Nat.min_eq_right (by omega), Nat.min_eq_right (by omega), sum_range_succ, hlow i (le_refl _)]
      have e1 : ∑ m ∈ range i, L r m * lowerStep n L X i m j = ∑ m ∈ range i, L r m * X m j := by
        apply sum_congr rfl
        intro m hm
        have := mem_range.1 hm
        rw [hlow m (by omega)]
      rw [e1, add_assoc]
      congr 1
      unfold lowerStep
      by_cases h0 : X i j = 0
      · rw [if_neg (by simp [h0]), h0]; simp
      · rw [if_pos ⟨h0, by omega, hr⟩]; ring

theorem upper_inv (n : Nat) (U X : Mat K) (hU : ∀ m, m < n → U m m ≠ 0) (j : Nat) (d : Nat) (hd : d ≤ n) :
    ∀ r, r < n → X r j = ∑ c ∈ Ico (max (r + 1) (n - d)) n, U r c *
        ((List.range' (n - d) d).reverse.foldl (upperStep U) X) c j
      + (if n - d ≤ r then U r r else 1) * ((List.range' (n - d) d).reverse.foldl (upperStep U) X) r j := by
  induction d with
  | zero =>
    intro r hr
    simp only [Nat.sub_zero, List.range'_zero, List.reverse_nil, List.foldl_nil]
    rw [if_neg (by omega), Ico_eq_empty (by omega)]
    simp
  | succ d ih =>
    intro r hr
    have e : List.range' (n - (d + 1)) (d + 1) = (n - (d + 1)) :: List.range' (n - d) d := by
      rw [List.range'_succ]
      congr 2
      omega
    rw [e, List.reverse_cons, List.foldl_append, List.foldl_cons, List.foldl_nil]
    have := ih (by omega)
    generalize (List.range' (n - d) d).reverse.foldl (upperStep U) X = Y at this
    rw [this r hr]
    obtain ⟨i, hi⟩ : ∃ i, i = n - (d + 1) := ⟨_, rfl⟩
    rw [← hi, show n - d = i + 1 by omega]
    have hhigh : ∀ m, i < m → upperStep U Y i m j = Y m j := by
      intro m hm; simp only [upperStep]; rw [if_neg (by omega), if_neg (by omega)]
    have hii : upperStep U Y i i j = Y i j / U i i := by simp only [upperStep]; rw [if_true]
    have hsum : ∀ a, i < a → ∑ c ∈ Ico a n, U r c * upperStep U Y i c j = ∑ c ∈ Ico a n, U r c * Y c j := by
      intro a ha
      apply sum_congr rfl
      intro c hc
      have := mem_Ico.1 hc
      rw [hhigh c (by omega)]
    have hne := hU i (by omega)
    rcases Nat.lt_trichotomy r i with h | h | h
    · rw [if_neg (by omega), if_neg (by omega), Nat.max_eq_right (by omega), Nat.max_eq_right (by omega),
        ← add_sum_Ioo_eq_sum_Ico (a := i) (b := n) (by omega)]
      have : Ioo i n = Ico (i + 1) n := by ext x; simp only [mem_Ioo, mem_Ico]; omega
      rw [this, hsum (i + 1) (by omega), hii]
      simp only [upperStep]
      rw [if_neg (by omega)]
      by_cases h0 : Y i j / U i i = 0
      · rw [if_neg (by simp [h0]), h0]; simp
      · rw [if_pos ⟨h0, h⟩]; ring
    · subst h
      rw [if_neg (by omega), if_pos (le_refl _), Nat.max_eq_left (by omega), Nat.max_eq_left (by omega),
        hsum (r + 1) (by omega), hii]
      field_simp
    · rw [if_pos (by omega), if_pos (by omega), Nat.max_eq_left (by omega), Nat.max_eq_left (by omega),
        hsum (r + 1) (by omega), hhigh r h]

theorem upper_solve (n : Nat) (U X : Mat K) (hU : ∀ m, m < n → U m m ≠ 0) (j r : Nat) (hr : r < n) :
    ∑ c ∈ range n, up U r c * ((List.range n).reverse.foldl (upperStep U) X) c j = X r j := by
  have h := upper_inv n U X hU j n (le_refl _) r hr
  rw [Nat.sub_self, ← List.range_eq_range', if_pos (Nat.zero_le _), Nat.max_eq_left (Nat.zero_le _)] at h
  rw [h]
  generalize (List.range n).reverse.foldl (upperStep U) X = Y
  rw [range_eq_Ico, ← sum_Ico_consecutive _ (Nat.zero_le r) (Nat.le_of_lt hr)]
  have e1 : ∑ c ∈ Ico 0 r, up U r c * Y c j = 0 := by
    apply sum_eq_zero
    intro c hc
    have := mem_Ico.1 hc
    unfold up; rw [if_neg (by omega)]; simp
  rw [e1, zero_add, ← add_sum_Ioo_eq_sum_Ico (a := r) (b := n) hr]
  have : Ioo r n = Ico (r + 1) n := by ext x; simp only [mem_Ioo, mem_Ico]; omega
  rw [this, add_comm]
  congr 1
  · apply sum_congr rfl
    intro c hc
    have := mem_Ico.1 hc
    unfold up; rw [if_pos (by omega)]
  · unfold up; rw [if_pos (le_refl _)]

/-! ### Inverse -/

theorem inverse_mul {n : Nat} {M B : Mat K} (h : inverse n M = some B) : toM n M * toM n B = 1 := by
  unfold inverse at h
  cases hs : lu n M with
  | none => rw [hs] at h; simp at h
  | some s =>
    obtain ⟨A, pm⟩ := s
    rw [hs] at h
    simp only [bind, Option.bind_some, pure, Option.some.injEq] at h
    obtain ⟨h1, ⟨h2, h2'⟩, h3⟩ := luTo_inv (le_refl n) (i := n) hs
    have hX : ∀ r j, r < n → ∑ c ∈ range n, M (pm r) c * B c j = if j = pm r then 1 else 0 := by
      intro r j hr
      have hup : ∀ m, m < n → ∑ c ∈ range n, up A m c * B c j = ((List.range n).foldl (lowerStep n A) (permuted pm)) m j := by
        intro m hm
        rw [← h]
        exact upper_solve n A _ h3 j m hm
      have hlow := lower_inv n A (permuted pm) n j r hr
      rw [Nat.min_eq_left (Nat.le_of_lt hr)] at hlow
      show _ = permuted pm r j
      rw [hlow, ← hup r hr]
      have e2 : ∑ m ∈ range r, A r m * ((List.range n).foldl (lowerStep n A) (permuted pm)) m j
          = ∑ c ∈ range n, (∑ m ∈ range r, A r m * up A m c) * B c j := by
        rw [sum_congr rfl (fun m hm => by rw [← hup m (by have := mem_range.1 hm; omega), mul_sum])]
        rw [sum_comm]
        apply sum_congr rfl
        intro c _
        rw [sum_mul]
        apply sum_congr rfl
        intro m _
        ring
      rw [e2, ← sum_add_distrib]
      apply sum_congr rfl
      intro c hc
      have hc' := mem_range.1 hc
      rw [h1 r c hr hc', if_pos hr, Nat.min_eq_left (Nat.le_of_lt hr)]
      ring
    -- every row is some `pm r`
    have hsurj : ∀ a, a < n → ∃ r, r < n ∧ pm r = a := by
      intro a ha
      let f : Fin n → Fin n := fun r => ⟨pm r, h2 r r.2⟩
      have hinj : Function.Injective f := by
        intro r s e
        have : pm r = pm s := congrArg Fin.val e
        exact Fin.ext (h2' r s r.2 s.2 this)
      obtain ⟨r, hr⟩ := (Finite.injective_iff_surjective.1 hinj) ⟨a, ha⟩
      exact ⟨r, r.2, congrArg Fin.val hr⟩
    ext a j
    obtain ⟨r, hr, e⟩ := hsurj a a.2
    rw [_root_.Matrix.mul_apply]
    have := hX r j hr
    rw [e] at this
    rw [← Fin.sum_univ_eq_sum_range (fun c => M a c * B c j)] at this
    show ∑ c : Fin n, M a c * B c j = _
    rw [this, _root_.Matrix.one_apply]
    by_cases hj : a = j
    · subst hj; simp
    · rw [if_neg hj, if_neg (fun e => hj (Fin.ext e.symm))]

/-! ### Singular matrices -/

omit [IsStrictOrderedRing K] in
theorem kernel (n i : Nat) (hi : i < n) (U : Mat K) (hU : ∀ m, m < i → U m m ≠ 0) (d : Nat) (hd : d ≤ i) :
    ∃ x : Nat → K, x i = 1 ∧ (∀ c, i < c → x c = 0) ∧
      ∀ m, i - d ≤ m → m < i → ∑ c ∈ range n, up U m c * x c = 0 := by
  induction d with
  | zero =>
    refine ⟨fun c => if c = i then 1 else 0, by simp, fun c hc => by simp only; rw [if_neg (by omega)], ?_⟩
    intro m h1 h2; omega
  | succ d ih =>
    obtain ⟨x, h1, h2, h3⟩ := ih (by omega)
    obtain ⟨k, hk⟩ : ∃ k, k = i - (d + 1) := ⟨_, rfl⟩
    have hne := hU k (by omega)
    refine ⟨fun c => if c = k then x k - (∑ c ∈ range n, up U k c * x c) / U k k else x c, ?_, ?_, ?_⟩
    · simp only; rw [if_neg (by omega)]; exact h1
    · intro c hc; simp only; rw [if_neg (by omega)]; exact h2 c hc
    · intro m hm1 hm2
      by_cases hmk : m = k
      · subst hmk
        have : ∀ c ∈ range n, up U m c * (if c = m then x m - (∑ c ∈ range n, up U m c * x c) / U m m else x c)
            = up U m c * x c + (if c = m then -(∑ c ∈ range n, up U m c * x c) else 0) := by
          intro c _
          by_cases hc : c = m
          · subst hc
            rw [if_pos rfl, if_pos rfl]
            unfold up
            rw [if_pos (le_refl _)]
            field_simp
            ring
          · rw [if_neg hc, if_neg hc]; ring
        simp only
        rw [sum_congr rfl this, sum_add_distrib, sum_ite_eq' (range n), if_pos (mem_range.2 (by omega))]
        ring
      · rw [← h3 m (by omega) hm2]
        apply sum_congr rfl
        intro c _
        by_cases hc : c = k
        · have : up U m c = 0 := by unfold up; rw [if_neg (by omega)]
          rw [this]; simp
        · simp only; rw [if_neg hc]

theorem lu_none_singular {n : Nat} {M : Mat K} (h : lu n M = none) : (toM n M).det = 0 := by
  -- the first round that fails
  have : ∀ i, i ≤ n → luTo n i M = none → (toM n M).det = 0 := by
    intro i
    induction i with
    | zero => intro _ h; simp [luTo] at h
    | succ i ih =>
      intro hi h
      cases hs : luTo n i M with
      | none => exact ih (by omega) hs
      | some s =>
        obtain ⟨A, pm⟩ := s
        rw [luTo_succ, hs] at h
        obtain ⟨h1, ⟨h2, h2'⟩, h3⟩ := luTo_inv (by omega) hs
        simp only [Option.bind_some, luStep] at h
        obtain ⟨hk, hmax⟩ := indexNormInf_spec (fun k => A (i + k) i) (n - i) (by omega)
        have h0 : A (i + indexNormInf (fun k => A (i + k) i) (n - i)) i = 0 := by
          by_contra hne
          rw [if_neg hne] at h
          simp at h
        have hz : ∀ r, i ≤ r → r < n → A r i = 0 := by
          intro r hr hrn
          have := hmax (r - i) (by omega)
          rw [h0, abs_zero, show i + (r - i) = r by omega] at this
          exact abs_nonpos_iff.1 this
        obtain ⟨x, hx1, hx2, hx3⟩ := kernel n i (by omega) A h3 i (le_refl _)
        have hker : ∀ r, r < n → ∑ c ∈ range n, M (pm r) c * x c = 0 := by
          intro r hr
          have e : ∀ c ∈ range n, M (pm r) c * x c = ∑ m ∈ range (min r i), A r m * (up A m c * x c)
              + (if r < i then up A r c * x c else 0) := by
            intro c hc
            have hc' := mem_range.1 hc
            rw [h1 r c hr hc', add_mul, sum_mul]
            congr 1
            · apply sum_congr rfl; intro m _; ring
            · by_cases hri : r < i
              · rw [if_pos hri, if_pos hri]
              · rw [if_neg hri, if_neg hri]
                by_cases hci : c = i
                · subst hci; rw [if_pos (le_refl _), hz r (by omega) hr]; simp
                · by_cases hic : i ≤ c
                  · rw [hx2 c (by omega)]; simp
                  · rw [if_neg hic]; simp
          rw [sum_congr rfl e, sum_add_distrib, sum_comm]
          have e1 : ∑ m ∈ range (min r i), ∑ c ∈ range n, A r m * (up A m c * x c) = 0 := by
            apply sum_eq_zero
            intro m hm
            have := mem_range.1 hm
            rw [← mul_sum, hx3 m (by omega) (by omega)]
            simp
          rw [e1, zero_add]
          by_cases hri : r < i
          · simp only [if_pos hri]; exact hx3 r (by omega) hri
          · simp only [if_neg hri]; simp
        apply _root_.Matrix.exists_mulVec_eq_zero_iff.1
        refine ⟨fun c => x c, ?_, ?_⟩
        · intro e
          have := congrFun e (⟨i, by omega⟩ : Fin n)
          simp only [Pi.zero_apply] at this
          rw [hx1] at this
          exact one_ne_zero this
        · funext a
          let f : Fin n → Fin n := fun r => ⟨pm r, h2 r r.2⟩
          have hinj : Function.Injective f := by
            intro r s e
            have : pm r = pm s := congrArg Fin.val e
            exact Fin.ext (h2' r s r.2 s.2 this)
          obtain ⟨r, hr⟩ := (Finite.injective_iff_surjective.1 hinj) a
          have := hker r r.2
          rw [← Fin.sum_univ_eq_sum_range (fun c => M (pm r) c * x c)] at this
          have e : pm r = a := congrArg Fin.val hr
          rw [e] at this
          exact this
  exact this n (le_refl n) h

/-- The multipliers of the decomposition. -/
theorem luTo_small {n i : Nat} (hi : i ≤ n) {M A : Mat K} {pm : Nat → Nat} (h : luTo n i M = some (A, pm)) :
    ∀ r c, r < n → c < r → c < i → |A r c| ≤ 1 := by
  induction i generalizing A pm with
  | zero => intro r c _ _ hc; omega
  | succ i ih =>
    rw [luTo_succ] at h
    cases hs : luTo n i M with
    | none => rw [hs] at h; simp at h
    | some s =>
      obtain ⟨B, pn⟩ := s
      rw [hs] at h
      have hB := ih (by omega) hs
      simp only [Option.bind_some, luStep] at h
      obtain ⟨hk, hmax⟩ := indexNormInf_spec (fun k => B (i + k) i) (n - i) (by omega)
      generalize indexNormInf (fun k => B (i + k) i) (n - i) = k at h hk hmax
      by_cases h0 : B (i + k) i = 0
      · rw [if_pos h0] at h; simp at h
      · rw [if_neg h0] at h
        simp only [Option.some.injEq, Prod.mk.injEq] at h
        obtain ⟨rfl, rfl⟩ := h
        have hrow : ∀ r, i ≤ r → r < n → ∃ q, i ≤ q ∧ q < n ∧ swap B i (i + k) r = B q := by
          intro r hr hrn
          unfold swap
          by_cases h1 : r = i
          · exact ⟨i + k, by omega, by omega, by rw [if_pos h1]⟩
          · by_cases h2 : r = i + k
            · exact ⟨i, le_refl _, by omega, by rw [if_neg h1, if_pos h2]⟩
            · exact ⟨r, hr, hrn, by rw [if_neg h1, if_neg h2]⟩
        intro r c hr hcr hci
        by_cases hlow : r ≤ i
        · have e : eliminate (swap B i (i + k)) i r c = swap B i (i + k) r c := by
            unfold eliminate; rw [if_neg (by omega), if_neg (by omega)]
          rw [e]
          by_cases hri : r = i
          · obtain ⟨q, hq1, hq2, hq3⟩ := hrow r (by omega) hr
            rw [hq3]
            exact hB q c hq2 (by omega) (by omega)
          · unfold swap
            rw [if_neg hri, if_neg (by omega)]
            exact hB r c hr hcr (by omega)
        · obtain ⟨q, hq1, hq2, hq3⟩ := hrow r (by omega) hr
          by_cases hc : c = i
          · subst hc
            have e : eliminate (swap B c (c + k)) c r c = B q c / B (c + k) c := by
              unfold eliminate
              rw [if_pos ⟨by omega, rfl⟩, hq3]
              congr 1
              unfold swap; rw [if_pos rfl]
            rw [e, abs_div]
            have h1 := hmax (q - c) (by omega)
            simp only [show c + (q - c) = q by omega] at h1
            exact div_le_one_of_le₀ h1 (abs_nonneg _)
          · have e : eliminate (swap B i (i + k)) i r c = B q c := by
              unfold eliminate
              rw [if_neg (by omega), if_neg (by omega), hq3]
            rw [e]
            exact hB q c hq2 (by omega) (by omega)

/-! ### The properties -/

/-- `inverse` returns a matrix exactly when the matrix is not singular, and then it is the inverse, on
both sides. -/
theorem inverse_correct (n : Nat) (M : Mat K) :
    (∀ B, inverse n M = some B → toM n M * toM n B = 1 ∧ toM n B * toM n M = 1) ∧
    (inverse n M = none ↔ (toM n M).det = 0) := by
  refine ⟨fun B h => ⟨inverse_mul h, mul_eq_one_comm.1 (inverse_mul h)⟩, ?_, ?_⟩
  · intro h
    apply lu_none_singular
    unfold inverse at h
    cases hs : lu n M with
    | none => rfl
    | some s => rw [hs] at h; simp [bind] at h
  · intro h
    cases hs : inverse n M with
    | none => rfl
    | some B =>
      exfalso
      have := congrArg _root_.Matrix.det (inverse_mul hs)
      rw [_root_.Matrix.det_mul, h, zero_mul, _root_.Matrix.det_one] at this
      exact zero_ne_one this

/-- Partial pivoting: no multiplier of the elimination is larger than one. -/
theorem lu_multipliers_le_one (n : Nat) (M A : Mat K) (pm : Nat → Nat) (h : lu n M = some (A, pm)) :
    ∀ r c, r < n → c < r → |A r c| ≤ 1 :=
  fun r c hr hc => luTo_small (le_refl n) (i := n) h r c hr hc (by omega)

/-- The decomposition: the rows of the matrix in the order `pm` are the product of the unit lower and the
upper triangle of the buffer, and `pm` is a permutation. -/
theorem lu_correct (n : Nat) (M A : Mat K) (pm : Nat → Nat) (h : lu n M = some (A, pm)) :
    (∀ r, r < n → pm r < n) ∧ (∀ r s, r < n → s < n → pm r = pm s → r = s) ∧
    ∀ r c, r < n → c < n → M (pm r) c =
      ∑ m ∈ range n, (if m < r then A r m else if m = r then 1 else 0) * (if m ≤ c then A m c else 0) := by
  obtain ⟨h1, ⟨h2, h2'⟩, _⟩ := luTo_inv (le_refl n) (i := n) h
  refine ⟨h2, h2', ?_⟩
  intro r c hr hc
  rw [h1 r c hr hc, if_pos hr, Nat.min_eq_left (by omega)]
  rw [range_eq_Ico, range_eq_Ico, ← sum_Ico_consecutive _ (Nat.zero_le r) (Nat.le_of_lt hr)]
  congr 1
  · apply sum_congr rfl
    intro m hm
    have := mem_Ico.1 hm
    rw [if_pos (by omega)]
    rfl
  · rw [← add_sum_Ioo_eq_sum_Ico (a := r) (b := n) hr, if_neg (lt_irrefl _), if_pos rfl, one_mul,
      sum_eq_zero, add_zero]
    · rfl
    · intro m hm
      have := mem_Ioo.1 hm
      rw [if_neg (by omega), if_neg (by omega), zero_mul]

omit [IsStrictOrderedRing K] in
/-- The special case of the size 2x2. -/
theorem inverse2_correct (M : Mat K) :
    (∀ B, inverse2 M = some B → toM 2 M * toM 2 B = 1 ∧ toM 2 B * toM 2 M = 1) ∧
    (inverse2 M = none ↔ (toM 2 M).det = 0) := by
  have hd : (toM 2 M).det = M 0 0 * M 1 1 - M 0 1 * M 1 0 := by
    rw [_root_.Matrix.det_fin_two]; rfl
  constructor
  · intro B h
    simp only [inverse2] at h
    by_cases h0 : M 0 0 * M 1 1 - M 0 1 * M 1 0 = 0
    · rw [if_pos h0] at h; simp at h
    · rw [if_neg h0, Option.some.injEq] at h
      have : toM 2 M * toM 2 B = 1 := by
        subst h
        ext i j
        generalize hg : M 0 0 * M 1 1 - M 0 1 * M 1 0 = g at h0
        fin_cases i <;> fin_cases j <;> simp [toM, _root_.Matrix.mul_apply, Fin.sum_univ_two] <;>
          field_simp <;> (rw [← hg]; ring)
      exact ⟨this, mul_eq_one_comm.1 this⟩
  · rw [hd]
    simp only [inverse2]
    by_cases h0 : M 0 0 * M 1 1 - M 0 1 * M 1 0 = 0
    · rw [if_pos h0]; simp [h0]
    · rw [if_neg h0]; simp [h0]

/-- The two overloads agree on matrices of size 2x2. -/
theorem inverse2_eq_inverse (M : Mat K) :
    (inverse2 M).map (toM 2) = (inverse 2 M).map (toM 2) := by
  obtain ⟨h1, h2⟩ := inverse2_correct M
  obtain ⟨h3, h4⟩ := inverse_correct 2 M
  cases hs : inverse2 M with
  | none => rw [h4.2 (h2.1 hs)]
  | some B =>
    cases ht : inverse 2 M with
    | none => exact absurd (h2.2 (h4.1 ht)) (by rw [hs]; simp)
    | some C =>
      simp only [Option.map_some, Option.some.injEq]
      calc toM 2 B = (toM 2 C * toM 2 M) * toM 2 B := by rw [(h3 C ht).2, one_mul]
        _ = toM 2 C * (toM 2 M * toM 2 B) := by rw [mul_assoc]
        _ = toM 2 C := by rw [(h1 B hs).1, mul_one]

/-! ### Determinant -/

section det
variable {R : Type} [CommRing R]

omit [CommRing R] in
theorem toM_minor (n : Nat) (a : Mat R) (i : Fin (n + 1)) :
    toM n (minor a i) = (toM (n + 1) a).submatrix Fin.succ i.succAbove := by
  ext r c
  simp only [toM, minor, _root_.Matrix.submatrix_apply, Fin.val_succ]
  by_cases h : (c : Nat) < i
  · rw [if_pos h, Fin.succAbove_of_castSucc_lt _ _ h]; rfl
  · rw [if_neg h, Fin.succAbove_of_le_castSucc]
    · rfl
    · exact not_lt.1 h

theorem neg_one_pow_scale (scale : R) (i : Nat) :
    (if i % 2 = 0 then scale else -scale) = (-1) ^ i * scale := by
  by_cases h : i % 2 = 0
  · rw [if_pos h, Even.neg_one_pow (Nat.even_iff.2 h), one_mul]
  · rw [if_neg h, Odd.neg_one_pow (Nat.odd_iff.2 (by omega)), neg_one_mul]

/-- What an entry of the stack contributes. -/
def worth (e : Entry R) : R := if e.1 = 0 then 0 else e.2.2 * (toM e.1 e.2.1).det

theorem list_range_sum (f : Nat → R) (n : Nat) : ((List.range n).map f).sum = ∑ i ∈ range n, f i := by
  induction n with
  | zero => simp
  | succ n ih => rw [List.range_succ, List.map_append, List.sum_append, ih, sum_range_succ]; simp

theorem worth_expand (dim : Nat) (a : Mat R) (scale : R) :
    ((expand (dim + 2) a scale).map worth).sum = scale * (toM (dim + 2) a).det := by
  unfold expand
  rw [List.map_reverse, List.sum_reverse, List.map_map, _root_.Matrix.det_succ_row_zero, mul_sum,
    list_range_sum, ← Fin.sum_univ_eq_sum_range]
  apply sum_congr rfl
  intro i _
  rw [← toM_minor]
  simp only [Function.comp_apply, worth, neg_one_pow_scale]
  rw [show dim + 2 - 1 = dim + 1 from rfl, if_neg (by omega)]
  show _ = scale * ((-1) ^ (i : Nat) * a 0 i * _)
  ring

theorem detLoop_eq (s : List (Entry R)) (result : R) : detLoop s result = result + (s.map worth).sum := by
  induction s, result using detLoop.induct with
  | case1 => simp [detLoop]
  | case2 result a scale s ih => rw [detLoop, ih]; simp [worth]
  | case3 result a scale s ih =>
    rw [detLoop, ih]; simp [worth, toM]; ring
  | case4 result a scale s ih =>
    rw [detLoop, ih]; simp [worth, toM, _root_.Matrix.det_fin_two]; ring
  | case5 result dim a scale s ih =>
    rw [detLoop, ih, List.map_append, List.sum_append, worth_expand]
    simp [worth]

/-- `det` is the determinant, for every size but zero. -/
theorem det_correct_partial (n : Nat) (hn : 0 < n) (A : Mat R) : det n A = (toM n A).det := by
  unfold det
  rw [detLoop_eq]
  simp [worth, Nat.pos_iff_ne_zero.1 hn]

/-- The determinant of the matrix of size zero is one; `det` says zero. -/
theorem det_zero_wrong (A : Mat Int) : det 0 A = 0 ∧ (toM 0 A).det = 1 := by
  constructor
  · unfold det; simp [detLoop]
  · exact _root_.Matrix.det_isEmpty

theorem det2_correct (A : Mat R) : det2 A = (toM 2 A).det := by
  rw [_root_.Matrix.det_fin_two]; rfl

/-- The determinant of a product is the product of the determinants. -/
theorem det_mul_partial (n : Nat) (hn : 0 < n) (A B C : Mat R)
    (h : ∀ i j, i < n → j < n → C i j = ∑ k ∈ range n, A i k * B k j) : det n C = det n A * det n B := by
  rw [det_correct_partial n hn, det_correct_partial n hn, det_correct_partial n hn, ← _root_.Matrix.det_mul]
  congr 1
  ext i j
  rw [_root_.Matrix.mul_apply]
  show C i j = ∑ k : Fin n, A i k * B k j
  rw [h i j i.2 j.2, Fin.sum_univ_eq_sum_range (fun k => A i k * B k j)]

end det

/-- `inverse` throws exactly for the matrices whose `det` is zero. -/
theorem inverse_none_iff_det_partial (n : Nat) (hn : 0 < n) (M : Mat K) : inverse n M = none ↔ det n M = 0 := by
  rw [(inverse_correct n M).2, det_correct_partial n hn]

/-! ### Vectors of matrices -/

omit [Field K] [LinearOrder K] [IsStrictOrderedRing K] in
theorem matrixToVector_get (n : Nat) (M : Mat K) (c r : Nat) (hc : c < n) (hr : r < n) :
    (matrixToVector n n M)[c * n + r]? = some (some (M c r)) := by
  unfold matrixToVector
  have hgen : ∀ m, c < m → m ≤ n → (((List.range m).flatMap fun c => (List.range n).map fun r =>
      if c < n ∧ r < n then some (M c r) else none))[c * n + r]? = some (some (M c r)) := by
    have hlen : ∀ m, ((List.range m).flatMap fun c => (List.range n).map fun r =>
      if c < n ∧ r < n then some (M c r) else none).length = m * n := by
      intro m
      induction m with
      | zero => simp
      | succ m ih => rw [List.range_succ, List.flatMap_append, List.length_append, ih]; simp [Nat.add_mul]
    intro m
    induction m with
    | zero => intro h; omega
    | succ m ih =>
      intro h hmn
      rw [List.range_succ, List.flatMap_append]
      by_cases hcm : c < m
      · rw [List.getElem?_append_left, ih hcm (by omega)]
        rw [hlen]
        calc c * n + r < c * n + n := by omega
          _ = (c + 1) * n := by rw [Nat.add_mul, Nat.one_mul]
          _ ≤ m * n := Nat.mul_le_mul_right _ hcm
      · have : c = m := by omega
        subst this
        rw [List.getElem?_append_right (by rw [hlen]; omega), hlen, Nat.add_sub_cancel_left]
        simp [hr, hc]
  exact hgen n hc (le_refl n)

omit [Field K] [LinearOrder K] [IsStrictOrderedRing K] in
/-- A square matrix turned into a vector and back is the same matrix; no read is outside it. -/
theorem vector_roundtrip_partial (n : Nat) (M : Mat K) (V : Nat → K)
    (hV : ∀ k v, (matrixToVector n n M)[k]? = some (some v) → V k = v) :
    (∀ x ∈ matrixToVector n n M, x ≠ none) ∧
    ∃ M', vectorToMatrix V (n * n) = some (n, M') ∧ toM n M' = toM n M := by
  constructor
  · intro x hx
    unfold matrixToVector at hx
    simp only [List.mem_flatMap, List.mem_map, List.mem_range] at hx
    obtain ⟨c, hc, r, hr, rfl⟩ := hx
    rw [if_pos ⟨hc, hr⟩]
    simp
  · unfold vectorToMatrix
    simp only [Nat.sqrt_eq, if_true]
    refine ⟨_, rfl, ?_⟩
    ext i j
    exact hV _ _ (matrixToVector_get n M i j i.2 j.2)

omit [Field K] [LinearOrder K] [IsStrictOrderedRing K] in
/-- A vector whose length is not a square is refused. -/
theorem vectorToMatrix_none (V : Nat → K) (lv : Nat) : vectorToMatrix V lv = none ↔ ¬ ∃ n, n * n = lv := by
  unfold vectorToMatrix
  simp only
  by_cases h : Nat.sqrt lv * Nat.sqrt lv = lv
  · rw [if_pos h]; simp only [reduceCtorEq, not_exists, false_iff]; intro hn; exact hn _ h
  · rw [if_neg h]
    simp only [true_iff]
    rintro ⟨n, rfl⟩
    rw [Nat.sqrt_eq] at h
    exact h rfl

omit [Field K] [LinearOrder K] [IsStrictOrderedRing K] in
/-- A matrix that is not square is read outside: rows and columns are exchanged in `matrix_to_vector`. -/
theorem matrixToVector_not_square (rows cols : Nat) (h : rows ≠ cols) (hr : 0 < rows) (hc : 0 < cols) (M : Mat K) :
    none ∈ matrixToVector rows cols M := by
  unfold matrixToVector
  simp only [List.mem_flatMap, List.mem_map, List.mem_range]
  by_cases h1 : rows < cols
  · exact ⟨rows, h1, 0, hr, by rw [if_neg (by omega)]⟩
  · exact ⟨0, hc, cols, by omega, by rw [if_neg (by omega)]⟩

/-! ### Examples -/

/-- A matrix that needs an exchange of rows. -/
def exM : Mat ℚ := fun i j => if i = 0 then (if j = 0 then 0 else if j = 1 then 2 else 1)
  else if i = 1 then (if j = 0 then 1 else if j = 1 then -2 else -3) else (if j = 0 then -1 else if j = 1 then 1 else 2)

example : (inverse 3 exM).map (fun B => (B 0 0, B 0 1, B 2 0)) = some (-1, -3, -1) := by decide +kernel
example : (lu 3 exM).map (fun s => (s.2 0, s.2 1, s.2 2)) = some (1, 0, 2) := by decide +kernel
example : det 3 exM = 1 := by
  rw [det_correct_partial 3 (by omega), _root_.Matrix.det_fin_three]
  decide +kernel
example : inverse 3 (fun i j => ((i + j : Nat) : ℚ)) = none := by
  rw [inverse_none_iff_det_partial 3 (by omega), det_correct_partial 3 (by omega), _root_.Matrix.det_fin_three]
  decide +kernel
example : (inverse2 (fun i j => if i = j then (2 : ℚ) else 1)).isSome = true := by decide +kernel
example : matrixToVector 2 2 (fun i j => 10 * i + j) = [some 0, some 1, some 10, some 11] := by decide

end VW.Matrix
