import Verif.Opt.LM
import Mathlib.Tactic.Linarith
import Mathlib.Tactic.Ring
import Mathlib.Tactic.NormNum
import Mathlib.Tactic.FieldSimp
import Mathlib.Tactic.FinCases

/-
C87: Levenberg-Marquardt minimisation.
-/

namespace Verif.Opt

set_option linter.unusedSectionVars false

/-! ## With numbers that are linearly ordered (no NaN) -/

section Ordered

variable {X E : Type} [LinearOrder E]

/-- What an inner loop achieves: unless it gives up, the point tried last, which is no worse. -/
theorem inner_spec (P : LMProblem X E) (x : X) (k : Nat) (lam : ℤ) (xTry : X) :
    (inner P x k lam xTry).short = true ∧ (inner P x k lam xTry).normTry = P.norm x ∨
    (inner P x k lam xTry).short = false ∧ (∃ l, (inner P x k lam xTry).xTry = P.trial x l) ∧
      (inner P x k lam xTry).normTry = P.norm (inner P x k lam xTry).xTry ∧
      (inner P x k lam xTry).normTry ≤ P.norm x := by
  induction k generalizing lam xTry with
  | zero => exact Or.inl ⟨rfl, rfl⟩
  | succ k ih =>
    unfold inner
    by_cases h : P.norm x < P.norm (P.trial x lam)
    · simp only [h, if_true]; exact ih _ _
    · by_cases hk : k = 0
      · simp only [h, hk, if_true, if_false]; exact Or.inl ⟨trivial, trivial⟩
      · simp only [h, hk, if_false]
        exact Or.inr ⟨trivial, ⟨lam, rfl⟩, trivial, not_lt.1 h⟩

/-- `x + 1.0` is more than `x`: true of doubles below 2^53. -/
def Bumps (P : LMProblem X E) : Prop := ∀ x, P.norm x < P.bump (P.norm x)

theorem innerLoop_eq (P : LMProblem X E) (hb : Bumps P) (x : X) (lam : ℤ) (xTry : X) :
    innerLoop P x lam xTry = inner P x 6 lam xTry := if_pos (hb x)

/-- An iteration of the outer loop: the point either stays, or becomes a trial point that is no worse, and the norm known
is that of the new point. -/
theorem iteration_spec (P : LMProblem X E) (hb : Bumps P) (x : X) (lam : ℤ) (xTry : X) :
    let r := innerLoop P x lam xTry
    let x' := if r.short then x else r.xTry
    r.normTry = P.norm x' ∧ (r.short = true ∧ x' = x ∨
      r.short = false ∧ (∃ l, x' = P.trial x l) ∧ P.norm x' ≤ P.norm x) := by
  rw [innerLoop_eq P hb]
  rcases inner_spec P x 6 lam xTry with ⟨h1, h2⟩ | ⟨h1, ⟨l, h2⟩, h3, h4⟩
  · simp only [h1, if_true]
    exact ⟨h2, Or.inl ⟨trivial, trivial⟩⟩
  · simp only [h1]
    exact ⟨h3, Or.inr ⟨trivial, ⟨l, h2⟩, h3 ▸ h4⟩⟩

/-- Each point of the list is the one before it or a trial point from the one before it, and is no worse. -/
def Descent (P : LMProblem X E) (l : List X) : Prop :=
  l.IsChain (fun new old => (new = old ∨ ∃ k, new = P.trial old k) ∧ P.norm new ≤ P.norm old)

theorem outer_spec (P : LMProblem X E) (hb : Bumps P) (k : Nat) (x : X) (lam : ℤ) (xTry : X) (past : List X)
    (hp : Descent P (x :: past)) (l : List X) (s : LMStatus)
    (h : outer P k x lam xTry (x :: past) = (l, s)) :
    ∃ r rest, l = r :: rest ∧ Descent P (r :: rest) ∧ (∃ new, new ≠ [] ∧ l = new ++ x :: past ∧
        (s = .didNotConverge → new.length = k + 1) ∧ new.length ≤ k + 1) ∧
      (s = .convergedAbsTolerance ↔ P.norm r < P.absTol) ∧ s ≠ .statusUnknown ∧
      (s = .convergedRelTolerance → ∃ y, rest.head? = some y ∧ (∃ j, r = P.trial y j) ∧
        P.rel (P.norm y) (P.norm r) = true) := by
  induction k generalizing x lam xTry past with
  | zero =>
    unfold outer at h
    obtain ⟨hn, hc⟩ := iteration_spec P hb x lam xTry
    simp only at h hn hc
    generalize innerLoop P x lam xTry = r at h hn hc
    generalize hx' : (if r.short = true then x else r.xTry) = x' at h hn hc
    have hd : Descent P (x' :: x :: past) := by
      refine List.isChain_cons_cons.2 ⟨?_, hp⟩
      rcases hc with ⟨-, e⟩ | ⟨-, e, e'⟩
      · exact ⟨Or.inl e, by rw [e]⟩
      · exact ⟨Or.inr e, e'⟩
    unfold verdict at h
    by_cases ha : r.normTry < P.absTol
    · rw [if_pos ha] at h
      obtain ⟨rfl, rfl⟩ := Prod.mk.inj h
      exact ⟨x', _, rfl, hd, ⟨[x'], by simp, rfl, (by intro h; cases h), by simp⟩, iff_of_true rfl (hn ▸ ha), by simp, by simp⟩
    · rw [if_neg ha] at h
      by_cases hr : (!r.short && P.rel (P.norm x) r.normTry) = true
      · rw [if_pos hr] at h
        obtain ⟨rfl, rfl⟩ := Prod.mk.inj h
        simp only [Bool.and_eq_true, Bool.not_eq_true'] at hr
        refine ⟨x', _, rfl, hd, ⟨[x'], by simp, rfl, (by intro h; cases h), by simp⟩, by simp [← hn, not_lt.1 ha], by simp, fun _ => ⟨x, rfl, ?_, hn ▸ hr.2⟩⟩
        rcases hc with ⟨e, -⟩ | ⟨-, e, -⟩
        · rw [hr.1] at e; cases e
        · exact e
      · rw [if_neg hr] at h
        obtain ⟨rfl, rfl⟩ := Prod.mk.inj h
        exact ⟨x', _, rfl, hd, ⟨[x'], by simp, rfl, fun _ => rfl, by simp⟩, by simp [← hn, not_lt.1 ha], by simp, by simp⟩
  | succ k ih =>
    unfold outer at h
    obtain ⟨hn, hc⟩ := iteration_spec P hb x lam xTry
    simp only at h hn hc
    generalize innerLoop P x lam xTry = r at h hn hc
    generalize hx' : (if r.short = true then x else r.xTry) = x' at h hn hc
    have hd : Descent P (x' :: x :: past) := by
      refine List.isChain_cons_cons.2 ⟨?_, hp⟩
      rcases hc with ⟨-, e⟩ | ⟨-, e, e'⟩
      · exact ⟨Or.inl e, by rw [e]⟩
      · exact ⟨Or.inr e, e'⟩
    unfold verdict at h
    by_cases ha : r.normTry < P.absTol
    · rw [if_pos ha] at h
      obtain ⟨rfl, rfl⟩ := Prod.mk.inj h
      exact ⟨x', _, rfl, hd, ⟨[x'], by simp, rfl, (by intro h; cases h), by simp⟩, iff_of_true rfl (hn ▸ ha), by simp, by simp⟩
    · rw [if_neg ha] at h
      by_cases hr : (!r.short && P.rel (P.norm x) r.normTry) = true
      · rw [if_pos hr] at h
        obtain ⟨rfl, rfl⟩ := Prod.mk.inj h
        simp only [Bool.and_eq_true, Bool.not_eq_true'] at hr
        refine ⟨x', _, rfl, hd, ⟨[x'], by simp, rfl, (by intro h; cases h), by simp⟩, by simp [← hn, not_lt.1 ha], by simp, fun _ => ⟨x, rfl, ?_, hn ▸ hr.2⟩⟩
        rcases hc with ⟨e, -⟩ | ⟨-, e, -⟩
        · rw [hr.1] at e; cases e
        · exact e
      · rw [if_neg hr] at h
        obtain ⟨a, rest, e1, e2, ⟨new, n0, n1, n2, n3⟩, e4, e5, e6⟩ := ih x' _ _ (x :: past) hd h
        refine ⟨a, rest, e1, e2, ⟨new ++ [x'], by simp, by simp [n1], fun hs => by simp [n2 hs], by simp; omega⟩, e4, e5, e6⟩

/-- **C87.** The points accepted on the way from the seed to the result: each is the one before or was tried from the
one before, and the norm of the error never increases. -/
theorem lm_trace (P : LMProblem X E) (hb : Bumps P) (seed : X) (maxIter : Nat) :
    Descent P (lmTrace P seed maxIter).1 ∧ (lmTrace P seed maxIter).1.getLast? = some seed ∧
      (lmTrace P seed maxIter).1.head? = some (lm P seed maxIter).1 := by
  unfold lm
  by_cases h : P.norm seed < P.absTol
  · have e : lmTrace P seed maxIter = ([seed], .convergedAbsTolerance) := if_pos h
    rw [e]
    exact ⟨List.isChain_singleton _, rfl, rfl⟩
  · have e : lmTrace P seed maxIter = outer P (maxIter - 1) seed (-1) P.unset [seed] := if_neg h
    rw [e]
    obtain ⟨r, rest, h1, h2, ⟨new, n0, n1, -⟩, -⟩ := outer_spec P hb (maxIter - 1) seed (-1) P.unset []
      (List.isChain_singleton _) _ _ rfl
    refine ⟨h1 ▸ h2, by rw [n1]; simp, by rw [h1]; rfl⟩

theorem descent_le (P : LMProblem X E) (l : List X) (h : Descent P l) (a b : X) (ha : l.head? = some a)
    (hb : l.getLast? = some b) : P.norm a ≤ P.norm b := by
  induction l generalizing a with
  | nil => cases ha
  | cons x xs ih =>
    cases ha
    cases xs with
    | nil => simp at hb; rw [hb]
    | cons y ys =>
      rw [List.getLast?_cons_cons] at hb
      obtain ⟨h1, h2⟩ := List.isChain_cons_cons.1 h
      exact h1.2.trans (ih h2 y rfl hb)

/-- **C87.** The error at the result is never larger than at the seed. -/
theorem lm_descends (P : LMProblem X E) (hb : Bumps P) (seed : X) (maxIter : Nat) :
    P.norm (lm P seed maxIter).1 ≤ P.norm seed := by
  obtain ⟨h1, h2, h3⟩ := lm_trace P hb seed maxIter
  exact descent_le P _ h1 _ _ h3 h2

/-- **C87.** The status is that of absolute convergence exactly if the error at the result is below the absolute
tolerance. -/
theorem lm_abs (P : LMProblem X E) (hb : Bumps P) (seed : X) (maxIter : Nat) :
    (lm P seed maxIter).2 = .convergedAbsTolerance ↔ P.norm (lm P seed maxIter).1 < P.absTol := by
  unfold lm
  by_cases h : P.norm seed < P.absTol
  · have e : lmTrace P seed maxIter = ([seed], .convergedAbsTolerance) := if_pos h
    rw [e]
    exact iff_of_true rfl h
  · have e : lmTrace P seed maxIter = outer P (maxIter - 1) seed (-1) P.unset [seed] := if_neg h
    rw [e]
    obtain ⟨r, rest, h1, -, -, h4, -⟩ := outer_spec P hb (maxIter - 1) seed (-1) P.unset []
      (List.isChain_singleton _) _ _ rfl
    rw [h1]
    exact h4

/-- **C87.** If the status is that of relative convergence, the result was tried from the point accepted before it, and
the error decreased from there by less than the relative tolerance. -/
theorem lm_rel (P : LMProblem X E) (hb : Bumps P) (seed : X) (maxIter : Nat)
    (hs : (lm P seed maxIter).2 = .convergedRelTolerance) :
    ∃ y, (lmTrace P seed maxIter).1[1]? = some y ∧ (∃ k, (lm P seed maxIter).1 = P.trial y k) ∧
      P.rel (P.norm y) (P.norm (lm P seed maxIter).1) = true := by
  unfold lm at hs ⊢
  by_cases h : P.norm seed < P.absTol
  · have e : lmTrace P seed maxIter = ([seed], .convergedAbsTolerance) := if_pos h
    rw [e] at hs; cases hs
  · have e : lmTrace P seed maxIter = outer P (maxIter - 1) seed (-1) P.unset [seed] := if_neg h
    rw [e] at hs ⊢
    obtain ⟨r, rest, h1, -, -, -, -, h6⟩ := outer_spec P hb (maxIter - 1) seed (-1) P.unset []
      (List.isChain_singleton _) _ _ rfl
    obtain ⟨y, hy, h7, h8⟩ := h6 hs
    rw [h1]
    cases rest with
    | nil => cases hy
    | cons a l => cases hy; exact ⟨y, rfl, h7, h8⟩

/-- **C87.** The number of iterations is at most the number allowed (but at least one, unless the seed is good enough
already), and it is that number if the status says that there was no convergence. -/
theorem lm_iterations (P : LMProblem X E) (hb : Bumps P) (seed : X) (maxIter : Nat) :
    (lmTrace P seed maxIter).1.length ≤ max maxIter 1 + 1 ∧
      ((lm P seed maxIter).2 = .didNotConverge → (lmTrace P seed maxIter).1.length = max maxIter 1 + 1) ∧
      (lm P seed maxIter).2 ≠ .statusUnknown := by
  unfold lm
  by_cases h : P.norm seed < P.absTol
  · have e : lmTrace P seed maxIter = ([seed], .convergedAbsTolerance) := if_pos h
    rw [e]; simp
  · have e : lmTrace P seed maxIter = outer P (maxIter - 1) seed (-1) P.unset [seed] := if_neg h
    rw [e]
    obtain ⟨r, rest, h1, -, ⟨new, -, n1, n2, n3⟩, -, h5, -⟩ := outer_spec P hb (maxIter - 1) seed (-1) P.unset []
      (List.isChain_singleton _) _ _ rfl
    refine ⟨by rw [n1]; simp; omega, fun hs => ?_, h5⟩
    have := n2 hs
    rw [n1]; simp; omega

/-- **C87.** A seed from which every trial leads back to it (where the gradient vanishes, see `step_zero`) is returned at
once. -/
theorem lm_stationary (P : LMProblem X E) (hb : Bumps P) (seed : X) (maxIter : Nat) (h : ∀ k, P.trial seed k = seed)
    (hr : P.rel (P.norm seed) (P.norm seed) = true) :
    (lm P seed maxIter).1 = seed ∧ (lm P seed maxIter).2 ≠ .didNotConverge ∧
      (lmTrace P seed maxIter).1.length ≤ 2 := by
  by_cases ha : P.norm seed < P.absTol
  · have e : lmTrace P seed maxIter = ([seed], .convergedAbsTolerance) := if_pos ha
    unfold lm; rw [e]; simp
  · have e : lmTrace P seed maxIter = outer P (maxIter - 1) seed (-1) P.unset [seed] := if_neg ha
    have hi : innerLoop P seed (-1) P.unset = ⟨seed, P.norm seed, -1, false⟩ := by
      rw [innerLoop_eq P hb]
      simp [inner, h]
    have : lmTrace P seed maxIter = ([seed, seed], .convergedRelTolerance) := by
      rw [e]
      unfold outer
      simp [hi, verdict, ha, hr]
    unfold lm; rw [this]; simp

end Ordered

/-! ## The step -/

section Step

open Matrix

variable {m n : Type} [Fintype m] [Fintype n] [DecidableEq n]

/-- The sum of squares, whose root is `norm_2` (src/vw/Math/Vector.h). -/
def sumSq (e : m → ℝ) : ℝ := e ⬝ᵥ e

theorem sumSq_nonneg (e : m → ℝ) : 0 ≤ sumSq e := Finset.sum_nonneg (fun _ _ => mul_self_nonneg _)

theorem sumSq_eq_zero (e : m → ℝ) : sumSq e = 0 ↔ e = 0 := by
  unfold sumSq dotProduct
  rw [Finset.sum_eq_zero_iff_of_nonneg (fun i _ => mul_self_nonneg _)]
  simp [funext_iff]

/-- The damping: a multiple of the identity and of the diagonal, both of them non-negative. -/
def damping (J : Matrix m n ℝ) (lam : ℝ) (d : n → ℝ) : ℝ :=
  ∑ i, (10 * (∑ k, J k i * J k i) * lam + lam) * (d i * d i)

theorem damping_pos (J : Matrix m n ℝ) (lam : ℝ) (hl : 0 < lam) (d : n → ℝ) (hd : d ≠ 0) : 0 < damping J lam d := by
  have hc : ∀ i, 0 < 10 * (∑ k, J k i * J k i) * lam + lam := fun i => by
    have : 0 ≤ ∑ k, J k i * J k i := Finset.sum_nonneg (fun k _ => mul_self_nonneg _)
    positivity
  obtain ⟨i, hi⟩ := Function.ne_iff.1 hd
  refine Finset.sum_pos' (fun j _ => mul_nonneg (hc j).le (mul_self_nonneg _)) ⟨i, Finset.mem_univ _, ?_⟩
  exact mul_pos (hc i) (mul_self_pos.2 hi)

theorem hessian_apply (J : Matrix m n ℝ) (lam : ℝ) (d : n → ℝ) :
    d ⬝ᵥ (hessianLM J lam *ᵥ d) = 10 * sumSq (J *ᵥ d) + damping J lam d := by
  have e : hessianLM J lam *ᵥ d = (10 : ℝ) • ((Jᵀ * J) *ᵥ d) +
      fun i => (10 * (∑ k, J k i * J k i) * lam + lam) * d i := by
    ext i
    simp only [hessianLM, mulVec, dotProduct, Matrix.smul_apply, smul_eq_mul, Matrix.mul_apply, transpose_apply,
      Pi.add_apply, Pi.smul_apply]
    have : ∀ x, (if i = x then 10 * ∑ k, J k i * J k i + (10 * (∑ k, J k i * J k i) * lam + lam)
        else 10 * ∑ k, J k i * J k x) * d x = 10 * ((∑ k, J k i * J k x) * d x) +
          (if i = x then (10 * (∑ k, J k i * J k i) * lam + lam) * d i else 0) := by
      intro x
      by_cases hx : i = x
      · subst hx; simp only [if_true]; ring
      · simp only [hx, if_false]; ring
    rw [Finset.sum_congr rfl (fun x _ => this x), Finset.sum_add_distrib, Finset.sum_ite_eq, ← Finset.mul_sum]
    simp
  rw [e, dotProduct_add, dotProduct_smul, smul_eq_mul]
  congr 1
  · congr 1
    rw [← mulVec_mulVec, dotProduct_mulVec, vecMul_transpose]
    rfl
  · unfold dotProduct damping
    refine Finset.sum_congr rfl (fun i _ => by ring)

/-- The equations have at most one solution if `lambda` is positive: the matrix is positive definite. -/
theorem step_unique (J : Matrix m n ℝ) (e : m → ℝ) (lam : ℝ) (hl : 0 < lam) (d d' : n → ℝ)
    (h : LMStep J e lam d) (h' : LMStep J e lam d') : d = d' := by
  by_contra hne
  have hs : d - d' ≠ 0 := sub_ne_zero.2 hne
  have h0 : hessianLM J lam *ᵥ (d - d') = 0 := by
    rw [mulVec_sub, h, h', sub_self]
  have := hessian_apply J lam (d - d')
  rw [h0, dotProduct_zero] at this
  have h1 := damping_pos J lam hl _ hs
  have h2 := sumSq_nonneg (J *ᵥ (d - d'))
  linarith

/-- The step is zero exactly if the gradient of the sum of squares is. -/
theorem step_zero (J : Matrix m n ℝ) (e : m → ℝ) (lam : ℝ) (hl : 0 < lam) (d : n → ℝ) (h : LMStep J e lam d) :
    d = 0 ↔ Jᵀ *ᵥ e = 0 := by
  constructor
  · intro h0
    unfold LMStep delJ at h
    rw [h0, mulVec_zero] at h
    have := h.symm
    rw [smul_eq_zero] at this
    rcases this with h | h
    · norm_num at h
    · exact h
  · intro h0
    refine step_unique J e lam hl d 0 h ?_
    unfold LMStep delJ
    rw [h0, mulVec_zero, smul_zero]

/-- **C87.** The step goes down: the point moves by `-delta`, along which the derivative of half the sum of squares of
the error, `- (Jᵀ e) · (-delta)`, is negative, unless the gradient vanishes. -/
theorem lm_step_descends (J : Matrix m n ℝ) (e : m → ℝ) (lam : ℝ) (hl : 0 < lam) (d : n → ℝ) (h : LMStep J e lam d)
    (hg : Jᵀ *ᵥ e ≠ 0) : (-(Jᵀ *ᵥ e)) ⬝ᵥ (-d) < 0 := by
  have hd : d ≠ 0 := fun h0 => hg ((step_zero J e lam hl d h).1 h0)
  have h1 := hessian_apply J lam d
  rw [h, delJ, dotProduct_smul, smul_eq_mul] at h1
  have h2 := damping_pos J lam hl d hd
  have h3 := sumSq_nonneg (J *ᵥ d)
  have h4 : (-(Jᵀ *ᵥ e)) ⬝ᵥ (-d) = d ⬝ᵥ (Jᵀ *ᵥ e) := by
    rw [neg_dotProduct_neg, dotProduct_comm]
  rw [h4]
  linarith

/-- **C87.** For a model that is linear in the parameters, the very first trial is accepted whatever `lambda` is, and it
is strictly better unless the gradient vanishes: `J` is then the Jacobian everywhere, and the error after the step
`x - delta` is `e + J delta`. -/
theorem lm_linear (J : Matrix m n ℝ) (e : m → ℝ) (lam : ℝ) (hl : 0 < lam) (d : n → ℝ) (h : LMStep J e lam d) :
    sumSq (e + J *ᵥ d) ≤ sumSq e ∧ (Jᵀ *ᵥ e ≠ 0 → sumSq (e + J *ᵥ d) < sumSq e) := by
  have h1 := hessian_apply J lam d
  rw [h, delJ, dotProduct_smul, smul_eq_mul] at h1
  have h3 := sumSq_nonneg (J *ᵥ d)
  have h5 : d ⬝ᵥ (Jᵀ *ᵥ e) = e ⬝ᵥ (J *ᵥ d) := by
    rw [dotProduct_mulVec, vecMul_transpose, dotProduct_comm]
  have h6 : sumSq (e + J *ᵥ d) = sumSq e + 2 * (e ⬝ᵥ (J *ᵥ d)) + sumSq (J *ᵥ d) := by
    unfold sumSq
    rw [add_dotProduct, dotProduct_add, dotProduct_add, dotProduct_comm (J *ᵥ d) e]
    ring
  rw [h5] at h1
  have h2 : 0 ≤ damping J lam d := by
    by_cases hd : d = 0
    · subst hd; simp [damping]
    · exact (damping_pos J lam hl d hd).le
  refine ⟨by rw [h6]; linarith, fun hg => ?_⟩
  have hd : d ≠ 0 := fun h0 => hg ((step_zero J e lam hl d h).1 h0)
  have h2 := damping_pos J lam hl d hd
  rw [h6]; linarith

/-- A problem that is linear in the parameters: observation `z`, model `J x`, exact solutions of the equations. -/
def IsLinear (P : LMProblem (n → ℝ) ℝ) (J : Matrix m n ℝ) (z : m → ℝ) : Prop :=
  (∀ x, P.norm x = Real.sqrt (sumSq (z - J *ᵥ x))) ∧
  ∀ x k, ∃ d, LMStep J (z - J *ᵥ x) ((10 : ℝ) ^ k) d ∧ P.trial x k = x - d

theorem linear_trial (P : LMProblem (n → ℝ) ℝ) (J : Matrix m n ℝ) (z : m → ℝ) (h : IsLinear P J z) (x : n → ℝ) (k : ℤ) :
    P.norm (P.trial x k) ≤ P.norm x ∧ (Jᵀ *ᵥ (z - J *ᵥ x) ≠ 0 → P.norm (P.trial x k) < P.norm x) := by
  obtain ⟨h1, h2⟩ := h
  obtain ⟨d, hd, ht⟩ := h2 x k
  have e : z - J *ᵥ (x - d) = (z - J *ᵥ x) + J *ᵥ d := by rw [mulVec_sub]; abel
  obtain ⟨a, b⟩ := lm_linear J (z - J *ᵥ x) ((10 : ℝ) ^ k) (zpow_pos (by norm_num) k) d hd
  rw [h1, h1, ht, e]
  exact ⟨Real.sqrt_le_sqrt a, fun hg => Real.sqrt_lt_sqrt (sumSq_nonneg _) (b hg)⟩

/-- **C87.** For a model that is linear in the parameters the inner loop never gives up, and in every iteration `lambda`
shrinks to a tenth. -/
theorem lm_linear_loop (P : LMProblem (n → ℝ) ℝ) (J : Matrix m n ℝ) (z : m → ℝ) (h : IsLinear P J z)
    (hb : Bumps P) (x : n → ℝ) (k : ℤ) (u : n → ℝ) :
    innerLoop P x k u = ⟨P.trial x k, P.norm (P.trial x k), k, false⟩ := by
  rw [innerLoop_eq P hb]
  have := (linear_trial P J z h x k).1
  simp [inner, not_lt.2 this]

/-- **C87.** For a model that is linear in the parameters, the result is strictly better than the seed unless the seed is
good enough or its gradient vanishes. -/
theorem lm_linear_better (P : LMProblem (n → ℝ) ℝ) (J : Matrix m n ℝ) (z : m → ℝ) (h : IsLinear P J z)
    (hb : Bumps P) (seed : n → ℝ) (maxIter : Nat) (hs : ¬ P.norm seed < P.absTol)
    (hg : Jᵀ *ᵥ (z - J *ᵥ seed) ≠ 0) : P.norm (lm P seed maxIter).1 < P.norm seed := by
  have e : lmTrace P seed maxIter = outer P (maxIter - 1) seed (-1) P.unset [seed] := if_neg hs
  obtain ⟨h1, h2, h3⟩ := lm_trace P hb seed maxIter
  have h4 := (linear_trial P J z h seed (-1)).2 hg
  have hd1 : Descent P [P.trial seed (-1), seed] :=
    List.isChain_cons_cons.2 ⟨⟨Or.inr ⟨_, rfl⟩, h4.le⟩, List.isChain_singleton _⟩
  have key : P.norm (lm P seed maxIter).1 ≤ P.norm (P.trial seed (-1)) := by
    unfold lm
    rw [e]
    unfold outer
    simp only [lm_linear_loop P J z h hb, Bool.false_eq_true, if_false]
    generalize verdict P seed _ = v
    cases v with
    | some s => simp
    | none =>
      cases hm : maxIter - 1 with
      | zero => simp
      | succ k =>
        simp only
        obtain ⟨r, rest, a1, a2, ⟨new, n0, n1, -⟩, -⟩ := outer_spec P hb k (P.trial seed (-1)) (-1 - 1)
          (P.trial seed (-1)) [seed] hd1 _ _ rfl
        generalize outer P k (P.trial seed (-1)) (-1 - 1) (P.trial seed (-1)) [P.trial seed (-1), seed] = o at *
        obtain ⟨y, ys, hy⟩ := List.exists_cons_of_ne_nil n0
        have hh : o.1 = (new ++ [P.trial seed (-1)]) ++ [seed] := by rw [n1]; simp
        have hd2 : Descent P (new ++ [P.trial seed (-1)]) := by
          have : Descent P o.1 := a1 ▸ a2
          rw [hh] at this
          exact this.left_of_append
        have := descent_le P _ hd2 y (P.trial seed (-1)) (by rw [hy]; rfl) (by simp)
        rw [n1, hy]
        exact this
  exact lt_of_le_of_lt key h4

end Step

/-! ## Cases -/

section Cases

/-- One parameter, one observation 5, the model being the parameter itself, and exact solutions of the equations. -/
noncomputable def line : LMProblem (Fin 1 → ℝ) ℝ where
  norm x := Real.sqrt (sumSq ((fun _ => (5 : ℝ)) - (1 : Matrix (Fin 1) (Fin 1) ℝ).mulVec x))
  trial x k := x - fun _ => -10 * (5 - x 0) / (10 + (10 * (10 : ℝ) ^ k + (10 : ℝ) ^ k))
  bump e := e + 1
  rel a b := decide ((a - b) / a < 1 / 1000)
  absTol := 1 / 1000
  unset := 0

theorem line_linear : IsLinear line (1 : Matrix (Fin 1) (Fin 1) ℝ) (fun _ => 5) := by
  refine ⟨fun _ => rfl, fun x k => ⟨_, ?_, rfl⟩⟩
  have hp : (0 : ℝ) < (10 : ℝ) ^ k := zpow_pos (by norm_num) k
  have hne : (10 + (10 * (10 : ℝ) ^ k + (10 : ℝ) ^ k)) ≠ 0 := by positivity
  unfold LMStep
  ext i
  fin_cases i
  simp [hessianLM, delJ, Matrix.mulVec, dotProduct]
  field_simp

example : Bumps line := fun _ => lt_add_one _

/-- The hypotheses of `lm_linear_better` are met by a seed at 0. -/
example : line.norm (lm line 0 100).1 < line.norm 0 := by
  refine lm_linear_better line 1 (fun _ => 5) line_linear (fun _ => lt_add_one _) 0 100 ?_ ?_
  · have : line.norm 0 = 5 := by
      simp [line, sumSq, dotProduct]
    rw [this]; simp only [line]; norm_num
  · intro h
    have := congrFun h 0
    simp [Matrix.mulVec, dotProduct] at this

/-- Doubles as far as the addition of 1 goes: from 2^53 on it changes nothing. -/
def addOne (n : ℕ) : ℕ := if n < 2 ^ 53 then n + 1 else n

/-- The point is its own error, every trial is perfect, and the vector that nothing was assigned to is bad. -/
def huge : LMProblem ℕ ℕ where
  norm x := x
  trial _ _ := 0
  bump := addOne
  rel a b := decide ((a - b) * 1000 < a)
  absTol := 1
  unset := 2 ^ 60

/-- Refuted for a large error: from 2^53 on `norm_start+1.0` is not more than `norm_start`, nothing is tried, and the
result is the vector to which nothing was assigned, reported as converged. -/
theorem lm_huge : lm huge (2 ^ 53) 100 = (2 ^ 60, .convergedRelTolerance) ∧
    lm huge (2 ^ 53 - 1) 100 = (0, .convergedAbsTolerance) := by
  constructor <;> decide +kernel

/-- Refuted: a better point that is tried is accepted.  The sixth is not, here with one iteration allowed. -/
def slow : LMProblem ℕ ℕ where
  norm x := x
  trial _ k := if k < 4 then 9 else 0
  bump n := n + 1
  rel _ _ := false
  absTol := 1
  unset := 0

theorem lm_sixth : slow.norm (slow.trial 5 4) < slow.norm 5 ∧ (∀ k < 4, slow.norm 5 < slow.norm (slow.trial 5 k)) ∧
    lm slow 5 1 = (5, .didNotConverge) ∧ lm slow 5 2 = (0, .convergedAbsTolerance) := by
  refine ⟨by decide +kernel, fun k hk => ?_, by decide +kernel, by decide +kernel⟩
  simp [slow, hk]

/-- Numbers with NaN, which is not less than anything and nothing is less than. -/
inductive Dbl | num (n : ℕ) | nan
  deriving DecidableEq

instance : LT Dbl := ⟨fun a b => match a, b with
  | .num a, .num b => a < b
  | _, _ => False⟩

instance : DecidableLT Dbl := fun a b => match a, b with
  | .num a, .num b => inferInstanceAs (Decidable (a < b))
  | .num _, .nan => inferInstanceAs (Decidable False)
  | .nan, .num _ => inferInstanceAs (Decidable False)
  | .nan, .nan => inferInstanceAs (Decidable False)

/-- A model that cannot be evaluated at the point tried. -/
def broken : LMProblem ℕ Dbl where
  norm x := if x = 0 then .nan else .num x
  trial _ _ := 0
  bump e := match e with
    | .num n => .num (n + 1)
    | .nan => .nan
  rel _ _ := false
  absTol := .num 1
  unset := 0

/-- Refuted with NaN: the point at which the model is NaN is accepted, and is the result. -/
theorem lm_nan : broken.norm 3 = .num 3 ∧ broken.norm (lm broken 3 100).1 = .nan := by
  constructor <;> decide +kernel

end Cases

end Verif.Opt
