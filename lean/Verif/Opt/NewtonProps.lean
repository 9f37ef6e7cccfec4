import Verif.Opt.Newton
import Mathlib.Tactic.Linarith
import Mathlib.Tactic.Ring
import Mathlib.Tactic.FieldSimp
import Mathlib.Tactic.LinearCombination
import Mathlib.Algebra.Order.Ring.Rat

/-
C90: solving two equations by Newton's method.
-/

namespace Verif.Opt

set_option linter.unusedSectionVars false

variable {K : Type} [Field K] [LinearOrder K] [IsStrictOrderedRing K]

/-- The error of a point at which the function has a value. -/
def errAt (C : NewtonCtx K) (y X : V2 K) : Option K := (C.f X).map (fun fx => C.norm (fx.1 - y.1, fx.2 - y.2))

theorem newtonLoop_spec (C : NewtonCtx K) (y : V2 K) (step tol : K) (guess : V2 K) (k : Nat) (X best : V2 K) (be : K)
    (seen : List (V2 K))
    (hb : (be = C.big ∧ best = guess) ∨ (best ∈ seen ∧ errAt C y best = some be))
    (hs : ∀ q ∈ seen, ∃ e, errAt C y q = some e ∧ be ≤ e ∨ errAt C y q = some e ∧ C.big ≤ e)
    (hle : be ≤ C.big)
    (r : V2 K) (e : NewtonEnd) (seen' : List (V2 K)) (h : newtonLoop C y step tol k X best be seen = (r, e, seen')) :
    (∃ new, seen' = seen ++ new ∧ new.length ≤ k) ∧
    (e = .fallback → (∀ q ∈ seen', ∃ eq, errAt C y q = some eq ∧
        ((r ∈ seen' ∧ ∃ er, errAt C y r = some er ∧ er ≤ C.big ∧ (er ≤ eq ∨ C.big ≤ eq)) ∨ (r = guess ∧ C.big ≤ eq))) ∧
        (r = guess ∨ r ∈ seen')) ∧
    (e = .converged → ∃ X fx j0 j1 j2 j3, seen'.getLast? = some X ∧ C.f X = some fx ∧ C.jac X step = some (j0, j1, j2, j3) ∧
      ¬ |j0 * j3 - j1 * j2| < 1 / 1000000 ∧
      (j0 * (X.1 - r.1) + j1 * (X.2 - r.2) = fx.1 - y.1 ∧ j2 * (X.1 - r.1) + j3 * (X.2 - r.2) = fx.2 - y.2) ∧
      C.norm (X.1 - r.1, X.2 - r.2) < tol) := by
  have fb : ∀ (best : V2 K) (be : K) (seen : List (V2 K)),
      ((be = C.big ∧ best = guess) ∨ (best ∈ seen ∧ errAt C y best = some be)) →
      (∀ q ∈ seen, ∃ e, errAt C y q = some e ∧ be ≤ e ∨ errAt C y q = some e ∧ C.big ≤ e) → be ≤ C.big →
      (∀ q ∈ seen, ∃ eq, errAt C y q = some eq ∧
        ((best ∈ seen ∧ ∃ er, errAt C y best = some er ∧ er ≤ C.big ∧ (er ≤ eq ∨ C.big ≤ eq)) ∨
          (best = guess ∧ C.big ≤ eq))) ∧
      (best = guess ∨ best ∈ seen) := by
    intro best be seen hb hs hle
    refine ⟨fun q hq => ?_, ?_⟩
    · obtain ⟨eq, h⟩ := hs q hq
      have heq : errAt C y q = some eq := by rcases h with h | h <;> exact h.1
      have hor : be ≤ eq ∨ C.big ≤ eq := by
        rcases h with h | h
        · exact Or.inl h.2
        · exact Or.inr h.2
      refine ⟨eq, heq, ?_⟩
      rcases hb with ⟨b1, b2⟩ | ⟨b1, b2⟩
      · right
        refine ⟨b2, ?_⟩
        rcases hor with h | h
        · exact b1 ▸ h
        · exact h
      · exact Or.inl ⟨b1, be, b2, hle, hor⟩
    · rcases hb with ⟨-, b2⟩ | ⟨b1, -⟩
      · exact Or.inl b2
      · exact Or.inr b1
  induction k generalizing X best be seen with
  | zero =>
    cases h
    exact ⟨⟨[], by simp, by simp⟩, fun _ => fb _ be _ hb hs hle, fun h => by cases h⟩
  | succ k ih =>
    unfold newtonLoop at h
    cases hf : C.f X with
    | none =>
      rw [hf] at h
      cases h
      exact ⟨⟨[], by simp, by simp⟩, fun _ => fb _ be _ hb hs hle, fun h => by cases h⟩
    | some fx =>
      rw [hf] at h
      simp only at h
      have hX : errAt C y X = some (C.norm (fx.1 - y.1, fx.2 - y.2)) := by simp [errAt, hf]
      generalize hn : C.norm (fx.1 - y.1, fx.2 - y.2) = nf at h hX
      generalize hr : (if nf < be then (X, nf) else (best, be)) = rr at h
      -- the best point after the update
      have hb' : (rr.2 = C.big ∧ rr.1 = guess) ∨ (rr.1 ∈ seen ++ [X] ∧ errAt C y rr.1 = some rr.2) := by
        by_cases hlt : nf < be
        · rw [if_pos hlt] at hr; subst hr
          exact Or.inr ⟨by simp, hX⟩
        · rw [if_neg hlt] at hr; subst hr
          rcases hb with hb | ⟨b1, b2⟩
          · exact Or.inl hb
          · exact Or.inr ⟨List.mem_append_left _ b1, b2⟩
      have hrbe : rr.2 ≤ be ∧ rr.2 ≤ nf := by
        by_cases hlt : nf < be
        · rw [if_pos hlt] at hr; subst hr; exact ⟨hlt.le, le_rfl⟩
        · rw [if_neg hlt] at hr; subst hr; exact ⟨le_rfl, not_lt.1 hlt⟩
      have hs' : ∀ q ∈ seen ++ [X], ∃ e, errAt C y q = some e ∧ rr.2 ≤ e ∨ errAt C y q = some e ∧ C.big ≤ e := by
        intro q hq
        rcases List.mem_append.1 hq with hq | hq
        · obtain ⟨e, h | h⟩ := hs q hq
          · exact ⟨e, Or.inl ⟨h.1, hrbe.1.trans h.2⟩⟩
          · exact ⟨e, Or.inr h⟩
        · rw [List.mem_singleton.1 hq]
          exact ⟨nf, Or.inl ⟨hX, hrbe.2⟩⟩
      have hle' : rr.2 ≤ C.big := hrbe.1.trans hle
      cases hj : C.jac X step with
      | none =>
        rw [hj] at h
        cases h
        exact ⟨⟨[X], rfl, by simp⟩, fun _ => fb rr.1 rr.2 _ hb' hs' hle', fun h => by cases h⟩
      | some J =>
        obtain ⟨j0, j1, j2, j3⟩ := J
        rw [hj] at h
        simp only at h
        by_cases hdet : |j0 * j3 - j1 * j2| < 1 / 1000000
        · rw [if_pos hdet] at h
          cases h
          exact ⟨⟨[X], rfl, by simp⟩, fun _ => fb rr.1 rr.2 _ hb' hs' hle', fun h => by cases h⟩
        · rw [if_neg hdet] at h
          have hdne : j0 * j3 - j1 * j2 ≠ 0 := by
            intro h0; rw [h0] at hdet; apply hdet; norm_num
          generalize hd : (((j3 * (fx.1 - y.1) - j1 * (fx.2 - y.2)) / (j0 * j3 - j1 * j2),
            (j0 * (fx.2 - y.2) - j2 * (fx.1 - y.1)) / (j0 * j3 - j1 * j2)) : V2 K) = d at h
          by_cases ht : C.norm d < tol
          · rw [if_pos ht] at h
            cases h
            refine ⟨⟨[X], rfl, by simp⟩, (fun h => by cases h), fun _ => ?_⟩
            refine ⟨X, fx, j0, j1, j2, j3, by simp, hf, hj, hdet, ?_, ?_⟩
            · generalize fx.1 - y.1 = F1
              generalize fx.2 - y.2 = F2
              have h1 : (j0 * j3 - j1 * j2) * ((j3 * F1 - j1 * F2) / (j0 * j3 - j1 * j2)) = j3 * F1 - j1 * F2 :=
                mul_div_cancel₀ _ hdne
              have h2 : (j0 * j3 - j1 * j2) * ((j0 * F2 - j2 * F1) / (j0 * j3 - j1 * j2)) = j0 * F2 - j2 * F1 :=
                mul_div_cancel₀ _ hdne
              generalize (j3 * F1 - j1 * F2) / (j0 * j3 - j1 * j2) = d1 at h1 ⊢
              generalize (j0 * F2 - j2 * F1) / (j0 * j3 - j1 * j2) = d2 at h2 ⊢
              simp only [sub_sub_cancel]
              constructor
              · refine mul_left_cancel₀ hdne ?_
                linear_combination j0 * h1 + j1 * h2
              · refine mul_left_cancel₀ hdne ?_
                linear_combination j2 * h1 + j3 * h2
            · rw [← hd] at ht
              simp only [sub_sub_cancel]; exact ht
          · rw [if_neg ht] at h
            obtain ⟨⟨new, n1, n2⟩, h2, h3⟩ := ih _ _ _ _ hb' hs' hle' h
            refine ⟨⟨X :: new, by rw [n1]; simp, by simp; omega⟩, h2, h3⟩

/-- **C90.** The function is evaluated as part of at most 19 iterations.  When the solver falls back, the result is one of
the points evaluated and no other has a smaller error, or the guess if the function could not be evaluated there or all
errors were as large as a double can be. -/
theorem newton_fallback (C : NewtonCtx K) (guess y : V2 K) (step tol : K) (r : V2 K) (seen : List (V2 K))
    (h : newtonSolve C guess y step tol = (r, .fallback, seen)) :
    seen.length ≤ 19 ∧ (r = guess ∨ r ∈ seen) ∧ ∀ q ∈ seen, ∃ eq, errAt C y q = some eq ∧ (eq < C.big →
      r ∈ seen ∧ ∃ er, errAt C y r = some er ∧ er ≤ eq) := by
  obtain ⟨⟨new, n1, n2⟩, h2, -⟩ := newtonLoop_spec C y step tol guess 19 guess guess C.big [] (Or.inl ⟨rfl, rfl⟩) (by simp)
    le_rfl r .fallback seen h
  obtain ⟨h2, h3⟩ := h2 rfl
  refine ⟨by rw [n1]; simpa using n2, h3, fun q hq => ?_⟩
  obtain ⟨eq, h4, h5⟩ := h2 q hq
  refine ⟨eq, h4, fun hlt => ?_⟩
  rcases h5 with ⟨h5, er, h6, h7, h8⟩ | ⟨-, h5⟩
  · refine ⟨h5, er, h6, ?_⟩
    rcases h8 with h8 | h8
    · exact h8
    · exact absurd hlt (not_lt.2 h8)
  · exact absurd hlt (not_lt.2 h5)

/-- **C90.** When the solver ends because of the tolerance, the result is the last point evaluated plus a solution of the
linearised equations there, which is shorter than the tolerance. -/
theorem newton_converged (C : NewtonCtx K) (guess y : V2 K) (step tol : K) (r : V2 K) (seen : List (V2 K))
    (h : newtonSolve C guess y step tol = (r, .converged, seen)) :
    ∃ X fx j0 j1 j2 j3, seen.getLast? = some X ∧ C.f X = some fx ∧ C.jac X step = some (j0, j1, j2, j3) ∧
      j0 * j3 - j1 * j2 ≠ 0 ∧ j0 * (X.1 - r.1) + j1 * (X.2 - r.2) = fx.1 - y.1 ∧
      j2 * (X.1 - r.1) + j3 * (X.2 - r.2) = fx.2 - y.2 ∧ C.norm (X.1 - r.1, X.2 - r.2) < tol := by
  obtain ⟨-, -, h3⟩ := newtonLoop_spec C y step tol guess 19 guess guess C.big [] (Or.inl ⟨rfl, rfl⟩) (by simp)
    le_rfl r .converged seen h
  obtain ⟨X, fx, j0, j1, j2, j3, a1, a2, a3, a4, a5, a6⟩ := h3 rfl
  refine ⟨X, fx, j0, j1, j2, j3, a1, a2, a3, fun h0 => ?_, a5.1, a5.2, a6⟩
  rw [h0] at a4; apply a4; norm_num

/-- **C90.** If the function has no value at the guess, the guess is returned. -/
theorem newton_no_value (C : NewtonCtx K) (guess y : V2 K) (step tol : K) (h : C.f guess = none) :
    newtonSolve C guess y step tol = (guess, .fallback, []) := by
  unfold newtonSolve newtonLoop
  rw [h]

/-! ## The numerical Jacobian -/

/-- A function of two variables of degree at most two, by its coefficients. -/
def quad (a b c p q r : K) (X : V2 K) : K := a + b * X.1 + c * X.2 + p * X.1 ^ 2 + q * (X.1 * X.2) + r * X.2 ^ 2

/-- **C90.** The numerical Jacobian is exact for polynomials of degree at most two, whatever the step. -/
theorem numJac_quadratic (a b c p q r a' b' c' p' q' r' step : K) (hs : step ≠ 0) (P : V2 K) :
    numJac (fun X => some (quad a b c p q r X, quad a' b' c' p' q' r' X)) P step =
      some (b + 2 * p * P.1 + q * P.2, c + q * P.1 + 2 * r * P.2,
        b' + 2 * p' * P.1 + q' * P.2, c' + q' * P.1 + 2 * r' * P.2) := by
  have h2 : (2 * step) ≠ 0 := mul_ne_zero two_ne_zero hs
  simp only [numJac, Option.bind_eq_bind, Option.bind_some, Option.some.injEq, Prod.mk.injEq, quad]
  refine ⟨?_, ?_, ?_, ?_⟩ <;> rw [div_eq_iff h2] <;> ring

/-- An affine map. -/
def affine (a b c a' b' c' : K) (X : V2 K) : Option (V2 K) := some (a + b * X.1 + c * X.2, a' + b' * X.1 + c' * X.2)

theorem numJac_affine (a b c a' b' c' step : K) (hs : step ≠ 0) (P : V2 K) :
    numJac (affine a b c a' b' c') P step = some (b, c, b', c') := by
  have := numJac_quadratic a b c 0 0 0 a' b' c' 0 0 0 step hs P
  simp only [quad, mul_zero, zero_mul, add_zero] at this
  exact this

/-- **C90.** For an affine map whose determinant is not tiny, the solver with the numerical Jacobian finds the solution
from any guess, with any step and tolerance. -/
theorem newton_affine (a b c a' b' c' step tol big : K) (norm : V2 K → K) (hs : step ≠ 0)
    (hdet : 1 / 1000000 ≤ |b * c' - c * b'|) (guess y : V2 K)
    (hn0 : ∀ v, norm v = 0 ↔ v = (0, 0)) (hn1 : ∀ v, 0 ≤ norm v)
    (hbig : 0 < big) :
    affine a b c a' b' c' (newtonSolve ⟨affine a b c a' b' c', numJac (affine a b c a' b' c'), norm, big⟩ guess y step tol).1
      = some y := by
  have hdne : b * c' - c * b' ≠ 0 := by
    intro h0; rw [h0, abs_zero] at hdet; norm_num at hdet
  generalize hC : (⟨affine a b c a' b' c', numJac (affine a b c a' b' c'), norm, big⟩ : NewtonCtx K) = C
  have hf : C.f = affine a b c a' b' c' := by rw [← hC]
  have hj : ∀ X, C.jac X step = some (b, c, b', c') := fun X => by rw [← hC]; exact numJac_affine a b c a' b' c' step hs X
  have hnorm : C.norm = norm := by rw [← hC]
  have hbig' : C.big = big := by rw [← hC]
  -- after an update the point is the solution
  have sol : ∀ X : V2 K, affine a b c a' b' c'
      (X.1 - (c' * (a + b * X.1 + c * X.2 - y.1) - c * (a' + b' * X.1 + c' * X.2 - y.2)) / (b * c' - c * b'),
       X.2 - (b * (a' + b' * X.1 + c' * X.2 - y.2) - b' * (a + b * X.1 + c * X.2 - y.1)) / (b * c' - c * b')) = some y := by
    intro X
    simp only [affine, Option.some.injEq]
    generalize hF1 : a + b * X.1 + c * X.2 - y.1 = F1
    generalize hF2 : a' + b' * X.1 + c' * X.2 - y.2 = F2
    have h1 : (b * c' - c * b') * ((c' * F1 - c * F2) / (b * c' - c * b')) = c' * F1 - c * F2 := mul_div_cancel₀ _ hdne
    have h2 : (b * c' - c * b') * ((b * F2 - b' * F1) / (b * c' - c * b')) = b * F2 - b' * F1 := mul_div_cancel₀ _ hdne
    generalize (c' * F1 - c * F2) / (b * c' - c * b') = d1 at h1
    generalize (b * F2 - b' * F1) / (b * c' - c * b') = d2 at h2
    refine Prod.ext ?_ ?_
    · refine mul_left_cancel₀ hdne ?_
      linear_combination (-b) * h1 - c * h2 + (b * c' - c * b') * hF1
    · refine mul_left_cancel₀ hdne ?_
      linear_combination (-b') * h1 - c' * h2 + (b * c' - c * b') * hF2
  -- from a solution the loop returns a solution
  have stay : ∀ (k : Nat) (X best : V2 K) (be : K) (seen : List (V2 K)), affine a b c a' b' c' X = some y →
      (affine a b c a' b' c' best = some y ∨ 0 < be) → (1 ≤ k ∨ affine a b c a' b' c' best = some y) →
      affine a b c a' b' c' (newtonLoop C y step tol k X best be seen).1 = some y := by
    intro k
    induction k with
    | zero =>
      intro X best be seen hX hb hk
      rcases hk with h | h
      · exact absurd h (by omega)
      · exact h
    | succ k ih =>
      intro X best be seen hX hb _
      unfold newtonLoop
      have hX' := hX
      simp only [affine, Option.some.injEq] at hX'
      have e1 : a + b * X.1 + c * X.2 = y.1 := congrArg Prod.fst hX'
      have e2 : a' + b' * X.1 + c' * X.2 = y.2 := congrArg Prod.snd hX'
      rw [hf]
      simp only [hX, hj, hnorm, sub_self, mul_zero, zero_div, sub_zero]
      have hz : norm ((0 : K), (0 : K)) = 0 := (hn0 _).2 rfl
      rw [if_neg (not_lt.2 hdet), hz]
      by_cases ht : (0 : K) < tol
      · rw [if_pos ht]; exact hX
      · rw [if_neg ht]
        have hbest : affine a b c a' b' c' (if 0 < be then (X, (0 : K)) else (best, be)).1 = some y := by
          by_cases h0 : 0 < be
          · rw [if_pos h0]; exact hX
          · rw [if_neg h0]
            rcases hb with h | h
            · exact h
            · exact absurd h h0
        exact ih X _ _ _ hX (Or.inl hbest) (Or.inr hbest)
  unfold newtonSolve
  unfold newtonLoop
  rw [hf]
  simp only [affine, hj, hnorm, hbig']
  rw [if_neg (not_lt.2 hdet)]
  by_cases ht : norm ((c' * (a + b * guess.1 + c * guess.2 - y.1) - c * (a' + b' * guess.1 + c' * guess.2 - y.2)) / (b * c' - c * b'),
      (b * (a' + b' * guess.1 + c' * guess.2 - y.2) - b' * (a + b * guess.1 + c * guess.2 - y.1)) / (b * c' - c * b')) < tol
  · rw [if_pos ht]
    exact sol guess
  · rw [if_neg ht]
    have := stay 18 _ (if norm (a + b * guess.1 + c * guess.2 - y.1, a' + b' * guess.1 + c' * guess.2 - y.2) < big then
        (guess, norm (a + b * guess.1 + c * guess.2 - y.1, a' + b' * guess.1 + c' * guess.2 - y.2)) else (guess, big)).1
      (if norm (a + b * guess.1 + c * guess.2 - y.1, a' + b' * guess.1 + c' * guess.2 - y.2) < big then
        (guess, norm (a + b * guess.1 + c * guess.2 - y.1, a' + b' * guess.1 + c' * guess.2 - y.2)) else (guess, big)).2
      ([] ++ [guess]) (sol guess) ?_ (Or.inl (by omega))
    · exact this
    · by_cases hlt : norm (a + b * guess.1 + c * guess.2 - y.1, a' + b' * guess.1 + c' * guess.2 - y.2) < big
      · rw [if_pos hlt]
        rcases (hn1 (a + b * guess.1 + c * guess.2 - y.1, a' + b' * guess.1 + c' * guess.2 - y.2)).lt_or_eq with h | h
        · exact Or.inr h
        · left
          have h0 := (hn0 _).1 h.symm
          have e1 := congrArg Prod.fst h0
          have e2 := congrArg Prod.snd h0
          simp only at e1 e2
          simp only [affine, Option.some.injEq]
          exact Prod.ext (by simpa using sub_eq_zero.1 e1) (by simpa using sub_eq_zero.1 e2)
      · rw [if_neg hlt]; exact Or.inr hbig

/-! ## Cases -/

/-- The sum of the absolute values of the coordinates serves as a norm here. -/
def norm1 (v : V2 ℚ) : ℚ := |v.1| + |v.2|

/-- `newton_affine` applies: two lines that meet. -/
example : affine (1 : ℚ) 2 3 4 5 6
    (newtonSolve ⟨affine 1 2 3 4 5 6, numJac (affine 1 2 3 4 5 6), norm1, 10 ^ 9⟩ (100, -7) (3, 8) (1 / 1000) (1 / 1000)).1 =
      some (3, 8) := by
  refine newton_affine 1 2 3 4 5 6 (1 / 1000) (1 / 1000) (10 ^ 9) norm1 (by norm_num) (by norm_num [abs_of_neg]) _ _ ?_ ?_ (by norm_num)
  · intro v
    constructor
    · intro h
      have h1 := abs_nonneg v.1
      have h2 := abs_nonneg v.2
      unfold norm1 at h
      exact Prod.ext (abs_eq_zero.1 (by linarith)) (abs_eq_zero.1 (by linarith))
    · rintro rfl; simp [norm1]
  · intro v; exact add_nonneg (abs_nonneg _) (abs_nonneg _)

/-- A function with a jump near its root. -/
def jump (X : V2 ℚ) : Option (V2 ℚ) := some (if X.1 < 1 then X.1 + 100 else X.1 - 1 / 2, X.2)

/-- Refuted: the result is never worse than the guess.  The last point is returned without the function being evaluated
there. -/
theorem newton_worse :
    newtonSolve ⟨jump, fun _ _ => some (1, 0, 0, 1), norm1, 10 ^ 9⟩ (1, 0) (0, 0) 1 1 = ((1 / 2, 0), .converged, [(1, 0)]) ∧
    (errAt ⟨jump, fun _ _ => some (1, 0, 0, 1), norm1, 10 ^ 9⟩ (0, 0) (1, 0) = some (1 / 2)) ∧
    (errAt ⟨jump, fun _ _ => some (1, 0, 0, 1), norm1, 10 ^ 9⟩ (0, 0) (1 / 2, 0) = some (201 / 2)) := by
  refine ⟨?_, ?_, ?_⟩ <;> decide +kernel

/-- The case of a fallback: the Jacobian is singular. -/
example : newtonSolve ⟨jump, fun _ _ => some (1, 1, 1, 1), norm1, 10 ^ 9⟩ (1, 0) (0, 0) 1 1 = ((1, 0), .fallback, [(1, 0)]) := by
  decide +kernel

end Verif.Opt
