import Mathlib.Algebra.Order.Field.Basic
import Mathlib.Tactic.NormNum

/-
Model of src/vw/Math/NewtonRaphson.cc.  Numbers are an ordered field (exact arithmetic); `none` as a value of the function
or of the Jacobian stands for an exception or, for the function, NaN.  `norm` is `norm_2`, `big` the largest double.
-/

namespace Verif.Opt

variable {K : Type} [Field K] [LinearOrder K]

/-- `Vector2` -/
abbrev V2 (K : Type) := K × K

/-- What a solver depends on (src/vw/Math/NewtonRaphson.h:33-56, src/vw/Math/NewtonRaphson.cc:49-56). -/
structure NewtonCtx (K : Type) where
  f : V2 K → Option (V2 K)
  /-- the Jacobian, given the step, by rows -/
  jac : V2 K → K → Option (K × K × K × K)
  norm : V2 K → K
  big : K

/-- `numericalJacobian::operator()` (src/vw/Math/NewtonRaphson.cc:27-47). -/
def numJac (f : V2 K → Option (V2 K)) (P : V2 K) (step : K) : Option (K × K × K × K) := do
  let a ← f (P.1 + step, P.2)
  let b ← f (P.1 - step, P.2)
  let c ← f (P.1, P.2 + step)
  let d ← f (P.1, P.2 - step)
  let jx : V2 K := ((a.1 - b.1) / (2 * step), (a.2 - b.2) / (2 * step))
  let jy : V2 K := ((c.1 - d.1) / (2 * step), (c.2 - d.2) / (2 * step))
  some (jx.1, jy.1, jx.2, jy.2)

/-- How `solve` ended: the last step was smaller than the tolerance, or it fell back to the best point. -/
inductive NewtonEnd | converged | fallback
  deriving DecidableEq, Repr

/-- `solve` (src/vw/Math/NewtonRaphson.cc:58-119) after some iterations: the iterations left, the current point, the best
one and its error.  The result comes with the way it ended and the points at which the function was evaluated. -/
def newtonLoop (C : NewtonCtx K) (y : V2 K) (step tol : K) :
    Nat → V2 K → V2 K → K → List (V2 K) → V2 K × NewtonEnd × List (V2 K)
  | 0, _, best, _, seen => (best, .fallback, seen)
  | k + 1, X, best, bestErr, seen =>
    match C.f X with
    | none => (best, .fallback, seen)
    | some fx =>
      let F : V2 K := (fx.1 - y.1, fx.2 - y.2)
      let seen := seen ++ [X]
      let r : V2 K × K := if C.norm F < bestErr then (X, C.norm F) else (best, bestErr)
      match C.jac X step with
      | none => (r.1, .fallback, seen)
      | some (j0, j1, j2, j3) =>
        let det := j0 * j3 - j1 * j2
        if |det| < 1 / 1000000 then (r.1, .fallback, seen)
        else
          let d : V2 K := ((j3 * F.1 - j1 * F.2) / det, (j0 * F.2 - j2 * F.1) / det)
          let X' : V2 K := (X.1 - d.1, X.2 - d.2)
          if C.norm d < tol then (X', .converged, seen)
          else newtonLoop C y step tol k X' r.1 r.2 seen

/-- `solve` (src/vw/Math/NewtonRaphson.cc:58-119): `count` runs from 1 to 19. -/
def newtonSolve (C : NewtonCtx K) (guess y : V2 K) (step tol : K) : V2 K × NewtonEnd × List (V2 K) :=
  newtonLoop C y step tol 19 guess guess C.big []

end Verif.Opt
