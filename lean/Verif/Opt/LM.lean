import Mathlib.LinearAlgebra.Matrix.DotProduct
import Mathlib.Analysis.Real.Sqrt

/-
Model of `levenberg_marquardt` and `levenberg_marquardtFixed` (src/vw/Math/LevenbergMarquardt.h:177-329, 388-561), which
are the same program but for the sizes of the matrices and the messages.

A problem consists of the norm of the difference between observation and model at a point, and of the point tried next
from a point, which depends on `lambda` (a power of ten, of which the exponent is kept).  The numbers that norms are have a
relation `<` about which nothing is assumed here, so that NaN can be among them.  The model function and the solvers do not
throw.
-/

namespace Verif.Opt

/-- What a run of the minimiser depends on. -/
structure LMProblem (X E : Type) where
  /-- `norm_2(model.difference(observation, model(x)))` (src/vw/Math/LevenbergMarquardt.h:193-196, 220-225) -/
  norm : X → E
  /-- `x - delta_x` (src/vw/Math/LevenbergMarquardt.h:242-269); see `LMStep` for what it is -/
  trial : X → ℤ → X
  /-- `norm_start + 1.0` (src/vw/Math/LevenbergMarquardt.h:237) -/
  bump : E → E
  /-- `((norm_start-norm_try)/norm_start) < rel_tolerance` (src/vw/Math/LevenbergMarquardt.h:294) -/
  rel : E → E → Bool
  /-- `abs_tolerance` -/
  absTol : E
  /-- the value of `x_try` before anything is assigned to it -/
  unset : X

/-- `LM_STATUS_CODES` (src/vw/Math/LevenbergMarquardt.h:142-145). -/
inductive LMStatus | didNotConverge | statusUnknown | convergedAbsTolerance | convergedRelTolerance
  deriving DecidableEq, Repr

variable {X E : Type} [LT E] [DecidableLT E]

/-- What the inner loop leaves behind: `x_try`, `norm_try`, `lambda`, `shortCircuit`. -/
structure Inner (X E : Type) where
  xTry : X
  normTry : E
  lambda : ℤ
  short : Bool

/-- The inner loop (src/vw/Math/LevenbergMarquardt.h:238-290) from when it is entered; the first argument is the number of
trials left before the loop is left anyway. -/
def inner (P : LMProblem X E) (x : X) : Nat → ℤ → X → Inner X E
  | 0, lam, xTry => ⟨xTry, P.norm x, lam, true⟩
  | k + 1, lam, _ =>
    let xTry := P.trial x lam
    if P.norm x < P.norm xTry then inner P x k (lam + 1) xTry
    else if k = 0 then ⟨xTry, P.norm x, lam, true⟩
    else ⟨xTry, P.norm xTry, lam, false⟩

/-- The inner loop with its first test (src/vw/Math/LevenbergMarquardt.h:236-238). -/
def innerLoop (P : LMProblem X E) (x : X) (lam : ℤ) (xTry : X) : Inner X E :=
  if P.norm x < P.bump (P.norm x) then inner P x 6 lam xTry
  else ⟨xTry, P.bump (P.norm x), lam, false⟩

/-- The status after an iteration, if it was the last (src/vw/Math/LevenbergMarquardt.h:292-305): nothing, if neither
test says that it converged. -/
def verdict (P : LMProblem X E) (x : X) (r : Inner X E) : Option LMStatus :=
  if r.normTry < P.absTol then some .convergedAbsTolerance
  else if !r.short && P.rel (P.norm x) r.normTry then some .convergedRelTolerance
  else none

/-- The outer loop (src/vw/Math/LevenbergMarquardt.h:209-327).  The first argument is the number of iterations after
this one.  The accepted points are listed as well, the last first. -/
def outer (P : LMProblem X E) : Nat → X → ℤ → X → List X → List X × LMStatus
  | k, x, lam, xTry, past =>
    let r := innerLoop P x lam xTry
    let x' := if r.short then x else r.xTry
    match verdict P x r, k with
    | some s, _ => (x' :: past, s)
    | none, 0 => (x' :: past, .didNotConverge)
    | none, k + 1 => outer P k x' (r.lambda - 1) r.xTry (x' :: past)

/-- `levenberg_marquardt` (src/vw/Math/LevenbergMarquardt.h:177-329): the points accepted, the result first and the seed
last, and the status.  `maxIter` is the number of iterations allowed if that is positive; 0 or less acts like 1. -/
def lmTrace (P : LMProblem X E) (seed : X) (maxIter : Nat) : List X × LMStatus :=
  if P.norm seed < P.absTol then ([seed], .convergedAbsTolerance)
  else outer P (maxIter - 1) seed (-1) P.unset [seed]

/-- The result returned. -/
def lm (P : LMProblem X E) (seed : X) (maxIter : Nat) : X × LMStatus :=
  ((lmTrace P seed maxIter).1.headD seed, (lmTrace P seed maxIter).2)

/-! ## The step -/

open Matrix

variable {m n : Type} [Fintype m] [Fintype n] [DecidableEq n]

/-- `hessian_lm` (src/vw/Math/LevenbergMarquardt.h:234, 242-245) for a Jacobian and a `lambda`; `Rinv` is 10. -/
def hessianLM (J : Matrix m n ℝ) (lam : ℝ) : Matrix n n ℝ :=
  let H := (10 : ℝ) • (Jᵀ * J)
  fun i j => if i = j then H i i + (H i i * lam + lam) else H i j

/-- `del_J` (src/vw/Math/LevenbergMarquardt.h:231). -/
def delJ (J : Matrix m n ℝ) (error : m → ℝ) : n → ℝ := (-10 : ℝ) • (Jᵀ *ᵥ error)

/-- What the three solvers (src/vw/Math/LevenbergMarquardt.h:249-264) are expected to return: a solution of the linear
equations. -/
def LMStep (J : Matrix m n ℝ) (error : m → ℝ) (lam : ℝ) (delta : n → ℝ) : Prop :=
  hessianLM J lam *ᵥ delta = delJ J error

end Verif.Opt
