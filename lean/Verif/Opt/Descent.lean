import Mathlib.LinearAlgebra.Matrix.DotProduct
import Mathlib.Algebra.Order.Field.Basic

/-
Model of src/vw/Math/ConjugateGradient.h.  Points and gradients are vectors over an ordered
field (exact arithmetic); the function and its gradient are total functions.  Messages are not modelled.
-/

namespace Verif.Opt

variable {n : Type} [Fintype n] {K : Type} [Field K] [LinearOrder K]

/-- A function to minimise with its gradient: `FuncT` (src/vw/Math/ConjugateGradient.h:25-50).  Nothing says that the
gradient is right. -/
structure Func (n K : Type) where
  val : (n → K) → K
  grad : (n → K) → n → K
  /-- `dimension()` -/
  dim : Nat

/-- A step rule: function, position, value there, gradient, direction, to the new position. -/
abbrev StepRule (n K : Type) := Func n K → (n → K) → K → (n → K) → (n → K) → (n → K)

/-- `ConstantStepSize` (src/vw/Math/ConjugateGradient.h:83-95). -/
def constantStep (s : K) : StepRule n K := fun _ pos _ _ dir => pos + s • dir

/-- The loop of `ArmijoStepSize` (src/vw/Math/ConjugateGradient.h:110-124); the first argument is
`m_max_iterations + 1 - count`, so that `count > m_max_iterations` says that it is 0. -/
def armijoLoop (F : Func n K) (beta : K) (pos dir : n → K) (val : K) : Nat → K → K → (n → K)
  | 0, step, _ => pos + step • dir
  | k + 1, step, thresh =>
    let newPos := pos + step • dir
    if F.val newPos - val ≤ thresh then newPos
    else armijoLoop F beta pos dir val k (step * beta) (thresh * beta)

/-- `ArmijoStepSize` (src/vw/Math/ConjugateGradient.h:98-126). -/
def armijo (step0 beta sigma : K) : StepRule n K := fun F pos val grad dir =>
  armijoLoop F beta pos dir val 1001 step0 (sigma * step0 * (grad ⬝ᵥ dir))

/-- The variables of `CharalambousStepSize` (src/vw/Math/ConjugateGradient.h:140-144). -/
structure ChState (K : Type) where
  stepdelta : K
  curStep : K
  curVal : K
  curSlope : K

/-- The loop of `CharalambousStepSize` (src/vw/Math/ConjugateGradient.h:148-195), run for at most so many iterations;
`none`: it has not ended by then.  `root` is the square root. -/
def charalambousLoop (F : Func n K) (root : K → K) (mu sigma gamma : K) (pos dir : n → K) (val base : K) :
    Nat → ChState K → Option (n → K)
  | 0, _ => none
  | k + 1, st =>
    let newStep := st.curStep + st.stepdelta
    let newPos := pos + newStep • dir
    let newVal := F.val newPos
    let newSlope := F.grad newPos ⬝ᵥ dir
    if newVal ≤ val + mu * newStep * base ∧ |newSlope| ≤ -sigma * base then some newPos
    else if newSlope ≤ 0 then
      if val ≤ newVal then charalambousLoop F root mu sigma gamma pos dir val base k { st with stepdelta := st.stepdelta * (1 / 10) }
      else charalambousLoop F root mu sigma gamma pos dir val base k ⟨st.stepdelta * 10, newStep, newVal, newSlope⟩
    else
      let d := st.stepdelta
      let a := 3 * ((st.curSlope + newSlope) * d - 2 * (newVal - st.curVal)) / (d * d * d)
      let b := 2 * (3 * (newVal - st.curVal) - (2 * st.curSlope + newSlope) * d) / (d * d)
      let step := if |a| * d < 1 / 10000 * |b| then -st.curSlope / b
        else (-b + root (b * b - 4 * a * st.curSlope)) / (2 * a)
      let step := if step < gamma * d then gamma * d else if (1 - gamma) * d < step then (1 - gamma) * d else step
      charalambousLoop F root mu sigma gamma pos dir val base k { st with stepdelta := step }

/-- `CharalambousStepSize` (src/vw/Math/ConjugateGradient.h:129-197). -/
def charalambous (root : K → K) (step0 mu sigma gamma : K) (fuel : Nat) (F : Func n K) (pos : n → K) (val : K)
    (grad dir : n → K) : Option (n → K) :=
  charalambousLoop F root mu sigma gamma pos dir val (grad ⬝ᵥ dir) fuel ⟨step0, 0, val, grad ⬝ᵥ dir⟩

/-- `steepest_descent` (src/vw/Math/ConjugateGradient.h:200-215). -/
def steepest (F : Func n K) (rule : StepRule n K) : Nat → (n → K) → (n → K)
  | 0, pos => pos
  | k + 1, pos => steepest F rule k (rule F pos (F.val pos) (F.grad pos) (-(F.grad pos)))

/-- The loop of `conjugate_gradient` (src/vw/Math/ConjugateGradient.h:223-239): iterations left, iteration number, position,
squared norm of the last gradient, last direction.  `none`: a division by zero (in C++ NaN in all coordinates of the
position from there on). -/
def cgLoop (F : Func n K) (rule : StepRule n K) : Nat → Nat → (n → K) → K → (n → K) → Option (n → K)
  | 0, _, pos, _, _ => some pos
  | k + 1, i, pos, lastNorm, lastDir =>
    let grad := F.grad pos
    let norm := grad ⬝ᵥ grad
    if i % 20 ≠ 0 ∧ F.dim ≠ 0 then
      if lastNorm = 0 then none
      else
        let dir := -grad + (norm / lastNorm) • lastDir
        cgLoop F rule k (i + 1) (rule F pos (F.val pos) grad dir) norm dir
    else
      cgLoop F rule k (i + 1) (rule F pos (F.val pos) grad (-grad)) norm (-grad)

/-- `conjugate_gradient` (src/vw/Math/ConjugateGradient.h:218-241). -/
def conjugateGradient (F : Func n K) (rule : StepRule n K) (iters : Nat) (seed : n → K) : Option (n → K) :=
  cgLoop F rule iters 0 seed 0 0

end Verif.Opt
