import Mathlib.Order.Defs.LinearOrder
import Mathlib.Order.Basic

/-
Model of src/vw/Math/NelderMead.h.

The numbers are a type with arithmetic operations and a linear order about which no arithmetic law is assumed, so that
what is proved here holds for doubles with rounding as long as no NaN appears.  `DomainT` is a list of coordinates
(`Vector<double>`).  The function to minimise is a total function without side effects.  Messages are not modelled.
-/

namespace Verif.Opt

variable {R : Type} [Add R] [Sub R] [Mul R] [Div R] [Neg R] [NatCast R] [LinearOrder R]

/-- The number with the given natural value (2, 3, the sizes). -/
abbrev num (n : Nat) : R := ((n : Nat) : R)

/-- Sum, difference, multiple and quotient of vectors (src/vw/Math/Vector.h, elementwise). -/
def vadd (a b : List R) : List R := List.zipWith (· + ·) a b
@[inherit_doc vadd] def vsub (a b : List R) : List R := List.zipWith (· - ·) a b
@[inherit_doc vadd] def vmul (c : R) (a : List R) : List R := a.map (c * ·)
@[inherit_doc vadd] def vdiv (a : List R) (c : R) : List R := a.map (· / c)

/-- 0.5 and 1.5 -/
def half : R := num 1 / num 2
@[inherit_doc half] def oneAndHalf : R := num 3 / num 2

/-- `vertex_type` (src/vw/Math/NelderMead.h:49): position and cost. -/
abbrev Vertex (R : Type) := List R × R

/-- `insert_vertex` (src/vw/Math/NelderMead.h:57-64). -/
def insertVertex (v : Vertex R) : List (Vertex R) → List (Vertex R)
  | [] => [v]
  | w :: ws => if v.2 < w.2 then w :: insertVertex v ws else v :: w :: ws

/-- `mean_vertex_location` (src/vw/Math/NelderMead.h:77-84); not called on an empty list (see `update`). -/
def meanLocation : List (Vertex R) → List R
  | [] => []
  | v :: vs => vdiv (vs.foldl (fun acc w => vadd acc w.1) v.1) (num (vs.length + 1))

/-- The constructor of `Simplex` (src/vw/Math/NelderMead.h:88-105).  `none`: the numbers of scales and of coordinates
differ (ArgumentErr). -/
def mkSimplex (f : List R → R) (seed scales : List R) : Option (List (Vertex R)) :=
  if scales.length = seed.length then
    some ((List.range seed.length).foldl
      (fun vs i =>
        let p := seed.modify i (fun x => x + scales[i]?.getD x)
        insertVertex (p, f p) vs)
      [(seed, f seed)])
  else none

/-- What `update` leaves behind: the simplex, the number returned, the points at which the function was evaluated and
whether the whole simplex was shrunk. -/
structure Step (R : Type) where
  simplex : List (Vertex R)
  delta : R
  evals : List (List R)
  shrank : Bool

/-- `update` (src/vw/Math/NelderMead.h:123-187).  `none`: fewer than two vertices, where the C++ program dereferences the
end of an empty list. -/
def update (f : List R → R) : List (Vertex R) → Option (Step R)
  | h :: v :: vs =>
    let rest := v :: vs
    let m := meanLocation rest
    let low := rest.getLast (by simp [rest])
    let top := v
    -- reflect
    let p0 := vsub (vmul (num 2) m) h.1
    let e0 := [p0]
    -- reflect and extend
    let q := vsub (vmul (num 3) m) (vmul (num 2) h.1)
    let p1 := if f p0 < low.2 ∧ f q < f p0 then q else p0
    let e1 := if f p0 < low.2 then e0 ++ [q] else e0
    -- reflect and shrink
    let p2 := if top.2 < f p1 then vsub (vmul oneAndHalf m) (vmul half h.1) else p1
    let e2 := if top.2 < f p1 then e1 ++ [p2] else e1
    -- shrink
    let p3 := if top.2 < f p2 then vmul half (vadd m h.1) else p2
    let e3 := if top.2 < f p2 then e2 ++ [p3] else e2
    -- shrink all
    if top.2 < f p3 then
      let p4 := vmul half (vadd h.1 low.1)
      let moved := rest.dropLast.map (fun w =>
        let p := vmul half (vadd w.1 low.1)
        (p, f p))
      some ⟨insertVertex (p4, f p4) (moved ++ [low]), h.2 - f p4, e3 ++ [p4] ++ moved.map Prod.fst, true⟩
    else some ⟨insertVertex (p3, f p3) rest, h.2 - f p3, e3, false⟩
  | _ => none

/-- `fabs(delta) > tolerance` -/
def bigger (delta tol : R) : Prop := tol < delta ∨ tol < -delta

instance (delta tol : R) : Decidable (bigger delta tol) := by unfold bigger; infer_instance

/-- `location()` (src/vw/Math/NelderMead.h:117): the position of the last vertex. -/
def location (s : List (Vertex R)) : Option (List R) := s.getLast?.map Prod.fst

/-- `value()` (src/vw/Math/NelderMead.h:118). -/
def value (s : List (Vertex R)) : Option R := s.getLast?.map Prod.snd

/-- The while loop (src/vw/Math/NelderMead.h:212-218), `fuel` being `max_iterations + 1 - iterations` or 0, so that
`iterations <= max_iterations` says that `fuel` is positive.  Returns the simplex, the number of iterations and the last
`delta`. -/
def minLoop (f : List R → R) (tol : R) : Nat → Nat → List (Vertex R) → R → Option (List (Vertex R) × Nat × R)
  | 0, iterations, s, delta => some (s, iterations, delta)
  | fuel + 1, iterations, s, delta =>
    if bigger delta tol then do
      let st ← update f s
      minLoop f tol fuel (iterations + 1) st.simplex st.delta
    else some (s, iterations, delta)

/-- One run from a start (src/vw/Math/NelderMead.h:207-224): the result and the number of iterations. -/
def oneRun (f : List R → R) (scale : List R) (tol : R) (maxIter : Int) (start : List R) :
    Option (List R × Nat) := do
  let s ← mkSimplex f start scale
  let st ← update f s
  let (s, iterations, _) ← minLoop f tol (maxIter + 1).toNat 0 st.simplex st.delta
  let r ← location s
  some (r, iterations)

/-- The loop over the restarts (src/vw/Math/NelderMead.h:205-225). -/
def restartLoop (f : List R → R) (scale : List R) (tol : R) (maxIter : Int) : Nat → List R → Nat → Option (List R × Nat)
  | 0, result, iterations => some (result, iterations)
  | k + 1, result, _ => do
    let (r, iterations) ← oneRun f scale tol maxIter result
    restartLoop f scale tol maxIter k r iterations

/-- `NM_STATUS_CODES` (src/vw/Math/NelderMead.h:41-42). -/
inductive NMStatus | didNotConverge | convergedRelTolerance
  deriving DecidableEq, Repr

/-- `nelder_mead` (src/vw/Math/NelderMead.h:190-231), `restarts` being non-negative (a negative number acts like 0).
`none`: an exception or undefined behaviour, see `mkSimplex` and `update`. -/
def nelderMead (f : List R → R) (seed scale : List R) (restarts : Nat) (tol : R) (maxIter : Int) :
    Option (List R × NMStatus) := do
  let (r, iterations) ← restartLoop f scale tol maxIter restarts seed 0
  some (r, if (iterations : Int) ≥ maxIter then .didNotConverge else .convergedRelTolerance)

/-- The form without scales (src/vw/Math/NelderMead.h:233-239). -/
def nelderMead1 (f : List R → R) (seed : List R) (restarts : Nat) (tol : R) (maxIter : Int) :
    Option (List R × NMStatus) :=
  nelderMead f seed (List.replicate seed.length (num 1)) restarts tol maxIter

end Verif.Opt
