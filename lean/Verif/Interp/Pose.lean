import Verif.Camera.AxisProps
import Verif.Interp.SmoothProps

/-
Model of src/vw/Math/QuatInterp.{h,cc}: interpolation of orientations and of directions on a grid.  Numbers are the reals.
-/

namespace Verif.Camera.Interp

open Verif.Camera

/-- The zero quaternion. -/
instance : Zero (Quat ℝ) := ⟨⟨0, 0, 0, 0⟩⟩

/-- `round`, of C. -/
noncomputable def cround (x : ℝ) : Int := if 0 ≤ x then ⌊x + 1 / 2⌋ else ⌈x - 1 / 2⌉

/-- `SLERPPoseInterpolation::operator()` (src/vw/Math/QuatInterp.cc:217-254); `eps` is the 1e-6 of slerp, `tol` the 1e-10. -/
noncomputable def slerpPose (eps tol : ℝ) (ps : List (Quat ℝ)) (t0 dt t : ℝ) : Option (Quat ℝ) :=
  if ¬(t0 ≤ t ∧ t ≤ tend t0 dt ps.length) then none
  else
    let ratio := (t - t0) / dt
    let ratio := if |ratio - cround ratio| < tol then (cround ratio : ℝ) else ratio
    let lo : Int := ⌊ratio⌋
    let hi : Int := ⌈ratio⌉
    let lowT := t0 + dt * lo
    let u := (t - lowT) / dt
    let u := if u < 0 then 0 else u
    let u := if 1 < u then 1 else u
    if ¬(0 ≤ lo ∧ hi < ps.length) then none
    else some (slerp eps u (at' ps lo) (at' ps hi) 0)

/-- `SmoothSLERPPoseInterpolation` (src/vw/Math/QuatInterp.cc:348-374). -/
noncomputable def smoothPose (eps tol : ℝ) (sort : List (ℝ × Nat) → List (ℝ × Nat)) (ps : List (Quat ℝ)) (t0 dt : ℝ) (num : Nat) (sigma t : ℝ) :
    Option (Quat ℝ) :=
  if ps.length ≤ 1 then none
  else if ¬(t0 ≤ t ∧ t ≤ tend t0 dt ps.length) then none
  else slerpN eps tol 0 ((weights Real.exp sort t0 dt t ps.length num sigma).map (fun w => (w.1, ps.getD w.2 0)))

/-- The sum of the loop of the Lagrange interpolation, for one component (src/vw/Math/QuatInterp.cc:73-94). -/
noncomputable def lagSum (c : Nat → ℝ) (ts : List ℝ) (t : ℝ) (s len : Nat) : ℝ :=
  (List.range' s len).foldl (fun ans j =>
    ans + (prodExcept (fun i => t - ts.getD i 0) s len j / prodExcept (fun i => ts.getD j 0 - ts.getD i 0) s len j) * c j) 0

/-- `QuatLagrangianInterpolationVarTime::operator()` (src/vw/Math/QuatInterp.cc:42-103); the window is that for positions, the
code is the same. -/
noncomputable def quatVar (ps : List (Quat ℝ)) (ts : List ℝ) (r : Int) (t : ℝ) : Option (Quat ℝ) :=
  match varWindow ts r t with
  | none => none
  | some (start, stop) =>
    let s := start.toNat
    let len := (stop - start).toNat
    let ans : Quat ℝ := ⟨lagSum (fun j => (ps.getD j 0).w) ts t s len, lagSum (fun j => (ps.getD j 0).x) ts t s len,
      lagSum (fun j => (ps.getD j 0).y) ts t s len, lagSum (fun j => (ps.getD j 0).z) ts t s len⟩
    let n := Real.sqrt (ans.w * ans.w + ans.x * ans.x + ans.y * ans.y + ans.z * ans.z)
    some (if 0 < n then ⟨ans.w / n, ans.x / n, ans.y / n, ans.z / n⟩ else ans)

/-- What a call does. -/
inductive Res (α : Type) where
  | ok (a : α)
  | err
  | outside
  deriving DecidableEq

/-- Element of a table of rows; nothing outside it. -/
def cell {α : Type} (d : List (List α)) (i j : Int) : Option α :=
  if 0 ≤ i ∧ 0 ≤ j then (d[i.toNat]?).bind (fun r => r[j.toNat]?) else none

/-- Conversion of a double to int. -/
noncomputable def toInt (x : ℝ) : Int := if 0 ≤ x then ⌊x⌋ else ⌈x⌉

/-- A direction as a quaternion. -/
def pure' (p : V3 ℝ) : Quat ℝ := ⟨0, p.x, p.y, p.z⟩

/-- `SlerpGridPointingInterpolation` (src/vw/Math/QuatInterp.cc:257-345), with its constructor; `outside`: an element that is
not there is read. -/
noncomputable def grid (eps : ℝ) (d : List (List (V3 ℝ))) (row0 drow col0 dcol row col : ℝ) : Res (V3 ℝ) :=
  if d.length = 0 ∨ (d.headD []).length = 0 then .err
  else
    let rowEnd := row0 + drow * ((d.length - 1 : Nat) : ℝ)
    let colEnd := col0 + dcol * (((d.headD []).length - 1 : Nat) : ℝ)
    if ¬(row0 ≤ row ∧ row ≤ rowEnd) then .err
    else
      let lowR : Int := ⌊(row - row0) / drow⌋
      let highR : Int := ⌈(row - row0) / drow⌉
      if ¬(0 ≤ lowR ∧ highR < d.length) then .err
      else
        let u := (row - (row0 + drow * lowR)) / drow
        let lowC : Int := if col < col0 then 0 else if colEnd < col then toInt (colEnd - 1) else ⌊(col - col0) / dcol⌋
        let highC : Int := if col < col0 then 1 else if colEnd < col then toInt colEnd else ⌈(col - col0) / dcol⌉
        let v := (col - (col0 + dcol * lowC)) / dcol
        match cell d lowR lowC, cell d highR lowC, cell d lowR highC, cell d highR highC with
        | some ll, some hl, some lh, some hh =>
          let L := slerp eps u (pure' ll) (pure' hl) 0
          let H := slerp eps u (pure' lh) (pure' hh) 0
          if col0 ≤ col ∧ col ≤ colEnd then
            let q := slerp eps v L H 0
            .ok ⟨q.x, q.y, q.z⟩
          else
            let t := (col - col0) / (colEnd - col0)
            .ok ⟨(1 - t) * L.x + t * H.x, (1 - t) * L.y + t * H.y, (1 - t) * L.z + t * H.z⟩
        | _, _, _, _ => .outside

end Verif.Camera.Interp
