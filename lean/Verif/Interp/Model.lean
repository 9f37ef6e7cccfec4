import Verif.Camera.Vec
import Mathlib.Algebra.Order.Floor.Ring

/-
Model of src/vw/Math/PositionInterp.{h,cc} and src/vw/Camera/TimeInterp.{h,cc}.  Numbers are exact, `floor` and `ceil` are
those of the numbers, conversions to int do not overflow.  No value: an exception.  Curve3DPositionInterpolation (least
squares) is not modelled.
-/

namespace Verif.Camera.Interp

variable {K : Type} [Field K] [LinearOrder K] [FloorRing K]

/-- Element of a vector at an int. -/
def at' {α : Type} [Zero α] (l : List α) (i : Int) : α := l.getD i.toNat 0

/-- `m_tend` (src/vw/Math/PositionInterp.cc:95); the vector is not empty. -/
def tend (t0 dt : K) (n : Nat) : K := t0 + dt * ((n - 1 : Nat) : K)

/-- `LinearPiecewisePositionInterpolation::operator()` (src/vw/Math/PositionInterp.cc:98-124); `eps` is the 1e-8. -/
def linear (eps : K) (ps : List (V3 K)) (t0 dt t : K) : Option (V3 K) :=
  let te := tend t0 dt ps.length
  if ¬(t0 ≤ t ∧ t ≤ te + eps) then none
  else
    let lo : Int := ⌊(t - t0) / dt⌋
    let hi : Int := ⌈(t - t0) / dt⌉
    let hi := if |t - te| < eps ∧ hi = ps.length then lo else hi
    if ¬(0 ≤ lo ∧ hi < ps.length) then none
    else
      let lowT := t0 + dt * lo
      let u := (t - lowT) / dt
      some (at' ps lo + u * (at' ps hi - at' ps lo))

/-- `PiecewiseAPositionInterpolation::operator()` (src/vw/Math/PositionInterp.cc:346-371). -/
def accel (eps : K) (ps vs : List (V3 K)) (t0 dt t : K) : Option (V3 K) :=
  let te := tend t0 dt ps.length
  if ¬(t0 ≤ t ∧ t ≤ te + eps) then none
  else
    let lo : Int := ⌊(t - t0) / dt⌋
    let hi := lo + 1
    let off := t - (t0 + dt * lo)
    let hi := if |t - te| < eps ∧ hi = ps.length then lo else hi
    if ¬(0 ≤ lo ∧ hi < ps.length) then none
    else
      let a := (1 / dt) * (at' vs hi - at' vs lo)
      some (at' ps lo + off * at' vs lo + (off * off / 2) * a)

/-- `HermitePositionInterpolation::operator()` (src/vw/Math/PositionInterp.cc:433-457). -/
def hermite (ps vs : List (V3 K)) (t0 dt t : K) : Option (V3 K) :=
  let te := tend t0 dt ps.length
  if ¬(t0 ≤ t ∧ t < te) then none
  else
    let lo : Int := ⌊(t - t0) / dt⌋
    let hi := lo + 1
    if ¬(0 ≤ lo ∧ hi < ps.length) then none
    else
      let lowT := t0 + dt * lo
      let u := (t - lowT) / dt
      let q1 := u * 1
      let q2 := u * q1
      let q3 := u * q2
      some ((1 * 1 + 0 * q1 + -3 * q2 + 2 * q3) * at' ps lo + (0 * 1 + 1 * q1 + -2 * q2 + 1 * q3) * (dt * at' vs lo)
        + (0 * 1 + 0 * q1 + 3 * q2 + -2 * q3) * at' ps hi + (0 * 1 + 0 * q1 + -1 * q2 + 1 * q3) * (dt * at' vs hi))

/-- The product over the indices of the window other than `j`, in the loops of the Lagrange interpolation
(src/vw/Math/PositionInterp.cc:228-240). -/
def prodExcept (f : Nat → K) (start len j : Nat) : K :=
  (List.range' start len).foldl (fun a i => if i = j then a else a * f i) 1

/-- The constructor of `LagrangianInterpolationVarTime` (src/vw/Math/PositionInterp.cc:182-192) accepts. -/
def varOk (ps : List (V3 K)) (ts : List K) (r : Int) : Bool :=
  decide (1 < ps.length) && decide (ps.length = ts.length) && decide (1 < r)

/-- The index of the next sample (src/vw/Math/PositionInterp.cc:196-208). -/
def nextOf (ts : List K) (t : K) : Int :=
  match ts.findIdx? (fun x => decide (t < x)) with
  | some i => (i : Int)
  | none => (ts.length : Int) - 1

/-- The window of `LagrangianInterpolationVarTime` (src/vw/Math/PositionInterp.cc:210-224): first index and one past the last. -/
def varWindow (ts : List K) (r : Int) (t : K) : Option (Int × Int) :=
  let n : Int := ts.length
  let next := nextOf ts t
  let start := next - r
  let stop := next + r
  let (start, stop) := if start < 0 then ((0 : Int), stop - start) else (start, stop)
  let (start, stop) := if n < stop then (start - (stop - n), n) else (start, stop)
  if ¬(0 ≤ start ∧ stop ≤ n) then none else some (start, stop)

/-- `LagrangianInterpolationVarTime::operator()` (src/vw/Math/PositionInterp.cc:194-243). -/
def lagrangeVar (ps : List (V3 K)) (ts : List K) (r : Int) (t : K) : Option (V3 K) :=
  match varWindow ts r t with
  | none => none
  | some (start, stop) =>
    let s := start.toNat
    let len := (stop - start).toNat
    some ((List.range' s len).foldl (fun ans j =>
      ans + (prodExcept (fun i => t - ts.getD i 0) s len j / prodExcept (fun i => ts.getD j 0 - ts.getD i 0) s len j) * ps.getD j 0) 0)

/-- The constructor of `LagrangianInterpolation` (src/vw/Math/PositionInterp.cc:247-279) accepts; `round` is that of C. -/
def uniOk (n : Nat) (start dt last : K) (r : Int) : Bool :=
  decide (1 < n) && decide (1 < r) && decide (0 < dt) && decide (start < last) && decide ((n : Int) = ⌊(last - start) / dt + 1 / 2⌋ + 1)

/-- `m_denoms` (src/vw/Math/PositionInterp.cc:266-278). -/
def denom (dt : K) (len j : Nat) : K := prodExcept (fun i => (((j : Int) - (i : Int) : Int) : K) * dt) 0 len j

/-- The window of `LagrangianInterpolation` (src/vw/Math/PositionInterp.cc:283-312): first and last index. -/
def uniWindow (n : Nat) (t0 dt : K) (r : Int) (t : K) : Option (Int × Int) :=
  let lo : Int := ⌊(t - t0) / dt⌋
  let hi := lo + 1
  if ¬(0 ≤ lo ∧ hi < n) then none
  else
    let start := lo - (r - 1)
    let stop := hi + (r - 1)
    let (start, stop) := if start < 0 then (start + -start, stop + -start) else (start, stop)
    let (start, stop) := if (n : Int) ≤ stop then (start - (stop - n + 1), stop - (stop - n + 1)) else (start, stop)
    if ¬(0 ≤ start ∧ stop < n) then none else some (start, stop)

/-- The shared array of times `m_times_temp` as a call leaves it (src/vw/Math/PositionInterp.cc:315-317). -/
def fillTimes (t0 dt : K) (start : Int) (len : Nat) : List K :=
  match len with
  | 0 => []
  | m + 1 => (List.range m).foldl (fun l k => l ++ [l.getD k 0 + dt]) [t0 + (start : K) * dt]

/-- The interpolation of a call with the contents of the shared array (src/vw/Math/PositionInterp.cc:322-335). -/
def evalTimes (ps : List (V3 K)) (dt t : K) (start : Int) (len : Nat) (temp : List K) : V3 K :=
  (List.range len).foldl (fun ans j =>
    ans + (prodExcept (fun i => t - temp.getD i 0) 0 len j / denom dt len j) * at' ps (start + j)) 0

/-- `LagrangianInterpolation::operator()` (src/vw/Math/PositionInterp.cc:281-336). -/
def lagrangeUni (ps : List (V3 K)) (t0 dt : K) (r : Int) (t : K) : Option (V3 K) :=
  match uniWindow ps.length t0 dt r t with
  | none => none
  | some (start, stop) =>
    let len := (stop - start + 1).toNat
    some (evalTimes ps dt t start len (fillTimes t0 dt start len))

/-- A step of a call of a thread on the shared array: writing it, or computing the result from it. -/
inductive Ev where
  | write (thread : Nat)
  | eval (thread : Nat)
  deriving DecidableEq

/-- Calls of several threads on one interpolation object, `call i` being the time of thread `i`: the shared array and the
results so far.  (The array is written and read as a whole; the code is finer.) -/
def runThreads (ps : List (V3 K)) (t0 dt : K) (r : Int) (call : Nat → K) : List Ev → List K → List (Nat × V3 K) → List (Nat × V3 K)
  | [], _, res => res
  | .write i :: es, temp, res =>
    match uniWindow ps.length t0 dt r (call i) with
    | none => runThreads ps t0 dt r call es temp res
    | some (start, stop) => runThreads ps t0 dt r call es (fillTimes t0 dt start (stop - start + 1).toNat) res
  | .eval i :: es, temp, res =>
    match uniWindow ps.length t0 dt r (call i) with
    | none => runThreads ps t0 dt r call es temp res
    | some (start, stop) => runThreads ps t0 dt r call es temp (res ++ [(i, evalTimes ps dt (call i) start (stop - start + 1).toNat temp)])

/-- `get_wts_and_indices` (src/vw/Math/PositionInterp.cc:45-72), weights with indices; `exp` is the exponential, `sort` what
std::sort does. -/
def weights (exp : K → K) (sort : List (K × Nat) → List (K × Nat)) (t0 dt t : K) (n num : Nat) (sigma : K) : List (K × Nat) :=
  let V : List (K × Nat) := (List.range n).map (fun (i : Nat) => let ratio := (t0 + dt * (i : K) - t) / dt; (exp (-sigma * ratio * ratio), i))
  let V := (sort V).take (min n num)
  let sum := V.foldl (fun s w => s + w.1) 0
  V.map (fun w => (w.1 / sum, w.2))

/-- `SmoothPiecewisePositionInterpolation` (src/vw/Math/PositionInterp.cc:131-158); `num` is not negative. -/
def smooth (exp : K → K) (sort : List (K × Nat) → List (K × Nat)) (ps : List (V3 K)) (t0 dt : K) (num : Nat) (sigma t : K) : Option (V3 K) :=
  if ps.length ≤ 1 then none
  else if ¬(t0 ≤ t ∧ t ≤ tend t0 dt ps.length) then none
  else some ((weights exp sort t0 dt t ps.length num sigma).foldl (fun ans w => ans + w.1 * ps.getD w.2 0) 0)

/-- `m_m` and `m_b` (src/vw/Camera/TimeInterp.h:47-50) as one map, line to slope and intercept, in the order of the lines. -/
def mapPut (k : K) (v : K × K) : List (K × K × K) → List (K × K × K)
  | [] => [(k, v)]
  | (k', v') :: l => if k < k' then (k, v) :: (k', v') :: l else if k = k' then (k, v) :: l else (k', v') :: mapPut k v l

/-- The loop of the constructor of `TLCTimeInterpolation` (src/vw/Camera/TimeInterp.cc:42-52).  Equal consecutive lines, whose
slope is not a number, are not modelled. -/
def tlcBuild (off : K) : List (K × K) → List (K × K × K) → List (K × K × K)
  | a :: b :: l, m =>
    let slope := (b.2 - a.2) / (b.1 - a.1)
    tlcBuild off (b :: l) (mapPut a.1 (slope, off + a.2 - slope * a.1) m)
  | _, m => m

/-- `TLCTimeInterpolation::operator()` (src/vw/Camera/TimeInterp.cc:55-63).  No value: reading past the end of an empty map. -/
def tlcTime (tlc : List (K × K)) (off line : K) : Option K :=
  let m := tlcBuild off tlc []
  let k := (m.takeWhile (fun e => decide (e.1 < line))).length
  let k := if k ≠ 0 then k - 1 else k
  match m[k]? with
  | none => none
  | some e => some (line * e.2.1 + e.2.2)

end Verif.Camera.Interp
