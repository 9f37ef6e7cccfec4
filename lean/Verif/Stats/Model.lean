import Mathlib.Algebra.Order.Field.Basic
import Mathlib.Algebra.Order.Floor.Defs
import Mathlib.Algebra.Order.Floor.Ring
import Mathlib.Algebra.BigOperators.Group.List.Basic
/-
Model of the statistics helpers: src/vw/Math/Statistics.{h,cc}, the accumulators of src/vw/Math/Functors.h and their
image counterparts in src/vw/Image/Statistics.h.

Doubles are elements of an ordered field (exact arithmetic, no NaN but where said); sizes are unbounded. `std::sort` is
a sort. Square roots are left out: where the code returns `sqrt(e)` the model gives `e`.
-/
namespace VW.Stats

variable {K : Type} [Field K] [LinearOrder K] [IsStrictOrderedRing K] [FloorRing K]

/-- `std::sort`. -/
def sort (l : List K) : List K := l.mergeSort (fun a b => decide (a ≤ b))

/-- `round`, halves away from zero. -/
def round (x : K) : Int := if x < 0 then -⌊-x + 1 / 2⌋ else ⌊x + 1 / 2⌋

/-- `mean`, Statistics.h:168-176. With no values, 0/0 (`none`). -/
def mean (l : List K) : Option K := if l = [] then none else some (l.foldl (· + ·) 0 / l.length)

/-- `standard_deviation` before its square root, Statistics.h:180-192; `none` is a division by zero (one value) or
by the wrapped-round size (no values). -/
def sampleVariance (l : List K) (m : K) : Option K :=
  if l.length ≤ 1 then none else some (l.foldl (fun r x => r + (x - m) * (x - m)) 0 / ((l.length : K) - 1))

/-- `median`, Statistics.h:196-215; `none` is reading outside of the (empty) vector. -/
def median (l : List K) : Option K :=
  let v := sort l
  let center := l.length / 2
  if l.length % 2 = 1 then v[center]?
  else if center = 0 then none
  else do return ((← v[center]?) + (← v[center - 1]?)) / 2

/-- `destructive_median`, Functors.h:393-398: the result and what becomes of the vector; `none` is the exception. -/
def destructiveMedian (l : List K) : Option (K × List K) :=
  if l.length = 0 then none
  else
    let v := sort l
    if l.length % 2 ≠ 0 then do return (← v[l.length / 2]?, v)
    else do return (((← v[l.length / 2 - 1]?) + (← v[l.length / 2]?)) / 2, v)

/-- `destructive_nmad`, Functors.h:404-419, with `c` for the constant 1.4826. -/
def destructiveNmad (c : K) (l : List K) : Option (K × List K) :=
  if l.length = 0 then none
  else do
    let (m, v) ← destructiveMedian l
    let (d, _) ← destructiveMedian (v.map (fun x => |x - m|))
    return (c * d, v)

/-- `destructive_percentile`, Functors.h:425-446. -/
def destructivePercentile (l : List K) (p : K) : Option (K × List K) :=
  if l.length = 0 then none
  else if ¬ (0 ≤ p ∧ p ≤ 100) then none
  else
    let v := sort l
    let index : Int := ⌈(p / 100) * (l.length : K)⌉ - 1
    let index := if index < 0 then 0 else index
    let index := if index ≥ l.length then (l.length : Int) - 1 else index
    do return (← v[index.toNat]?, v)

/-- The result of `find_outlier_brackets`: the returned flag, b and e. -/
structure Brackets (K : Type) where
  ok : Bool
  b : K
  e : K

/-- The factor after Statistics.h:290-293. -/
def pctFactor (p : K) : K :=
  let p := if p > 1 / 2 then 1 - p else p
  if p < 0 then 0 else p

/-- The two indices, Statistics.h:305-310. -/
def bracketIdx (p : K) (len : Nat) : Int × Int :=
  let bn := round (p * (len : K))
  let en := round ((1 - p) * (len : K)) - 1
  (min ((len : Int) - 1) (max bn 0), min ((len : Int) - 1) (max en 0))

/-- `find_outlier_brackets`, Statistics.h:286-319; the indices are in range, so the default is not used. -/
def findOutlierBrackets (vec : List K) (p f : K) : Brackets K :=
  let p := pctFactor p
  let q := sort vec
  let len := q.length
  if len = 0 then ⟨false, 0, 0⟩
  else if len ≤ 3 then ⟨false, q.getD 0 0, q.getD (len - 1) 0⟩
  else
    let (bn, en) := bracketIdx p len
    let q1 := q.getD bn.toNat 0
    let q3 := q.getD en.toNat 0
    ⟨true, q1 - f * (q3 - q1), q3 + f * (q3 - q1)⟩

/-! ### Histogram -/

/-- `Histogram`, Statistics.h:96-104. -/
structure Hist (K : Type) where
  n : Nat
  total : Nat
  lo : K
  hi : K
  centers : Nat → K
  bins : Nat → Nat

/-- `Histogram::initialize`, Statistics.cc:34-58; `none` is the exception for no bins. -/
def Hist.init (n : Nat) (lo hi : K) : Option (Hist K) :=
  if n = 0 then none
  else some { n, total := 0, lo, hi,
              centers := fun i => lo + i * ((hi - lo) / n) + (hi - lo) / n / 2,
              bins := fun _ => 0 }

/-- The bin of a value, Statistics.cc:61-62. -/
def Hist.bin (h : Hist K) (v : K) : Int := round (((h.n - 1 : Nat) : K) * ((v - h.lo) / (h.hi - h.lo)))

/-- Counting in a bin. -/
def Hist.bump (h : Hist K) (b : Nat) : Hist K :=
  { h with bins := fun i => if i = b then h.bins i + 1 else h.bins i, total := h.total + 1 }

/-- `Histogram::add_value`, Statistics.cc:60-80. -/
def Hist.add (h : Hist K) (v : K) (saturate : Bool) : Hist K :=
  let b := h.bin v
  if b < 0 ∧ ¬ saturate then h
  else
    let b := if b < 0 then 0 else b
    if b ≥ h.n ∧ ¬ saturate then h
    else
      let b := if b ≥ h.n then ((h.n - 1 : Nat) : Int) else b
      h.bump b.toNat

/-- The loop of `get_percentile`, Statistics.cc:100-106, from bin i on. -/
def Hist.scan (h : Hist K) (p : K) : Nat → Nat → K → Option Nat
  | 0, _, _ => none
  | k + 1, i, run =>
    let run := run + (h.bins i : K) / (h.total : K)
    if run ≥ p then some i else h.scan p k (i + 1) run

/-- `Histogram::get_percentile`, Statistics.cc:89-109; `none` is an exception (or, with no values, NaN compared
false until the exception at the end). -/
def Hist.percentile (h : Hist K) (p : K) : Option Nat :=
  if p < 0 ∨ p > 1 then none
  else if h.total = 0 then none
  else h.scan p h.n 0 0

/-! ### Accumulators -/

/-- `MinMaxAccumulator`, Functors.h:354-371, applied to values in order. The state is `none` while not valid. -/
def minMax (l : List K) : Option (K × K) :=
  l.foldl (fun st x => match st with
    | none => some (x, x)
    | some (a, b) => some (if x < a then x else a, if b < x then x else b)) none

/-- `EWMinMaxAccumulator`, Image/Statistics.h:200-213, for one channel: the maximum is only looked at when the minimum
was not changed. -/
def ewMinMax (l : List K) : Option (K × K) :=
  l.foldl (fun st x => match st with
    | none => some (x, x)
    | some (a, b) => if x < a then some (x, b) else some (a, if x > b then x else b)) none

/-- `MeanAccumulator`, Functors.h:469-489; `none` is the exception for no values. -/
def meanAcc (l : List K) : Option K :=
  let st := l.foldl (fun (st : K × K) x => (st.1 + x, st.2 + 1)) (0, 0)
  if st.2 = 0 then none else some (st.1 / st.2)

/-- `StdDevAccumulator::value` before its square root, Functors.h:493-518. -/
def varAcc (l : List K) : Option K :=
  let st := l.foldl (fun (st : K × K × K) x => (st.1 + x, st.2.1 + x * x, st.2.2 + 1)) (0, 0, 0)
  if st.2.2 = 0 then none else some (st.2.1 / st.2.2 - (st.1 / st.2.2) * (st.1 / st.2.2))

/-- `EWStdDevAccumulator` before its square root for one channel of type uint8, Image/Statistics.h:227-256: the sums
have the channel type and wrap. -/
def ewVarU8 (l : List Nat) : Option K :=
  let st := l.foldl (fun (st : Nat × Nat × K) x => ((st.1 + x) % 256, (st.2.1 + x * x) % 256, st.2.2 + 1)) (0, 0, 0)
  if st.2.2 = 0 then none else some ((st.2.1 : K) / st.2.2 - ((st.1 : K) / st.2.2) * ((st.1 : K) / st.2.2))

/-- `StdDevSlidingFunctor`, Functors.h:524-581. `mean = none` stands for a mean and sum that are NaN or infinite after
a division by zero; nothing later repairs them. -/
structure Sliding (K : Type) where
  maxSize : Nat
  values : List K
  /-- m_mean and m_squared -/
  stats : Option (K × K)

def Sliding.new (n : Nat) : Sliding K := ⟨n, [], some (0, 0)⟩

/-- `pop`, Functors.h:554-569. -/
def Sliding.pop (s : Sliding K) : Sliding K :=
  match s.values with
  | [] => s
  | old :: rest =>
    let count := (s.values.length : K)
    let shrunk := count - 1
    { s with
      values := rest
      stats := match s.stats with
        | none => none
        | some (m, q) => if shrunk = 0 then none
          else
            let m' := (count * m - old) / shrunk
            some (m', q - (old - m) * (old - m')) }

/-- `push`, Functors.h:535-551. -/
def Sliding.push (s : Sliding K) (x : K) : Sliding K :=
  let s := if s.values.length ≥ s.maxSize then s.pop else s
  let values := s.values ++ [x]
  { s with
    values := values
    stats := match s.stats with
      | none => none
      | some (m, q) =>
        let m' := m + (x - m) / (values.length : K)
        some (m', q + (x - m) * (x - m')) }

/-- `get_std_dev` before its square root, Functors.h:572-577; `none` is NaN. -/
def Sliding.variance (s : Sliding K) : Option K :=
  if s.values.length < 2 then some 0
  else s.stats.map (fun st => st.2 / (s.values.length : K))

end VW.Stats
