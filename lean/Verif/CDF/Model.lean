import Mathlib.Algebra.Order.Field.Basic
import Mathlib.Algebra.Order.Field.Rat
import Mathlib.Data.List.Sort
import Mathlib.Data.List.GetD
import Mathlib.Tactic.Linarith
import Mathlib.Tactic.NormNum
import Mathlib.Tactic.Ring
import Mathlib.Tactic.FieldSimp
import Mathlib.Tactic.Positivity

/-! Model of `CDFAccumulator` (`src/vw/Math/CDFAccumulator.h` and `.cc`): the incremental estimate of quantiles.

Numbers are exact (ℚ in place of double). Vectors that are written at single places are functions of the index; reads outside of the
range are made explicit. -/

namespace VW.CDF

/-- `std::numeric_limits<double>::max()`. -/
def dblMax : ℚ := (2 ^ 53 - 1) * 2 ^ 971

/-- The members (CDFAccumulator.h:72-75): `m_num_quantiles`, size of `m_sample_buf`, its first `m_buffer_idx` elements,
`m_num_samples`, `m_cdf`, `m_quantile`, `m_q0`, `m_qm`. -/
structure Acc where
  nq : ℕ
  bufSize : ℕ
  buf : List ℚ
  n : ℕ
  cdf : ℕ → ℚ
  quant : ℕ → ℚ
  q0 : ℚ
  qm : ℚ

/-- The number of quantiles made odd (CDFAccumulator.cc:41-43). -/
def oddUp (quantiles : ℕ) : ℕ := if quantiles % 2 = 0 then quantiles + 1 else quantiles

/-- The middle third of the first distribution (CDFAccumulator.cc:55-56). -/
def midCdf (third j : ℕ) : ℚ := 8 / 10 * (((j : ℚ) - third) / ((third * 2 : ℕ) - third)) + 1 / 10

/-- `k` places before the middle third (CDFAccumulator.cc:58-59). -/
def lowCdf (third : ℕ) : ℕ → ℚ
  | 0 => midCdf third third
  | k + 1 => (1 - 10 / (third : ℚ)) * lowCdf third k

/-- `k` places after the middle third (CDFAccumulator.cc:61-62). -/
def highCdf (third : ℕ) : ℕ → ℚ
  | 0 => midCdf third (third * 2)
  | k + 1 => 1 - (1 - 10 / (third : ℚ)) * (1 - highCdf third k)

/-- `m_cdf` as set by `resize` (CDFAccumulator.cc:47-62). -/
def initCdf (nq j : ℕ) : ℚ :=
  if j < nq / 3 then lowCdf (nq / 3) (nq / 3 - j)
  else if j ≤ nq / 3 * 2 then midCdf (nq / 3) j
  else highCdf (nq / 3) (j - nq / 3 * 2)

/-- The constructor (CDFAccumulator.h:46-48, CDFAccumulator.cc:33-63); `none` if it throws. The quantiles are zero. -/
def create (bufSize quantiles : ℕ) : Option Acc :=
  if quantiles > 0 then
    some ⟨oddUp quantiles, bufSize, [], 0, initCdf (oddUp quantiles), fun _ => 0, dblMax, -dblMax⟩
  else none

/-- The variables of `update` (CDFAccumulator.cc:71-72). -/
structure St where
  jd : ℕ
  jq : ℕ
  told : ℚ
  tnew : ℚ
  qold : ℚ
  qnew : ℚ
deriving DecidableEq

/-- The `while (1)` loop (CDFAccumulator.cc:88-115), on the sorted samples `s`. `none` if it reads outside of the samples or of the
quantiles (or runs out of fuel: more steps than there are samples and quantiles). -/
def search (nq n : ℕ) (Q cdf : ℕ → ℚ) (s : List ℚ) (target : ℚ) : ℕ → St → Option St
  | 0, _ => none
  | fuel + 1, st =>
    if st.jq < nq ∧ (s.length ≤ st.jd ∨ Q st.jq < s.getD st.jd 0) then
      if st.jd + n * cdf st.jq ≥ target then
        some ⟨st.jd, st.jq + 1, st.told, st.jd + n * cdf st.jq, st.qold, Q st.jq⟩
      else
        search nq n Q cdf s target fuel ⟨st.jd, st.jq + 1, st.jd + n * cdf st.jq, st.jd + n * cdf st.jq, Q st.jq, Q st.jq⟩
    else if s.length ≤ st.jd ∨ nq ≤ st.jq then none
    else
      let qnew := s.getD st.jd 0
      let t1 := st.told + (if Q st.jq > Q (st.jq - 1) then
        n * (cdf st.jq - cdf (st.jq - 1)) * (qnew - st.qold) / (Q st.jq - Q (st.jq - 1)) else 0)
      if t1 ≥ target then some ⟨st.jd + 1, st.jq, st.told, t1, st.qold, qnew⟩
      else if t1 + 1 ≥ target then some ⟨st.jd + 1, st.jq, t1, t1 + 1, qnew, qnew⟩
      else search nq n Q cdf s target fuel ⟨st.jd + 1, st.jq, t1 + 1, t1 + 1, qnew, qnew⟩

/-- The new quantile (CDFAccumulator.cc:118-121). -/
def interpolate (target : ℚ) (st : St) : ℚ :=
  if st.tnew = st.told then 1 / 2 * (st.qold + st.qnew)
  else st.qold + (st.qnew - st.qold) * (target - st.told) / (st.tnew - st.told)

/-- The loop over the targets (CDFAccumulator.cc:85-124): the `k` quantiles from `iq` on. -/
def sweep (nq n : ℕ) (Q cdf : ℕ → ℚ) (s : List ℚ) : ℕ → ℕ → St → Option (List ℚ)
  | 0, _, _ => some []
  | k + 1, iq, st =>
    let target := ((n + s.length : ℕ) : ℚ) * cdf iq
    match (if st.tnew < target then search nq n Q cdf s target (nq + s.length + 1) st else some st) with
    | none => none
    | some st1 =>
      (sweep nq n Q cdf s k (iq + 1) ⟨st1.jd, st1.jq, st1.tnew, st1.tnew, st1.qnew, st1.qnew⟩).map
        (fun l => interpolate target st1 :: l)

/-- `m_cdf` with the probabilities of the ends (CDFAccumulator.cc:80-83), `total` samples. -/
def endCdf (nq total : ℕ) (cdf : ℕ → ℚ) (j : ℕ) : ℚ :=
  if j = nq - 1 then max (1 - 1 / 2 / (total : ℚ)) (1 / 2 * (1 + cdf (nq - 2)))
  else if j = 0 then min (1 / 2 / (total : ℚ)) (1 / 2 * cdf 1)
  else cdf j

/-- `m_quantile` with the global minimum and maximum (CDFAccumulator.cc:77-78). -/
def endQuant (a : Acc) (j : ℕ) : ℚ := if j = a.nq - 1 then a.qm else if j = 0 then a.q0 else a.quant j

/-- `update` (CDFAccumulator.cc:66-129). -/
def Acc.update (a : Acc) : Option Acc :=
  if a.buf.length = 0 then some a
  else
    let s := a.buf.insertionSort (· ≤ ·)
    let cdf := endCdf a.nq (a.buf.length + a.n) a.cdf
    (sweep a.nq a.n (endQuant a) cdf s (a.nq - 2) 1 ⟨0, 1, 0, 0, a.q0, a.q0⟩).map (fun l =>
      ⟨a.nq, a.bufSize, [], a.n + a.buf.length, cdf, fun j => (a.q0 :: l ++ [a.qm]).getD j 0, a.q0, a.qm⟩)

/-- `operator()` (CDFAccumulator.cc:132-141). -/
def Acc.push (a : Acc) (x : ℚ) : Option Acc :=
  let b : Acc := ⟨a.nq, a.bufSize, a.buf ++ [x], a.n, a.cdf, a.quant, if x < a.q0 then x else a.q0, if x > a.qm then x else a.qm⟩
  if b.buf.length = b.bufSize then b.update else some b

/-- The binary search of `quantile` (CDFAccumulator.cc:152-156), `fuel` steps at most. -/
def bisect (cdf : ℕ → ℚ) (arg : ℚ) : ℕ → ℕ → ℕ → ℕ
  | 0, jl, _ => jl
  | fuel + 1, jl, jh =>
    if jh - jl > 1 then
      if arg > cdf ((jh + jl) / 2) then bisect cdf arg fuel ((jh + jl) / 2) jh
      else bisect cdf arg fuel jl ((jh + jl) / 2)
    else jl

/-- `quantile` (CDFAccumulator.cc:144-162). -/
def Acc.quantile (a : Acc) (arg : ℚ) : ℚ :=
  if a.n + a.buf.length = 0 then 0
  else
    let j := bisect a.cdf arg a.nq 0 (a.nq - 1)
    let q := a.quant j + (a.quant (j + 1) - a.quant j) * (arg - a.cdf j) / (a.cdf (j + 1) - a.cdf j)
    max (a.quant 0) (min (a.quant (a.nq - 1)) q)

/-- A call by the user: a sample, or `update`. -/
inductive Op
  | sample (x : ℚ)
  | update

/-- A history of calls. -/
def run : List Op → Acc → Option Acc
  | [], a => some a
  | .sample x :: ops, a => (a.push x).bind (run ops)
  | .update :: ops, a => a.update.bind (run ops)

end VW.CDF
