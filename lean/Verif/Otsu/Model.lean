import Verif.Stats.Hist
import Mathlib.Data.Rat.Floor

/-! Model of the Otsu thresholds and of the conversions to 8 bits, src/vw/Image/ImageThresh.h.

Doubles are rational numbers (exact arithmetic). An image has `rows` by `cols` pixels, `none` being an invalid one. -/

namespace VW.Otsu

open VW.Stats (Hist)

/-- An image of masked pixels. -/
structure Image where
  rows : Nat
  cols : Nat
  px : Nat → Nat → Option Rat

/-- The valid values in the order of the loops over given rows and columns: ImageThresh.h:62-69, Image/Statistics.h:118-126 (all pixels) and
ImageThresh.h:169-180, 191-199 (samples). Arguments of `px` are column, row. -/
def Image.values (I : Image) (rs cs : List Nat) : List Rat := rs.flatMap fun r => cs.filterMap fun c => I.px c r

/-- All valid values. -/
def Image.all (I : Image) : List Rat := I.values (List.range I.rows) (List.range I.cols)

/-- The least and the greatest value, `find_image_min_max`, Image/Statistics.h:114-127, and ImageThresh.h:166-183; the start values of
±DBL_MAX, which every value replaces, are `none`. -/
def minMax (vs : List Rat) : Option (Rat × Rat) :=
  vs.foldl (fun st v => some (match st with
    | none => (v, v)
    | some (a, b) => (if v < a then v else a, if v > b then v else b))) none

/-- The loop over the bins, ImageThresh.h:107-121: from bin `i` on, `k` bins to go. The result is the rest of `V`. -/
def vLoop (b : Nat → Rat) (sum tot : Rat) : Nat → Nat → Rat → Rat → List Rat
  | 0, _, _, _ => []
  | k + 1, i, lp, la =>
    let lp := lp + b i / sum
    let la := la + i * (b i / sum)
    let rp := 1 - lp
    let ra := tot - la
    (if lp = 0 ∨ rp = 0 then 0 else lp * rp * (la / lp - ra / rp) * (la / lp - ra / rp)) :: vLoop b sum tot k (i + 1) lp la

/-- `max_element`, ImageThresh.h:123. -/
def maxOf : List Rat → Rat
  | [] => 0
  | [x] => x
  | x :: xs => if maxOf xs > x then maxOf xs else x

/-- The mean of the indices with the greatest value, ImageThresh.h:126-133. -/
def meanIndex (V : List Rat) : Rat :=
  let m := maxOf V
  let st := V.zipIdx.foldl (fun (st : Rat × Rat) (p : Rat × Nat) => if p.1 = m then (st.1 + p.2, st.2 + 1) else st) (0, 0)
  st.1 / st.2

/-- `V` of a histogram with `n` bins: ImageThresh.h:90-121. -/
def betweenList (n : Nat) (b : Nat → Rat) (sum : Rat) : List Rat :=
  let tot := (List.range n).foldl (fun (t : Rat) (i : Nat) => t + i * (b i / sum)) 0
  vLoop b sum tot n 0 0 0

/-- The histogram of ImageThresh.h:53-71 (`histogram`, the range widened if it is one point; here that was done before). -/
def histOf (n : Nat) (lo hi : Rat) (vs : List Rat) : Option (Hist Rat) :=
  (Hist.init n lo hi).map fun h => Stats.fill h true vs

/-- `otsu_threshold(view)`, ImageThresh.h:79-142. `none`: an exception (there is none, 256 bins). -/
def otsu (I : Image) : Option Rat :=
  match minMax I.all with
  | none => some 0
  | some (lo, hi) =>
    let hi := if hi = lo then hi + 1 else hi
    (histOf 256 lo hi I.all).map fun h =>
      if h.total = 0 then 0
      else lo + meanIndex (betweenList 256 (fun i => h.bins i) h.total) / (256 - 1) * (hi - lo)

/-- The sampled rows or columns, ImageThresh.h:160-161, 170, 173: `round(s * (total-1)/(num-1))` for s < num; with one sample this is
0 times a division by zero, not a number, cast to `int`: `none`. -/
def samples (total num : Nat) : Option (List Nat) :=
  if num = 1 then none
  else some ((List.range num).map fun (s : Nat) => (Stats.round ((s : Rat) * (((total : Rat) - 1) / ((num : Rat) - 1)))).toNat)

/-- The bin of a value, ImageThresh.h:201-206. -/
def binOf (n : Nat) (lo hi v : Rat) : Nat :=
  let bin := Stats.round (((n : Rat) - 1) * ((v - lo) / (hi - lo)))
  let bin := if bin < 0 then 0 else bin
  let bin := if bin > (n : Int) - 1 then (n : Int) - 1 else bin
  bin.toNat

/-- `hBuf`, ImageThresh.h:187-210. -/
def buffer (n : Nat) (lo hi : Rat) (vs : List Rat) : Nat → Rat :=
  vs.foldl (fun (h : Nat → Rat) v i => if i = binOf n lo hi v then h i + 1 else h i) (fun _ => 0)

/-- State of the loop of ImageThresh.h:222-243. -/
structure St where
  mu1 : Rat
  q1 : Rat
  maxSigma : Rat
  maxPos : Nat

/-- One step, ImageThresh.h:224-241; `eps` is FLT_EPSILON. -/
def St.step (b : Nat → Rat) (scale mu eps : Rat) (s : St) (i : Nat) : St :=
  let p := b i * scale
  let mu1 := s.mu1 * s.q1
  let q1 := s.q1 + p
  let q2 := 1 - q1
  if min q1 q2 < eps ∨ max q1 q2 > 1 - eps then { s with mu1 := mu1, q1 := q1 }
  else
    let mu1 := (mu1 + i * p) / q1
    let mu2 := (mu - q1 * mu1) / q2
    let sigma := q1 * q2 * (mu1 - mu2) * (mu1 - mu2)
    if sigma > s.maxSigma then ⟨mu1, q1, sigma, i⟩ else ⟨mu1, q1, s.maxSigma, s.maxPos⟩

/-- The position of the maximum, ImageThresh.h:215-243. -/
def maxPos (n : Nat) (b : Nat → Rat) (count eps : Rat) : Nat :=
  let mu := (List.range n).foldl (fun (m : Rat) (i : Nat) => m + i * b i) 0 * (1 / count)
  ((List.range n).foldl (St.step b (1 / count) mu eps) ⟨0, 0, 0, 0⟩).maxPos

/-- The second `otsu_threshold`, ImageThresh.h:148-247. `none`: undefined (one sample row or column). -/
def otsuSampled (eps : Rat) (I : Image) (numRows numCols n : Nat) : Option Rat := do
  let rs ← samples I.rows numRows
  let cs ← samples I.cols numCols
  let vs := I.values rs cs
  match minMax vs with
  | none => pure 0
  | some (lo, hi) =>
    let hi := if hi = lo then hi + 1 else hi
    if vs.length = 0 then pure 0
    else pure ((hi - lo) * ((maxPos n (buffer n lo hi vs) vs.length eps : Rat) / ((n : Rat) - 1)) + lo)

end VW.Otsu
