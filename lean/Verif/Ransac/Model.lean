import Mathlib.Algebra.Order.Field.Basic
import Mathlib.Algebra.BigOperators.Group.List.Basic

/-
Model of src/vw/Math/RANSAC.h (class `RandomSampleConsensus`).

The functors are total functions (an exception thrown by one inside of the parallel loop would end the program); errors
are elements of an ordered field instead of doubles, of which `maxErr` stands for the largest double.  The values of
`std::rand()` still to come are a list; `none` as a result of a function means that it wants more of them.
-/

namespace Verif.Ransac

/-- The template arguments and members (src/vw/Math/RANSAC.h:110-118) that do not change: the two forms of the fitting
functor, the error functor, `min_elements_needed_for_fit`, `m_num_iterations`, `m_inlier_threshold`,
`m_reduce_min_num_output_inliers_if_no_fit`; the largest double and `RAND_MAX`. -/
structure Params (A B H E : Type) where
  fit : List A → List B → H
  refit : List A → List B → H → H
  err : H → A → B → E
  need : A → Nat
  iters : Nat
  thr : E
  reduce : Bool
  maxErr : E
  randMax : Nat

variable {A B H E : Type} [Field E] [LinearOrder E]

/-- `get_n_unique_integers` (src/vw/Math/RANSAC.h:143-161) with exact instead of floating point arithmetic, after
`chosen` have been found. -/
def pick (randMax size n : Nat) (chosen : List Nat) : List Nat → Option (List Nat × List Nat)
  | [] => if chosen.length = n then some (chosen, []) else none
  | r :: draws =>
    if chosen.length = n then some (chosen, r :: draws)
    else
      let v := r * size / (randMax + 1)
      if v ∈ chosen then pick randMax size n chosen draws else pick randMax size n (chosen ++ [v]) draws

/-- The allocation of the random indices (src/vw/Math/RANSAC.h:270-274). -/
def pickAll (randMax size n : Nat) : Nat → List Nat → Option (List (List Nat) × List Nat)
  | 0, draws => some ([], draws)
  | k + 1, draws => do
    let (s, draws) ← pick randMax size n [] draws
    let (rest, draws) ← pickAll randMax size n k draws
    some (s :: rest, draws)

/-- `inliers` (src/vw/Math/RANSAC.h:167-184), the two lists zipped. -/
def inliers (P : Params A B H E) (h : H) (p1 : List A) (p2 : List B) : List (A × B) :=
  (p1.zip p2).filter (fun p => P.err h p.1 p.2 < P.thr)

/-- `inlier_indices` (src/vw/Math/RANSAC.h:187-196). -/
def inlierIndices (P : Params A B H E) (h : H) (p1 : List A) (p2 : List B) : List Nat :=
  ((p1.zip p2).zipIdx.filter (fun p => P.err h p.1.1 p.1.2 < P.thr)).map Prod.snd

/-- What an iteration brings to the critical section. -/
structure Cand (H E : Type) where
  err : E
  model : H
  num : Nat

/-- Steps 0 to 5 of an iteration (src/vw/Math/RANSAC.h:283-311); `none` if the model is skipped. -/
def iteration (P : Params A B H E) (m : Int) (p1 : List A) (p2 : List B) (s : List Nat) : Option (Cand H E) :=
  let h := P.fit (s.filterMap (fun i => p1[i]?)) (s.filterMap (fun i => p2[i]?))
  let inl := inliers P h p1 p2
  if (inl.length : Int) < m then none
  else
    let h' := P.refit (inl.map Prod.fst) (inl.map Prod.snd) h
    some ⟨(inl.map (fun p => P.err h' p.1 p.2)).sum / inl.length, h', inl.length⟩

/-- The variables shared by the threads: `min_err`, `best_H` (unset at first) and `num_inliers`. -/
structure Best (H E : Type) where
  minErr : E
  best : Option H
  num : Nat

/-- The critical section (src/vw/Math/RANSAC.h:315-322). -/
def critical (st : Best H E) (c : Option (Cand H E)) : Best H E :=
  match c with
  | none => st
  | some c => if c.err < st.minErr then ⟨c.err, some c.model, c.num⟩ else st

/-- `attempt_ransac` (src/vw/Math/RANSAC.h:249-337).  `sched` puts the iterations in the order in which their threads
come to the critical section.  `none` as the result of the computation is an exception; `best_H` unset is the default
value of the result type. -/
def attempt (P : Params A B H E) (sched : List (List Nat) → List (List Nat)) (m : Int) (p1 : List A) (p2 : List B)
    (draws : List Nat) : Option (Option (Option H) × List Nat) :=
  match p1 with
  | [] => some (none, draws)
  | a :: _ =>
    if p1.length ≠ p2.length ∨ p1.length < P.need a ∨ m < P.need a then some (none, draws)
    else do
      let (samples, draws) ← pickAll P.randMax p1.length (P.need a) P.iters draws
      let st := (sched samples).foldl (fun st s => critical st (iteration P m p1 p2 s)) ⟨P.maxErr, none, 0⟩
      some (if (st.num : Int) < m then none else some st.best, draws)

/-- `reduce_min_num_output_inliers` (src/vw/Math/RANSAC.h:198-200): truncation of `m / 1.5`. -/
def reduceMin (m : Int) : Int := (2 * m).tdiv 3

/-- The loop of `operator()` (src/vw/Math/RANSAC.h:219-247) with `k` attempts left; also returns the member
`m_min_num_output_inliers` afterwards.  `sched k` is the order of the threads in that attempt. -/
def attempts (P : Params A B H E) (sched : Nat → List (List Nat) → List (List Nat)) (p1 : List A) (p2 : List B) :
    Nat → Int → List Nat → Option (Option (Option H) × Int × List Nat)
  | 0, m, draws => some (none, m, draws)
  | k + 1, m, draws => do
    let (r, draws) ← attempt P (sched k) m p1 p2 draws
    match r with
    | some h => some (some h, m, draws)
    | none =>
      if P.reduce = false then some (none, m, draws)
      else if reduceMin m < 2 then some (none, reduceMin m, draws)
      else attempts P sched p1 p2 k (reduceMin m) draws

/-- `operator()`. -/
def ransac (P : Params A B H E) (sched : Nat → List (List Nat) → List (List Nat)) (m : Int) (p1 : List A) (p2 : List B)
    (draws : List Nat) : Option (Option (Option H) × Int × List Nat) :=
  attempts P sched p1 p2 10 m draws

end Verif.Ransac
