import Mathlib.Algebra.Field.Basic
import Mathlib.Logic.Function.Basic

/-! Model of `src/vw/Math/MatrixSparseSkyline.h`: symmetric matrices stored below the diagonal with the "skyline" of their rows,
their `L·D·Lᵀ` decomposition in place and the solution of linear systems.

Simplifications: elements are in a field (exact arithmetic instead of `double`); a matrix is a function of row and column, of
which only the part on and below the diagonal is read and written; the boost sparse storage and the Cuthill-McKee ordering
itself are not modelled (any permutation may be passed to `reorganize`). -/

namespace VW.Skyline

variable {K : Type} [Field K]

abbrev Mat (K : Type) := Nat → Nat → K

/-- `A(i,j) = x`. -/
def setM (A : Mat K) (i j : Nat) (x : K) : Mat K := fun a b => if a = i ∧ b = j then x else A a b

/-- `v[i] = x`. -/
def setV (v : Nat → K) (i : Nat) (x : K) : Nat → K := fun a => if a = i then x else v a

/-! ### The class -/

/-- `MatrixSparseSkyline`: the elements on and below the diagonal, and `m_skyline` (MatrixSparseSkyline.h:83-84). -/
structure Sky (K : Type) where
  m : Mat K
  sky : Nat → Nat

/-- The constructors with a size (MatrixSparseSkyline.h:103-116): all zero, the skyline on the diagonal. -/
def Sky.new : Sky K := ⟨fun _ _ => 0, fun i => i⟩

/-- The index that is stored for `(row, col)` (MatrixSparseSkyline.h:167-168). -/
def stored (row col : Nat) : Nat × Nat := if col > row then (col, row) else (row, col)

/-- The effect of the non-const `operator()` on the skyline (MatrixSparseSkyline.h:162-172); it is the same for reading. -/
def Sky.touch (s : Sky K) (row col : Nat) : Sky K :=
  let p := stored row col
  if p.2 < s.sky p.1 then { s with sky := fun i => if i = p.1 then p.2 else s.sky i } else s

/-- Writing through the non-const `operator()`. -/
def Sky.put (s : Sky K) (row col : Nat) (x : K) : Sky K :=
  let t := s.touch row col
  let p := stored row col
  { t with m := setM t.m p.1 p.2 x }

/-- The const `operator()` (MatrixSparseSkyline.h:175-183). -/
def Sky.get (s : Sky K) (row col : Nat) : K := if col > row then s.m col row else s.m row col

/-! ### Decomposition -/

/-- The vector `v` of column `j` (MatrixSparseSkyline.h:262-268 and 287-293): `std::vector<double> v(j+1)` is zero at first. -/
def colV (sky : Nat → Nat) (j : Nat) (A : Mat K) : Nat → K :=
  (List.range' (sky j) (j - sky j)).foldl (fun v i =>
    let v := setV v i (A j i * A i i)
    setV v j (v j - A j i * v i)) (setV (fun _ => 0) j (A j j))

/-- `row_sum` (MatrixSparseSkyline.h:273-275 and 298-300). -/
def rowSum (sky : Nat → Nat) (A : Mat K) (v : Nat → K) (i j : Nat) : K :=
  (List.range' (sky i) (j - sky i)).foldl (fun s jj => s + A i jj * v jj) 0

/-- The loop over the rows below the diagonal (MatrixSparseSkyline.h:272-278 and 297-303). -/
def fillCol (sky : Nat → Nat) (n j : Nat) (v : Nat → K) (A : Mat K) : Mat K :=
  (List.range' (j + 1) (n - (j + 1))).foldl (fun A i =>
    if j ≥ sky i then setM A i j ((A i j - rowSum sky A v i j) / v j) else A) A

/-- One column of `sparse_ldl_decomposition`. -/
def ldlCol (sky : Nat → Nat) (n j : Nat) (A : Mat K) : Mat K :=
  let v := colV sky j A
  fillCol sky n j v (setM A j j (v j))

/-- `sparse_ldl_decomposition` (MatrixSparseSkyline.h:254-280 and 284-305), which is the same with the matrix's own skyline: the
elements it touches are not left of the skyline. -/
def ldl (sky : Nat → Nat) (n : Nat) (A : Mat K) : Mat K := (List.range n).foldl (fun A j => ldlCol sky n j A) A

/-! ### Solving -/

/-- `inverse_sky(j)` (MatrixSparseSkyline.h:405-417): how many rows, from the last one up, start right of column `j`. -/
def inverseSky (sky : Nat → Nat) (n j : Nat) : Nat := ((List.range n).reverse.takeWhile fun i => decide (j < sky i)).length

/-- Forward substitution (MatrixSparseSkyline.h:419-426). -/
def forward (sky : Nat → Nat) (n : Nat) (A : Mat K) (b : Nat → K) : Nat → K :=
  (List.range n).foldl (fun x i =>
    setV x i (b i - (List.range' (sky i) (i - sky i)).foldl (fun s j => s + A i j * x j) 0)) fun _ => 0

/-- Division by the diagonal (MatrixSparseSkyline.h:428-431). -/
def divide (A : Mat K) (x : Nat → K) : Nat → K := fun i => x i / A i i

/-- Back substitution (MatrixSparseSkyline.h:433-440). -/
def backward (sky : Nat → Nat) (n : Nat) (A : Mat K) (z : Nat → K) : Nat → K :=
  (List.range n).reverse.foldl (fun x i =>
    setV x i (z i - (List.range' (i + 1) (n - inverseSky sky n i - (i + 1))).foldl (fun s j => s + A j i * x j) 0)) fun _ => 0

/-- `sparse_solve_ldl` (MatrixSparseSkyline.h:397-443). -/
def solveLdl (sky : Nat → Nat) (n : Nat) (A : Mat K) (b : Nat → K) : Nat → K :=
  backward sky n A (divide A (forward sky n A b))

/-- `sparse_solve` (MatrixSparseSkyline.h:313-341). -/
def solve (sky : Nat → Nat) (n : Nat) (A : Mat K) (b : Nat → K) : Nat → K := solveLdl sky n (ldl sky n A) b

/-- `multi_sparse_solve` (MatrixSparseSkyline.h:353-378): one decomposition, then each column. -/
def multiSolve (sky : Nat → Nat) (n : Nat) (A B : Mat K) : Mat K :=
  let L := ldl sky n A
  fun r c => solveLdl sky n L (fun i => B i c) r

/-! ### Reordering -/

/-- `reorganize(v, lookup)` (MatrixSparseSkyline.h:453-503). -/
def reorganizeV (v : Nat → K) (lookup : Nat → Nat) : Nat → K := fun i => v (lookup i)

/-- `reorganize(A, lookup)` (MatrixSparseSkyline.h:505-592). -/
def reorganizeM (A : Mat K) (lookup : Nat → Nat) : Mat K := fun i j => A (lookup i) (lookup j)

/-- `inverse()` (MatrixSparseSkyline.h:478-484 and 558-564). -/
def inverse (lookup : Nat → Nat) (n : Nat) : Nat → Nat :=
  (List.range n).foldl (fun inv i => fun a => if a = lookup i then i else inv a) fun _ => 0

/-- The `while` loop of `solve_for_skyline` from column `j` on. -/
def firstNonzero [DecidableEq K] (A : Mat K) (i : Nat) : Nat → Nat → Nat
  | 0, j => j
  | k + 1, j => if j < i ∧ A i j = 0 then firstNonzero A i k (j + 1) else j

/-- `solve_for_skyline` (MatrixSparseSkyline.h:684-697). -/
def solveForSkyline [DecidableEq K] (A : Mat K) (i : Nat) : Nat := firstNonzero A i i 0

end VW.Skyline
