import Mathlib.Algebra.Order.Field.Basic
import Mathlib.Algebra.Order.Group.Abs
import Mathlib.Algebra.BigOperators.Group.List.Basic
/-
Model of `inverse`, `det`, `matrix_to_vector` and `vector_to_matrix`, `src/vw/Math/Matrix.h`, and of
`index_norm_inf`, `src/vw/Math/Vector.h`.

A matrix is a function of its row and column together with its size; what the function says outside the
size is not looked at.  The elements are those of a linearly ordered field: exact arithmetic, so neither
rounding nor overflow is modelled.  A `none` result is an exception.
-/
namespace VW.Matrix

/-- The elements of a matrix, `Matrix(row, column)`. -/
abbrev Mat (K : Type) := Nat → Nat → K

section field
variable {K : Type} [Field K] [LinearOrder K]

/-- One round of the loop of `index_norm_inf`, Vector.h:1624-1630: the running largest absolute value and
its index. -/
def normStep (v : Nat → K) (s : K × Nat) (k : Nat) : K × Nat := if |v k| > s.1 then (|v k|, k) else s

/-- `index_norm_inf`, Vector.h:1620-1632. -/
def indexNormInf (v : Nat → K) (size : Nat) : Nat := ((List.range size).foldl (normStep v) (-1, 0)).2

/-- The exchange of two elements, Matrix.h:2239-2241, and of two rows, 2242-2244. -/
def swap {β : Type} (f : Nat → β) (a b : Nat) : Nat → β := fun r => if r = a then f b else if r = b then f a else f r

/-- Matrix.h:2246-2249: the column below the pivot is divided by it, and the product of that column with
the row of the pivot is subtracted from what is below and to the right.  (`outer_prod` makes a matrix, so
the subtraction reads no element it has already written.) -/
def eliminate (A : Mat K) (i : Nat) : Mat K := fun r c =>
  if r > i ∧ c = i then A r c / A i i
  else if r > i ∧ c > i then A r c - A r i / A i i * A i c
  else A r c

/-- One round of the LU decomposition, Matrix.h:2232-2250, on the buffer and the permutation. -/
def luStep (n : Nat) (s : Mat K × (Nat → Nat)) (i : Nat) : Option (Mat K × (Nat → Nat)) :=
  let p := i + indexNormInf (fun k => s.1 (i + k) i) (n - i)
  if s.1 p i = 0 then none
  else some (eliminate (swap s.1 i p) i, swap s.2 i p)

/-- Matrix.h:2225-2250. -/
def lu (n : Nat) (A : Mat K) : Option (Mat K × (Nat → Nat)) := (List.range n).foldlM (luStep n) (A, id)

/-- Matrix.h:2253-2255. -/
def permuted (pm : Nat → Nat) : Mat K := fun i j => if j = pm i then 1 else 0

/-- One round of Matrix.h:2258-2267.  The columns do not interact. -/
def lowerStep (n : Nat) (L X : Mat K) (i : Nat) : Mat K := fun k j =>
  if X i j ≠ 0 ∧ i + 1 ≤ k ∧ k < n then X k j - L k i * X i j else X k j

/-- One round of Matrix.h:2270-2278.  The columns do not interact. -/
def upperStep (U X : Mat K) (i : Nat) : Mat K := fun k j =>
  let t := X i j / U i i
  if k = i then t else if t ≠ 0 ∧ k < i then X k j - U k i * t else X k j

/-- `inverse`, Matrix.h:2220-2281. -/
def inverse (n : Nat) (A : Mat K) : Option (Mat K) := do
  let (buf, pm) ← lu n A
  let X := (List.range n).foldl (lowerStep n buf) (permuted pm)
  return (List.range n).reverse.foldl (upperStep buf) X

/-- `inverse` of a matrix whose size 2x2 is known to the compiler, Matrix.h:2209-2216. -/
def inverse2 (A : Mat K) : Option (Mat K) :=
  let det := A 0 0 * A 1 1 - A 0 1 * A 1 0
  if det = 0 then none
  else some fun r c =>
    if r = 0 then (if c = 0 then A 1 1 / det else -(A 0 1) / det) else (if c = 0 then -(A 1 0) / det else A 0 0 / det)

end field

section ring
variable {K : Type} [CommRing K]

/-- What is left of a matrix of which the first row and column `i` are dropped, Matrix.h:1888, 1893-1894,
1899. -/
def minor (a : Mat K) (i : Nat) : Mat K := fun r c => if c < i then a (r + 1) c else a (r + 1) (c + 1)

/-- An entry of the stack of `det`: size, matrix and factor. -/
abbrev Entry (K : Type) := Nat × Mat K × K

/-- The entries `det` puts on its stack for a matrix of three rows or more, Matrix.h:1887-1901, the last
one first. -/
def expand (dim : Nat) (a : Mat K) (scale : K) : List (Entry K) :=
  ((List.range dim).map fun i => (dim - 1, minor a i, (if i % 2 = 0 then scale else -scale) * a 0 i)).reverse

/-- How many rounds the loop of `det` takes for a matrix of a given size. -/
def rounds : Nat → Nat
  | 0 => 1
  | n + 1 => (n + 1) * rounds n + 1

theorem sum_replicate_rounds (d : Nat) (a : Mat K) (scale : K) (l : List Nat) :
    ((l.map fun i => ((d, minor a i, (if i % 2 = 0 then scale else -scale) * a 0 i) : Entry K)).map
      fun e => rounds e.1).sum = l.length * rounds d := by
  induction l with
  | nil => simp
  | cons x l ih =>
    simp only [List.map_cons, List.sum_cons, List.length_cons] at ih ⊢
    rw [ih, Nat.add_mul, Nat.one_mul, Nat.add_comm]

theorem rounds_pos (n : Nat) : 0 < rounds n := by cases n <;> simp [rounds]

/-- The loop of `det`, Matrix.h:1869-1904, on its stack and the running result. -/
def detLoop : List (Entry K) → K → K
  | [], result => result
  | (0, _, _) :: s, result => detLoop s result
  | (1, a, scale) :: s, result => detLoop s (result + scale * a 0 0)
  | (2, a, scale) :: s, result => detLoop s (result + scale * (a 0 0 * a 1 1 - a 0 1 * a 1 0))
  | (dim + 3, a, scale) :: s, result => detLoop (expand (dim + 3) a scale ++ s) result
termination_by s => (s.map fun e => rounds e.1).sum
decreasing_by
  · have := rounds_pos 0; simp only [List.map_cons, List.sum_cons]; omega
  · have := rounds_pos 1; simp only [List.map_cons, List.sum_cons]; omega
  · have := rounds_pos 2; simp only [List.map_cons, List.sum_cons]; omega
  · simp only [expand, List.map_append, List.sum_append, List.map_reverse, List.sum_reverse, List.map_cons, List.sum_cons]
    rw [show dim + 3 - 1 = dim + 2 from rfl, sum_replicate_rounds]
    simp only [List.length_range]
    have h : rounds (dim + 3) = (dim + 3) * rounds (dim + 2) + 1 := rounds.eq_2 (dim + 2)
    rw [h]
    omega

/-- `det`, Matrix.h:1864-1906. -/
def det (n : Nat) (A : Mat K) : K := detLoop [(n, A, 1)] 0

/-- `det` of a matrix whose size 2x2 is known to the compiler, Matrix.h:1857-1860. -/
def det2 (A : Mat K) : K := A 0 0 * A 1 1 - A 0 1 * A 1 0

end ring

section copy
variable {K : Type}

/-- `matrix_to_vector`, Matrix.h:2140-2150, of a matrix with the given numbers of rows and columns: the
elements looked at, in order.  `none` is a read outside the matrix (which is not checked). -/
def matrixToVector (rows cols : Nat) (M : Mat K) : List (Option K) :=
  (List.range cols).flatMap fun c => (List.range rows).map fun r => if c < rows ∧ r < cols then some (M c r) else none

/-- `vector_to_matrix`, Matrix.h:2154-2169: the vector must have the length of a square (`Nat.sqrt` stands
for the rounded square root in doubles). -/
def vectorToMatrix (V : Nat → K) (lv : Nat) : Option (Nat × Mat K) :=
  let lm := Nat.sqrt lv
  if lm * lm = lv then some (lm, fun c r => V (c * lm + r)) else none

end copy

end VW.Matrix
