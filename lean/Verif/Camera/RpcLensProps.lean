import Mathlib.Tactic.Ring
import Mathlib.Tactic.Linarith
import Mathlib.Tactic.LinearCombination
import Mathlib.Algebra.BigOperators.Intervals
import Mathlib.Data.List.GetD
import Mathlib.Tactic.IntervalCases
import Verif.Camera.RpcLens
import Verif.Opt.NewtonProps

/-
C120: RPC lens distortion.
-/

namespace Verif.Camera.Rpc

open Verif.Opt Finset

variable {K : Type} [Field K] [LinearOrder K]

/-! ### Specification -/

/-- The number of monomials in two variables of degree less than `m`. -/
def tri (m : Nat) : Nat := ∑ j ∈ range m, (j + 1)

/-- The polynomial of degree `d` in `x`, `y` whose coefficients, in the order `1, x, y, x², xy, y², …`, are `c`. -/
def poly (d : Nat) (c : List K) (x y : K) : K :=
  ∑ g ∈ range (d + 1), ∑ i ∈ range (g + 1), c.getD (tri g + i) 0 * (x ^ (g - i) * y ^ i)

/-- The four polynomials of a distortion of degree `d`, without the leading ones of the denominators. -/
def Polys.OfDegree (p : Polys K) (d : Nat) : Prop :=
  p.numX.length = tri (d + 1) ∧ p.denX.length + 1 = tri (d + 1) ∧
  p.numY.length = tri (d + 1) ∧ p.denY.length + 1 = tri (d + 1)

/-- All coefficients, in the order in which users give them. -/
def Polys.all (p : Polys K) : List K := p.numX ++ p.denX ++ p.numY ++ p.denY

/-- What the distortion with these polynomials does to a point, `none` when a denominator is zero there. -/
def Polys.value (p : Polys K) (d : Nat) (P : V2 K) : Option (V2 K) :=
  if poly d (1 :: p.denX) P.1 P.2 = 0 ∨ poly d (1 :: p.denY) P.1 P.2 = 0 then none
  else some (poly d p.numX P.1 P.2 / poly d (1 :: p.denX) P.1 P.2, poly d p.numY P.1 P.2 / poly d (1 :: p.denY) P.1 P.2)

/-! ### Numbers of parameters -/

theorem two_tri (m : Nat) : 2 * tri m = m * (m + 1) := by
  induction m with
  | zero => rfl
  | succ m ih => unfold tri at ih ⊢; rw [sum_range_succ, mul_add, ih]; ring

theorem tri_succ (m : Nat) : tri (m + 1) = tri m + (m + 1) := by unfold tri; rw [sum_range_succ]

/-- The number of parameters of a distortion of degree `d`. -/
def count (d : Nat) : Nat := 4 * tri (d + 1) - 2

theorem count_eq (d : Nat) : (count d : ℤ) = numDistParams d := by
  have := two_tri (d + 1)
  have h1 := tri_succ d
  unfold count numDistParams
  have h2 : ((4 * tri (d + 1) - 2 : Nat) : ℤ) = 2 * ((2 * tri (d + 1) : Nat) : ℤ) - 2 := by omega
  rw [h2, this]
  push_cast
  ring

/-- **C120.** The degree is found from the number of parameters. -/
theorem degree_count (d : Nat) : rpcDegree (count d) = d := by
  have h : (2 * ((count d : Nat) : ℝ) + 5) = (2 * (d : ℝ) + 3) ^ 2 := by
    have h0 : ((count d : ℤ) : ℝ) = ((numDistParams d : ℤ) : ℝ) := by rw [count_eq]
    have h1 : ((count d : Nat) : ℝ) = ((count d : ℤ) : ℝ) := by push_cast; rfl
    rw [h1, h0]
    unfold numDistParams
    push_cast
    ring
  unfold rpcDegree
  rw [h, Real.sqrt_sq (by positivity)]
  have : (2 * (d : ℝ) + 3) / 2 - 1.5 = ((d : ℤ) : ℝ) := by push_cast; ring
  rw [this, round_intCast]

/-- **C120.** A number of parameters is accepted exactly when it is the number of coefficients of four polynomials of some
degree from 1, without the two constant ones: `2 (d + 1) (d + 2) - 2`. -/
theorem valid_iff (n : Nat) : Valid n ↔ ∃ d : Nat, 1 ≤ d ∧ n + 2 = 2 * (d + 1) * (d + 2) := by
  constructor
  · rintro ⟨h1, h2⟩
    obtain ⟨d, hd⟩ := Int.eq_ofNat_of_zero_le h2.le
    rw [hd] at h1 h2
    refine ⟨d, by omega, ?_⟩
    unfold numDistParams at h1
    have : ((n + 2 : Nat) : ℤ) = ((2 * (d + 1) * (d + 2) : Nat) : ℤ) := by push_cast; linarith
    exact_mod_cast this
  · rintro ⟨d, h1, h2⟩
    have h3 : n = count d := by
      have := two_tri (d + 1)
      unfold count
      have h4 : 2 * (d + 1) * (d + 2) = 2 * (2 * tri (d + 1)) := by rw [this]; ring
      omega
    rw [h3]
    refine ⟨?_, ?_⟩
    · rw [degree_count, count_eq]
    · rw [degree_count]; exact_mod_cast h1

theorem valid_count (d : Nat) (h : 1 ≤ d) : Valid (count d) := by
  refine ⟨?_, ?_⟩
  · rw [degree_count, count_eq]
  · rw [degree_count]; exact_mod_cast h

theorem valid_elim (n : Nat) (h : Valid n) : ∃ d, 1 ≤ d ∧ n = count d := by
  obtain ⟨h1, h2⟩ := h
  obtain ⟨d, hd⟩ := Int.eq_ofNat_of_zero_le h2.le
  rw [hd] at h1 h2
  rw [← count_eq] at h1
  exact ⟨d, by omega, by exact_mod_cast h1.symm⟩

theorem count_quarter (d : Nat) : (count d + 2) / 4 = tri (d + 1) := by
  have := tri_succ d
  unfold count
  omega

theorem tri_pos (d : Nat) : 1 ≤ tri (d + 1) := by have := tri_succ d; omega

theorem tri_mono (a b : Nat) (h : a ≤ b) : tri a ≤ tri b := by
  induction b, h using Nat.le_induction with
  | base => exact le_rfl
  | succ b _ ih => have := tri_succ b; omega

theorem Polys.all_length (p : Polys K) (d : Nat) (h : p.OfDegree d) : p.all.length = count d := by
  obtain ⟨h1, h2, h3, h4⟩ := h
  unfold Polys.all count
  simp only [List.length_append]
  omega

/-! ### Packing -/

/-- **C120.** Packing four polynomials of a degree from 1 gives their coefficients one after another. -/
theorem pack_eq (p : Polys K) (d : Nat) (hd : 1 ≤ d) (h : p.OfDegree d) : pack p = some p.all := by
  have hl := p.all_length d h
  obtain ⟨h1, h2, h3, h4⟩ := h
  unfold pack
  dsimp only
  rw [if_neg (by omega)]
  have : (p.numX ++ p.denX ++ p.numY ++ p.denY).length = count d := hl
  rw [this, if_pos (valid_count d hd)]
  rfl

/-- **C120.** Unpacking is the inverse of packing. -/
theorem unpack_all (p : Polys K) (d : Nat) (hd : 1 ≤ d) (h : p.OfDegree d) : unpack p.all = some p := by
  have hl := p.all_length d h
  obtain ⟨h1, h2, h3, h4⟩ := h
  unfold unpack
  rw [hl, if_pos (valid_count d hd)]
  dsimp only
  rw [count_quarter]
  have e1 : tri (d + 1) = p.numX.length := h1.symm
  have e2 : tri (d + 1) - 1 = p.denX.length := by omega
  have e3 : tri (d + 1) = p.numY.length := h3.symm
  have e4 : tri (d + 1) - 1 = p.denY.length := by omega
  have f1 : (p.all.drop 0).take (tri (d + 1)) = p.numX := by
    rw [e1]; unfold Polys.all; simp
  have f2 : (p.all.drop (tri (d + 1))).take (tri (d + 1) - 1) = p.denX := by
    rw [e2, e1]; unfold Polys.all; simp
  have f3 : (p.all.drop (tri (d + 1) + (tri (d + 1) - 1))).take (tri (d + 1)) = p.numY := by
    rw [e2]
    conv_lhs => rw [show tri (d + 1) + p.denX.length = (p.numX ++ p.denX).length by rw [List.length_append]; omega, e3]
    unfold Polys.all
    rw [List.append_assoc (p.numX ++ p.denX), List.drop_left, List.take_left]
  have f4 : (p.all.drop (tri (d + 1) + (tri (d + 1) - 1) + tri (d + 1))).take (tri (d + 1) - 1) = p.denY := by
    rw [show tri (d + 1) + (tri (d + 1) - 1) + tri (d + 1) = (p.numX ++ p.denX ++ p.numY).length by
      simp only [List.length_append]; omega, e4]
    unfold Polys.all
    rw [List.drop_left, List.take_length]
  rw [f1, f2, f3, f4]

/-- **C120.** Every accepted vector is the packing of four polynomials, which unpacking finds. -/
theorem unpack_valid (c : List K) (h : Valid c.length) :
    ∃ (p : Polys K) (d : Nat), 1 ≤ d ∧ p.OfDegree d ∧ unpack c = some p ∧ p.all = c ∧ rpcDegree c.length = d := by
  obtain ⟨d, hd, hc⟩ := valid_elim _ h
  have ht := tri_pos d
  have hq := hc
  unfold count at hq
  let p : Polys K := ⟨(c.drop 0).take (tri (d + 1)), (c.drop (tri (d + 1))).take (tri (d + 1) - 1),
      (c.drop (tri (d + 1) + (tri (d + 1) - 1))).take (tri (d + 1)),
      (c.drop (tri (d + 1) + (tri (d + 1) - 1) + tri (d + 1))).take (tri (d + 1) - 1)⟩
  have hp : p.OfDegree d := by
    refine ⟨?_, ?_, ?_, ?_⟩ <;> simp only [p, List.length_take, List.length_drop] <;> omega
  have hall : p.all = c := by
    simp only [p, Polys.all, List.drop_zero]
    have e1 : c.take (tri (d + 1)) ++ (c.drop (tri (d + 1))).take (tri (d + 1) - 1) = c.take (tri (d + 1) + (tri (d + 1) - 1)) := by
      rw [← List.take_add]
    rw [e1, ← List.take_add, ← List.take_add]
    apply List.take_of_length_le
    omega
  refine ⟨p, d, hd, hp, ?_, hall, by rw [hc, degree_count]⟩
  rw [← hall]
  exact unpack_all p d hd hp

theorem unpack_invalid (c : List K) (h : ¬ Valid c.length) : unpack c = none := by unfold unpack; rw [if_neg h]

/-! ### Evaluation -/

theorem powers_getD (x : K) (n : Nat) : ∀ v k, k < n → (powers x n v).getD k 0 = v * x ^ k := by
  induction n with
  | zero => intro v k h; omega
  | succ n ih =>
    intro v k h
    cases k with
    | zero => simp [powers]
    | succ k =>
      simp only [powers, List.getD_cons_succ]
      rw [ih _ _ (by omega)]
      ring

theorem inner_aux (c px py : List K) (deg n : Nat) (s : K × Nat) :
    (List.range n).foldl (fun s i => (s.1 + c.getD s.2 0 * px.getD (deg - i) 0 * py.getD i 0, s.2 + 1)) s =
      (s.1 + ∑ i ∈ range n, c.getD (s.2 + i) 0 * px.getD (deg - i) 0 * py.getD i 0, s.2 + n) := by
  induction n with
  | zero => simp
  | succ n ih =>
    rw [List.range_succ, List.foldl_append, ih, sum_range_succ]
    simp only [List.foldl_cons, List.foldl_nil]
    rw [add_assoc, add_assoc]

theorem inner_eq (c : List K) (x y : K) (d deg : Nat) (h : deg ≤ d) (s : K × Nat) :
    inner c (powers x (d + 1) 1) (powers y (d + 1) 1) s deg =
      (s.1 + ∑ i ∈ range (deg + 1), c.getD (s.2 + i) 0 * (x ^ (deg - i) * y ^ i), s.2 + (deg + 1)) := by
  unfold inner
  rw [inner_aux]
  congr 2
  refine sum_congr rfl fun i hi => ?_
  rw [mem_range] at hi
  rw [powers_getD _ _ _ _ (by omega), powers_getD _ _ _ _ (by omega)]
  ring

theorem outer_aux (c : List K) (x y : K) (d start n : Nat) (h : start + n ≤ d + 1) (s : K × Nat) :
    (List.range' start n).foldl (inner c (powers x (d + 1) 1) (powers y (d + 1) 1)) s =
      (s.1 + ∑ j ∈ range n, ∑ i ∈ range (start + j + 1),
          c.getD (s.2 + (tri (start + j) - tri start) + i) 0 * (x ^ (start + j - i) * y ^ i),
        s.2 + (tri (start + n) - tri start)) := by
  induction n with
  | zero => simp
  | succ n ih =>
    rw [List.range'_concat, List.foldl_append, ih (by omega), sum_range_succ]
    simp only [List.foldl_cons, List.foldl_nil, one_mul]
    rw [inner_eq c x y d (start + n) (by omega)]
    have h1 := tri_succ (start + n)
    have h2 := tri_mono start (start + n) (by omega)
    refine Prod.ext ?_ ?_
    · dsimp only
      rw [add_assoc]
    · dsimp only
      rw [show start + (n + 1) = start + n + 1 by omega, h1]
      omega

theorem outer0 (c : List K) (x y : K) (d k : Nat) :
    outer c (powers x (d + 1) 1) (powers y (d + 1) 1) d 0 (0, k) =
      (poly d (c.drop k) x y, k + tri (d + 1)) := by
  unfold outer
  rw [outer_aux c x y d 0 (d + 1 - 0) (by omega) _]
  have : tri 0 = 0 := rfl
  simp only [this, Nat.sub_zero, zero_add, poly]
  congr 1
  refine sum_congr rfl fun g _ => sum_congr rfl fun i _ => ?_
  rw [List.getD_eq_getElem?_getD, List.getD_eq_getElem?_getD, List.getElem?_drop, add_assoc]

theorem outer1 (c : List K) (x y : K) (d k : Nat) :
    outer c (powers x (d + 1) 1) (powers y (d + 1) 1) d 1 (1, k) =
      (poly d (1 :: c.drop k) x y, k + (tri (d + 1) - 1)) := by
  unfold outer
  rw [outer_aux c x y d 1 (d + 1 - 1) (by omega) _]
  have ht : tri 1 = 1 := rfl
  simp only [ht, Nat.add_sub_cancel, poly]
  refine Prod.ext ?_ ?_
  · dsimp only
    rw [sum_range_succ' _ d]
    have h0 : ∑ i ∈ range (0 + 1), (1 :: c.drop k).getD (tri 0 + i) 0 * (x ^ (0 - i) * y ^ i) = 1 := by
      simp [show tri 0 = 0 from rfl]
    rw [h0, add_comm]
    congr 1
    refine sum_congr rfl fun g _ => ?_
    rw [show 1 + g = g + 1 by omega]
    refine sum_congr rfl fun i _ => ?_
    have h1 : 1 ≤ tri (g + 1) := tri_pos g
    rw [show tri (g + 1) + i = (tri (g + 1) - 1 + i) + 1 by omega, List.getD_cons_succ]
    rw [List.getD_eq_getElem?_getD, List.getD_eq_getElem?_getD, List.getElem?_drop, add_assoc]
  · dsimp only
    rw [show 1 + d = d + 1 by omega]

/-- Only the coefficients of the polynomial matter. -/
theorem poly_append (d : Nat) (c e : List K) (x y : K) (h : c.length = tri (d + 1)) : poly d (c ++ e) x y = poly d c x y := by
  unfold poly
  refine sum_congr rfl fun g hg => sum_congr rfl fun i hi => ?_
  rw [mem_range] at hg hi
  have h1 := tri_succ g
  have h2 := tri_mono (g + 1) (d + 1) (by omega)
  rw [List.getD_append _ _ _ _ (by omega)]

/-- **C120.** The distortion is, in each coordinate, the quotient of the two polynomials, the constant coefficient of the
denominator being one. -/
theorem distortion_value (p : Polys K) (d : Nat) (h : p.OfDegree d) (P : V2 K) :
    rpcDistortion p.all P = p.value d P := by
  have hl := p.all_length d h
  obtain ⟨h1, h2, h3, h4⟩ := h
  have ht := tri_pos d
  have e1 : p.all.drop 0 = p.numX ++ (p.denX ++ p.numY ++ p.denY) := by unfold Polys.all; simp
  have e2 : p.all.drop (tri (d + 1)) = p.denX ++ (p.numY ++ p.denY) := by
    unfold Polys.all; rw [← h1, List.append_assoc, List.append_assoc, List.drop_left]
  have e3 : p.all.drop (tri (d + 1) + (tri (d + 1) - 1)) = p.numY ++ p.denY := by
    rw [show tri (d + 1) + (tri (d + 1) - 1) = (p.numX ++ p.denX).length by rw [List.length_append]; omega]
    unfold Polys.all
    rw [List.append_assoc (p.numX ++ p.denX), List.drop_left]
  have e4 : p.all.drop (tri (d + 1) + (tri (d + 1) - 1) + tri (d + 1)) = p.denY := by
    rw [show tri (d + 1) + (tri (d + 1) - 1) + tri (d + 1) = (p.numX ++ p.denX ++ p.numY).length by
      simp only [List.length_append]; omega]
    unfold Polys.all
    rw [List.drop_left]
  unfold rpcDistortion
  dsimp only
  rw [hl, degree_count, Int.toNat_natCast, outer0, outer1, outer0, outer1]
  dsimp only
  rw [if_neg (by unfold count; omega), e1, Nat.zero_add, e2, e3, e4,
    poly_append d p.numX _ _ _ h1, poly_append d p.numY _ _ _ h3, ← List.cons_append,
    poly_append d (1 :: p.denX) _ _ _ (by simp; omega)]
  rfl

/-! ### The identity, and another degree -/

theorem poly_zeros (d n : Nat) (x y : K) : poly d (1 :: List.replicate n (0 : K)) x y = 1 := by
  unfold poly
  rw [sum_range_succ']
  have h0 : ∑ i ∈ range (0 + 1), (1 :: List.replicate n (0 : K)).getD (tri 0 + i) 0 * (x ^ (0 - i) * y ^ i) = 1 := by
    simp [show tri 0 = 0 from rfl]
  rw [h0, sum_eq_zero, zero_add]
  intro g _
  refine sum_eq_zero fun i _ => ?_
  have h1 : 1 ≤ tri (g + 1) := tri_pos g
  rw [show tri (g + 1) + i = (tri (g + 1) - 1 + i) + 1 by omega, List.getD_cons_succ]
  have : (List.replicate n (0 : K)).getD (tri (g + 1) - 1 + i) 0 = 0 := by
    rw [List.getD_eq_getElem?_getD, List.getElem?_replicate]; split_ifs <;> rfl
  rw [this, zero_mul]

/-- A polynomial whose coefficients past degree one are zero. -/
theorem poly_linear (d n : Nat) (hd : 1 ≤ d) (a b c x y : K) :
    poly d (a :: b :: c :: List.replicate n (0 : K)) x y = a + b * x + c * y := by
  unfold poly
  obtain ⟨d, rfl⟩ : ∃ k, d = k + 1 := ⟨d - 1, by omega⟩
  rw [sum_range_succ', sum_range_succ', sum_eq_zero]
  · simp [sum_range_succ, show tri 0 = 0 from rfl, show tri 1 = 1 from rfl]
    ring
  · intro g _
    refine sum_eq_zero fun i _ => ?_
    have h1 : 3 ≤ tri (g + 1 + 1) := by
      have := tri_mono 2 (g + 1 + 1) (by omega)
      have h3 : tri 2 = 3 := rfl
      omega
    rw [show tri (g + 1 + 1) + i = (tri (g + 1 + 1) - 3 + i) + 1 + 1 + 1 by omega, List.getD_cons_succ, List.getD_cons_succ,
      List.getD_cons_succ]
    have : (List.replicate n (0 : K)).getD (tri (g + 1 + 1) - 3 + i) 0 = 0 := by
      rw [List.getD_eq_getElem?_getD, List.getElem?_replicate]; split_ifs <;> rfl
    rw [this, zero_mul]

theorem poly_zeros_append (d : Nat) (c : List K) (h : c.length = tri (d + 1)) (n : Nat) (x y : K) :
    poly (d + 1) (c ++ List.replicate n 0) x y = poly d c x y := by
  unfold poly
  rw [sum_range_succ _ (d + 1)]
  have : ∑ i ∈ range (d + 1 + 1), (c ++ List.replicate n 0).getD (tri (d + 1) + i) 0 * (x ^ (d + 1 - i) * y ^ i) = 0 := by
    refine sum_eq_zero fun i _ => ?_
    have : (c ++ List.replicate n 0).getD (tri (d + 1) + i) 0 = 0 := by
      rw [List.getD_append_right _ _ _ _ (by omega), List.getD_eq_getElem?_getD, List.getElem?_replicate]
      split_ifs <;> rfl
    rw [this, zero_mul]
  rw [this, add_zero]
  exact poly_append d c _ x y h

/-- The four polynomials with coefficients zero past degree one, and denominators one. -/
def affinePolys (d : Nat) (a b c a' b' c' : K) : Polys K :=
  ⟨a :: b :: c :: List.replicate (tri (d + 1) - 3) 0, List.replicate (tri (d + 1) - 1) 0,
    a' :: b' :: c' :: List.replicate (tri (d + 1) - 3) 0, List.replicate (tri (d + 1) - 1) 0⟩

theorem tri_three (d : Nat) (hd : 1 ≤ d) : 3 ≤ tri (d + 1) := by
  have := tri_mono 2 (d + 1) (by omega)
  have h3 : tri 2 = 3 := rfl
  omega

theorem affinePolys_degree (d : Nat) (hd : 1 ≤ d) (a b c a' b' c' : K) : (affinePolys d a b c a' b' c').OfDegree d := by
  have := tri_three d hd
  refine ⟨?_, ?_, ?_, ?_⟩ <;> simp [affinePolys] <;> omega

theorem affinePolys_value (d : Nat) (hd : 1 ≤ d) (a b c a' b' c' : K) (P : V2 K) :
    rpcDistortion (affinePolys d a b c a' b' c').all P = some (a + b * P.1 + c * P.2, a' + b' * P.1 + c' * P.2) := by
  rw [distortion_value _ d (affinePolys_degree d hd ..)]
  unfold Polys.value affinePolys
  dsimp only
  rw [poly_zeros, if_neg (by simp), poly_linear d _ hd, poly_linear d _ hd, div_one, div_one]

theorem initIdentity_eq (d : Nat) (hd : 1 ≤ d) :
    initIdentity K (count d) = some (affinePolys d (0 : K) 1 0 0 0 1).all := by
  have h3 := tri_three d hd
  unfold initIdentity
  rw [if_pos (valid_count d hd)]
  let z : Polys K := ⟨List.replicate (tri (d + 1)) 0, List.replicate (tri (d + 1) - 1) 0,
    List.replicate (tri (d + 1)) 0, List.replicate (tri (d + 1) - 1) 0⟩
  have hz : z.OfDegree d := by refine ⟨?_, ?_, ?_, ?_⟩ <;> simp [z] <;> omega
  have hzall : List.replicate (count d) (0 : K) = z.all := by
    simp only [z, Polys.all, List.replicate_append_replicate]
    congr 1
    unfold count; omega
  rw [hzall, unpack_all z d hd hz]
  have hx : z.numX.set 1 1 = 0 :: 1 :: 0 :: List.replicate (tri (d + 1) - 3) 0 := by
    simp only [z]
    obtain ⟨m, hm⟩ : ∃ m, tri (d + 1) = m + 3 := ⟨tri (d + 1) - 3, by omega⟩
    rw [hm]
    simp [List.replicate_succ]
  have hy : z.numY.set 2 1 = 0 :: 0 :: 1 :: List.replicate (tri (d + 1) - 3) 0 := by
    simp only [z]
    obtain ⟨m, hm⟩ : ∃ m, tri (d + 1) = m + 3 := ⟨tri (d + 1) - 3, by omega⟩
    rw [hm]
    simp [List.replicate_succ]
  rw [Option.bind_some, hx, hy]
  exact pack_eq _ d hd (affinePolys_degree d hd 0 1 0 0 0 1)

/-- **C120.** The coefficients made for a degree from 1 describe the identity. -/
theorem identity_value (d : Nat) (hd : 1 ≤ d) :
    ∃ c, initIdentity K (2 * (d + 1) * (d + 2) - 2) = some c ∧ ∀ P, rpcDistortion c P = some P := by
  have hc : 2 * (d + 1) * (d + 2) - 2 = count d := by
    have := two_tri (d + 1)
    unfold count
    have h4 : 2 * (d + 1) * (d + 2) = 2 * (2 * tri (d + 1)) := by rw [this]; ring
    omega
  rw [hc]
  refine ⟨_, initIdentity_eq d hd, fun P => ?_⟩
  rw [affinePolys_value d hd]
  simp

/-- **C120.** `reset` accepts the degrees from 1 and makes a lens of that degree that changes nothing. -/
theorem reset_spec (d : ℤ) : (d ≤ 0 → reset K d = none) ∧
    (0 < d → ∃ L, reset K d = some L ∧ L.degree = d ∧ rpcDegree L.params.length = d ∧ ∀ P, rpcDistortion L.params P = some P) := by
  constructor
  · intro h; unfold reset; rw [if_pos h]
  · intro h
    obtain ⟨n, rfl⟩ := Int.eq_ofNat_of_zero_le h.le
    have hn : 1 ≤ n := by omega
    refine ⟨⟨n, (affinePolys n (0 : K) 1 0 0 0 1).all⟩, ?_, rfl, ?_, fun P => ?_⟩
    · unfold reset
      rw [if_neg (by omega), ← count_eq, Int.toNat_natCast, initIdentity_eq n hn]
      rfl
    · dsimp only; rw [Polys.all_length _ n (affinePolys_degree n hn ..), degree_count]
    · dsimp only; rw [affinePolys_value n hn]; simp

/-- **C120.** Raising the degree by one keeps the distortion: same values, one degree more; a vector of a wrong length is
refused. -/
theorem increment_spec (c : List K) :
    (¬ Valid c.length → increment c = none) ∧
    (Valid c.length → ∃ c', increment c = some c' ∧ rpcDegree c'.length = rpcDegree c.length + 1 ∧ Valid c'.length ∧
      ∀ P, rpcDistortion c' P = rpcDistortion c P) := by
  constructor
  · intro h; unfold increment; rw [if_neg h]
  · intro h
    obtain ⟨p, d, hd, hp, hu, hall, hdeg⟩ := unpack_valid c h
    have hp' := hp
    obtain ⟨h1, h2, h3, h4⟩ := hp'
    have ht := tri_succ (d + 1)
    let q : Polys K := ⟨appendZeros p.numX (d + 2), appendZeros p.denX (d + 2), appendZeros p.numY (d + 2), appendZeros p.denY (d + 2)⟩
    have hq : q.OfDegree (d + 1) := by
      refine ⟨?_, ?_, ?_, ?_⟩ <;> simp [q, appendZeros] <;> omega
    refine ⟨q.all, ?_, ?_, ?_, fun P => ?_⟩
    · unfold increment
      rw [if_pos h, hu, Option.bind_some]
      dsimp only
      rw [hdeg, show ((d : ℤ) + 2).toNat = d + 2 by omega]
      exact pack_eq q (d + 1) (by omega) hq
    · rw [q.all_length (d + 1) hq, degree_count, hdeg]; push_cast; rfl
    · rw [q.all_length (d + 1) hq]; exact valid_count (d + 1) (by omega)
    · rw [distortion_value q (d + 1) hq, ← hall, distortion_value p d hp]
      unfold Polys.value
      have e1 : poly (d + 1) q.numX P.1 P.2 = poly d p.numX P.1 P.2 := poly_zeros_append d _ h1 _ _ _
      have e2 : poly (d + 1) (1 :: q.denX) P.1 P.2 = poly d (1 :: p.denX) P.1 P.2 :=
        poly_zeros_append d (1 :: p.denX) (by simpa using h2) _ _ _
      have e3 : poly (d + 1) q.numY P.1 P.2 = poly d p.numY P.1 P.2 := poly_zeros_append d _ h3 _ _ _
      have e4 : poly (d + 1) (1 :: q.denY) P.1 P.2 = poly d (1 :: p.denY) P.1 P.2 :=
        poly_zeros_append d (1 :: p.denY) (by simpa using h4) _ _ _
      rw [e1, e2, e3, e4]

/-! ### Files -/

/-- A lens as the constructors make it. -/
def Lens.Good (L : Lens K) : Prop := Valid L.params.length ∧ L.degree = rpcDegree L.params.length

theorem ofParams_good (c : List K) (L : Lens K) (h : ofParams c = some L) : L.Good ∧ L.params = c := by
  unfold ofParams at h
  split_ifs at h with hv
  cases h
  exact ⟨⟨hv, rfl⟩, rfl⟩

theorem quarter_eq (d : Nat) : (numDistParams (d : ℤ) + 2) / 4 = (tri (d + 1) : ℤ) := by
  rw [← count_eq]
  have := count_quarter d
  omega

/-- The file with these leading numbers of the denominators, for polynomials `p`. -/
def fileOf (d : ℤ) (a b : K) (p : Polys K) : List (Line K) :=
  [.degree "rpc_degree" d, .nums "distortion_num_x" p.numX, .nums "distortion_den_x" (a :: p.denX),
      .nums "distortion_num_y" p.numY, .nums "distortion_den_y" (b :: p.denY)]

theorem readVec_cons (name : String) (len : ℤ) (v : List K) (rest : List (Line K)) (h : (v.length : ℤ) = len) :
    readVec name len (.nums name v :: rest) = some (v, rest) := by
  unfold readVec
  exact if_pos ⟨rfl, h⟩

theorem remove1_cons (a : K) (v : List K) : remove1 (a :: v) = some v := by
  unfold remove1
  rw [if_neg (by simp)]
  rfl

theorem read_fileOf (g : ℤ) (d : Nat) (hd : 1 ≤ d) (hq : (numDistParams g + 2) / 4 = (tri (d + 1) : ℤ)) (a b : K)
    (p : Polys K) (hp : p.OfDegree d) : read (fileOf g a b p) = some ⟨g, p.all⟩ := by
  obtain ⟨h1, h2, h3, h4⟩ := id hp
  unfold read fileOf
  dsimp only
  rw [hq, if_pos rfl, readVec_cons _ _ _ _ (by omega), Option.bind_some]
  dsimp only
  rw [readVec_cons _ _ _ _ (by rw [List.length_cons]; omega), Option.bind_some]
  dsimp only
  rw [readVec_cons _ _ _ _ (by omega), Option.bind_some]
  dsimp only
  rw [readVec_cons _ _ _ _ (by rw [List.length_cons]; omega), Option.bind_some]
  dsimp only
  rw [remove1_cons, remove1_cons, Option.bind_some, Option.bind_some]
  have : pack (⟨p.numX, p.denX, p.numY, p.denY⟩ : Polys K) = some p.all := pack_eq p d hd hp
  rw [this]
  rfl

/-- **C120.** A lens written to a file and read again is the same lens. -/
theorem read_write (L : Lens K) (h : L.Good) : ∃ lines, write L = some lines ∧ read lines = some L := by
  obtain ⟨hv, hdeg⟩ := h
  obtain ⟨p, d, hd, hp, hu, hall, hd'⟩ := unpack_valid L.params hv
  refine ⟨fileOf L.degree 1 1 p, by unfold write; rw [hu]; rfl, ?_⟩
  rw [read_fileOf L.degree d hd (by rw [hdeg, hd', quarter_eq]) 1 1 p hp, hall]

/-- **C120.** Whatever is read is a proper vector of coefficients. -/
theorem read_valid (lines : List (Line K)) (L : Lens K) (h : read lines = some L) : Valid L.params.length := by
  unfold read at h
  split at h
  · split_ifs at h
    simp only [Option.bind_eq_some_iff, Option.map_eq_some_iff] at h
    obtain ⟨_, -, _, -, _, -, _, -, _, -, _, -, c, hc, rfl⟩ := h
    unfold pack at hc
    dsimp only at hc
    split_ifs at hc with _ hv
    cases hc
    exact hv
  · cases h

/-- **C120, refutation.** The leading numbers of the denominators in a file are not looked at: the lens is the one for
which they are one, whatever they are.  So `2 + …` is read as `1 + …`, which is another function. -/
theorem read_ignores_leading (d : Nat) (hd : 1 ≤ d) (a b : K) (p : Polys K) (hp : p.OfDegree d) :
    read (fileOf d a b p) = some ⟨d, p.all⟩ := read_fileOf d d hd (quarter_eq d) a b p hp

/-- **C120, refutation.** The degree in a file is not compared with the number of coefficients: for every degree from 1
there is a negative number that is accepted in its place, and the lens then says that this is its degree. -/
theorem read_negative_degree (d : Nat) (hd : 1 ≤ d) (p : Polys K) (hp : p.OfDegree d) :
    read (fileOf (-(d : ℤ) - 3) 1 1 p) = some ⟨-(d : ℤ) - 3, p.all⟩ := by
  refine read_fileOf _ d hd ?_ 1 1 p hp
  rw [← quarter_eq]
  unfold numDistParams
  ring_nf

/-! ### With a camera -/

variable [IsStrictOrderedRing K]

/-- **C120.** With denominators one and numerators of degree one, whatever the degree of the lens, undistorting is the
inverse of distorting: for a camera with focal lengths that are not tiny, and a determinant that is not. -/
theorem affine_round_trip (tiny big : K) (norm : V2 K → K) (hn0 : ∀ v, norm v = 0 ↔ v = (0, 0)) (hn1 : ∀ v, 0 ≤ norm v)
    (ht : 0 < tiny) (hb : 0 < big) (cam : Cam K) (hf1 : tiny ≤ cam.focal.1) (hf2 : tiny ≤ cam.focal.2)
    (d : Nat) (hd : 1 ≤ d) (a b c a' b' c' : K) (hdet : 1 / 1000000 ≤ |b * c' - c * b'|) (g : ℤ) (p : V2 K) :
    ∃ u v, undistorted tiny big norm ⟨g, (affinePolys d a b c a' b' c').all⟩ cam p = some u ∧
      distorted tiny ⟨g, (affinePolys d a b c a' b' c').all⟩ cam u = some p ∧
      distorted tiny ⟨g, (affinePolys d a b c a' b' c').all⟩ cam p = some v ∧
      undistorted tiny big norm ⟨g, (affinePolys d a b c a' b' c').all⟩ cam v = some p := by
  have hfun : rpcDistortion (affinePolys d a b c a' b' c').all = affine a b c a' b' c' := by
    funext P; rw [affinePolys_value d hd]; rfl
  have hg : ¬ (cam.focal.1 < tiny ∨ cam.focal.2 < tiny) := by
    rintro (h | h)
    · exact absurd h (not_lt.2 hf1)
    · exact absurd h (not_lt.2 hf2)
  have h1 : cam.focal.1 ≠ 0 := (ht.trans_le hf1).ne'
  have h2 : cam.focal.2 ≠ 0 := (ht.trans_le hf2).ne'
  have hs : (1 / 1000000 : K) ≠ 0 := by norm_num
  have key : ∀ guess y : V2 K, affine a b c a' b' c' (newtonSolve ⟨affine a b c a' b' c', numJac (affine a b c a' b' c'), norm, big⟩
      guess y (1 / 1000000) (1 / 1000000000)).1 = some y :=
    fun guess y => newton_affine a b c a' b' c' (1 / 1000000) (1 / 1000000000) big norm hs hdet guess y hn0 hn1 hb
  have hdne : b * c' - c * b' ≠ 0 := by
    intro h0; rw [h0, abs_zero] at hdet; norm_num at hdet
  have inj : ∀ X Y : V2 K, affine a b c a' b' c' X = affine a b c a' b' c' Y → X = Y := by
    intro X Y h
    simp only [affine, Option.some.injEq, Prod.mk.injEq] at h
    obtain ⟨e1, e2⟩ := h
    refine Prod.ext (mul_left_cancel₀ hdne ?_) (mul_left_cancel₀ hdne ?_)
    · linear_combination c' * e1 - c * e2
    · linear_combination b * e2 - b' * e1
  have U : ∀ q : V2 K, ∃ w, undistorted tiny big norm ⟨g, (affinePolys d a b c a' b' c').all⟩ cam q = some w ∧
      affine a b c a' b' c' ((w.1 - cam.offset.1) / cam.focal.1, (w.2 - cam.offset.2) / cam.focal.2) =
        some ((q.1 - cam.offset.1) / cam.focal.1, (q.2 - cam.offset.2) / cam.focal.2) := by
    intro q
    unfold undistorted
    rw [if_neg hg]
    refine ⟨_, rfl, ?_⟩
    dsimp only
    rw [hfun]
    simp only [add_sub_cancel_right, mul_div_assoc, div_self h1, div_self h2, mul_one]
    exact key _ _
  have D : ∀ q : V2 K, distorted tiny ⟨g, (affinePolys d a b c a' b' c').all⟩ cam q =
      (affine a b c a' b' c' ((q.1 - cam.offset.1) / cam.focal.1, (q.2 - cam.offset.2) / cam.focal.2)).map
        fun q => (q.1 * cam.focal.1 + cam.offset.1, q.2 * cam.focal.2 + cam.offset.2) := by
    intro q
    unfold distorted
    rw [if_neg hg]
    dsimp only
    rw [hfun]
  obtain ⟨u, hu1, hu2⟩ := U p
  have back : ∀ q : V2 K, ((q.1 - cam.offset.1) / cam.focal.1 * cam.focal.1 + cam.offset.1,
      (q.2 - cam.offset.2) / cam.focal.2 * cam.focal.2 + cam.offset.2) = q := by
    intro q
    rw [div_mul_cancel₀ _ h1, div_mul_cancel₀ _ h2, sub_add_cancel, sub_add_cancel]
  generalize hv : affine a b c a' b' c' ((p.1 - cam.offset.1) / cam.focal.1, (p.2 - cam.offset.2) / cam.focal.2) = v0
  obtain ⟨v0', rfl⟩ : ∃ w, v0 = some w := ⟨_, hv.symm⟩
  obtain ⟨w, hw1, hw2⟩ := U (v0'.1 * cam.focal.1 + cam.offset.1, v0'.2 * cam.focal.2 + cam.offset.2)
  refine ⟨u, (v0'.1 * cam.focal.1 + cam.offset.1, v0'.2 * cam.focal.2 + cam.offset.2), hu1, ?_, ?_, ?_⟩
  · rw [D, hu2, Option.map_some, back]
  · rw [D, hv]; rfl
  · rw [hw1]
    simp only [add_sub_cancel_right, mul_div_assoc, div_self h1, div_self h2, mul_one] at hw2
    have := inj _ _ (hw2.trans hv.symm)
    simp only [Prod.mk.injEq] at this
    obtain ⟨e1, e2⟩ := this
    rw [Option.some.injEq]
    refine Prod.ext ?_ ?_
    · have := congrArg (· * cam.focal.1 + cam.offset.1) e1
      simpa [div_mul_cancel₀ _ h1] using this
    · have := congrArg (· * cam.focal.2 + cam.offset.2) e2
      simpa [div_mul_cancel₀ _ h2] using this

/-- **C120.** A tiny or negative focal length gives no pixel in either direction. -/
theorem tiny_focal (tiny big : K) (norm : V2 K → K) (L : Lens K) (cam : Cam K) (p : V2 K)
    (h : cam.focal.1 < tiny ∨ cam.focal.2 < tiny) :
    distorted tiny L cam p = none ∧ undistorted tiny big norm L cam p = none := by
  unfold distorted undistorted
  rw [if_pos h, if_pos h]
  exact ⟨rfl, rfl⟩

/-! ### Examples -/

example : count 1 = 10 ∧ count 2 = 22 ∧ count 3 = 38 := by decide
example : Valid 10 ∧ ¬ Valid 11 := by
  rw [valid_iff, valid_iff]
  refine ⟨⟨1, by norm_num, by norm_num⟩, ?_⟩
  rintro ⟨d, h1, h2⟩
  have : d < 3 := by nlinarith
  interval_cases d <;> omega

/-- The lens `(x, y) ↦ ((1 + 2x) / (1 + y), y)`. -/
example : rpcDistortion [(1 : ℚ), 2, 0, 0, 1, 0, 0, 1, 0, 0] (3, 1) = some (7 / 2, 1) := by
  have := distortion_value (⟨[1, 2, 0], [0, 1], [0, 0, 1], [0, 0]⟩ : Polys ℚ) 1 ⟨rfl, rfl, rfl, rfl⟩ (3, 1)
  have e : (⟨[1, 2, 0], [0, 1], [0, 0, 1], [0, 0]⟩ : Polys ℚ).all = [(1 : ℚ), 2, 0, 0, 1, 0, 0, 1, 0, 0] := rfl
  rw [← e, this]
  decide +kernel

example : (⟨1, [(1 : ℚ), 2, 0, 0, 1, 0, 0, 1, 0, 0]⟩ : Lens ℚ).Good := by
  have h : count 1 = 10 := by decide
  refine ⟨?_, ?_⟩
  · show Valid 10; rw [← h]; exact valid_count 1 le_rfl
  · show (1 : ℤ) = rpcDegree 10; rw [← h, degree_count]; rfl

/-- A lens of degree two with an affine distortion. -/
example : ∃ u v, undistorted (1 / 1000) 1000000 norm1 ⟨2, (affinePolys 2 (1 : ℚ) 2 0 0 1 3).all⟩ ⟨(500, 500), (320, 240)⟩ (7, 8) = some u ∧
      distorted (1 / 1000) ⟨2, (affinePolys 2 (1 : ℚ) 2 0 0 1 3).all⟩ ⟨(500, 500), (320, 240)⟩ u = some (7, 8) ∧
      distorted (1 / 1000) ⟨2, (affinePolys 2 (1 : ℚ) 2 0 0 1 3).all⟩ ⟨(500, 500), (320, 240)⟩ (7, 8) = some v ∧
      undistorted (1 / 1000) 1000000 norm1 ⟨2, (affinePolys 2 (1 : ℚ) 2 0 0 1 3).all⟩ ⟨(500, 500), (320, 240)⟩ v = some (7, 8) := by
  refine affine_round_trip _ _ _ (fun v => ?_) (fun v => ?_) (by norm_num) (by norm_num) _ (by norm_num) (by norm_num) 2 (by norm_num)
    1 2 0 0 1 3 (by norm_num) 2 (7, 8)
  · unfold norm1
    constructor
    · intro h
      have h1 := abs_nonneg v.1
      have h2 := abs_nonneg v.2
      exact Prod.ext (abs_eq_zero.1 (by linarith)) (abs_eq_zero.1 (by linarith))
    · rintro rfl; simp
  · exact add_nonneg (abs_nonneg _) (abs_nonneg _)

end Verif.Camera.Rpc
