import Verif.Quad.Model
import Verif.View.Props
import Verif.Conv.Props
import Mathlib.Tactic.FieldSimp
import Mathlib.Tactic.Positivity
import Mathlib.Tactic.Push
import Mathlib.Algebra.CharZero.Defs
/-
Property C34: the quadtree.
-/
namespace VW.Quad
open VW.Block (Rect)
open VW.Edge (has_iff)
open VW.View (shift shift_has box_cases)
open Finset (range sum_congr)

/-! ### Number of levels -/

/-- The root square covers the image, and no smaller power of two would. -/
theorem root_covers {W H T : Int} (hW : 0 < W) (hH : 0 < H) (hT : 0 < T) :
    1 ≤ treeLevels W H T ∧ max W H ≤ T * 2 ^ (treeLevels W H T - 1).toNat ∧
    (1 < treeLevels W H T → T * 2 ^ (treeLevels W H T - 2).toNat < max W H) := by
  have hm : 0 < max W H := by omega
  have hmR : (0 : ℝ) < ((max W H : Int) : ℝ) := by exact_mod_cast hm
  have hTR : (0 : ℝ) < (T : ℝ) := by exact_mod_cast hT
  have hq : (0 : ℝ) < ((max W H : Int) : ℝ) / (T : ℝ) := div_pos hmR hTR
  have key : ∀ k : ℕ, (T : ℝ) * 2 ^ k = ((T * 2 ^ k : Int) : ℝ) := by intro k; push_cast; ring
  have e : treeLevels W H T = if 1 + ⌈Real.logb 2 (((max W H : Int) : ℝ) / (T : ℝ))⌉ < 1 then 1
      else 1 + ⌈Real.logb 2 (((max W H : Int) : ℝ) / (T : ℝ))⌉ := rfl
  generalize hc : ⌈Real.logb 2 (((max W H : Int) : ℝ) / (T : ℝ))⌉ = c at e
  have h1 : Real.logb 2 (((max W H : Int) : ℝ) / (T : ℝ)) ≤ c := by rw [← hc]; exact Int.le_ceil _
  have h2 : (c : ℝ) - 1 < Real.logb 2 (((max W H : Int) : ℝ) / (T : ℝ)) := by
    have := Int.ceil_lt_add_one (Real.logb 2 (((max W H : Int) : ℝ) / (T : ℝ)))
    rw [hc] at this; linarith
  have up : ∀ k : ℕ, c ≤ k → max W H ≤ T * 2 ^ k := by
    intro k hk
    have : Real.logb 2 (((max W H : Int) : ℝ) / (T : ℝ)) ≤ (k : ℝ) := le_trans h1 (by exact_mod_cast hk)
    rw [Real.logb_le_iff_le_rpow (by norm_num) hq, Real.rpow_natCast, div_le_iff₀ hTR] at this
    rw [mul_comm, key] at this
    exact_mod_cast this
  have dn : ∀ k : ℕ, (k : Int) + 1 = c → T * 2 ^ k < max W H := by
    intro k hk
    have : (k : ℝ) < Real.logb 2 (((max W H : Int) : ℝ) / (T : ℝ)) := by
      have : (k : ℝ) = (c : ℝ) - 1 := by rw [← hk]; push_cast; ring
      rw [this]; exact h2
    rw [Real.lt_logb_iff_rpow_lt (by norm_num) hq, Real.rpow_natCast, lt_div_iff₀ hTR] at this
    rw [mul_comm, key] at this
    exact_mod_cast this
  rw [e]
  split
  · rename_i h
    refine ⟨le_refl _, ?_, fun h => absurd h (lt_irrefl _)⟩
    exact up _ (by simp; omega)
  · rename_i h
    refine ⟨by omega, up _ (by omega), fun h' => dn _ (by omega)⟩

/-- The root region contains every pixel of the image. -/
theorem root_region_covers {W H T : Int} (hW : 0 < W) (hH : 0 < H) (hT : 0 < T) {x y : Int}
    (hx : 0 ≤ x) (hx' : x < W) (hy : 0 ≤ y) (hy' : y < H) : (rootRegion W H T).has x y = true := by
  have := (root_covers hW hH hT).2.1
  rw [has_iff]; unfold rootRegion
  generalize T * 2 ^ (treeLevels W H T - 1).toNat = s at *
  dsimp only; omega

/-- A 300 by 200 image in tiles of 256: two levels. -/
example : 1 < treeLevels 300 200 256 := by
  by_contra h
  have a := root_covers (W := 300) (H := 200) (T := 256) (by omega) (by omega) (by omega)
  have : treeLevels 300 200 256 = 1 := by omega
  rw [this] at a
  simp at a

/-! ### Branching -/

theorem tdiv2_double (a : Int) : (a + a).tdiv 2 = a := by have := tdiv2 (a + a); omega

/-- **C34 (branching)**: a region that is split is partitioned by its four children: every pixel of it
is in exactly one of them and no other pixel is. For every region, also of odd or negative extent. -/
theorem branch_partition {T : Int} {name : List Char} {r : Rect} (h : splits T r) (hT : 0 ≤ T) (x y : Int) :
    (branch T name r).countP (fun c => c.2.has x y) = if r.has x y then 1 else 0 := by
  have hne : r.empty = false := by
    by_contra he
    have := (VW.View.size_empty (by simpa using he)).1
    have := h.1; omega
  have := VW.View.empty_iff.1 hne
  have e : ∀ a b : Int, (a + b).tdiv 2 = (b + a).tdiv 2 := fun a b => by rw [Int.add_comm]
  unfold branch
  rw [if_pos h]
  simp only [quarter, if_true, halfBox, tdiv2_double, List.countP_cons, List.countP_nil, Rect.has, Nat.zero_add]
  simp only [show ('1' : Char) ≠ '0' by decide, show ('2' : Char) ≠ '0' by decide, show ('2' : Char) ≠ '1' by decide,
    show ('3' : Char) ≠ '0' by decide, show ('3' : Char) ≠ '1' by decide, show ('3' : Char) ≠ '2' by decide, if_false,
    tdiv2_double]
  rw [e r.x1 r.x0, e r.y1 r.y0]
  have a := tdiv2 (r.x0 + r.x1)
  have b := tdiv2 (r.y0 + r.y1)
  generalize (r.x0 + r.x1).tdiv 2 = m at *
  generalize (r.y0 + r.y1).tdiv 2 = k at *
  simp only [Bool.and_eq_true, decide_eq_true_eq]
  by_cases p : r.x0 ≤ x <;> by_cases q : r.y0 ≤ y <;> by_cases u : x < r.x1 <;> by_cases v : y < r.y1 <;>
    by_cases mx : x < m <;> by_cases ky : y < k <;>
    simp only [p, q, u, v, mx, ky, true_and, false_and, and_true, and_false, if_true, if_false,
      show (m ≤ x) ↔ ¬ (x < m) by omega, show (k ≤ y) ↔ ¬ (y < k) by omega, not_true, not_false_iff] <;> omega

/-- A region that is not split has no children: it is a leaf. -/
theorem branch_leaf {T : Int} {name : List Char} {r : Rect} (h : ¬ splits T r) : branch T name r = [] := by
  unfold branch; rw [if_neg h]

/-- The children have distinct names, one digit longer. -/
theorem branch_names {T : Int} {name : List Char} {r : Rect} (h : splits T r) :
    (branch T name r).map (·.1) = ['0', '1', '2', '3'].map (fun d => name ++ [d]) := by
  unfold branch; rw [if_pos h]; rfl

/-! ### Paths -/

/-- Different tiles have different paths. -/
theorem simplePath_injective (tree : List (List Char)) {a b : List Char} (h : simplePath tree a = simplePath tree b) :
    a = b := by
  simpa [simplePath] using h

theorem tieredPath_injective (n : Nat) (tree : List (List Char)) {a b : List Char}
    (h : tieredPath n tree a = tieredPath n tree b) : a = b := by
  have := congrArg List.getLast? h
  simpa [tieredPath] using this

/-- Named tiered paths differ unless the tree's own name is the name of a tile. -/
theorem namedTieredPath_injective_partial (n : Nat) (tree : List (List Char)) {stem : List Char}
    (hs : ∃ ch ∈ stem, ch ∉ ['0', '1', '2', '3']) {a b : List Char}
    (ha : ∀ ch ∈ a, ch ∈ ['0', '1', '2', '3']) (hb : ∀ ch ∈ b, ch ∈ ['0', '1', '2', '3'])
    (h : namedTieredPath n tree stem a = namedTieredPath n tree stem b) : a = b := by
  obtain ⟨c, hc, hn⟩ := hs
  unfold namedTieredPath at h
  by_cases h1 : a = [] <;> by_cases h2 : b = []
  · rw [h1, h2]
  · rw [if_pos h1, if_neg h2] at h
    have := congrArg List.getLast? h
    simp at this
    rw [this] at hc
    exact absurd (hb c hc) hn
  · rw [if_neg h1, if_pos h2] at h
    have := congrArg List.getLast? h
    simp at this
    rw [← this] at hc
    exact absurd (ha c hc) hn
  · rw [if_neg h1, if_neg h2] at h
    have := congrArg List.getLast? h
    simpa using this

/-- **Discrepancy**: a tree called "0" writes its root tile and tile "0" to the same path. -/
theorem namedTieredPath_collision :
    namedTieredPath 3 [['0']] ['0'] [] = namedTieredPath 3 [['0']] ['0'] ['0'] := by decide +kernel

/-! ### Box filter -/

variable {K : Type} [Field K] [CharZero K]

/-- The mean of the `s` by `s` box with corner (x,y). -/
def boxMean (Z : Int → Int → K) (x y : Int) (s : Nat) : K :=
  (∑ a ∈ range s, ∑ b ∈ range s, Z (x + a) (y + b)) / ((s : K) * s)

theorem boxFilter_value (im : Img K) {s : Nat} (hs : 0 < s) {x y : Int} (hx : 0 ≤ x) (hx' : x + s ≤ im.w)
    (hy : 0 ≤ y) (hy' : y + s ≤ im.h) :
    (boxFilter im s s).eval id x y = some (boxMean im.px x y s) := by
  have hi : Edge.IsImage (boxFilter im s s).child im.px := fun _ _ => rfl
  obtain ⟨E, hE⟩ := Conv.mode_shows hi Edge.Mode.constant
    (show (1 : Int) ≤ im.w by omega) (show (1 : Int) ≤ im.h by omega)
  have hE' : Conv.Shows (boxFilter im s s).child (boxFilter im s s).ext E := hE
  rw [Conv.sep_eval id _ E hE']
  have in_ : ∀ a b : Int, 0 ≤ a → a < im.w → 0 ≤ b → b < im.h → E a b = im.px a b := by
    intro a b h1 h2 h3 h4
    have u := hE'.inside a b h1 h2 h3 h4
    have v : (boxFilter im s s).child.get a b = some (im.px a b) := by
      show im.get a b = _
      unfold Img.get; rw [if_pos ⟨h1, h2, h3, h4⟩]
    rw [v] at u; exact (Option.some.inj u).symm
  have n1 : (boxFilter im s s).ni = s := rfl
  have n2 : (boxFilter im s s).nj = s := rfl
  simp only [n1, n2, if_neg (show s ≠ 0 by omega), show max s 1 = s by omega, id]
  congr 1
  unfold Conv.convSum boxMean Conv.axisKer
  simp only [if_neg (show s ≠ 0 by omega)]
  have m1 : (boxFilter im s s).mci = s - 1 := rfl
  have m2 : (boxFilter im s s).mcj = s - 1 := rfl
  have k1 : (boxFilter im s s).ik = fun _ => 1 / (s : K) := rfl
  have k2 : (boxFilter im s s).jk = fun _ => 1 / (s : K) := rfl
  rw [m1, m2, k1, k2, Finset.sum_comm, Finset.sum_div]
  rw [← Finset.sum_range_reflect _ s]
  refine sum_congr rfl fun a ha => ?_
  rw [Finset.sum_div, ← Finset.sum_range_reflect _ s]
  refine sum_congr rfl fun b hb => ?_
  have ha := Finset.mem_range.1 ha
  have hb := Finset.mem_range.1 hb
  rw [in_ _ _ (by omega) (by omega) (by omega) (by omega)]
  have e1 : x + ((s : Int) - 1) - ((s - 1 - a : Nat) : Int) = x + a := by omega
  have e2 : y + ((s : Int) - 1) - ((s - 1 - b : Nat) : Int) = y + b := by omega
  rw [e1, e2]
  ring

end VW.Quad
