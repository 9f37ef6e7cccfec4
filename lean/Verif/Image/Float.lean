import Mathlib.Data.Rat.Floor
import Mathlib.Tactic.Linarith
import Mathlib.Tactic.Ring
import Mathlib.Tactic.FieldSimp
import Mathlib.Tactic.Positivity
import Mathlib.Algebra.Order.Field.Power

/-! Rounding of rational numbers to binary floating point numbers with `p` significant bits, to nearest, ties to even
(IEEE 754, as `float` with p = 24 and `double` with p = 53). There is no bound on the exponent: overflow to infinity and subnormal
numbers are left out. -/

namespace VW.Float

/-- `2^e`. -/
def pow2 (e : Int) : ℚ := if 0 ≤ e then ((2 ^ e.toNat : Nat) : ℚ) else mkRat 1 (2 ^ (-e).toNat)

/-- The exponent of a positive number: `2^e ≤ x < 2^(e+1)`. -/
def expo (x : ℚ) : Int :=
  let e := (Nat.log2 x.num.toNat : Int) - Nat.log2 x.den
  if pow2 e ≤ x then e else e - 1

/-- To the nearest integer, ties to even. -/
def halfEven (q : ℚ) : Int :=
  let f := q.num / (q.den : Int)
  if q - f < 1 / 2 then f else if 1 / 2 < q - f then f + 1 else if f % 2 = 0 then f else f + 1

/-- A positive number rounded to `p` bits. -/
def rndPos (p : Nat) (x : ℚ) : ℚ := halfEven (x / pow2 (expo x + 1 - p)) * pow2 (expo x + 1 - p)

/-- A number rounded to `p` bits. -/
def rnd (p : Nat) (x : ℚ) : ℚ := if x = 0 then 0 else if 0 < x then rndPos p x else - rndPos p (-x)

theorem pow2_eq (e : Int) : pow2 e = (2 : ℚ) ^ e := by
  unfold pow2
  split
  · rename_i h
    conv_rhs => rw [← Int.toNat_of_nonneg h]
    rw [zpow_natCast]; norm_cast
  · rename_i h
    have h' : e = -((-e).toNat : Int) := by omega
    conv_rhs => rw [h']
    rw [zpow_neg, zpow_natCast, Rat.mkRat_eq_div]
    simp

theorem pow2_pos (e : Int) : 0 < pow2 e := by rw [pow2_eq]; positivity

theorem expo_spec {x : ℚ} (hx : 0 < x) : pow2 (expo x) ≤ x ∧ x < 2 * pow2 (expo x) := by
  have hn : x.num.toNat ≠ 0 := by have := Rat.num_pos.mpr hx; omega
  have hd : x.den ≠ 0 := x.den_nz
  have a1 := Nat.log2_self_le hn
  have a2 := Nat.lt_log2_self (n := x.num.toNat)
  have b1 := Nat.log2_self_le hd
  have b2 := Nat.lt_log2_self (n := x.den)
  have hxe : x = (x.num.toNat : ℚ) / x.den := by
    conv_lhs => rw [← Rat.num_div_den x]
    congr 1
    have := Rat.num_pos.mpr hx
    exact_mod_cast (Int.toNat_of_nonneg this.le).symm
  have A1 : ((2 : ℚ) ^ (Nat.log2 x.num.toNat)) ≤ x.num.toNat := by exact_mod_cast a1
  have A2 : (x.num.toNat : ℚ) < 2 ^ (Nat.log2 x.num.toNat + 1) := by exact_mod_cast a2
  have B1 : ((2 : ℚ) ^ (Nat.log2 x.den)) ≤ x.den := by exact_mod_cast b1
  have B2 : (x.den : ℚ) < 2 ^ (Nat.log2 x.den + 1) := by exact_mod_cast b2
  have hdp : (0 : ℚ) < x.den := by exact_mod_cast Nat.pos_of_ne_zero hd
  set a := Nat.log2 x.num.toNat
  set b := Nat.log2 x.den
  have up : x < 2 * pow2 ((a : Int) - b) := by
    rw [pow2_eq, zpow_sub₀ (by norm_num), zpow_natCast, zpow_natCast, hxe, div_lt_iff₀ hdp]
    have : (2 : ℚ) ^ (a + 1) ≤ 2 * (2 ^ a / 2 ^ b) * x.den := by
      rw [pow_succ]
      have h : (2 : ℚ) ^ a / 2 ^ b * 2 ^ b ≤ 2 ^ a / 2 ^ b * x.den := mul_le_mul_of_nonneg_left B1 (by positivity)
      rw [div_mul_cancel₀ _ (by positivity)] at h
      linarith
    linarith
  have lo : pow2 ((a : Int) - b - 1) ≤ x := by
    rw [pow2_eq, sub_sub, zpow_sub₀ (by norm_num), zpow_natCast, hxe, le_div_iff₀ hdp]
    have e : ((2 : ℚ) ^ ((b : Int) + 1)) = 2 ^ (b + 1) := by exact_mod_cast zpow_natCast (2 : ℚ) (b + 1)
    rw [e]
    have h : (2 : ℚ) ^ a / 2 ^ (b + 1) * x.den ≤ 2 ^ a / 2 ^ (b + 1) * 2 ^ (b + 1) := mul_le_mul_of_nonneg_left B2.le (by positivity)
    rw [div_mul_cancel₀ _ (by positivity)] at h
    linarith
  unfold expo
  dsimp only
  by_cases h : pow2 ((a : Int) - b) ≤ x
  · rw [if_pos h]; exact ⟨h, up⟩
  · rw [if_neg h]
    refine ⟨lo, ?_⟩
    have : 2 * pow2 ((a : Int) - b - 1) = pow2 ((a : Int) - b) := by
      rw [pow2_eq, pow2_eq, zpow_sub₀ (by norm_num) _ 1]; field_simp
    rw [this]; exact lt_of_not_ge h

theorem halfEven_err (q : ℚ) : |(halfEven q : ℚ) - q| ≤ 1 / 2 := by
  have hf : q.num / (q.den : Int) = ⌊q⌋ := (Rat.floor_def _).symm
  have h1 : (⌊q⌋ : ℚ) ≤ q := Int.floor_le q
  have h2 : q < ⌊q⌋ + 1 := Int.lt_floor_add_one q
  unfold halfEven
  dsimp only
  rw [hf, abs_le]
  by_cases c1 : q - ⌊q⌋ < 1 / 2
  · rw [if_pos c1]; constructor <;> linarith
  rw [if_neg c1]
  by_cases c2 : 1 / 2 < q - ⌊q⌋
  · rw [if_pos c2]; push_cast; constructor <;> linarith
  rw [if_neg c2]
  split
  · constructor <;> linarith
  · push_cast; constructor <;> linarith

theorem halfEven_int (n : Int) : halfEven (n : ℚ) = n := by
  have := halfEven_err (n : ℚ)
  rw [abs_le] at this
  have h : |halfEven (n : ℚ) - n| < 1 := by
    have : |((halfEven (n : ℚ) - n : Int) : ℚ)| < 1 := by push_cast; rw [abs_lt]; constructor <;> linarith
    exact_mod_cast this
  have := Int.abs_lt_one_iff.mp h
  omega

/-- The relative error of rounding to `p` bits is at most `2^-p`. -/
theorem rnd_err (p : Nat) (x : ℚ) : |rnd p x - x| ≤ |x| / 2 ^ p := by
  have key : ∀ y : ℚ, 0 < y → |rndPos p y - y| ≤ y / 2 ^ p := by
    intro y hy
    unfold rndPos
    have hs := pow2_pos (expo y + 1 - p)
    have he := halfEven_err (y / pow2 (expo y + 1 - p))
    have hb := (expo_spec hy).1
    set s := pow2 (expo y + 1 - p) with hsd
    have e1 : (halfEven (y / s) : ℚ) * s - y = (halfEven (y / s) - y / s) * s := by field_simp
    rw [e1, abs_mul, abs_of_pos hs]
    have e2 : s = 2 * pow2 (expo y) / 2 ^ p := by
      rw [hsd, pow2_eq, pow2_eq, zpow_sub₀ (by norm_num), zpow_add₀ (by norm_num), zpow_natCast]; ring
    calc |(halfEven (y / s) : ℚ) - y / s| * s ≤ 1 / 2 * s := mul_le_mul_of_nonneg_right he hs.le
      _ = pow2 (expo y) / 2 ^ p := by rw [e2]; ring
      _ ≤ y / 2 ^ p := by gcongr
  unfold rnd
  by_cases h0 : x = 0
  · rw [if_pos h0, h0]; simp
  rw [if_neg h0]
  by_cases h1 : 0 < x
  · rw [if_pos h1, abs_of_pos h1]; exact key x h1
  · have hn : x < 0 := lt_of_le_of_ne (not_lt.mp h1) h0
    rw [if_neg h1, abs_of_neg hn, show -rndPos p (-x) - x = -(rndPos p (-x) - -x) by ring, abs_neg]
    exact key (-x) (by linarith)

/-- Numbers with at most `p` significant bits are not changed. -/
theorem rnd_exact (p : Nat) (hp : p ≠ 0) (k e : Int) (hk : |k| ≤ 2 ^ p) : rnd p (k * (2 : ℚ) ^ e) = k * (2 : ℚ) ^ e := by
  have key : ∀ k : Int, 0 < k → k ≤ 2 ^ p → rndPos p (k * (2 : ℚ) ^ e) = k * (2 : ℚ) ^ e := by
    intro k hk hkp
    have hy : (0 : ℚ) < k * (2 : ℚ) ^ e := by
      have : (0 : ℚ) < k := by exact_mod_cast hk
      positivity
    obtain ⟨b1, b2⟩ := expo_spec hy
    unfold rndPos
    generalize hE : expo (k * (2 : ℚ) ^ e) = E at *
    have hkq : (k : ℚ) ≤ 2 ^ p := by exact_mod_cast hkp
    rw [pow2_eq] at b1 b2
    -- the scale divides, except for the power of two just above
    have hle : E ≤ p + e := by
      by_contra hc
      have : (2 : ℚ) ^ ((p : Int) + e) < 2 ^ E := zpow_lt_zpow_right₀ (by norm_num) (by omega)
      rw [zpow_add₀ (by norm_num), zpow_natCast] at this
      have : (k : ℚ) * 2 ^ e ≤ 2 ^ p * 2 ^ e := mul_le_mul_of_nonneg_right hkq (by positivity)
      linarith
    have hs := pow2_pos (E + 1 - p)
    have hint : ∃ n : Int, (k : ℚ) * 2 ^ e / pow2 (E + 1 - p) = n := by
      rw [pow2_eq]
      by_cases hc : E + 1 - p ≤ e
      · refine ⟨k * 2 ^ (e - (E + 1 - p)).toNat, ?_⟩
        rw [mul_div_assoc, ← zpow_sub₀ (by norm_num)]
        have h' : e - (E + 1 - p) = ((e - (E + 1 - p)).toNat : Int) := by omega
        conv_lhs => rw [h', zpow_natCast]
        push_cast; rfl
      · have hE2 : E = p + e := by omega
        have hk2 : (k : ℚ) = 2 ^ p := by
          refine le_antisymm hkq ?_
          rw [hE2, zpow_add₀ (by norm_num), zpow_natCast] at b1
          exact le_of_mul_le_mul_right b1 (by positivity)
        refine ⟨2 ^ (p - 1), ?_⟩
        rw [hk2, hE2, show (p : Int) + e + 1 - p = e + 1 by omega, zpow_add₀ (by norm_num)]
        obtain ⟨q, rfl⟩ := Nat.exists_eq_succ_of_ne_zero hp
        push_cast
        rw [Nat.succ_eq_add_one, pow_succ]
        field_simp
    obtain ⟨n, hn⟩ := hint
    rw [hn, halfEven_int, ← hn, div_mul_cancel₀ _ hs.ne']
  unfold rnd
  rcases lt_trichotomy k 0 with h | h | h
  · have hkn : (k : ℚ) < 0 := by exact_mod_cast h
    have hz : (0 : ℚ) < 2 ^ e := by positivity
    have hneg : (k : ℚ) * 2 ^ e < 0 := mul_neg_of_neg_of_pos hkn hz
    rw [if_neg hneg.ne, if_neg (not_lt.mpr hneg.le)]
    have := key (-k) (by omega) (by rw [abs_of_neg h] at hk; exact hk)
    push_cast at this
    rw [show -((k : ℚ) * 2 ^ e) = -(k : ℚ) * 2 ^ e by ring, this]; ring
  · subst h; simp
  · have hkp : (0 : ℚ) < k := by exact_mod_cast h
    have hpos : (0 : ℚ) < (k : ℚ) * 2 ^ e := by positivity
    rw [if_neg hpos.ne', if_pos hpos]
    exact key k h (by rw [abs_of_pos h] at hk; exact hk)

/-- Integers up to `2^p` are not changed. -/
theorem rnd_int (p : Nat) (hp : p ≠ 0) (k : Int) (hk : |k| ≤ 2 ^ p) : rnd p k = k := by
  have := rnd_exact p hp k 0 hk
  simpa using this

/-- The `float` nearest to 1/3 is 11184811/2^25, and the number just above 2^24 halfway between two `float`s goes to the even one. -/
example : rnd 24 (1 / 3) = 11184811 / 33554432 ∧ rnd 24 16777217 = 16777216 ∧ rnd 24 16777219 = 16777220 := by decide +kernel

end VW.Float
