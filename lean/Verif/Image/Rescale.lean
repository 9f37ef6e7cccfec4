import Verif.Image.ConvertUser

/-! Channel values under rescaling and premultiplication, with the rounding of `float` and `double`. -/

namespace VW.Convert

open VW.Float

theorem trunc_nonneg {x : ℚ} (h : 0 ≤ x) : trunc x = ⌊x⌋ := by
  unfold trunc
  rw [if_pos h]
  exact (Rat.floor_def _).symm

theorem cast_int {s : Bool} {b : Nat} (hb : 8 ≤ b) {x : ℚ} (h : 0 ≤ x) (h2 : ⌊x⌋ ≤ maxInt s b) : cast (.int s b) x = (⌊x⌋ : ℚ) := by
  have h0 : 0 ≤ ⌊x⌋ := Int.floor_nonneg.mpr h
  simp only [cast]
  rw [trunc_nonneg h, wrap_fits hb ?_ h2]
  cases s
  · simpa using h0
  · simp only [if_true]
    have : (0 : Int) ≤ 2 ^ (b - 1) := by positivity
    omega

/-- `uint8` to `uint16`: 255 is taken to 65535. -/
theorem u8ToU16_eq (n : Nat) (h : n ≤ 255) : u8ToU16 n = (257 * n : Nat) := by
  unfold u8ToU16
  have e : (n : ℚ) * 257 = ((257 * n : Nat) : ℚ) := by push_cast; ring
  rw [e, cast_int (by decide) (by positivity)]
  · rw [Int.floor_natCast]; norm_cast
  · simp only [maxInt, Int.floor_natCast]; simp; omega

/-- `uint16` to `uint8`. -/
theorem u16ToU8_eq (n : Nat) (h : n ≤ 65535) : u16ToU8 n = (n / 257 : Nat) := by
  unfold u16ToU8
  have e : trunc ((n : ℚ) / 257) = ((n / 257 : Nat) : Int) := by
    rw [trunc_nonneg (by positivity)]
    have := Rat.floor_intCast_div_natCast (n : Int) 257
    push_cast at this
    rw [this]; rfl
  rw [e, cast_int (by decide) (by positivity)]
  · rw [Int.floor_intCast]; norm_cast
  · simp only [maxInt, Int.floor_intCast]; simp; omega

/-- **C62**: `uint8` values survive rescaling to `uint16` and back. -/
theorem u8_u16_u8 (n : Nat) (h : n ≤ 255) : u16ToU8 (u8ToU16 n) = n := by
  rw [u8ToU16_eq n h, u16ToU8_eq _ (by omega)]
  congr 1
  omega

/-- Rounding something close to `c`. -/
theorem rnd_near {p : Nat} {x c δ : ℚ} (hc : 0 ≤ c) (hδ1 : δ ≤ 1) (h : |x - c| ≤ δ * c) :
    |rnd p x - c| ≤ (δ + 2 / 2 ^ p) * c := by
  have h1 := rnd_err p x
  have hx : |x| ≤ 2 * c := by
    have : |x| ≤ |x - c| + |c| := by
      have := abs_add_le (x - c) c; simpa using this
    rw [abs_of_nonneg hc] at this
    nlinarith
  have h2 : |x| / 2 ^ p ≤ 2 / 2 ^ p * c := by
    rw [div_mul_eq_mul_div]; gcongr
  calc |rnd p x - c| = |(rnd p x - x) + (x - c)| := by ring_nf
    _ ≤ |rnd p x - x| + |x - c| := abs_add_le _ _
    _ ≤ 2 / 2 ^ p * c + δ * c := add_le_add (h1.trans h2) h
    _ = (δ + 2 / 2 ^ p) * c := by ring

theorem mul_near {x c δ k : ℚ} (hk : 0 ≤ k) (h : |x - c| ≤ δ * c) : |k * x - k * c| ≤ δ * (k * c) := by
  rw [← mul_sub, abs_mul, abs_of_nonneg hk]
  calc k * |x - c| ≤ k * (δ * c) := mul_le_mul_of_nonneg_left h hk
    _ = δ * (k * c) := by ring

theorem maxInt_bounds (s : Bool) {b : Nat} (hb : 8 ≤ b) : 1 ≤ maxInt s b ∧ maxInt s b < 2 ^ b := by
  unfold maxInt
  have h1 : (2 : Int) ^ 7 ≤ 2 ^ (b - 1) := pow_le_pow_right₀ (by norm_num) (by omega)
  have h2 : (2 : Int) ^ b = 2 * 2 ^ (b - 1) := by rw [← pow_succ']; congr 1; omega
  have h3 : (2 : Int) ^ 7 = 128 := by norm_num
  cases s
  · simp only [Bool.false_eq_true, if_false]; omega
  · simp only [if_true]; omega

theorem dbl_int {n : Int} (h : |n| ≤ 2 ^ 53) : dbl n = n := rnd_int 53 (by decide) n h

/-- The value of an integer channel as a fraction of its maximum, and what comes back, before the conversion to an integer. -/
theorem float_chain {s : Bool} {b : Nat} (hb : 8 ≤ b) (hb2 : b ≤ 32) {t : CT} {p : Nat}
    (ht : (t = .f32 ∧ p = 24) ∨ (t = .f64 ∧ p = 53)) {n : Int} (h0 : 0 ≤ n) (h1 : n ≤ maxInt s b) :
    |intToFloat s b t n - n / maxInt s b| ≤ (3 / 2 ^ 53 + 2 / 2 ^ p) * (n / maxInt s b) ∧
    |dbl (intToFloat s b t n * dbl (maxInt s b)) - n| ≤ (5 / 2 ^ 53 + 2 / 2 ^ p) * n := by
  obtain ⟨m1, m2⟩ := maxInt_bounds s hb
  have m3 : (2 : Int) ^ b ≤ 2 ^ 32 := pow_le_pow_right₀ (by norm_num) hb2
  have m4 : (2 : Int) ^ 32 ≤ 2 ^ 53 := by norm_num
  have hM : dbl (maxInt s b) = maxInt s b := dbl_int (by rw [abs_of_nonneg (by omega)]; omega)
  have hn : dbl n = n := dbl_int (by rw [abs_of_nonneg h0]; omega)
  have hcast : ∀ x, cast t x = rnd p x := by
    intro x; rcases ht with ⟨rfl, rfl⟩ | ⟨rfl, rfl⟩ <;> rfl
  have hp : (2 : ℚ) / 2 ^ p ≤ 2 / 2 ^ 24 := by
    rcases ht with ⟨_, rfl⟩ | ⟨_, rfl⟩
    · exact le_refl _
    · norm_num
  unfold intToFloat
  rw [hM, hn, hcast]
  have Mp : (0 : ℚ) < maxInt s b := by exact_mod_cast (by omega : 0 < maxInt s b)
  have np : (0 : ℚ) ≤ n := by exact_mod_cast h0
  generalize (maxInt s b : ℚ) = M at *
  generalize (n : ℚ) = N at *
  have s1 : |dbl (1 / M) - 1 / M| ≤ 1 / 2 ^ 53 * (1 / M) := by
    have := rnd_err 53 (1 / M)
    rw [abs_of_pos (by positivity : 0 < 1 / M)] at this
    unfold dbl
    calc _ ≤ 1 / M / 2 ^ 53 := this
      _ = _ := by ring
  have s2 := mul_near np s1
  have s3 : |dbl (N * dbl (1 / M)) - N * (1 / M)| ≤ _ := rnd_near (p := 53) (by positivity) (by norm_num) s2
  have s4 : |rnd p (dbl (N * dbl (1 / M))) - N * (1 / M)| ≤ _ := rnd_near (p := p) (by positivity) (by norm_num) s3
  have e3 : (1 / 2 ^ 53 + 2 / 2 ^ 53 + 2 / 2 ^ p : ℚ) = 3 / 2 ^ 53 + 2 / 2 ^ p := by ring
  rw [e3] at s4
  have e4 : N * (1 / M) = N / M := by ring
  rw [e4] at s4
  refine ⟨s4, ?_⟩
  have s5 := mul_near Mp.le s4
  have e5 : M * (N / M) = N := by field_simp
  rw [e5] at s5
  have s6 := rnd_near (p := 53) np (by
    have : (3 / 2 ^ 53 + 2 / 2 ^ 24 : ℚ) ≤ 1 := by norm_num
    linarith) s5
  have e6 : (3 / 2 ^ 53 + 2 / 2 ^ p + 2 / 2 ^ 53 : ℚ) = 5 / 2 ^ 53 + 2 / 2 ^ p := by ring
  rw [e6] at s6
  rw [mul_comm _ M]
  exact s6

/-- **C62**: an integer rescaled to floating point and back is itself or one less, if it has 8 or 16 bits, or 32 bits and goes through
`double`. -/
theorem rescale_within_one {s : Bool} {b : Nat} {t : CT} (hb : 8 ≤ b) (ht : (t = .f32 ∧ b ≤ 16) ∨ (t = .f64 ∧ b ≤ 32)) {n : Int}
    (h0 : 0 ≤ n) (h1 : n ≤ maxInt s b) :
    floatToInt s b (intToFloat s b t n) = n ∨ floatToInt s b (intToFloat s b t n) = n - 1 := by
  obtain ⟨m1, m2⟩ := maxInt_bounds s hb
  obtain ⟨p, hp, hb2, hδ⟩ : ∃ p, ((t = .f32 ∧ p = 24) ∨ (t = .f64 ∧ p = 53)) ∧ b ≤ 32 ∧ (5 / 2 ^ 53 + 2 / 2 ^ p : ℚ) * n < 1 := by
    rcases ht with ⟨ht, hb3⟩ | ⟨ht, hb3⟩
    · refine ⟨24, .inl ⟨ht, rfl⟩, by omega, ?_⟩
      have : (2 : Int) ^ b ≤ 2 ^ 16 := pow_le_pow_right₀ (by norm_num) hb3
      have hn : (n : ℚ) ≤ 2 ^ 16 := by exact_mod_cast (by omega : n ≤ 2 ^ 16)
      have np : (0 : ℚ) ≤ n := by exact_mod_cast h0
      calc (5 / 2 ^ 53 + 2 / 2 ^ 24 : ℚ) * n ≤ (5 / 2 ^ 53 + 2 / 2 ^ 24) * 2 ^ 16 := by gcongr
        _ < 1 := by norm_num
    · refine ⟨53, .inr ⟨ht, rfl⟩, hb3, ?_⟩
      have : (2 : Int) ^ b ≤ 2 ^ 32 := pow_le_pow_right₀ (by norm_num) hb3
      have hn : (n : ℚ) ≤ 2 ^ 32 := by exact_mod_cast (by omega : n ≤ 2 ^ 32)
      have np : (0 : ℚ) ≤ n := by exact_mod_cast h0
      calc (5 / 2 ^ 53 + 2 / 2 ^ 53 : ℚ) * n ≤ (5 / 2 ^ 53 + 2 / 2 ^ 53) * 2 ^ 32 := by gcongr
        _ < 1 := by norm_num
  obtain ⟨c1, c2⟩ := float_chain hb hb2 hp h0 h1
  have Mp : (0 : ℚ) < maxInt s b := by exact_mod_cast (by omega : 0 < maxInt s b)
  have np : (0 : ℚ) ≤ n := by exact_mod_cast h0
  have hpp : (0 : ℚ) < 2 / 2 ^ p := by positivity
  have hp1 : (2 : ℚ) / 2 ^ p ≤ 2 / 2 ^ 24 := by
    rcases hp with ⟨_, rfl⟩ | ⟨_, rfl⟩
    · exact le_refl _
    · norm_num
  unfold floatToInt
  generalize hw : intToFloat s b t n = w at *
  rw [abs_le] at c1 c2
  by_cases g1 : 1 < w
  · rw [if_pos g1]
    left
    have h2 : (maxInt s b : ℚ) < n + 1 := by
      have h3 : w ≤ n / maxInt s b * (1 + (3 / 2 ^ 53 + 2 / 2 ^ p)) := by linarith [c1.2]
      have h4 : 1 < (n : ℚ) / maxInt s b * (1 + (3 / 2 ^ 53 + 2 / 2 ^ p)) := lt_of_lt_of_le g1 h3
      rw [div_mul_eq_mul_div, lt_div_iff₀ Mp] at h4
      have h5 : (3 / 2 ^ 53 + 2 / 2 ^ p : ℚ) * n ≤ (5 / 2 ^ 53 + 2 / 2 ^ p) * n := by gcongr; norm_num
      linarith
    have h3 : maxInt s b < n + 1 := by exact_mod_cast h2
    exact_mod_cast (by omega : maxInt s b = n)
  rw [if_neg g1]
  have w0 : 0 ≤ w := by
    have h3 : 0 ≤ (n : ℚ) / maxInt s b * (1 - (3 / 2 ^ 53 + 2 / 2 ^ p)) := by
      apply mul_nonneg (by positivity)
      have : (3 / 2 ^ 53 + 2 / 2 ^ 24 : ℚ) ≤ 1 := by norm_num
      linarith
    linarith [c1.1]
  rw [if_neg (not_lt.mpr w0)]
  generalize hv : dbl (w * dbl (maxInt s b)) = v at *
  have v0 : 0 ≤ v := by
    have h3 : 0 ≤ (n : ℚ) * (1 - (5 / 2 ^ 53 + 2 / 2 ^ p) : ℚ) := by
      apply mul_nonneg np
      have : (5 / 2 ^ 53 + 2 / 2 ^ 24 : ℚ) ≤ 1 := by norm_num
      linarith
    linarith [c2.1]
  have f1 : ⌊v⌋ < n + 1 := by
    rw [Int.floor_lt]; push_cast; linarith [c2.2]
  have f2 : n - 1 ≤ ⌊v⌋ := by
    rw [Int.le_floor]; push_cast; linarith [c2.1]
  rw [cast_int hb v0 (by omega)]
  rcases (by omega : ⌊v⌋ = n ∨ ⌊v⌋ = n - 1) with e | e
  · left; rw [e]
  · right; rw [e]; push_cast; rfl

/-- **C62**: `uint8` values survive rescaling to `float` and back. -/
theorem u8_float_u8 (n : Nat) (h : n ≤ 255) : floatToInt false 8 (intToFloat false 8 .f32 n) = n := by
  have key : ∀ n : Fin 256, floatToInt false 8 (intToFloat false 8 .f32 (n.val : ℚ)) = (n.val : ℚ) := by decide +kernel
  exact key ⟨n, by omega⟩

/-- Refuted for the other types: 33 comes back from `double` as 32, and the `uint16` value 1 from `float` as 0. -/
theorem rescale_loses : floatToInt false 8 (intToFloat false 8 .f64 33) = 32 ∧ floatToInt false 16 (intToFloat false 16 .f32 1) = 0 := by
  decide +kernel

/-- Negative values come back as 0. -/
theorem rescale_negative {s : Bool} {b : Nat} {t : CT} (hb : 8 ≤ b) (hb2 : b ≤ 32) (ht : t = .f32 ∨ t = .f64) {n : Int} (h0 : n < 0)
    (h1 : -maxInt s b ≤ n) : floatToInt s b (intToFloat s b t n) = 0 := by
  obtain ⟨p, hp⟩ : ∃ p, (t = .f32 ∧ p = 24) ∨ (t = .f64 ∧ p = 53) := by
    rcases ht with h | h
    · exact ⟨24, .inl ⟨h, rfl⟩⟩
    · exact ⟨53, .inr ⟨h, rfl⟩⟩
  have rneg : ∀ q (x : ℚ), rnd q (-x) = -rnd q x := by
    intro q x
    unfold rnd
    rcases lt_trichotomy x 0 with h | h | h
    · rw [if_neg (by linarith : -x ≠ 0), if_pos (by linarith : 0 < -x), if_neg h.ne, if_neg (by linarith : ¬ 0 < x), neg_neg]
    · subst h; simp
    · rw [if_neg (by linarith : -x ≠ 0), if_neg (by linarith : ¬ 0 < -x), if_neg h.ne', if_pos h, neg_neg]
  have hcast : ∀ x, cast t x = rnd p x := by
    intro x; rcases hp with ⟨rfl, rfl⟩ | ⟨rfl, rfl⟩ <;> rfl
  have hneg : intToFloat s b t n = -intToFloat s b t ((-n : Int) : ℚ) := by
    unfold intToFloat dbl
    rw [hcast, hcast]
    push_cast
    rw [rneg 53 (n : ℚ), neg_mul, rneg 53, rneg p, neg_neg]
  obtain ⟨c1, _⟩ := float_chain (s := s) hb hb2 hp (n := -n) (by omega) (by omega)
  obtain ⟨m1, _⟩ := maxInt_bounds s hb
  have Mp : (0 : ℚ) < maxInt s b := by exact_mod_cast (by omega : 0 < maxInt s b)
  have np : (0 : ℚ) < ((-n : Int) : ℚ) := by exact_mod_cast (by omega : 0 < -n)
  have hp1 : (2 : ℚ) / 2 ^ p ≤ 2 / 2 ^ 24 := by
    rcases hp with ⟨_, rfl⟩ | ⟨_, rfl⟩
    · exact le_refl _
    · norm_num
  rw [abs_le] at c1
  have pos : 0 < intToFloat s b t ((-n : Int) : ℚ) := by
    have h3 : 0 < ((-n : Int) : ℚ) / maxInt s b * (1 - (3 / 2 ^ 53 + 2 / 2 ^ p)) := by
      apply mul_pos (by positivity)
      have : (3 / 2 ^ 53 + 2 / 2 ^ 24 : ℚ) < 1 := by norm_num
      linarith
    linarith [c1.1]
  rw [hneg]
  unfold floatToInt
  rw [if_neg (by linarith), if_pos (by linarith)]

/-- 1.0 rescaled to `int64`: the product is 2^63, which is more than `int64` holds, and the conversion to it undefined. -/
theorem one_to_int64 : ¬ (1 : ℚ) > 1 ∧ dbl (1 * dbl (maxInt true 64)) = 2 ^ 63 ∧ (maxInt true 64 : ℚ) < 2 ^ 63 := by
  refine ⟨by norm_num, by decide +kernel, by decide +kernel⟩

/-! ### Premultiplication -/

theorem roundAway_near {v : ℚ} (h : 0 ≤ v) : |(roundAway v : ℚ) - v| ≤ 1 / 2 ∧ 0 ≤ roundAway v := by
  unfold roundAway
  rw [if_pos h, trunc_nonneg (by linarith)]
  have h1 := Int.floor_le (v + 1 / 2)
  have h2 := Int.lt_floor_add_one (v + 1 / 2)
  refine ⟨?_, Int.floor_nonneg.mpr (by linarith)⟩
  rw [abs_le]; constructor <;> linarith

/-- **C62**: multiplying alpha in gives the product, rounded: it is off by less than 0.51, and fits. -/
theorem premul_near {s : Bool} {b : Nat} (hb : 8 ≤ b) (hb2 : b ≤ 32) {x a : Int} (hx : 0 ≤ x ∧ x ≤ maxInt s b) (ha : 0 ≤ a ∧ a ≤ maxInt s b) :
    ∃ f, premul (.int s b) = some f ∧ ∃ r : Int, f x a = r ∧ 0 ≤ r ∧ r ≤ x ∧ r ≤ a ∧ |(r : ℚ) - x * a / maxInt s b| < 51 / 100 := by
  obtain ⟨m1, m2⟩ := maxInt_bounds s hb
  have m3 : (2 : Int) ^ b ≤ 2 ^ 32 := pow_le_pow_right₀ (by norm_num) hb2
  have m4 : (2 : Int) ^ 32 ≤ 2 ^ 53 := by norm_num
  have hM : dbl (maxInt s b) = maxInt s b := dbl_int (by rw [abs_of_nonneg (by omega)]; omega)
  refine ⟨_, rfl, ?_⟩
  have Mp : (0 : ℚ) < maxInt s b := by exact_mod_cast (by omega : 0 < maxInt s b)
  have M32 : (maxInt s b : ℚ) ≤ 2 ^ 32 := by exact_mod_cast (by omega : maxInt s b ≤ 2 ^ 32)
  have xp : (0 : ℚ) ≤ x := by exact_mod_cast hx.1
  have ap : (0 : ℚ) ≤ a := by exact_mod_cast ha.1
  have xM : (x : ℚ) ≤ maxInt s b := by exact_mod_cast hx.2
  have aM : (a : ℚ) ≤ maxInt s b := by exact_mod_cast ha.2
  have s1 : |dbl (a / maxInt s b) - a / maxInt s b| ≤ 1 / 2 ^ 53 * (a / maxInt s b) := by
    have := rnd_err 53 ((a : ℚ) / maxInt s b)
    rw [abs_of_nonneg (by positivity : 0 ≤ (a : ℚ) / maxInt s b)] at this
    unfold dbl
    calc _ ≤ (a : ℚ) / maxInt s b / 2 ^ 53 := this
      _ = _ := by ring
  have s2 := mul_near xp s1
  have s3 : |dbl (x * dbl (a / maxInt s b)) - x * (a / maxInt s b)| ≤ (1 / 2 ^ 53 + 2 / 2 ^ 53) * (x * (a / maxInt s b)) :=
    rnd_near (p := 53) (by positivity) (by norm_num) s2
  have hcx : (x : ℚ) * (a / maxInt s b) ≤ x := by
    have : (a : ℚ) / maxInt s b ≤ 1 := (div_le_one Mp).mpr aM
    nlinarith
  have hca : (x : ℚ) * (a / maxInt s b) ≤ a := by
    rw [← mul_div_assoc, div_le_iff₀ Mp]
    nlinarith
  have hc0 : (0 : ℚ) ≤ x * (a / maxInt s b) := by positivity
  have hsm : (1 / 2 ^ 53 + 2 / 2 ^ 53 : ℚ) * (x * (a / maxInt s b)) < 1 / 100 := by
    calc (1 / 2 ^ 53 + 2 / 2 ^ 53 : ℚ) * (x * (a / maxInt s b)) ≤ (1 / 2 ^ 53 + 2 / 2 ^ 53) * 2 ^ 32 := by
          gcongr; linarith
      _ < 1 / 100 := by norm_num
  rw [hM]
  rw [← mul_div_assoc] at *
  generalize hv : dbl (x * dbl (a / maxInt s b)) = v at *
  generalize hc : (x : ℚ) * a / maxInt s b = c at *
  rw [abs_le] at s3
  have v0 : 0 ≤ v := by
    have : (1 / 2 ^ 53 + 2 / 2 ^ 53 : ℚ) * c ≤ 1 * c := by gcongr; norm_num
    linarith [s3.1]
  obtain ⟨r1, r2⟩ := roundAway_near v0
  rw [abs_le] at r1
  have rx : roundAway v ≤ x := by
    have : (roundAway v : ℚ) < x + 1 := by linarith [r1.2, s3.2]
    have : roundAway v < x + 1 := by exact_mod_cast this
    omega
  have ra : roundAway v ≤ a := by
    have : (roundAway v : ℚ) < a + 1 := by linarith [r1.2, s3.2]
    have : roundAway v < a + 1 := by exact_mod_cast this
    omega
  refine ⟨roundAway v, ?_, r2, rx, ra, ?_⟩
  · rw [cast_int hb (by exact_mod_cast r2) (by rw [Int.floor_intCast]; omega), Int.floor_intCast]
  · rw [abs_lt]; constructor <;> linarith [r1.1, r1.2, s3.1, s3.2]

/-- **C62**: opaque pixels are not changed, transparent ones become 0. -/
theorem premul_ends {s : Bool} {b : Nat} (hb : 8 ≤ b) (hb2 : b ≤ 32) {x : Int} (hx : 0 ≤ x ∧ x ≤ maxInt s b) :
    ∃ f, premul (.int s b) = some f ∧ f x (maxInt s b) = x ∧ f x 0 = 0 := by
  obtain ⟨m1, m2⟩ := maxInt_bounds s hb
  obtain ⟨f, hf, r, e, _, h2, _, h4⟩ := premul_near hb hb2 hx ⟨by omega, le_refl (maxInt s b)⟩
  obtain ⟨f', hf', r', e', h1', _, h3', _⟩ := premul_near hb hb2 hx (⟨le_refl 0, by omega⟩ : (0 : Int) ≤ 0 ∧ 0 ≤ maxInt s b)
  rw [hf] at hf'; cases hf'
  refine ⟨f, hf, ?_, ?_⟩
  · rw [e]
    have Mp : (maxInt s b : ℚ) ≠ 0 := by
      have : maxInt s b ≠ 0 := by omega
      exact_mod_cast this
    rw [mul_div_assoc, div_self Mp, mul_one, abs_lt] at h4
    have : (x : ℚ) - 1 < r := by linarith
    have : x - 1 < r := by exact_mod_cast this
    exact_mod_cast (by omega : r = x)
  · have : ((0 : Int) : ℚ) = 0 := by norm_num
    rw [this] at e'
    rw [e']
    exact_mod_cast (by omega : r' = 0)

/-- **C62**: dividing alpha out again gets back the value up to what one unit of the product stands for. -/
theorem unpremul_premul {s : Bool} {b : Nat} (hb : 8 ≤ b) (hb2 : b ≤ 32) {x a : Int} (hx : 0 ≤ x ∧ x ≤ maxInt s b)
    (ha : 0 < a ∧ a ≤ maxInt s b) :
    ∃ f g, premul (.int s b) = some f ∧ unpremul (.int s b) = some g ∧
      ∃ y : Int, g (f x a) a = y ∧ 0 ≤ y ∧ y ≤ maxInt s b ∧ |(y : ℚ) - x| < 51 / 100 * (maxInt s b / a) + 51 / 100 := by
  obtain ⟨m1, m2⟩ := maxInt_bounds s hb
  have m3 : (2 : Int) ^ b ≤ 2 ^ 32 := pow_le_pow_right₀ (by norm_num) hb2
  have m4 : (2 : Int) ^ 32 ≤ 2 ^ 53 := by norm_num
  have hM : dbl (maxInt s b) = maxInt s b := dbl_int (by rw [abs_of_nonneg (by omega)]; omega)
  obtain ⟨f, hf, r, e, h1, h2, h3, h4⟩ := premul_near hb hb2 hx ⟨ha.1.le, ha.2⟩
  refine ⟨f, _, hf, rfl, ?_⟩
  rw [e, hM]
  have Mp : (0 : ℚ) < maxInt s b := by exact_mod_cast (by omega : 0 < maxInt s b)
  have M32 : (maxInt s b : ℚ) ≤ 2 ^ 32 := by exact_mod_cast (by omega : maxInt s b ≤ 2 ^ 32)
  have ap : (0 : ℚ) < a := by exact_mod_cast ha.1
  have rp : (0 : ℚ) ≤ r := by exact_mod_cast h1
  have rA : (r : ℚ) ≤ a := by exact_mod_cast h3
  set q : ℚ := a / maxInt s b with hq
  have qp : 0 < q := by positivity
  have s1 : |dbl q - q| ≤ 1 / 2 ^ 53 * q := by
    have := rnd_err 53 q
    rw [abs_of_pos qp] at this
    unfold dbl
    calc _ ≤ q / 2 ^ 53 := this
      _ = _ := by ring
  rw [abs_le] at s1
  have dq : 0 < dbl q := by
    have : 1 / 2 ^ 53 * q < q := by
      have : (1 / 2 ^ 53 : ℚ) < 1 := by norm_num
      nlinarith
    linarith [s1.1]
  have s2 : |r / dbl q - r / q| ≤ 2 / 2 ^ 53 * (r / q) := by
    have e1 : (r : ℚ) / dbl q - r / q = (q - dbl q) / dbl q * (r / q) := by field_simp
    rw [e1, abs_mul, abs_of_nonneg (by positivity : 0 ≤ (r : ℚ) / q)]
    apply mul_le_mul_of_nonneg_right _ (by positivity)
    rw [abs_div, abs_of_pos dq, div_le_iff₀ dq, abs_le]
    have : (1 / 2 ^ 53 : ℚ) * q ≤ 2 / 2 ^ 53 * dbl q := by linarith [s1.1]
    constructor <;> linarith [s1.1, s1.2]
  have s3 : |dbl (r / dbl q) - r / q| ≤ (2 / 2 ^ 53 + 2 / 2 ^ 53) * (r / q) :=
    rnd_near (p := 53) (by positivity) (by norm_num) s2
  have hrq : (r : ℚ) / q ≤ maxInt s b := by
    rw [div_le_iff₀ qp, hq]
    have : (maxInt s b : ℚ) * (a / maxInt s b) = a := by field_simp
    rw [this]; exact rA
  have hrq0 : 0 ≤ (r : ℚ) / q := by positivity
  have hsm : (2 / 2 ^ 53 + 2 / 2 ^ 53 : ℚ) * (r / q) < 1 / 100 := by
    calc (2 / 2 ^ 53 + 2 / 2 ^ 53 : ℚ) * (r / q) ≤ (2 / 2 ^ 53 + 2 / 2 ^ 53) * 2 ^ 32 := by gcongr; linarith
      _ < 1 / 100 := by norm_num
  have hxx : |(r : ℚ) / q - x| < 51 / 100 * (maxInt s b / a) := by
    have e1 : (r : ℚ) / q - x = (r - x * a / maxInt s b) * (maxInt s b / a) := by rw [hq]; field_simp
    rw [e1, abs_mul, abs_of_pos (by positivity : 0 < (maxInt s b : ℚ) / a)]
    exact mul_lt_mul_of_pos_right h4 (by positivity)
  generalize hv : dbl (r / dbl q) = v at *
  generalize (r : ℚ) / q = c at *
  rw [abs_le] at s3
  rw [abs_lt] at hxx
  have v0 : 0 ≤ v := by
    have : (2 / 2 ^ 53 + 2 / 2 ^ 53 : ℚ) * c ≤ 1 * c := by gcongr; norm_num
    linarith [s3.1]
  obtain ⟨r1, r2⟩ := roundAway_near v0
  rw [abs_le] at r1
  have rM : roundAway v ≤ maxInt s b := by
    have : (roundAway v : ℚ) < maxInt s b + 1 := by linarith [r1.2, s3.2]
    have : roundAway v < maxInt s b + 1 := by exact_mod_cast this
    omega
  refine ⟨roundAway v, ?_, r2, rM, ?_⟩
  · rw [cast_int hb (by exact_mod_cast r2) (by rw [Int.floor_intCast]; exact rM), Int.floor_intCast]
  · rw [abs_lt]; constructor <;> linarith [r1.1, r1.2, s3.1, s3.2, hxx.1, hxx.2]

/-- The values of the unit test of the library. -/
example : ∃ f g, premul .u16 = some f ∧ unpremul .u16 = some g ∧ f 10023 255 = 39 ∧ g (f 48195 48195) 48195 = 48195 ∧
    g (f 65535 3) 3 = 65535 := ⟨_, _, rfl, rfl, by decide +kernel⟩

/-- **C61**: the alpha that is added is the greatest value of the type, or 1. -/
theorem opaque_greatest {s : Bool} {b : Nat} :
    ∃ full : Int, setMax (.int s b) = some (full : ℚ) ∧ (8 ≤ b → Fits (.int s b) full) ∧ (∀ x, Fits (.int s b) x → x ≤ full) ∧
      setMax .f32 = some 1 ∧ setMax .f64 = some 1 := by
  refine ⟨maxInt s b, rfl, fun hb => ⟨_, rfl, ?_, le_refl _⟩, ?_, rfl, rfl⟩
  · have := maxInt_bounds s hb
    have h : (0 : Int) ≤ 2 ^ (b - 1) := by positivity
    cases s
    · simp; omega
    · simp only [if_true]; omega
  · rintro x ⟨n, rfl, _, h⟩
    exact_mod_cast h

/-- **C61**: the mean of three integers is their sum divided by three, without the remainder. -/
theorem mean_of_three {s : Bool} {b : Nat} (hb : 8 ≤ b) {x y z : Int} (hx : 0 ≤ x ∧ x ≤ maxInt s b) (hy : 0 ≤ y ∧ y ≤ maxInt s b)
    (hz : 0 ≤ z ∧ z ≤ maxInt s b) : ∃ mean, average (.int s b) = some mean ∧ mean [(x : ℚ), y, z] = (((x + y + z) / 3 : Int) : ℚ) := by
  refine ⟨_, rfl, ?_⟩
  have e : trunc (([(x : ℚ), y, z].sum) / ([(x : ℚ), y, z].length)) = (x + y + z) / 3 := by
    have e1 : [(x : ℚ), y, z].sum / ([(x : ℚ), y, z].length) = ((x + y + z : Int) : ℚ) / ((3 : Nat) : ℚ) := by
      simp only [List.sum_cons, List.sum_nil, List.length_cons, List.length_nil]; push_cast; ring
    rw [e1, trunc_nonneg (by
      have : (0 : ℚ) ≤ ((x + y + z : Int) : ℚ) := by exact_mod_cast (by omega : 0 ≤ x + y + z)
      positivity), Rat.floor_intCast_div_natCast]
    rfl
  rw [e, cast_int hb (by exact_mod_cast (by omega : 0 ≤ (x + y + z) / 3)) (by rw [Int.floor_intCast]; omega), Int.floor_intCast]

end VW.Convert
