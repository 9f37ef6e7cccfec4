import Verif.Interp.Model
import Mathlib.Data.Rat.Floor
import Mathlib.Tactic.FieldSimp
import Mathlib.Tactic.Positivity

/-
C105: piecewise interpolation of positions.
-/

namespace Verif.Camera.Interp

set_option linter.unusedSectionVars false

variable {K : Type} [Field K] [LinearOrder K] [IsStrictOrderedRing K] [FloorRing K]

/-- The time of a sample. -/
def knot (t0 dt : K) (i : Nat) : K := t0 + dt * (i : K)

theorem tend_eq (t0 dt : K) (n i : Nat) (h : i + 1 = n) : tend t0 dt n = knot t0 dt i := by
  subst h; rfl

theorem knot_mono (t0 dt : K) (hd : 0 < dt) (i j : Nat) (h : i ≤ j) : knot t0 dt i ≤ knot t0 dt j := by
  unfold knot
  have : (i : K) ≤ (j : K) := by exact_mod_cast h
  nlinarith

/-- The indices around a time. -/
theorem floor_knot (t0 dt t : K) (hd : 0 < dt) (i : Nat) (h1 : knot t0 dt i ≤ t) (h2 : t < knot t0 dt (i + 1)) : ⌊(t - t0) / dt⌋ = (i : Int) := by
  unfold knot at *
  rw [Int.floor_eq_iff]
  push_cast at *
  constructor
  · rw [le_div_iff₀ hd]; linarith
  · rw [div_lt_iff₀ hd]; linarith

theorem ceil_knot (t0 dt t : K) (hd : 0 < dt) (i : Nat) (h1 : knot t0 dt i < t) (h2 : t ≤ knot t0 dt (i + 1)) : ⌈(t - t0) / dt⌉ = (i : Int) + 1 := by
  unfold knot at *
  rw [Int.ceil_eq_iff]
  push_cast at *
  constructor
  · rw [lt_div_iff₀ hd]; linarith
  · rw [div_le_iff₀ hd]; linarith

theorem ratio_knot (t0 dt : K) (hd : 0 < dt) (i : Nat) : (knot t0 dt i - t0) / dt = ((i : Int) : K) := by
  unfold knot; push_cast; field_simp; ring

theorem at_nat {α : Type} [Zero α] (l : List α) (i : Nat) : at' l (i : Int) = l.getD i 0 := by simp [at']

theorem at_succ {α : Type} [Zero α] (l : List α) (i : Nat) : at' l ((i : Int) + 1) = l.getD (i + 1) 0 := by
  have : ((i : Int) + 1) = ((i + 1 : Nat) : Int) := by push_cast; ring
  rw [this, at_nat]

theorem knot_int (t0 dt : K) (i : Nat) : t0 + dt * ((i : Int) : K) = knot t0 dt i := by
  unfold knot; push_cast; rfl

/-- The linear interpolation, unfolded. -/
theorem linear_of (eps : K) (ps : List (V3 K)) (t0 dt t : K) (lo : Nat) (c hi : Int) (hr : t0 ≤ t ∧ t ≤ tend t0 dt ps.length + eps)
    (hlo : ⌊(t - t0) / dt⌋ = (lo : Int)) (hc : ⌈(t - t0) / dt⌉ = c) (hh : (if |t - tend t0 dt ps.length| < eps ∧ c = ps.length then (lo : Int) else c) = hi)
    (hb : hi < ps.length) : linear eps ps t0 dt t = some (ps.getD lo 0 + ((t - knot t0 dt lo) / dt) * (at' ps hi - ps.getD lo 0)) := by
  unfold linear
  simp only
  rw [if_neg (not_not.2 hr), hlo, hc, hh, if_neg (not_not.2 ⟨Int.natCast_nonneg lo, hb⟩), at_nat, knot_int]

/-- The interpolation with accelerations, unfolded. -/
theorem accel_of (eps : K) (ps vs : List (V3 K)) (t0 dt t : K) (lo : Nat) (hi : Int) (hr : t0 ≤ t ∧ t ≤ tend t0 dt ps.length + eps)
    (hlo : ⌊(t - t0) / dt⌋ = (lo : Int)) (hh : (if |t - tend t0 dt ps.length| < eps ∧ (lo : Int) + 1 = ps.length then (lo : Int) else (lo : Int) + 1) = hi)
    (hb : hi < ps.length) : accel eps ps vs t0 dt t = some (ps.getD lo 0 + (t - knot t0 dt lo) * vs.getD lo 0
      + ((t - knot t0 dt lo) * (t - knot t0 dt lo) / 2) * ((1 / dt) * (at' vs hi - vs.getD lo 0))) := by
  unfold accel
  simp only
  rw [if_neg (not_not.2 hr), hlo, hh, if_neg (not_not.2 ⟨Int.natCast_nonneg lo, hb⟩), at_nat, at_nat, knot_int]

/-- Linear at a knot. -/
theorem linear_knot (eps : K) (he : 0 ≤ eps) (ps : List (V3 K)) (t0 dt : K) (hd : 0 < dt) (i : Nat) (hi : i < ps.length) :
    linear eps ps t0 dt (knot t0 dt i) = some (ps.getD i 0) := by
  have hte := tend_eq t0 dt ps.length (ps.length - 1) (by omega)
  have h1 := knot_mono t0 dt hd 0 i (Nat.zero_le _)
  have h2 := knot_mono t0 dt hd i (ps.length - 1) (by omega)
  have h0 : knot t0 dt 0 = t0 := by simp [knot]
  rw [h0] at h1
  rw [linear_of eps ps t0 dt _ i i i ⟨h1, by rw [hte]; linarith⟩ (by rw [ratio_knot t0 dt hd, Int.floor_intCast]) (by rw [ratio_knot t0 dt hd, Int.ceil_intCast])
    (if_neg (by rintro ⟨_, h⟩; omega)) (by omega), at_nat]
  congr 1
  ext <;> simp

/-- **C105.** Linear interpolation of positions, for a positive step: the segment of the samples around the time, also at the
ends; outside the range an error. -/
theorem linear_spec (eps : K) (he : 0 ≤ eps) (ps : List (V3 K)) (t0 dt : K) (hd : 0 < dt) (t : K) :
    (∀ i, i + 1 < ps.length → knot t0 dt i ≤ t → t ≤ knot t0 dt (i + 1) →
      linear eps ps t0 dt t = some (ps.getD i 0 + ((t - knot t0 dt i) / dt) * (ps.getD (i + 1) 0 - ps.getD i 0))) ∧
    (∀ i, i + 1 = ps.length → knot t0 dt i < t → t < knot t0 dt i + eps → t < knot t0 dt (i + 1) → linear eps ps t0 dt t = some (ps.getD i 0)) ∧
    (t < t0 ∨ tend t0 dt ps.length + eps < t → linear eps ps t0 dt t = none) := by
  have h0 : knot t0 dt 0 = t0 := by simp [knot]
  refine ⟨fun i hi h1 h2 => ?_, fun i hi h1 h2 h3 => ?_, fun h => ?_⟩
  · rcases eq_or_lt_of_le h1 with h1 | h1
    · subst h1
      rw [linear_knot eps he ps t0 dt hd i (by omega)]
      congr 1
      ext <;> simp
    rcases eq_or_lt_of_le h2 with h2 | h2
    · rw [h2, linear_knot eps he ps t0 dt hd (i + 1) hi]
      have : (knot t0 dt (i + 1) - knot t0 dt i) / dt = 1 := by unfold knot; push_cast; field_simp; ring
      rw [this]
      congr 1
      ext <;> simp
    have hte := tend_eq t0 dt ps.length (ps.length - 1) (by omega)
    have hm := knot_mono t0 dt hd (i + 1) (ps.length - 1) (by omega)
    have hm0 := knot_mono t0 dt hd 0 i (Nat.zero_le _)
    rw [linear_of eps ps t0 dt _ i (i + 1) (i + 1) ⟨by linarith, by rw [hte]; linarith⟩ (floor_knot t0 dt t hd i h1.le h2) (ceil_knot t0 dt t hd i h1 h2.le)
      (if_neg (by rintro ⟨_, h⟩; omega)) (by omega), at_succ]
  · have hte := tend_eq t0 dt ps.length i hi
    have hm0 := knot_mono t0 dt hd 0 i (Nat.zero_le _)
    rw [linear_of eps ps t0 dt _ i (i + 1) i ⟨by linarith, by rw [hte]; linarith⟩ (floor_knot t0 dt t hd i h1.le h3) (ceil_knot t0 dt t hd i h1 h3.le)
      (if_pos ⟨by rw [hte, abs_lt]; constructor <;> linarith, by omega⟩) (by omega), at_nat]
    congr 1
    ext <;> simp
  · unfold linear
    simp only
    rw [if_pos]
    rintro ⟨h1, h2⟩
    rcases h with h | h <;> linarith

/-- Non-vacuity. -/
example : linear (1 / 100 : ℚ) [⟨0, 0, 0⟩, ⟨2, 4, 6⟩, ⟨4, 0, 0⟩] 10 2 11 = some ⟨1, 2, 3⟩ := by
  rw [(linear_spec (1 / 100 : ℚ) (by norm_num) _ 10 2 (by norm_num) 11).1 0 (by decide) (by norm_num [knot]) (by norm_num [knot])]
  congr 1
  ext <;> norm_num [knot]

/-- **C105, refuted part.** The upper end of the range of times that is checked for is refused all the same. -/
theorem linear_edge : ∃ (eps : ℚ) (ps : List (V3 ℚ)) (t0 dt t : ℚ), 0 < eps ∧ 0 < dt ∧ t0 ≤ t ∧ t ≤ tend t0 dt ps.length + eps ∧ linear eps ps t0 dt t = none :=
  ⟨1 / 100, [⟨0, 0, 0⟩, ⟨2, 4, 6⟩], 0, 1, 1 + 1 / 100, by norm_num, by norm_num, by norm_num, by norm_num [tend], by
    have h : ⌈(1 + 1 / 100 : ℚ)⌉ = 2 := by rw [Int.ceil_eq_iff]; norm_num
    unfold linear
    simp only [sub_zero, div_one, h]
    norm_num [tend]⟩

/-- **C105.** Interpolation with positions and velocities: within a segment the motion from the sample with its velocity and
the mean acceleration; at the last sample that. -/
theorem accel_spec (eps : K) (he : 0 < eps) (ps vs : List (V3 K)) (t0 dt : K) (hd : 0 < dt) (t : K) :
    (∀ i, i + 1 < ps.length → knot t0 dt i ≤ t → t < knot t0 dt (i + 1) →
      accel eps ps vs t0 dt t = some (ps.getD i 0 + (t - knot t0 dt i) * vs.getD i 0
        + ((t - knot t0 dt i) * (t - knot t0 dt i) / 2) * ((1 / dt) * (vs.getD (i + 1) 0 - vs.getD i 0)))) ∧
    (∀ i, i + 1 = ps.length → t = knot t0 dt i → accel eps ps vs t0 dt t = some (ps.getD i 0)) ∧
    (t < t0 ∨ tend t0 dt ps.length + eps < t → accel eps ps vs t0 dt t = none) := by
  have h0 : knot t0 dt 0 = t0 := by simp [knot]
  refine ⟨fun i hi h1 h2 => ?_, fun i hi h1 => ?_, fun h => ?_⟩
  · have hte := tend_eq t0 dt ps.length (ps.length - 1) (by omega)
    have hm := knot_mono t0 dt hd (i + 1) (ps.length - 1) (by omega)
    have hm0 := knot_mono t0 dt hd 0 i (Nat.zero_le _)
    rw [accel_of eps ps vs t0 dt _ i (i + 1) ⟨by linarith, by rw [hte]; linarith⟩ (floor_knot t0 dt t hd i h1 h2)
      (if_neg (by rintro ⟨_, h⟩; omega)) (by omega), at_succ]
  · have hte := tend_eq t0 dt ps.length i hi
    have hm0 := knot_mono t0 dt hd 0 i (Nat.zero_le _)
    subst h1
    rw [accel_of eps ps vs t0 dt _ i i ⟨by linarith, by rw [hte]; linarith⟩ (by rw [ratio_knot t0 dt hd, Int.floor_intCast])
      (if_pos ⟨by rw [hte, sub_self, abs_zero]; exact he, by omega⟩) (by omega), at_nat]
    congr 1
    ext <;> simp
  · unfold accel
    simp only
    rw [if_pos]
    rintro ⟨h1, h2⟩
    rcases h with h | h <;> linarith

/-- Where a time is. -/
theorem segment (t0 dt t : K) (hd : 0 < dt) (n : Nat) (hn : 0 < n) (h1 : t0 ≤ t) (h2 : t ≤ tend t0 dt n) :
    (∃ i, i + 1 < n ∧ knot t0 dt i ≤ t ∧ t < knot t0 dt (i + 1)) ∨ t = knot t0 dt (n - 1) := by
  rw [tend_eq t0 dt n (n - 1) (by omega)] at h2
  rcases eq_or_lt_of_le h2 with h2 | h2
  · exact Or.inr h2
  left
  have hr : 0 ≤ (t - t0) / dt := div_nonneg (by linarith) hd.le
  obtain ⟨i, hi⟩ : ∃ i : Nat, ⌊(t - t0) / dt⌋ = (i : Int) := ⟨⌊(t - t0) / dt⌋.toNat, by have := Int.floor_nonneg.2 hr; omega⟩
  rw [Int.floor_eq_iff, le_div_iff₀ hd, div_lt_iff₀ hd] at hi
  push_cast at hi
  have a : knot t0 dt i ≤ t := by unfold knot; linarith [hi.1]
  have b : t < knot t0 dt (i + 1) := by unfold knot; push_cast; linarith [hi.2]
  refine ⟨i, ?_, a, b⟩
  by_contra hc
  have := knot_mono t0 dt hd (n - 1) i (by omega)
  linarith

/-- **C105.** A motion of constant acceleration is reproduced from samples of its positions and velocities. -/
theorem accel_exact (eps : K) (he : 0 < eps) (ps vs : List (V3 K)) (t0 dt : K) (hd : 0 < dt) (x0 v0 a : V3 K) (hn : 0 < ps.length)
    (hp : ∀ i, i < ps.length → ps.getD i 0 = x0 + knot t0 dt i * v0 + (knot t0 dt i * knot t0 dt i / 2) * a)
    (hv : ∀ i, i < ps.length → vs.getD i 0 = v0 + knot t0 dt i * a) (t : K) (h1 : t0 ≤ t) (h2 : t ≤ tend t0 dt ps.length) :
    accel eps ps vs t0 dt t = some (x0 + t * v0 + (t * t / 2) * a) := by
  rcases segment t0 dt t hd ps.length hn h1 h2 with ⟨i, hi, ha, hb⟩ | h
  · rw [(accel_spec eps he ps vs t0 dt hd t).1 i hi ha hb, hp i (by omega), hv i (by omega), hv (i + 1) hi]
    have hk : knot t0 dt (i + 1) = knot t0 dt i + dt := by unfold knot; push_cast; ring
    rw [hk]
    set k := knot t0 dt i with hk'
    clear_value k
    congr 1
    ext <;> simp only [add_x, add_y, add_z, sub_x, sub_y, sub_z, smul_x, smul_y, smul_z] <;> field_simp <;> ring
  · rw [(accel_spec eps he ps vs t0 dt hd t).2.1 (ps.length - 1) (by omega) h, hp _ (by omega), ← h]

/-- Non-vacuity. -/
example : accel (1 / 100 : ℚ) [⟨0, 0, 0⟩, ⟨1, 4, 0⟩, ⟨4, 8, 0⟩] [⟨0, 2, 0⟩, ⟨1, 2, 0⟩, ⟨2, 2, 0⟩] 0 2 3 = some ⟨9 / 4, 6, 0⟩ := by
  rw [accel_exact (1 / 100 : ℚ) (by norm_num) _ _ 0 2 (by norm_num) ⟨0, 0, 0⟩ ⟨0, 2, 0⟩ ⟨1 / 2, 0, 0⟩ (by decide)
    (fun i hi => by
      have : i = 0 ∨ i = 1 ∨ i = 2 := by simp at hi; omega
      rcases this with rfl | rfl | rfl <;> ext <;> norm_num [knot])
    (fun i hi => by
      have : i = 0 ∨ i = 1 ∨ i = 2 := by simp at hi; omega
      rcases this with rfl | rfl | rfl <;> ext <;> norm_num [knot]) 3 (by norm_num) (by norm_num [tend])]
  congr 1
  ext <;> norm_num

/-- **C105, refuted part.** The positions need not be met: with velocities that do not fit the positions the curve jumps at
the samples. -/
theorem accel_jump : ∃ (ps vs : List (V3 ℚ)), (∀ t : ℚ, 0 ≤ t → t < 1 → accel (1 / 100) ps vs 0 1 t = some 0) ∧ accel (1 / 100) ps vs 0 1 1 = some ⟨1, 0, 0⟩ := by
  refine ⟨[⟨0, 0, 0⟩, ⟨1, 0, 0⟩], [0, 0], fun t h1 h2 => ?_, ?_⟩
  swap
  · exact (accel_spec (1 / 100 : ℚ) (by norm_num) _ _ 0 1 one_pos 1).2.1 1 (by decide) (by norm_num [knot])
  rw [(accel_spec (1 / 100 : ℚ) (by norm_num) _ _ 0 1 one_pos t).1 0 (by decide) (by simpa [knot] using h1) (by simpa [knot] using h2)]
  congr 1
  ext <;> simp

/-- A cubic curve. -/
def cubic (c0 c1 c2 c3 : V3 K) (s : K) : V3 K := c0 + s * c1 + (s * s) * c2 + (s * s * s) * c3

/-- Its derivative. -/
def cubic' (c1 c2 c3 : V3 K) (s : K) : V3 K := c1 + (2 * s) * c2 + (3 * s * s) * c3

/-- The value within a segment. -/
theorem hermite_value (ps vs : List (V3 K)) (t0 dt : K) (hd : 0 < dt) (t : K) (i : Nat) (hi : i + 1 < ps.length) (h1 : knot t0 dt i ≤ t)
    (h2 : t < knot t0 dt (i + 1)) : let u := (t - knot t0 dt i) / dt
    hermite ps vs t0 dt t = some ((1 * 1 + 0 * (u * 1) + -3 * (u * (u * 1)) + 2 * (u * (u * (u * 1)))) * ps.getD i 0
        + (0 * 1 + 1 * (u * 1) + -2 * (u * (u * 1)) + 1 * (u * (u * (u * 1)))) * (dt * vs.getD i 0)
        + (0 * 1 + 0 * (u * 1) + 3 * (u * (u * 1)) + -2 * (u * (u * (u * 1)))) * ps.getD (i + 1) 0
        + (0 * 1 + 0 * (u * 1) + -1 * (u * (u * 1)) + 1 * (u * (u * (u * 1)))) * (dt * vs.getD (i + 1) 0)) := by
  have h0 : knot t0 dt 0 = t0 := by simp [knot]
  have hte := tend_eq t0 dt ps.length (ps.length - 1) (by omega)
  have hm := knot_mono t0 dt hd (i + 1) (ps.length - 1) (by omega)
  have hm0 := knot_mono t0 dt hd 0 i (Nat.zero_le _)
  unfold hermite
  simp only
  rw [hte, if_neg (by push Not; exact ⟨by linarith, by linarith⟩), floor_knot t0 dt t hd i h1 h2]
  rw [if_neg (by push Not; omega), at_nat, at_nat, at_succ, at_succ, knot_int]

/-- **C105.** Hermite interpolation: on each segment one cubic curve that meets the positions and velocities of both samples;
times before the first or from the last sample on are an error. -/
theorem hermite_spec (ps vs : List (V3 K)) (t0 dt : K) (hd : 0 < dt) :
    (∀ i, i + 1 < ps.length → ∃ c0 c1 c2 c3 : V3 K,
      (∀ t, knot t0 dt i ≤ t → t < knot t0 dt (i + 1) → hermite ps vs t0 dt t = some (cubic c0 c1 c2 c3 (t - knot t0 dt i))) ∧
      cubic c0 c1 c2 c3 0 = ps.getD i 0 ∧ cubic c0 c1 c2 c3 dt = ps.getD (i + 1) 0 ∧
      cubic' c1 c2 c3 0 = vs.getD i 0 ∧ cubic' c1 c2 c3 dt = vs.getD (i + 1) 0) ∧
    (∀ t, t < t0 ∨ tend t0 dt ps.length ≤ t → hermite ps vs t0 dt t = none) := by
  have hne := hd.ne'
  constructor
  · intro i hi
    refine ⟨ps.getD i 0, vs.getD i 0, (1 / (dt * dt)) * ((3 : K) * (ps.getD (i + 1) 0 - ps.getD i 0) - dt * ((2 : K) * vs.getD i 0 + vs.getD (i + 1) 0)),
      (1 / (dt * dt * dt)) * ((2 : K) * (ps.getD i 0 - ps.getD (i + 1) 0) + dt * (vs.getD i 0 + vs.getD (i + 1) 0)), ?_, ?_, ?_, ?_, ?_⟩
    · intro t h1 h2
      rw [hermite_value ps vs t0 dt hd t i hi h1 h2]
      unfold cubic
      congr 1
      ext <;> simp only [add_x, add_y, add_z, sub_x, sub_y, sub_z, smul_x, smul_y, smul_z] <;> field_simp <;> ring
    · unfold cubic; ext <;> simp
    · unfold cubic
      ext <;> simp only [add_x, add_y, add_z, sub_x, sub_y, sub_z, smul_x, smul_y, smul_z] <;> field_simp <;> ring
    · unfold cubic'; ext <;> simp
    · unfold cubic'
      ext <;> simp only [add_x, add_y, add_z, sub_x, sub_y, sub_z, smul_x, smul_y, smul_z] <;> field_simp <;> ring
  · intro t h
    unfold hermite
    simp only
    rw [if_pos]
    rintro ⟨h1, h2⟩
    rcases h with h | h <;> linarith

/-- **C105.** A cubic curve is reproduced from samples of its positions and velocities. -/
theorem hermite_exact (ps vs : List (V3 K)) (t0 dt : K) (hd : 0 < dt) (c0 c1 c2 c3 : V3 K) (hn : 0 < ps.length)
    (hp : ∀ i, i < ps.length → ps.getD i 0 = cubic c0 c1 c2 c3 (knot t0 dt i))
    (hv : ∀ i, i < ps.length → vs.getD i 0 = cubic' c1 c2 c3 (knot t0 dt i)) (t : K) (h1 : t0 ≤ t) (h2 : t < tend t0 dt ps.length) :
    hermite ps vs t0 dt t = some (cubic c0 c1 c2 c3 t) := by
  rcases segment t0 dt t hd ps.length hn h1 h2.le with ⟨i, hi, ha, hb⟩ | h
  · rw [hermite_value ps vs t0 dt hd t i hi ha hb, hp i (by omega), hp (i + 1) hi, hv i (by omega), hv (i + 1) hi]
    have hk : knot t0 dt (i + 1) = knot t0 dt i + dt := by unfold knot; push_cast; ring
    rw [hk]
    set k := knot t0 dt i with hk'
    clear_value k
    have hne := hd.ne'
    have : t = k + ((t - k) / dt) * dt := by field_simp; ring
    set u := (t - k) / dt with hu
    clear_value u
    subst this
    unfold cubic cubic'
    congr 1
    ext <;> simp only [add_x, add_y, add_z, sub_x, sub_y, sub_z, smul_x, smul_y, smul_z] <;> ring
  · rw [tend_eq t0 dt ps.length (ps.length - 1) (by omega)] at h2
    exact absurd h2 (by rw [h]; exact lt_irrefl _)

/-- Non-vacuity: the curve with the cube of the time. -/
example : hermite [(⟨0, 0, 0⟩ : V3 ℚ), ⟨1, 0, 0⟩, ⟨8, 0, 0⟩] [⟨0, 0, 0⟩, ⟨3, 0, 0⟩, ⟨12, 0, 0⟩] 0 1 (3 / 2) = some ⟨27 / 8, 0, 0⟩ := by
  rw [hermite_exact _ _ 0 1 one_pos 0 0 0 ⟨1, 0, 0⟩ (by decide)
    (fun i hi => by
      have : i = 0 ∨ i = 1 ∨ i = 2 := by simp at hi; omega
      rcases this with rfl | rfl | rfl <;> ext <;> norm_num [knot, cubic])
    (fun i hi => by
      have : i = 0 ∨ i = 1 ∨ i = 2 := by simp at hi; omega
      rcases this with rfl | rfl | rfl <;> ext <;> norm_num [knot, cubic']) (3 / 2) (by norm_num) (by norm_num [tend])]
  congr 1
  ext <;> norm_num [cubic]

/-- **C105, refuted part.** The time of the last sample is refused by Hermite interpolation. -/
theorem hermite_last (ps vs : List (V3 K)) (t0 dt : K) : hermite ps vs t0 dt (tend t0 dt ps.length) = none := by
  unfold hermite
  simp

end Verif.Camera.Interp
