import Verif.Utm.Model
import Mathlib.Tactic.NormNum
import Mathlib.Tactic.IntervalCases
import Mathlib.Tactic.LinearCombination
/-
C33: the UTM zone.
-/
namespace VW.Utm

/-! ### Specification: the standard zone table -/

/-- The longitude in [-180, 180) that differs from `lon` by a multiple of 360. -/
def normLon (lon : ℚ) : ℚ := lon - 360 * ⌊(lon + 180) / 360⌋

/-- The standard: sixty strips of 6 degrees starting at 180W; between 56N and 64N the strip [3E,6E) belongs
to zone 32; between 72N and 84N the four zones 31, 33, 35, 37 cover [0E,42E) with limits 9E, 21E, 33E. -/
def stdZone (lat lon : ℚ) : Int :=
  let l := normLon lon
  if 56 ≤ lat ∧ lat < 64 ∧ 3 ≤ l ∧ l < 6 then 32
  else if 72 ≤ lat ∧ lat ≤ 84 ∧ 0 ≤ l ∧ l < 42 then
    if l < 9 then 31 else if l < 21 then 33 else if l < 33 then 35 else 37
  else ⌊(l + 180) / 6⌋ + 1

/-! ### Longitude normalisation -/

theorem normLon_range (lon : ℚ) : -180 ≤ normLon lon ∧ normLon lon < 180 := by
  unfold normLon
  have h1 := Int.floor_le ((lon + 180) / 360); have h2 := Int.lt_floor_add_one ((lon + 180) / 360)
  rw [le_div_iff₀ (by norm_num)] at h1
  rw [div_lt_iff₀ (by norm_num)] at h2
  constructor <;> linarith

theorem normLon_period (lon : ℚ) (k : Int) : normLon (lon + 360 * k) = normLon lon := by
  unfold normLon
  rw [show (lon + 360 * k + 180) / 360 = (lon + 180) / 360 + k by ring, Int.floor_add_intCast]
  push_cast; ring

theorem normLon_id {lon : ℚ} (h : -180 ≤ lon) (h' : lon < 180) : normLon lon = lon := by
  unfold normLon
  have : ⌊(lon + 180) / 360⌋ = 0 := by
    rw [Int.floor_eq_iff]
    constructor
    · push_cast; apply div_nonneg <;> linarith
    · push_cast; rw [div_lt_iff₀ (by norm_num)]; linarith
  rw [this]; simp

theorem normLon_180 : normLon 180 = -180 := by
  have := normLon_period (-180) 1
  rw [normLon_id (le_refl _) (by norm_num)] at this
  rw [← this]; norm_num

theorem wrapUp_spec (lon : ℚ) : ∃ k : Int, wrapUp lon = lon + 360 * k ∧ -180 ≤ wrapUp lon ∧
    (-180 ≤ lon → wrapUp lon = lon) ∧ (lon < -180 → wrapUp lon < 180) := by
  induction lon using wrapUp.induct with
  | case1 lon h ih =>
    obtain ⟨k, e, hl, h1, h2⟩ := ih
    have e' : wrapUp lon = wrapUp (lon + 360) := by rw [wrapUp, if_pos h]
    rw [e']
    refine ⟨k + 1, by rw [e]; push_cast; ring, hl, fun h' => by linarith, fun _ => ?_⟩
    by_cases hc : lon + 360 < -180
    · exact h2 hc
    · rw [h1 (by linarith)]; linarith
  | case2 lon h =>
    have e' : wrapUp lon = lon := by rw [wrapUp, if_neg h]
    rw [e']
    exact ⟨0, by simp, by linarith, fun _ => rfl, fun h' => absurd h' h⟩

theorem wrapDown_spec (lon : ℚ) : ∃ k : Int, wrapDown lon = lon + 360 * k ∧ wrapDown lon ≤ 180 ∧
    (lon ≤ 180 → wrapDown lon = lon) ∧ (180 < lon → -180 < wrapDown lon) := by
  induction lon using wrapDown.induct with
  | case1 lon h ih =>
    obtain ⟨k, e, hl, h1, h2⟩ := ih
    have e' : wrapDown lon = wrapDown (lon - 360) := by rw [wrapDown, if_pos h]
    rw [e']
    refine ⟨k - 1, by rw [e]; push_cast; ring, hl, fun h' => by linarith, fun _ => ?_⟩
    by_cases hc : 180 < lon - 360
    · exact h2 hc
    · rw [h1 (by linarith)]; linarith
  | case2 lon h =>
    have e' : wrapDown lon = lon := by rw [wrapDown, if_neg h]
    rw [e']
    exact ⟨0, by simp, by linarith, fun _ => rfl, fun h' => absurd h' h⟩

/-- The loops always end, and leave either the normalised longitude or +180. -/
theorem wrap_spec (lon : ℚ) :
    wrapDown (wrapUp lon) = normLon lon ∨ (wrapDown (wrapUp lon) = 180 ∧ normLon lon = -180 ∧ 180 ≤ lon) := by
  obtain ⟨k, e, hl, h1, h2⟩ := wrapUp_spec lon
  obtain ⟨m, f, gl, g1, g2⟩ := wrapDown_spec (wrapUp lon)
  have lo : -180 ≤ wrapDown (wrapUp lon) := by
    by_cases hc : 180 < wrapUp lon
    · linarith [g2 hc]
    · rw [g1 (by linarith)]; exact hl
  have tot : normLon (wrapDown (wrapUp lon)) = normLon lon := by
    rw [f, normLon_period, e, normLon_period]
  rcases lt_or_eq_of_le gl with hlt | heq
  · left; rw [← tot, normLon_id lo hlt]
  · right
    refine ⟨heq, ?_, ?_⟩
    · rw [← tot, heq, normLon_180]
    · by_contra hc
      by_cases hc2 : lon < -180
      · have := h2 hc2; rw [g1 (by linarith)] at heq; linarith
      · rw [g1 (by rw [h1 (by linarith)]; linarith), h1 (by linarith)] at heq; linarith

theorem toInt_nonneg {q : ℚ} (h : 0 ≤ q) : toInt q = ⌊q⌋ := by unfold toInt; rw [if_pos h]

theorem longitudeZone_spec (lon : ℚ) :
    longitudeZone lon = ⌊(normLon lon + 180) / 6⌋ + 1 ∨ (longitudeZone lon = 61 ∧ normLon lon = -180 ∧ 180 ≤ lon) := by
  unfold longitudeZone
  rcases wrap_spec lon with h | ⟨h, h2, h3⟩
  · left; rw [h, toInt_nonneg]
    have := normLon_range lon
    apply div_nonneg <;> linarith
  · right
    refine ⟨?_, h2, h3⟩
    rw [h]; norm_num [toInt]

theorem base_range {l : ℚ} (h : -180 ≤ l ∧ l < 180) : 1 ≤ ⌊(l + 180) / 6⌋ + 1 ∧ ⌊(l + 180) / 6⌋ + 1 ≤ 60 := by
  have h1 : 0 ≤ ⌊(l + 180) / 6⌋ := Int.floor_nonneg.2 (div_nonneg (by linarith) (by norm_num))
  have h2 : ⌊(l + 180) / 6⌋ < 60 := by
    rw [Int.floor_lt, div_lt_iff₀ (by norm_num)]; push_cast; linarith
  omega

/-! ### Latitude bands -/

theorem band_index {lat : ℚ} (h : -80 ≤ lat) (h' : lat ≤ 84) :
    latitudeBand lat = bands[(⌊(lat + 80) / 8⌋).toNat]? ∧ 0 ≤ ⌊(lat + 80) / 8⌋ ∧ ⌊(lat + 80) / 8⌋ ≤ 20 := by
  have h0 : 0 ≤ (lat + 80) / 8 := div_nonneg (by linarith) (by norm_num)
  have h1 : 0 ≤ ⌊(lat + 80) / 8⌋ := Int.floor_nonneg.2 h0
  have h2 : ⌊(lat + 80) / 8⌋ < 21 := by
    rw [Int.floor_lt, div_lt_iff₀ (by norm_num)]; push_cast; linarith
  refine ⟨?_, h1, by omega⟩
  unfold latitudeBand
  rw [if_neg (show ¬ lat < -90 by linarith)]
  simp only
  rw [if_neg (show ¬ lat > 90 by linarith), if_neg (show ¬ lat < -80 by linarith), if_neg (show ¬ lat > 84 by linarith),
    toInt_nonneg h0, if_pos h1]

/-- The band lookup never reads outside the array, for any latitude. -/
theorem band_total (lat : ℚ) : latitudeBand lat ≠ none := by
  by_cases h : -80 ≤ lat
  · by_cases h' : lat ≤ 84
    · obtain ⟨e, h1, h2⟩ := band_index h h'
      rw [e]
      have : (⌊(lat + 80) / 8⌋).toNat < bands.length := by
        have : bands.length = 21 := by decide
        omega
      rw [List.getElem?_eq_getElem this]; simp
    · have a1 : ¬ lat < -90 := by linarith
      have a2 : ¬ lat < -80 := by linarith
      have a3 : lat > 84 := by linarith
      unfold latitudeBand
      by_cases a4 : lat > 90
      · simp only [a1, a4, if_false, if_true]; norm_num; exact Option.some_ne_none _
      · simp only [a1, a2, a3, a4, if_false, if_true]; simp
  · have a2 : lat < -80 := by linarith
    unfold latitudeBand
    by_cases a1 : lat < -90
    · simp only [a1, if_true]; norm_num; exact Option.some_ne_none _
    · have a4 : ¬ lat > 90 := by linarith
      simp only [a1, a2, a4, if_false, if_true]; simp

theorem band_X {lat : ℚ} (h : -80 ≤ lat) (h' : lat ≤ 84) : latitudeBand lat = some 'X' ↔ 72 ≤ lat ∧ lat < 80 := by
  obtain ⟨e, h1, h2⟩ := band_index h h'
  rw [e]
  have k : bands[(⌊(lat + 80) / 8⌋).toNat]? = some 'X' ↔ ⌊(lat + 80) / 8⌋ = 19 := by
    generalize ⌊(lat + 80) / 8⌋ = z at *
    interval_cases z <;> decide
  rw [k, Int.floor_eq_iff, le_div_iff₀ (by norm_num), div_lt_iff₀ (by norm_num)]
  push_cast
  constructor <;> rintro ⟨a, b⟩ <;> constructor <;> linarith

theorem band_V {lat : ℚ} (h : -80 ≤ lat) (h' : lat ≤ 84) : latitudeBand lat = some 'V' ↔ 56 ≤ lat ∧ lat < 64 := by
  obtain ⟨e, h1, h2⟩ := band_index h h'
  rw [e]
  have k : bands[(⌊(lat + 80) / 8⌋).toNat]? = some 'V' ↔ ⌊(lat + 80) / 8⌋ = 17 := by
    generalize ⌊(lat + 80) / 8⌋ = z at *
    interval_cases z <;> decide
  rw [k, Int.floor_eq_iff, le_div_iff₀ (by norm_num), div_lt_iff₀ (by norm_num)]
  push_cast
  constructor <;> rintro ⟨a, b⟩ <;> constructor <;> linarith

/-- Band letters: south of 80S 'A', north of 84N 'Z', eight degree bands between; from 80N to 84N the
returned character is NUL instead of 'X'. -/
theorem band_top {lat : ℚ} (h : 80 ≤ lat) (h' : lat ≤ 84) : latitudeBand lat = some '\x00' := by
  obtain ⟨e, h1, h2⟩ := band_index (lat := lat) (by linarith) h'
  rw [e]
  have : ⌊(lat + 80) / 8⌋ = 20 := by
    rw [Int.floor_eq_iff, le_div_iff₀ (by norm_num), div_lt_iff₀ (by norm_num)]
    push_cast; constructor <;> linarith
  rw [this]; decide

/-! ### The zone -/

theorem zone31 {l : ℚ} : ⌊(l + 180) / 6⌋ + 1 = 31 ↔ 0 ≤ l ∧ l < 6 := by
  have : ⌊(l + 180) / 6⌋ + 1 = 31 ↔ ⌊(l + 180) / 6⌋ = 30 := by omega
  rw [this, Int.floor_eq_iff, le_div_iff₀ (by norm_num), div_lt_iff₀ (by norm_num)]
  push_cast
  constructor <;> rintro ⟨a, b⟩ <;> constructor <;> linarith

/-- **C33 (value, partial)**: for every latitude in [-80, 80) and longitude in [-180, 180) the zone is the standard one.
Missing from the full claim, and false: latitudes in [80, 84] on [6E,9E), [9E,12E), [18E,21E) and so on
(`svalbard_north_wrong`), longitude 180 (`zone_61`), longitudes outside [-180, 180) (`svalbard_wrapped_wrong`). -/
theorem zone_standard_partial {lat lon : ℚ} (h1 : -80 ≤ lat) (h2 : lat < 80) (h3 : -180 ≤ lon) (h4 : lon < 180) :
    getUTMZone lat lon = stdZone lat lon := by
  have hn := normLon_id h3 h4
  have hz : longitudeZone lon = ⌊(lon + 180) / 6⌋ + 1 := by
    rcases longitudeZone_spec lon with h | ⟨_, _, h⟩
    · rw [h, hn]
    · linarith
  unfold getUTMZone stdZone
  simp only
  rw [hn, hz]
  simp only [band_V h1 (show lat ≤ 84 by linarith), band_X h1 (show lat ≤ 84 by linarith), zone31]
  split_ifs <;> first | rfl | (exfalso; grind)

/-- **C33 (outside the exceptional bands)**: for every longitude whatever, unless it is 180 plus a non-negative
multiple of 360, and every latitude in [-80, 56), [64, 72): the standard zone. -/
theorem zone_regular {lat lon : ℚ} (h1 : -80 ≤ lat) (h2 : lat < 56 ∨ (64 ≤ lat ∧ lat < 72))
    (h3 : lon < 180 ∨ normLon lon ≠ -180) : getUTMZone lat lon = stdZone lat lon := by
  have hz : longitudeZone lon = ⌊(normLon lon + 180) / 6⌋ + 1 := by
    rcases longitudeZone_spec lon with h | ⟨_, h, h'⟩
    · exact h
    · rcases h3 with h3 | h3
      · linarith
      · exact absurd h h3
  have h84 : lat ≤ 84 := by rcases h2 with h | ⟨_, h⟩ <;> linarith
  unfold getUTMZone stdZone
  have hV : ¬ (56 ≤ lat ∧ lat < 64) := by rintro ⟨a, b⟩; rcases h2 with h | ⟨h, _⟩ <;> linarith
  have hX : ¬ (72 ≤ lat ∧ lat < 80) := by rintro ⟨a, b⟩; rcases h2 with h | ⟨_, h⟩ <;> linarith
  simp only
  rw [hz]
  simp only [band_V h1 h84, band_X h1 h84]
  rw [if_neg hX, if_neg (fun h => hV h.1), if_neg (fun h => hV ⟨h.1, h.2.1⟩),
    if_neg (fun h => by rcases h2 with g | ⟨_, g⟩ <;> linarith [h.1])]

/-- Range: the zone is always in 1..60, or it is 61 and the longitude is 180 plus a multiple of 360. -/
theorem zone_range (lat lon : ℚ) :
    (1 ≤ getUTMZone lat lon ∧ getUTMZone lat lon ≤ 60) ∨
    (getUTMZone lat lon = 61 ∧ normLon lon = -180 ∧ 180 ≤ lon) := by
  have hb := base_range (normLon_range lon)
  unfold getUTMZone
  simp only
  rcases longitudeZone_spec lon with h | ⟨h, h', h''⟩
  · left; rw [h]; split_ifs <;> omega
  · rw [h]; split_ifs <;> first | (left; constructor <;> norm_num; done) | exact Or.inr ⟨rfl, h', h''⟩

/-- **Discrepancy**: the meridian 180E is reported as zone 61 at every latitude (the standard zone is 1,
which is what -180 gives). -/
theorem zone_61 (lat : ℚ) : getUTMZone lat 180 = 61 ∧ stdZone lat 180 = 1 ∧ stdZone lat (-180) = 1 := by
  have e : longitudeZone 180 = 61 := by
    unfold longitudeZone
    rw [wrapUp, if_neg (by norm_num), wrapDown, if_neg (by norm_num)]; norm_num [toInt]
  have n2 : normLon (-180) = -180 := normLon_id (le_refl _) (by norm_num)
  have n : normLon 180 = -180 := normLon_180
  refine ⟨?_, ?_, ?_⟩
  · unfold getUTMZone
    simp only
    rw [e]; norm_num
  · unfold stdZone; rw [n]; norm_num
  · unfold stdZone; rw [n2]; norm_num

/-- **Discrepancy**: north of 80N the Svalbard limits are ignored. -/
theorem svalbard_north_wrong : getUTMZone 82 10 = 32 ∧ stdZone 82 10 = 33 := by
  constructor
  · unfold getUTMZone
    rw [band_top (by norm_num) (by norm_num)]
    have : longitudeZone 10 = 32 := by
      unfold longitudeZone
      rw [wrapUp, if_neg (by norm_num), wrapDown, if_neg (by norm_num), toInt_nonneg (by norm_num)]; norm_num
    rw [this]; decide
  · unfold stdZone; rw [normLon_id (by norm_num) (by norm_num)]; norm_num

/-- **Discrepancy**: the exceptions use the longitude before normalisation, so adding 360 degrees changes the zone. -/
theorem svalbard_wrapped_wrong : getUTMZone 75 10 = 33 ∧ getUTMZone 75 370 = 32 ∧ stdZone 75 370 = 33 := by
  have b : latitudeBand 75 = some 'X' := (band_X (by norm_num) (by norm_num)).2 (by norm_num)
  have z2 : longitudeZone 370 = 32 := by
    unfold longitudeZone
    rw [wrapUp, if_neg (by norm_num), wrapDown, if_pos (by norm_num), wrapDown, if_neg (by norm_num),
      toInt_nonneg (by norm_num)]; norm_num
  refine ⟨?_, ?_, ?_⟩
  · unfold getUTMZone; rw [b]; norm_num
  · unfold getUTMZone; rw [b, z2]; norm_num
  · unfold stdZone
    have := normLon_period 10 1
    rw [normLon_id (lon := 10) (by norm_num) (by norm_num)] at this
    rw [show (370 : ℚ) = 10 + 360 * ((1 : Int) : ℚ) by norm_num, this]; norm_num

/-- The same for Norway, with a longitude given below -180. -/
theorem norway_wrapped_wrong : getUTMZone 60 4 = 32 ∧ getUTMZone 60 (-356) = 31 ∧ stdZone 60 (-356) = 32 := by
  have b : latitudeBand 60 = some 'V' := (band_V (by norm_num) (by norm_num)).2 (by norm_num)
  have z1 : longitudeZone 4 = 31 := by
    unfold longitudeZone
    rw [wrapUp, if_neg (by norm_num), wrapDown, if_neg (by norm_num), toInt_nonneg (by norm_num)]; norm_num
  have z2 : longitudeZone (-356) = 31 := by
    unfold longitudeZone
    rw [wrapUp, if_pos (by norm_num), wrapUp, if_neg (by norm_num), wrapDown, if_neg (by norm_num),
      toInt_nonneg (by norm_num)]; norm_num
  refine ⟨?_, ?_, ?_⟩
  · unfold getUTMZone; rw [b, z1]; norm_num; decide
  · unfold getUTMZone; rw [b, z2]; norm_num
  · unfold stdZone
    have := normLon_period 4 (-1)
    rw [normLon_id (lon := 4) (by norm_num) (by norm_num)] at this
    rw [show (-356 : ℚ) = 4 + 360 * ((-1 : Int) : ℚ) by norm_num, this]; norm_num

/-- The testUtm cases of the source, through the theorem. -/
example : getUTMZone (605/10) 4 = 32 ∧ getUTMZone 75 25 = 35 ∧ getUTMZone (352/10) (-1182/10) = 11 := by
  refine ⟨?_, ?_, ?_⟩ <;> rw [zone_standard_partial (by norm_num) (by norm_num) (by norm_num) (by norm_num)] <;>
    unfold stdZone <;> rw [normLon_id (by norm_num) (by norm_num)] <;> norm_num

end VW.Utm
