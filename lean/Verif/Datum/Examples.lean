import Verif.Datum.AxesProps
import Verif.Datum.RayProps

/-
Cases that meet the hypotheses of the theorems of C114, C115 and C116.
-/

namespace Verif.Datum
open Verif.Camera Real

/-- A spheroid. -/
def flat : Spheroid := ⟨3, 2, 15⟩

theorem flat_ok : Ok flat := ⟨by norm_num [flat], by norm_num [flat]⟩

theorem flat_e2 : flat.e2 = 5 / 9 := by unfold Spheroid.e2 flat; norm_num

/-- A sphere. -/
def ball : Spheroid := ⟨3, 3, 0⟩

example : flat.toCartesian (flat.toGeodetic (1 / 1000) ⟨1, 2, 3⟩) = ⟨1, 2, 3⟩ :=
  (cartesian_round_trip (1 / 1000) flat flat_ok (by norm_num) ⟨1, 2, 3⟩ (by unfold Far flat; norm_num)).1

theorem flat_evolute : evolute flat ⟨0, 0, 1⟩ ≤ 0 := by
  unfold evolute pOf qOf; rw [flat_e2]; unfold flat; norm_num

example : flat.toCartesian (flat.toGeodetic (1 / 1000) ⟨0, 0, 1⟩) = ⟨0, 0, 1⟩ :=
  (inner_round_trip (1 / 1000) flat flat_ok (by norm_num) ⟨0, 0, 1⟩ flat_evolute
    (by unfold pOf qOf; rw [flat_e2]; unfold flat; norm_num) (by norm_num)
    (by unfold qOf; rw [flat_e2]; unfold flat; norm_num)).1

example : flat.toCartesian (flat.toGeodetic (1 / 10) ⟨0, 0, 1⟩) = ⟨0, 0, 0⟩ :=
  disc_round_trip (1 / 10) flat flat_ok (by norm_num) ⟨0, 0, 1⟩ flat_evolute (by norm_num)
    (by unfold qOf; rw [flat_e2]; unfold flat; norm_num) (by unfold pOf; rw [flat_e2]; unfold flat; norm_num)

example : flat.toCartesian (flat.toGeodetic (1 / 10) ⟨1, 0, 0⟩) = ⟨1, 0, 0⟩ :=
  equator_round_trip (1 / 10) flat flat_ok ⟨1, 0, 0⟩ (by unfold evolute pOf qOf; rw [flat_e2]; unfold flat; norm_num)
    (by norm_num) rfl

/-- The Earth, about: the hypotheses of the round trip from geodetic coordinates. -/
example : (⟨6378, 6356, 0⟩ : Spheroid).toGeodetic (1 / 1000) ((⟨6378, 6356, 0⟩ : Spheroid).toCartesian ⟨-122, 37, 1⟩) = ⟨-122, 37, 1⟩ := by
  have ok : Ok ⟨6378, 6356, 0⟩ := ⟨by norm_num, by norm_num⟩
  obtain ⟨h1, h2⟩ := above_surface ⟨6378, 6356, 0⟩ ok (by norm_num) (-122) 37 1 (by norm_num)
  exact (geodetic_round_trip (1 / 1000) _ ok (by norm_num) (-122) 37 1 (by norm_num) (by norm_num) (by norm_num) (by norm_num) h1 h2).2.2
    (by norm_num)

example : flat.radius 45 < norm Real.sqrt (flat.toCartesian ⟨10, 45, 0⟩) :=
  radius_not_geodetic flat flat_ok (by norm_num [flat]) 10 45 (by norm_num) (by norm_num)

example : flat.geocentricRadius 45 0 = norm Real.sqrt (flat.toCartesian ⟨10, 45, 0⟩) :=
  geocentricRadius_spec flat flat_ok 10 45 0 (by norm_num) (by norm_num) (Or.inl rfl)

example : flat.geocentricRadius 90 9 = 2 + 9 * (4 / 9) := by
  rw [(geocentricRadius_pole flat flat_ok (by norm_num [flat]) 0 9 (by norm_num)).1]; norm_num [flat]

example : flat.inverseFlattening = 3 := by
  rw [(inverseFlattening_spec flat flat_ok).2 (by norm_num [flat])]; norm_num [flat]

example : (flat.ned ⟨10, 45, 7⟩).2.1 = some (eastOf (10 + 15)) :=
  (ned_east_down flat flat_ok 10 45 7 (by norm_num) (by norm_num)).1

example : (ball.ned ⟨0, 0, 7⟩) = (some ⟨0, 0, 1⟩, some ⟨0, 1, 0⟩, some ⟨-1, 0, 0⟩) := by
  rw [ned_sphere ball ⟨by norm_num [ball], by norm_num [ball]⟩ rfl 0 0 7 (by norm_num) (by norm_num)]
  unfold northOf eastOf direction ball
  simp only [add_zero, zero_mul, sin_zero, cos_zero, mul_one, mul_zero, neg_zero]
  congr 3
  ext <;> simp

end Verif.Datum
