import Verif.Linescan.Model
import Verif.VecUtil.Props
/-
Property C167: the error of a projection into a linescan camera.
-/
namespace VW.Linescan

open VW.VecUtil

theorem minIdx_spec (v : V3) : minIdx v < 3 ∧ ∀ i, i < 3 → |v.get (minIdx v)| ≤ |v.get i| := by
  have all : ∀ m : Nat, (|v.get m| ≤ |v.get 0| ∧ |v.get m| ≤ |v.get 1| ∧ |v.get m| ≤ |v.get 2|) →
      ∀ i, i < 3 → |v.get m| ≤ |v.get i| := by
    intro m ⟨h0, h1, h2⟩ i hi
    have : i = 0 ∨ i = 1 ∨ i = 2 := by omega
    rcases this with h | h | h <;> rw [h] <;> assumption
  unfold minIdx
  dsimp only
  by_cases c1 : |v.get 1| < |v.get 0|
  · rw [if_pos c1]
    by_cases c2 : |v.get 2| < |v.get 1|
    · rw [if_pos c2]
      exact ⟨by decide, all 2 ⟨(c2.trans c1).le, c2.le, le_refl _⟩⟩
    · rw [if_neg c2]
      exact ⟨by decide, all 1 ⟨c1.le, le_refl _, not_lt.1 c2⟩⟩
  · rw [if_neg c1]
    by_cases c2 : |v.get 2| < |v.get 0|
    · rw [if_pos c2]
      exact ⟨by decide, all 2 ⟨c2.le, c2.le.trans (not_lt.1 c1), le_refl _⟩⟩
    · rw [if_neg c2]
      exact ⟨by decide, all 0 ⟨le_refl _, not_lt.1 c1, not_lt.1 c2⟩⟩

theorem normalize_spec {v : V3} (h : v.norm ≠ 0) : normalize v = some (v.over v.norm) ∧
    dot (v.over v.norm) (v.over v.norm) = 1 ∧ ∀ w, dot w (v.over v.norm) = dot w v / v.norm := by
  refine ⟨by unfold normalize; rw [if_neg h], unit_over h, fun w => ?_⟩
  unfold dot V3.over
  dsimp only
  ring

/-- **C167 (perpendicular vectors)**: `findPerpVecs` throws exactly if the length is off 1 by more than 1e-5; else it gives
two unit vectors perpendicular to the given one and to each other, with no division by 0 in any direction. -/
theorem findPerpVecs_spec (vec : V3) :
    (findPerpVecs vec = none ↔ 1 / 100000 < |vec.norm - 1|) ∧
    ∀ p q, findPerpVecs vec = some (p, q) →
      dot p p = 1 ∧ dot q q = 1 ∧ dot vec p = 0 ∧ dot vec q = 0 ∧ dot p q = 0 := by
  unfold findPerpVecs
  by_cases ht : |vec.norm - 1| > 1 / 100000
  · rw [if_pos ht]
    exact ⟨by simp only [true_iff]; exact ht, fun p q h => by cases h⟩
  rw [if_neg ht]
  dsimp only
  have hn0 : vec.norm ≠ 0 := by
    intro e; rw [e] at ht; norm_num at ht
  have hz : ¬ (vec.x = 0 ∧ vec.y = 0 ∧ vec.z = 0) := fun h => hn0 ((norm_eq_zero vec).2 h)
  obtain ⟨hm, hmin⟩ := minIdx_spec vec
  have key : ∀ P : V3, dot vec P = 0 → P.norm ≠ 0 →
      (((normalize P).bind fun p => (normalize (vec.cross p)).map fun q => (p, q)) = none ↔ 1 / 100000 < |vec.norm - 1|) ∧
      ∀ p q, ((normalize P).bind fun p => (normalize (vec.cross p)).map fun q => (p, q)) = some (p, q) →
        dot p p = 1 ∧ dot q q = 1 ∧ dot vec p = 0 ∧ dot vec q = 0 ∧ dot p q = 0 := by
    intro P hP hn
    obtain ⟨e1, u1, d1⟩ := normalize_spec hn
    have v1 : dot vec (P.over P.norm) = 0 := by rw [d1, hP, zero_div]
    rw [e1, Option.bind_some]
    generalize P.over P.norm = p at *
    have hc : (vec.cross p).norm ≠ 0 := by
      intro e
      have h1 := norm_sq (vec.cross p)
      rw [e] at h1
      have h2 : dot (vec.cross p) (vec.cross p) = dot vec vec * dot p p - dot vec p * dot vec p := by
        unfold dot V3.cross; ring
      rw [h2, u1, v1] at h1
      have h3 := norm_sq vec
      have : vec.norm * vec.norm = 0 := by linarith
      exact hn0 (mul_self_eq_zero.1 this)
    obtain ⟨e2, u2, d2⟩ := normalize_spec hc
    rw [e2, Option.map_some]
    refine ⟨by simpa using ht, ?_⟩
    intro p' q' h
    cases h
    refine ⟨u1, u2, v1, ?_, ?_⟩
    · rw [d2]
      have : dot vec (vec.cross p) = 0 := by unfold dot V3.cross; ring
      rw [this, zero_div]
    · rw [d2]
      have : dot p (vec.cross p) = 0 := by unfold dot V3.cross; ring
      rw [this, zero_div]
  -- the two largest coordinates are not both 0
  have hc : minIdx vec = 0 ∨ minIdx vec = 1 ∨ minIdx vec = 2 := by omega
  have g0 : vec.get 0 = vec.x := rfl
  have g1 : vec.get 1 = vec.y := rfl
  have g2 : vec.get 2 = vec.z := rfl
  have a0 := hmin 0 (by decide)
  have a1 := hmin 1 (by decide)
  have a2 := hmin 2 (by decide)
  rcases hc with hc | hc | hc
  · rw [hc] at a0 a1 a2 ⊢
    rw [g0, g1] at a1
    rw [if_pos rfl, if_pos rfl]
    apply key
    · simp [V3.set, V3.get, dot]; ring
    · intro e
      rw [norm_eq_zero] at e
      simp [V3.set, V3.get] at e
      rw [e.2, abs_zero] at a1
      exact hz ⟨abs_nonpos_iff.1 a1, e.2, e.1⟩
  · rw [hc] at a0 a1 a2 ⊢
    rw [g0, g1] at a0
    rw [if_neg (by decide), if_neg (by decide), if_pos rfl]
    apply key
    · simp [V3.set, V3.get, dot]; ring
    · intro e
      rw [norm_eq_zero] at e
      simp [V3.set, V3.get] at e
      rw [e.2, abs_zero] at a0
      exact hz ⟨e.2, abs_nonpos_iff.1 a0, e.1⟩
  · rw [hc] at a0 a1 a2 ⊢
    rw [g0, g2] at a0
    rw [if_neg (by decide), if_neg (by decide), if_neg (by decide)]
    apply key
    · simp [V3.set, V3.get, dot]; ring
    · intro e
      rw [norm_eq_zero] at e
      simp [V3.set, V3.get] at e
      rw [e.2, abs_zero] at a0
      exact hz ⟨e.2, e.1, abs_nonpos_iff.1 a0⟩

/-- The unit vector from `a` to `b`. -/
noncomputable def towards (a b : V3) : V3 := (sub b a).over (sub b a).norm

/-- Two unit vectors with the same components along two perpendicular unit vectors, and both on the same side of the plane
of these, are equal. -/
theorem unit_eq {u w g p q : V3} (hu : dot u u = 1) (hw : dot w w = 1) (hg : dot g g = 1) (hp : dot p p = 1)
    (hq : dot q q = 1) (gp : dot g p = 0) (gq : dot g q = 0) (pq : dot p q = 0) (e1 : dot u p = dot w p)
    (e2 : dot u q = dot w q) (su : 0 < dot u g) (sw : 0 < dot w g) : u = w := by
  -- (g, p, q) is a basis: every vector is the sum of its components
  have par : ∀ v : V3, dot v v = dot v g ^ 2 + dot v p ^ 2 + dot v q ^ 2 := by
    -- Gram determinant of four vectors in three dimensions
    intro v
    have gram : (dot v v - dot v g ^ 2 - dot v p ^ 2 - dot v q ^ 2) =
        dot v v - dot v g ^ 2 - dot v p ^ 2 - dot v q ^ 2 := rfl
    have hdet : (g.x * (p.y * q.z - p.z * q.y) - g.y * (p.x * q.z - p.z * q.x) + g.z * (p.x * q.y - p.y * q.x)) ^ 2 =
        dot g g * (dot p p * dot q q - dot p q ^ 2) - dot g p * (dot g p * dot q q - dot p q * dot g q)
          + dot g q * (dot g p * dot p q - dot p p * dot g q) := by
      unfold dot; ring
    have h4 : dot v v * (dot g g * (dot p p * dot q q - dot p q ^ 2) - dot g p * (dot g p * dot q q - dot p q * dot g q)
          + dot g q * (dot g p * dot p q - dot p p * dot g q)) =
        dot v g ^ 2 * (dot p p * dot q q - dot p q ^ 2) + dot v p ^ 2 * (dot g g * dot q q - dot g q ^ 2)
          + dot v q ^ 2 * (dot g g * dot p p - dot g p ^ 2)
          + 2 * dot v g * dot v p * (dot g q * dot p q - dot g p * dot q q)
          + 2 * dot v g * dot v q * (dot g p * dot p q - dot g q * dot p p)
          + 2 * dot v p * dot v q * (dot g p * dot g q - dot p q * dot g g) := by
      unfold dot; ring
    rw [hg, hp, hq, gp, gq, pq] at h4
    linarith
  have hug : dot u g = dot w g := by
    have a := par u
    have b := par w
    rw [hu, e1, e2] at a
    rw [hw] at b
    have : dot u g ^ 2 = dot w g ^ 2 := by linarith
    nlinarith
  have hd : dot (sub u w) (sub u w) = 0 := by
    rw [par (sub u w)]
    have s : ∀ t, dot (sub u w) t = dot u t - dot w t := fun t => by unfold dot sub; ring
    rw [s, s, s, hug, e1, e2]
    ring
  have h0 := (norm_eq_zero (sub u w)).1 (by
    have := norm_sq (sub u w)
    rw [hd] at this
    exact mul_self_eq_zero.1 this)
  unfold sub at h0
  dsimp only at h0
  ext <;> linarith

/-- **C167 (zero of the error)**: for a camera whose directions are unit vectors, an error made for a guess whose centre is
not at the point, and a pixel that (as the ray to the point from its own centre) looks towards the same side as the ray
from the guess to the point: the error is 0 exactly if the pixel looks at the point. -/
theorem err_zero {P : Type} (c : Camera P) (hc : ∀ p, dot (c.dir p) (c.dir p) = 1) (pt : V3) (guess pix : P)
    {perp : V3 × V3} (hm : make c pt guess = some perp) {e : ℝ × ℝ} (he : err c pt perp pix = some e)
    (h1 : 0 < dot (c.dir pix) (towards (c.center guess) pt))
    (h2 : 0 < dot (towards (c.center pix) pt) (towards (c.center guess) pt)) :
    e = (0, 0) ↔ c.dir pix = towards (c.center pix) pt := by
  unfold make at hm
  have hg : (sub pt (c.center guess)).norm ≠ 0 := by
    intro h0; unfold normalize at hm; rw [if_pos h0] at hm; cases hm
  obtain ⟨e1, u1, _⟩ := normalize_spec hg
  rw [e1, Option.bind_some] at hm
  obtain ⟨hp, hq, gp, gq, pq⟩ := (findPerpVecs_spec _).2 perp.1 perp.2 hm
  unfold err at he
  dsimp only at he
  have hd : (sub pt (c.center pix)).norm ≠ 0 := by
    intro h0; rw [if_pos h0] at he; cases he
  rw [if_neg hd] at he
  cases he
  have u2 : dot (towards (c.center pix) pt) (towards (c.center pix) pt) = 1 := unit_over hd
  have s : ∀ t, dotProd (sub (c.dir pix) ((sub pt (c.center pix)).over (sub pt (c.center pix)).norm)) t =
      dot (c.dir pix) t - dot (towards (c.center pix) pt) t := by
    intro t; unfold dotProd dot sub towards sub; ring
  constructor
  · intro h
    injection h with ha hb
    have ha' := (mul_eq_zero.1 ha).resolve_right hd
    have hb' := (mul_eq_zero.1 hb).resolve_right hd
    rw [s] at ha' hb'
    exact unit_eq (hc pix) u2 u1 hp hq gp gq pq (by linarith) (by linarith) h1 h2
  · intro h
    rw [s, s, h]
    simp

/-- A case: a vector along an axis (on which C164 fails). -/
example : ∃ p q, findPerpVecs ⟨0, 0, 1⟩ = some (p, q) := by
  have hn : (⟨0, 0, 1⟩ : V3).norm = 1 := by unfold V3.norm; norm_num
  have h := (findPerpVecs_spec ⟨0, 0, 1⟩).1
  cases e : findPerpVecs ⟨0, 0, 1⟩ with
  | none => have := h.1 e; rw [hn] at this; norm_num at this
  | some r => exact ⟨r.1, r.2, rfl⟩

end VW.Linescan
