import Verif.DatumCheck.Model
import Mathlib.Tactic.Linarith
import Mathlib.Tactic.NormNum
/-
C177: the comparison of two datums.
-/
namespace VW.DatumCheck

/-- Both pairs of axes differ by less than `e`. -/
def Within (e : ℚ) (d1 d2 : Axes) : Prop := |d1.a - d2.a| < e ∧ |d1.b - d2.b| < e

/-- A body with an axis below 1000 km. -/
def Small (d : Axes) : Prop := d.a < 1000000 ∨ d.b < 1000000

theorem max_lt' (x y e : ℚ) : (if x < y then y else x) < e ↔ x < e ∧ y < e := by
  split
  · exact ⟨fun h => ⟨by linarith, h⟩, fun h => h.2⟩
  · exact ⟨fun h => ⟨h, by linarith⟩, fun h => h.1⟩

/-- **C177**: for all pairs of datums nothing happens exactly if both axes agree to less than 10 m; the call fails exactly if an
axis differs by 200 km or more, none of the bodies is small and more than a warning is asked for; else there is a warning. -/
theorem check_spec (d1 d2 : Axes) (w : Bool) :
    (check d1 d2 w = .quiet ↔ Within 10 d1 d2) ∧
    (check d1 d2 w = .fail ↔ ¬ Within 200000 d1 d2 ∧ w = false ∧ ¬ Small d1 ∧ ¬ Small d2) ∧
    (check d1 d2 w = .warn ↔ ¬ Within 10 d1 d2 ∧ (Within 200000 d1 d2 ∨ w = true ∨ Small d1 ∨ Small d2)) := by
  unfold check Within Small
  dsimp only
  have h1 := max_lt' |d1.a - d2.a| |d1.b - d2.b| 10
  have h2 := max_lt' |d1.a - d2.a| |d1.b - d2.b| 200000
  rw [← h1, ← h2]
  generalize (if |d1.a - d2.a| < |d1.b - d2.b| then |d1.b - d2.b| else |d1.a - d2.a|) = e
  by_cases he : 10 ≤ e
  · rw [if_pos he]
    have he' : ¬ e < 10 := not_lt.mpr he
    split
    · rename_i h
      simp only [Bool.or_eq_true, decide_eq_true_eq] at h
      refine ⟨by simp [he'], ?_, ?_⟩
      · constructor
        · intro h; cases h
        · rintro ⟨a, b, c, d⟩
          rcases h with ((h | h) | (((h | h) | h) | h))
          · exact absurd h a
          · rw [b] at h; cases h
          · exact absurd (Or.inl h) c
          · exact absurd (Or.inr h) c
          · exact absurd (Or.inl h) d
          · exact absurd (Or.inr h) d
      · refine ⟨fun _ => ⟨he', ?_⟩, fun _ => rfl⟩
        rcases h with ((h | h) | (((h | h) | h) | h))
        · exact Or.inl h
        · exact Or.inr (Or.inl h)
        · exact Or.inr (Or.inr (Or.inl (Or.inl h)))
        · exact Or.inr (Or.inr (Or.inl (Or.inr h)))
        · exact Or.inr (Or.inr (Or.inr (Or.inl h)))
        · exact Or.inr (Or.inr (Or.inr (Or.inr h)))
    · rename_i h
      simp only [Bool.or_eq_true, decide_eq_true_eq, not_or, Bool.not_eq_true] at h
      obtain ⟨⟨k1, k2⟩, ⟨⟨⟨k3, k4⟩, k5⟩, k6⟩⟩ := h
      refine ⟨by simp [he'], ?_, ?_⟩
      · exact ⟨fun _ => ⟨k1, k2, fun h => h.elim k3 k4, fun h => h.elim k5 k6⟩, fun _ => rfl⟩
      · constructor
        · intro h; cases h
        · rintro ⟨_, a | b | c | d⟩
          · exact absurd a k1
          · rw [k2] at b; cases b
          · exact absurd c (fun h => h.elim k3 k4)
          · exact absurd d (fun h => h.elim k5 k6)
  · rw [if_neg he]
    have he' : e < 10 := not_le.mp he
    refine ⟨by simp [he'], ?_, ?_⟩
    · constructor
      · intro h; cases h
      · rintro ⟨a, _⟩; exact absurd (by linarith) a
    · constructor
      · intro h; cases h
      · rintro ⟨a, _⟩; exact absurd he' a

/-- **C177 (order)**: the two datums can be swapped. -/
theorem check_comm (d1 d2 : Axes) (w : Bool) : check d1 d2 w = check d2 d1 w := by
  have hw : ∀ e, Within e d1 d2 ↔ Within e d2 d1 := fun e => by unfold Within; rw [abs_sub_comm d1.a, abs_sub_comm d1.b]
  obtain ⟨a, b, c⟩ := check_spec d1 d2 w
  obtain ⟨a', b', c'⟩ := check_spec d2 d1 w
  rcases h : check d1 d2 w with _ | _ | _
  · exact (a'.mpr ((hw 10).mp (a.mp h))).symm
  · obtain ⟨x, y⟩ := c.mp h
    exact (c'.mpr ⟨fun z => x ((hw _).mpr z), y.elim (fun u => Or.inl ((hw _).mp u)) (fun u => Or.inr (u.elim Or.inl (fun u => Or.inr u.symm)))⟩).symm
  · obtain ⟨x, y, z, t⟩ := b.mp h
    exact (b'.mpr ⟨fun u => x ((hw _).mpr u), y, t, z⟩).symm

/-- The Earth and Mars, the Earth and a sphere of the same size, the Earth and the Moon scaled down. -/
example : check ⟨6378137, 6356752⟩ ⟨3396190, 3376200⟩ false = .fail ∧ check ⟨6378137, 6356752⟩ ⟨3396190, 3376200⟩ true = .warn ∧
    check ⟨6378137, 6356752⟩ ⟨6378137, 6378137⟩ false = .warn ∧ check ⟨6378137, 6356752⟩ ⟨6378140, 6356755⟩ false = .quiet ∧
    check ⟨6378137, 6356752⟩ ⟨13000, 10000⟩ false = .warn := by
  refine ⟨?_, ?_, ?_, ?_, ?_⟩ <;> norm_num [check, abs]

end VW.DatumCheck
