import Verif.Blob.Model
import Mathlib.Data.List.Nodup
/-
`component` numbers the connected components of the vertices 0 .. n-1 from 0 on.
-/
namespace VW.Blob
open VW.Graph

/-- The classes of `rep` are the components, named by their smallest vertices. -/
theorem rep_spec (es : List (Nat × Nat)) :
    (∀ u v, rep es u = rep es v ↔ Conn es u v) ∧ (∀ v, rep es v ≤ v) ∧ (∀ v, rep es (rep es v) = rep es v) := by
  induction es with
  | nil =>
    refine ⟨fun u v => ⟨fun h => ?_, fun h => ?_⟩, fun v => Nat.le_refl _, fun _ => rfl⟩
    · have : u = v := h
      subst this; exact .refl _ _
    · exact h.nil
  | cons e es ih =>
    obtain ⟨h1, h2, h3⟩ := ih
    obtain ⟨x, y⟩ := e
    have er : rep ((x, y) :: es) = join (rep es) (x, y) := rfl
    rw [er]
    generalize hf : rep es = f at *
    have key : ∀ v, join f (x, y) v = if f v = f x ∨ f v = f y then min (f x) (f y) else f v := by
      intro v
      unfold join
      dsimp only
      by_cases hx : f x ≤ f y
      · rw [Nat.max_eq_right hx, Nat.min_eq_left hx]
        by_cases hvy : f v = f y
        · rw [if_pos hvy, if_pos (Or.inr hvy)]
        · rw [if_neg hvy]
          by_cases hvx : f v = f x
          · rw [if_pos (Or.inl hvx)]; exact hvx
          · rw [if_neg (by tauto)]
      · have hx' : f y ≤ f x := by omega
        rw [Nat.max_eq_left hx', Nat.min_eq_right hx']
        by_cases hvx : f v = f x
        · rw [if_pos hvx, if_pos (Or.inl hvx)]
        · rw [if_neg hvx]
          by_cases hvy : f v = f y
          · rw [if_pos (Or.inr hvy)]; exact hvy
          · rw [if_neg (by tauto)]
    have hm : min (f x) (f y) = f x ∨ min (f x) (f y) = f y := by omega
    refine ⟨?_, ?_, ?_⟩
    · intro u v
      rw [conn_cons, ← h1, ← h1, ← h1, ← h1, ← h1, key, key]
      by_cases hu : f u = f x ∨ f u = f y <;> by_cases hv : f v = f x ∨ f v = f y
      · rw [if_pos hu, if_pos hv]
        simp only [true_iff]
        rcases hu with hu | hu <;> rcases hv with hv | hv <;> rw [hu, hv] <;> simp
      · rw [if_pos hu, if_neg hv]
        constructor
        · intro e; rcases hm with hm | hm <;> rw [hm] at e
          · exact absurd (Or.inl e.symm) hv
          · exact absurd (Or.inr e.symm) hv
        · rintro (e | ⟨_, e⟩ | ⟨_, e⟩)
          · rw [e] at hu; exact absurd hu hv
          · exact absurd (Or.inr e.symm) hv
          · exact absurd (Or.inl e.symm) hv
      · rw [if_neg hu, if_pos hv]
        constructor
        · intro e; rcases hm with hm | hm <;> rw [hm] at e
          · exact absurd (Or.inl e) hu
          · exact absurd (Or.inr e) hu
        · rintro (e | ⟨e, _⟩ | ⟨e, _⟩)
          · rw [← e] at hv; exact absurd hv hu
          · exact absurd (Or.inl e) hu
          · exact absurd (Or.inr e) hu
      · rw [if_neg hu, if_neg hv]
        constructor
        · exact Or.inl
        · rintro (e | ⟨e, _⟩ | ⟨e, _⟩)
          · exact e
          · exact absurd (Or.inl e) hu
          · exact absurd (Or.inr e) hu
    · intro v
      rw [key]
      by_cases hv : f v = f x ∨ f v = f y
      · rw [if_pos hv]; have := h2 v; omega
      · rw [if_neg hv]; exact h2 v
    · intro v
      rw [key v]
      by_cases hv : f v = f x ∨ f v = f y
      · rw [if_pos hv, key, if_pos]
        rcases hm with hm | hm <;> rw [hm, h3] <;> simp
      · rw [if_neg hv, key, h3, if_neg hv]

theorem mem_reps {n : Nat} {es : List (Nat × Nat)} {v : Nat} : v ∈ reps n es ↔ v < n ∧ rep es v = v := by
  simp [reps]

theorem rep_mem_reps {n : Nat} {es : List (Nat × Nat)} {v : Nat} (h : v < n) : rep es v ∈ reps n es := by
  obtain ⟨_, h2, h3⟩ := rep_spec es
  rw [mem_reps]
  exact ⟨by have := h2 v; omega, h3 v⟩

/-- Equal numbers iff connected. -/
theorem component_eq {n : Nat} {es : List (Nat × Nat)} {u v : Nat} (hu : u < n) (hv : v < n) :
    component n es u = component n es v ↔ Conn es u v := by
  rw [← (rep_spec es).1]
  unfold component
  exact List.idxOf_inj (rep_mem_reps hu)

theorem component_lt {n : Nat} {es : List (Nat × Nat)} {v : Nat} (hv : v < n) :
    component n es v < (reps n es).length := List.idxOf_lt_length_of_mem (rep_mem_reps hv)

/-- All numbers are used. -/
theorem component_surj {n : Nat} {es : List (Nat × Nat)} {k : Nat} (hk : k < (reps n es).length) :
    ∃ v, v < n ∧ component n es v = k := by
  have hm : (reps n es)[k] ∈ reps n es := List.getElem_mem hk
  rw [mem_reps] at hm
  refine ⟨_, hm.1, ?_⟩
  unfold component
  rw [hm.2]
  have hnd : (reps n es).Nodup := List.Nodup.filter _ List.nodup_range
  exact hnd.idxOf_getElem k hk

/-- The component of the vertex 0 is number 0. -/
theorem component_zero {n : Nat} {es : List (Nat × Nat)} (hn : 0 < n) : component n es 0 = 0 := by
  have h0 : rep es 0 = 0 := by have := (rep_spec es).2.1 0; omega
  unfold component
  rw [h0]
  obtain ⟨m, rfl⟩ : ∃ m, n = m + 1 := ⟨n - 1, by omega⟩
  unfold reps
  rw [List.range_succ_eq_map, List.filter_cons_of_pos (by simpa using h0)]
  simp

end VW.Blob
