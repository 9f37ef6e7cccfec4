import Verif.Opacity.Model
/-
C175: the box of the data of an image.
-/
namespace VW.Opacity

theorem up_spec (p : Nat → Bool) (n : Nat) : ∀ k,
    (up p k n = k + n ∧ ∀ i, k ≤ i → i < k + n → p i = false) ∨
    (k ≤ up p k n ∧ up p k n < k + n ∧ p (up p k n) = true ∧ ∀ i, k ≤ i → i < up p k n → p i = false) := by
  induction n with
  | zero => intro k; exact Or.inl ⟨rfl, fun i h1 h2 => by omega⟩
  | succ n ih =>
    intro k
    rw [up]
    by_cases h : p k = true
    · rw [if_pos h]; exact Or.inr ⟨Nat.le_refl _, by omega, h, fun i h1 h2 => by omega⟩
    · rw [if_neg h]
      have h' : p k = false := by simpa using h
      rcases ih (k + 1) with ⟨e, ha⟩ | ⟨h1, h2, h3, h4⟩
      · refine Or.inl ⟨by omega, fun i hi1 hi2 => ?_⟩
        by_cases e : i = k
        · rw [e]; exact h'
        · exact ha i (by omega) (by omega)
      · refine Or.inr ⟨by omega, by omega, h3, fun i hi1 hi2 => ?_⟩
        by_cases e : i = k
        · rw [e]; exact h'
        · exact h4 i (by omega) hi2

theorem up_hit (p : Nat → Bool) (k n : Nat) : up p k n ≠ k + n ↔ ∃ i, k ≤ i ∧ i < k + n ∧ p i = true := by
  rcases up_spec p n k with ⟨e, ha⟩ | ⟨h1, h2, h3, _⟩
  · constructor
    · intro h; exact absurd e h
    · rintro ⟨i, a, b, c⟩; rw [ha i a b] at c; exact absurd c (by simp)
  · exact ⟨fun _ => ⟨_, h1, h2, h3⟩, fun _ => by omega⟩

theorem down_spec (p : Nat → Bool) (k : Nat) (h : ∃ i, i ≤ k ∧ p i = true) :
    down p k ≤ k ∧ p (down p k) = true ∧ ∀ i, down p k < i → i ≤ k → p i = false := by
  induction k with
  | zero =>
    obtain ⟨i, hi, hp⟩ := h
    have : i = 0 := by omega
    rw [this] at hp
    exact ⟨Nat.le_refl _, hp, fun i h1 h2 => by omega⟩
  | succ k ih =>
    rw [down]
    by_cases hk : p (k + 1) = true
    · rw [if_pos hk]; exact ⟨Nat.le_refl _, hk, fun i h1 h2 => by omega⟩
    · rw [if_neg hk]
      have hk' : p (k + 1) = false := by simpa using hk
      obtain ⟨i, hi, hp⟩ := h
      have hi' : i ≤ k := by
        rcases Nat.lt_or_ge i (k + 1) with h | h
        · omega
        · have : i = k + 1 := by omega
          rw [this, hk'] at hp; exact absurd hp (by simp)
      obtain ⟨a, b, c⟩ := ih ⟨i, hi', hp⟩
      refine ⟨by omega, b, fun i h1 h2 => ?_⟩
      by_cases e : i = k + 1
      · rw [e]; exact hk'
      · exact c i h1 (by omega)

/-- The pixel has data. -/
def Data (m : Img) (i j : Nat) : Prop := i < m.cols ∧ j < m.rows ∧ m.nz i j = true

/-- The pixel is in the box. -/
def Box.has (b : Box) (i j : Nat) : Prop := b.x ≤ i ∧ i < b.x + b.cols ∧ b.y ≤ j ∧ j < b.y + b.rows

theorem rowHit_iff (m : Img) (j : Nat) : rowHit m j = true ↔ ∃ i, i < m.cols ∧ m.nz i j = true := by
  unfold rowHit
  rw [bne_iff_ne]
  have h := up_hit (fun i => m.nz i j) 0 m.cols
  rw [Nat.zero_add] at h
  rw [h]
  exact ⟨fun ⟨i, _, b, c⟩ => ⟨i, b, c⟩, fun ⟨i, b, c⟩ => ⟨i, Nat.zero_le _, b, c⟩⟩

theorem colHit_iff (m : Img) (y rows i : Nat) : colHit m y rows i = true ↔ ∃ j, y ≤ j ∧ j < y + rows ∧ m.nz i j = true := by
  unfold colHit
  rw [bne_iff_ne]
  exact up_hit (fun j => m.nz i j) y rows

/-- **C175 (box of the data)**: for every image without data the box is empty; for every other one it lies in the image, holds
all pixels that are not zero, and has such a pixel in its first and last row and column. -/
theorem nonzeroBox_spec (m : Img) :
    ((∀ i j, ¬ Data m i j) → nonzeroBox m = ⟨0, 0, 0, 0⟩) ∧
    ((∃ i j, Data m i j) →
      0 < (nonzeroBox m).cols ∧ 0 < (nonzeroBox m).rows ∧
      (nonzeroBox m).x + (nonzeroBox m).cols ≤ m.cols ∧ (nonzeroBox m).y + (nonzeroBox m).rows ≤ m.rows ∧
      (∀ i j, Data m i j → (nonzeroBox m).has i j) ∧
      (∃ j, Data m (nonzeroBox m).x j) ∧ (∃ j, Data m ((nonzeroBox m).x + (nonzeroBox m).cols - 1) j) ∧
      (∃ i, Data m i (nonzeroBox m).y) ∧ (∃ i, Data m i ((nonzeroBox m).y + (nonzeroBox m).rows - 1))) := by
  have hr := up_spec (rowHit m) m.rows 0
  rw [Nat.zero_add] at hr
  constructor
  · intro hno
    unfold nonzeroBox
    dsimp only
    rcases hr with ⟨e, _⟩ | ⟨_, h2, h3, _⟩
    · rw [if_neg (fun h => h e)]
    · obtain ⟨i, hi, hn⟩ := (rowHit_iff m _).mp h3
      exact absurd ⟨hi, h2, hn⟩ (hno i _)
  · rintro ⟨i0, j0, d1, d2, d3⟩
    have hj0 : rowHit m j0 = true := (rowHit_iff m j0).mpr ⟨i0, d1, d3⟩
    rcases hr with ⟨_, ha⟩ | ⟨_, y1, y2, y3⟩
    · rw [ha j0 (Nat.zero_le _) d2] at hj0; exact absurd hj0 (by simp)
    · obtain ⟨z1, z2, z3⟩ := down_spec (rowHit m) (m.rows - 1) ⟨j0, by omega, hj0⟩
      have eb : nonzeroBox m = ⟨up (colHit m (up (rowHit m) 0 m.rows)
            (down (rowHit m) (m.rows - 1) - up (rowHit m) 0 m.rows + 1)) 0 m.cols, up (rowHit m) 0 m.rows,
          down (colHit m (up (rowHit m) 0 m.rows) (down (rowHit m) (m.rows - 1) - up (rowHit m) 0 m.rows + 1)) (m.cols - 1) -
            up (colHit m (up (rowHit m) 0 m.rows) (down (rowHit m) (m.rows - 1) - up (rowHit m) 0 m.rows + 1)) 0 m.cols + 1,
          down (rowHit m) (m.rows - 1) - up (rowHit m) 0 m.rows + 1⟩ := by
        unfold nonzeroBox
        dsimp only
        rw [if_pos (by omega)]
      rw [eb]
      generalize up (rowHit m) 0 m.rows = y at *
      generalize down (rowHit m) (m.rows - 1) = y' at *
      have hyy : y ≤ y' := by
        rcases Nat.lt_or_ge y' y with h | h
        · have := z3 y h (by omega); rw [y2] at this; exact absurd this (by simp)
        · exact h
      -- rows of the data
      have hrow : ∀ i j, Data m i j → y ≤ j ∧ j ≤ y' := by
        rintro i j ⟨a, b, c⟩
        have hj : rowHit m j = true := (rowHit_iff m j).mpr ⟨i, a, c⟩
        constructor
        · rcases Nat.lt_or_ge j y with h | h
          · rw [y3 j (Nat.zero_le _) h] at hj; exact absurd hj (by simp)
          · exact h
        · rcases Nat.lt_or_ge y' j with h | h
          · rw [z3 j h (by omega)] at hj; exact absurd hj (by simp)
          · exact h
      have hch : ∀ i, i < m.cols → (colHit m y (y' - y + 1) i = true ↔ ∃ j, Data m i j) := by
        intro i hi
        rw [colHit_iff]
        constructor
        · rintro ⟨j, a, b, c⟩; exact ⟨j, hi, by omega, c⟩
        · rintro ⟨j, hd⟩
          have := hrow i j hd
          exact ⟨j, this.1, by omega, hd.2.2⟩
      have hc0 : colHit m y (y' - y + 1) i0 = true := (hch i0 d1).mpr ⟨j0, d1, d2, d3⟩
      have hx := up_spec (colHit m y (y' - y + 1)) m.cols 0
      rw [Nat.zero_add] at hx
      rcases hx with ⟨_, ha⟩ | ⟨_, x1, x2, x3⟩
      · rw [ha i0 (Nat.zero_le _) d1] at hc0; exact absurd hc0 (by simp)
      · obtain ⟨w1, w2, w3⟩ := down_spec (colHit m y (y' - y + 1)) (m.cols - 1) ⟨i0, by omega, hc0⟩
        generalize up (colHit m y (y' - y + 1)) 0 m.cols = x at *
        generalize down (colHit m y (y' - y + 1)) (m.cols - 1) = x' at *
        have hxx : x ≤ x' := by
          rcases Nat.lt_or_ge x' x with h | h
          · have := w3 x h (by omega); rw [x2] at this; exact absurd this (by simp)
          · exact h
        dsimp only
        refine ⟨by omega, by omega, by omega, by omega, ?_, ?_, ?_, ?_, ?_⟩
        · intro i j hd
          have hj := hrow i j hd
          have hc := (hch i hd.1).mpr ⟨j, hd⟩
          have hi1 : x ≤ i := by
            rcases Nat.lt_or_ge i x with h | h
            · rw [x3 i (Nat.zero_le _) h] at hc; exact absurd hc (by simp)
            · exact h
          have hi2 : i ≤ x' := by
            have := hd.1
            rcases Nat.lt_or_ge x' i with h | h
            · rw [w3 i h (by omega)] at hc; exact absurd hc (by simp)
            · exact h
          unfold Box.has
          dsimp only
          omega
        · exact (hch x x1).mp x2
        · rw [show x + (x' - x + 1) - 1 = x' by omega]; exact (hch x' (by omega)).mp w2
        · obtain ⟨i, a, b⟩ := (rowHit_iff m y).mp y2; exact ⟨i, a, y1, b⟩
        · rw [show y + (y' - y + 1) - 1 = y' by omega]
          obtain ⟨i, a, b⟩ := (rowHit_iff m y').mp z2; exact ⟨i, a, by omega, b⟩

/-- **C175 (smallest)**: every box that holds all the data holds the box given back. -/
theorem nonzeroBox_least (m : Img) (b : Box) (hb : ∀ i j, Data m i j → b.has i j) (i j : Nat) (h : (nonzeroBox m).has i j) :
    b.has i j := by
  by_cases hd : ∃ i j, Data m i j
  · obtain ⟨h1, h2, h3, h4, _, ⟨j1, a⟩, ⟨j2, c⟩, ⟨i1, d⟩, ⟨i2, e⟩⟩ := (nonzeroBox_spec m).2 hd
    have a := hb _ _ a
    have c := hb _ _ c
    have d := hb _ _ d
    have e := hb _ _ e
    unfold Box.has at *
    omega
  · rw [(nonzeroBox_spec m).1 (fun i j h => hd ⟨i, j, h⟩)] at h
    unfold Box.has at h
    dsimp only at h
    omega

/-- **C175 (opaque and transparent images)**: an image is called opaque (transparent) exactly if all of its pixels are. -/
theorem allPx_spec (cols rows : Nat) (p : Nat → Nat → Bool) :
    allPx cols rows p = true ↔ ∀ x y, x < cols → y < rows → p x y = true := by
  unfold allPx
  simp only [List.all_eq_true, List.mem_range]
  exact ⟨fun h x y hx hy => h y hy x hx, fun h y hy x hx => h x y hx hy⟩

example : nonzeroBox ⟨6, 5, fun i j => (i == 1 && j == 3) || (i == 4 && j == 2)⟩ = ⟨1, 2, 4, 2⟩ := by decide

example : ∃ i j, Data ⟨6, 5, fun i j => (i == 1 && j == 3) || (i == 4 && j == 2)⟩ i j := ⟨1, 3, by decide, by decide, rfl⟩

end VW.Opacity
