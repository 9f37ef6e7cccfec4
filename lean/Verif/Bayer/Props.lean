import Verif.Bayer.Model
import Mathlib.Tactic.SplitIfs
import Mathlib.Tactic.Linarith
import Mathlib.Tactic.NormNum
/-
Property C168: inversion of the Bayer mosaic.
-/
namespace VW.Bayer

/-! ### Specification -/

/-- The colours of the mosaic. -/
inductive Colour where
  | red
  | green
  | blue
deriving DecidableEq

/-- The filter before the pixel (i, j): red at even rows and columns, blue at odd ones, green elsewhere. -/
def filterAt (i j : Int) : Colour :=
  if i % 2 = 0 ∧ j % 2 = 0 then .red else if i % 2 = 1 ∧ j % 2 = 1 then .blue else .green

/-- The value of a colour. -/
def RGB.at (v : RGB) : Colour → Int
  | .red => v.r
  | .green => v.g
  | .blue => v.b

/-- What the sensor records of a scene. -/
def mosaic (cols rows : Int) (scene : Int → Int → RGB) : Img := ⟨cols, rows, fun i j => (scene i j).at (filterAt i j)⟩

theorem view_in {m : Img} {i j : Int} (h : 0 ≤ i ∧ i < m.cols ∧ 0 ≤ j ∧ j < m.rows) : m.view i j = m.px i j := by
  unfold Img.view; rw [if_pos h]

theorem filterAt_cases (i j : Int) : (i % 2 = 0 ∧ j % 2 = 0 ∧ filterAt i j = .red) ∨
    (i % 2 = 1 ∧ j % 2 = 1 ∧ filterAt i j = .blue) ∨ (i % 2 ≠ j % 2 ∧ filterAt i j = .green) := by
  unfold filterAt
  by_cases h1 : i % 2 = 0 ∧ j % 2 = 0
  · left; rw [if_pos h1]; exact ⟨h1.1, h1.2, rfl⟩
  · rw [if_neg h1]
    by_cases h2 : i % 2 = 1 ∧ j % 2 = 1
    · right; left; rw [if_pos h2]; exact ⟨h2.1, h2.2, rfl⟩
    · right; right; rw [if_neg h2]; exact ⟨by omega, rfl⟩

/-- **C168 (recorded values)**: for every pixel whose neighbour (i + 1, j + 1) is in the image, the colour recorded there is
passed on unchanged: the result is the image moved by one pixel left and up. -/
theorem recorded_partial (cols rows : Int) (scene : Int → Int → RGB) (i j : Int) (hi : 0 ≤ i ∧ i + 1 < cols)
    (hj : 0 ≤ j ∧ j + 1 < rows) :
    (inverseBayer (mosaic cols rows scene) i j).at (filterAt (i + 1) (j + 1)) =
      (scene (i + 1) (j + 1)).at (filterAt (i + 1) (j + 1)) := by
  have hv : (mosaic cols rows scene).view (i + 1) (j + 1) = (scene (i + 1) (j + 1)).at (filterAt (i + 1) (j + 1)) :=
    view_in (by unfold mosaic; dsimp only; omega)
  rw [← hv]
  unfold inverseBayer
  dsimp only
  rcases filterAt_cases (i + 1) (j + 1) with ⟨h1, h2, e⟩ | ⟨h1, h2, e⟩ | ⟨h1, e⟩
  · rw [e, if_neg (by omega), if_pos (by omega)]; rfl
  · rw [e, if_neg (by omega), if_neg (by omega)]; rfl
  · rw [e, if_pos (by omega)]
    split_ifs <;> rfl

/-- **C168 (uniform scenes)**: a scene of one colour is recovered exactly at all pixels but the last two columns and
rows. -/
theorem uniform_partial (cols rows : Int) (v : RGB) (i j : Int) (hi : 0 ≤ i ∧ i + 2 < cols) (hj : 0 ≤ j ∧ j + 2 < rows) :
    inverseBayer (mosaic cols rows fun _ _ => v) i j = v := by
  have hv : ∀ a b : Int, 0 ≤ a → a ≤ 2 → 0 ≤ b → b ≤ 2 →
      (mosaic cols rows fun _ _ => v).view (i + a) (j + b) = v.at (filterAt (i + a) (j + b)) := by
    intro a b h1 h2 h3 h4
    exact view_in (by unfold mosaic; dsimp only; omega)
  have hv0 : ∀ b : Int, 0 ≤ b → b ≤ 2 →
      (mosaic cols rows fun _ _ => v).view i (j + b) = v.at (filterAt i (j + b)) := by
    intro b h3 h4
    exact view_in (by unfold mosaic; dsimp only; omega)
  have hv1 : ∀ a : Int, 0 ≤ a → a ≤ 2 →
      (mosaic cols rows fun _ _ => v).view (i + a) j = v.at (filterAt (i + a) j) := by
    intro a h1 h2
    exact view_in (by unfold mosaic; dsimp only; omega)
  have hv2 : (mosaic cols rows fun _ _ => v).view i j = v.at (filterAt i j) :=
    view_in (by unfold mosaic; dsimp only; omega)
  have red : ∀ x y : Int, x % 2 = 0 → y % 2 = 0 → v.at (filterAt x y) = v.r := by
    intro x y h1 h2; unfold filterAt; rw [if_pos ⟨h1, h2⟩]; rfl
  have blue : ∀ x y : Int, x % 2 = 1 → y % 2 = 1 → v.at (filterAt x y) = v.b := by
    intro x y h1 h2; unfold filterAt; rw [if_neg (by omega), if_pos ⟨h1, h2⟩]; rfl
  have green : ∀ x y : Int, x % 2 ≠ y % 2 → v.at (filterAt x y) = v.g := by
    intro x y h; unfold filterAt; rw [if_neg (by omega), if_neg (by omega)]; rfl
  have two : ∀ a : Int, (a + a) / 2 = a := fun a => by omega
  have four : ∀ a : Int, (a + a + a + a) / 4 = a := fun a => by omega
  unfold inverseBayer
  dsimp only
  by_cases c1 : i % 2 ≠ j % 2
  · rw [if_pos c1]
    by_cases c2 : i % 2 ≠ 0
    · rw [if_pos c2, hv 1 1 (by omega) (by omega) (by omega) (by omega), hv0 1 (by omega) (by omega),
        hv 2 1 (by omega) (by omega) (by omega) (by omega), hv1 1 (by omega) (by omega),
        hv 1 2 (by omega) (by omega) (by omega) (by omega), green (i + 1) (j + 1) (by omega),
        blue i (j + 1) (by omega) (by omega), blue (i + 2) (j + 1) (by omega) (by omega),
        red (i + 1) j (by omega) (by omega), red (i + 1) (j + 2) (by omega) (by omega), two, two]
    · rw [if_neg c2, hv 1 1 (by omega) (by omega) (by omega) (by omega), hv0 1 (by omega) (by omega),
        hv 2 1 (by omega) (by omega) (by omega) (by omega), hv1 1 (by omega) (by omega),
        hv 1 2 (by omega) (by omega) (by omega) (by omega), green (i + 1) (j + 1) (by omega),
        red i (j + 1) (by omega) (by omega), red (i + 2) (j + 1) (by omega) (by omega),
        blue (i + 1) j (by omega) (by omega), blue (i + 1) (j + 2) (by omega) (by omega), two, two]
  · rw [if_neg c1]
    by_cases c2 : i % 2 ≠ 0
    · rw [if_pos c2, hv 1 1 (by omega) (by omega) (by omega) (by omega), hv2, hv1 2 (by omega) (by omega),
        hv 2 2 (by omega) (by omega) (by omega) (by omega), hv0 2 (by omega) (by omega), hv1 1 (by omega) (by omega),
        hv 1 2 (by omega) (by omega) (by omega) (by omega), hv 2 1 (by omega) (by omega) (by omega) (by omega),
        hv0 1 (by omega) (by omega), red (i + 1) (j + 1) (by omega) (by omega),
        blue i j (by omega) (by omega), blue (i + 2) j (by omega) (by omega), blue (i + 2) (j + 2) (by omega) (by omega),
        blue i (j + 2) (by omega) (by omega), green (i + 1) j (by omega), green (i + 1) (j + 2) (by omega),
        green (i + 2) (j + 1) (by omega), green i (j + 1) (by omega), four, four]
    · rw [if_neg c2, hv 1 1 (by omega) (by omega) (by omega) (by omega), hv2, hv1 2 (by omega) (by omega),
        hv 2 2 (by omega) (by omega) (by omega) (by omega), hv0 2 (by omega) (by omega), hv1 1 (by omega) (by omega),
        hv 1 2 (by omega) (by omega) (by omega) (by omega), hv 2 1 (by omega) (by omega) (by omega) (by omega),
        hv0 1 (by omega) (by omega), blue (i + 1) (j + 1) (by omega) (by omega),
        red i j (by omega) (by omega), red (i + 2) j (by omega) (by omega), red (i + 2) (j + 2) (by omega) (by omega),
        red i (j + 2) (by omega) (by omega), green (i + 1) j (by omega), green (i + 1) (j + 2) (by omega),
        green (i + 2) (j + 1) (by omega), green i (j + 1) (by omega), four, four]

/-- **C168 (no new extremes)**: values stay within the bounds of the image at the pixels named above: every channel is
between any bounds of the mosaic. -/
theorem bounded (m : Img) (lo hi : Int) (hm : ∀ i j, 0 ≤ i → i < m.cols → 0 ≤ j → j < m.rows → lo ≤ m.px i j ∧ m.px i j ≤ hi)
    (i j : Int) (hi' : 0 ≤ i ∧ i + 2 < m.cols) (hj : 0 ≤ j ∧ j + 2 < m.rows) (c : Colour) :
    lo ≤ (inverseBayer m i j).at c ∧ (inverseBayer m i j).at c ≤ hi := by
  have hv : ∀ x y : Int, i ≤ x → x ≤ i + 2 → j ≤ y → y ≤ j + 2 → lo ≤ m.view x y ∧ m.view x y ≤ hi := by
    intro x y h1 h2 h3 h4
    rw [view_in (by omega)]
    exact hm x y (by omega) (by omega) (by omega) (by omega)
  have a := hv i j (by omega) (by omega) (by omega) (by omega)
  have b := hv (i + 1) j (by omega) (by omega) (by omega) (by omega)
  have d := hv (i + 2) j (by omega) (by omega) (by omega) (by omega)
  have e := hv i (j + 1) (by omega) (by omega) (by omega) (by omega)
  have f := hv (i + 1) (j + 1) (by omega) (by omega) (by omega) (by omega)
  have g := hv (i + 2) (j + 1) (by omega) (by omega) (by omega) (by omega)
  have h := hv i (j + 2) (by omega) (by omega) (by omega) (by omega)
  have k := hv (i + 1) (j + 2) (by omega) (by omega) (by omega) (by omega)
  have l := hv (i + 2) (j + 2) (by omega) (by omega) (by omega) (by omega)
  unfold inverseBayer
  dsimp only
  split_ifs <;> cases c <;> simp only [RGB.at] <;> omega

/-- **Discrepancy**: the green recorded at a pixel is not the green of the result there but of its neighbour. -/
theorem moved : ∃ scene : Int → Int → RGB, filterAt 1 2 = .green ∧
    (inverseBayer (mosaic 8 8 scene) 1 2).g ≠ (scene 1 2).g ∧ (inverseBayer (mosaic 8 8 scene) 0 1).g = (scene 1 2).g :=
  ⟨fun i j => ⟨0, if i = 1 ∧ j = 2 then 100 else 0, 0⟩, by decide, by decide, by decide⟩

/-- **Discrepancy**: at the last column of a uniform scene of any colour with green two or more, green is lost. -/
theorem dark_edge (v : RGB) : (inverseBayer (mosaic 4 4 fun _ _ => v) 3 0).g = 0 := by
  have h : inverseBayer (mosaic 4 4 fun _ _ => v) 3 0 = inverseBayer (mosaic 4 4 fun _ _ => v) 3 0 := rfl
  unfold inverseBayer Img.view mosaic
  norm_num

end VW.Bayer
