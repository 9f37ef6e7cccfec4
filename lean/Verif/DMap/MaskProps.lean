import Verif.DMap.Model
import Mathlib.Algebra.Order.Floor.Ring
import Mathlib.Data.Rat.Floor
import Mathlib.Data.List.Induction
import Mathlib.Tactic.NormNum
import Mathlib.Tactic.Linarith

/-
C93.  Masks on disparity maps, whole and tile by tile.
-/

namespace Verif.DMap

set_option linter.unusedSectionVars false

variable {K : Type} [Field K] [LinearOrder K] [IsStrictOrderedRing K] [FloorRing K]

theorem toInt_nonneg (x : K) (h : 0 ≤ x) : toInt x = ⌊x⌋ := by unfold toInt; rw [if_pos h]

/-- The whole view: everything can be read. -/
def fullView (disp : Img (Disp K)) (mask1 mask2 : Img Bool) (cols2 rows2 : Int) : MaskView K :=
  ⟨fun x y => some (disp x y), fun x y => some (mask1 x y), fun x y => some (mask2 x y), cols2, rows2⟩

/-- What the masks allow: the pixel is in the left mask, its disparity is valid, and leads to a place in the right image
whose pixel is in the right mask. -/
def Allowed (disp : Img (Disp K)) (mask1 mask2 : Img Bool) (cols2 rows2 : Int) (i j : Int) : Prop :=
  mask1 i j = true ∧ (disp i j).valid = true ∧ 0 ≤ (i : K) + (disp i j).dx ∧ (i : K) + (disp i j).dx < cols2 ∧
    0 ≤ (j : K) + (disp i j).dy ∧ (j : K) + (disp i j).dy < rows2 ∧
    mask2 ⌊(i : K) + (disp i j).dx⌋ ⌊(j : K) + (disp i j).dy⌋ = true

open Classical in
/-- **C93.** The masked map keeps the disparity of exactly the pixels that the masks allow. -/
theorem mask_full (disp : Img (Disp K)) (mask1 mask2 : Img Bool) (cols2 rows2 : Int) (i j : Int) :
    (fullView disp mask1 mask2 cols2 rows2).eval i j =
      some (if Allowed disp mask1 mask2 cols2 rows2 i j then disp i j else .none) := by
  unfold MaskView.eval fullView
  simp only
  cases h1 : mask1 i j with
  | false =>
    rw [if_neg (show ¬ Allowed disp mask1 mask2 cols2 rows2 i j from fun h => by rw [h.1] at h1; cases h1)]
  | true =>
    simp only
    cases h2 : (disp i j).valid with
    | false =>
      rw [if_neg (show ¬ Allowed disp mask1 mask2 cols2 rows2 i j from fun h => by rw [h.2.1] at h2; cases h2)]
      rfl
    | true =>
      simp only [Bool.not_true, Bool.false_eq_true, if_false]
      by_cases h3 : (i : K) + (disp i j).dx < 0 ∨ (cols2 : K) ≤ i + (disp i j).dx ∨ (j : K) + (disp i j).dy < 0 ∨
          (rows2 : K) ≤ j + (disp i j).dy
      · rw [if_pos h3, if_neg]
        rintro ⟨-, -, a, b, c, d, -⟩
        rcases h3 with h | h | h | h
        · exact absurd h (not_lt.2 a)
        · exact absurd b (not_lt.2 h)
        · exact absurd h (not_lt.2 c)
        · exact absurd d (not_lt.2 h)
      · rw [if_neg h3]
        push Not at h3
        obtain ⟨a, b, c, d⟩ := h3
        rw [toInt_nonneg _ a, toInt_nonneg _ c]
        by_cases hm : mask2 ⌊(i : K) + (disp i j).dx⌋ ⌊(j : K) + (disp i j).dy⌋ = true
        · rw [if_pos (show Allowed disp mask1 mask2 cols2 rows2 i j from ⟨h1, h2, a, b, c, d, hm⟩)]
          rw [hm]; rfl
        · rw [if_neg (show ¬ Allowed disp mask1 mask2 cols2 rows2 i j from fun h => hm h.2.2.2.2.2.2)]
          rw [Bool.not_eq_true] at hm
          rw [hm]; rfl

/-- The range of the valid disparities: nothing if there are none, else bounds that hold and are attained. -/
def IsRange (l : List (Disp K)) : Option (K × K × K × K) → Prop
  | Option.none => ∀ d ∈ l, d.valid = false
  | some (a, b, c, e) => (∀ d ∈ l, d.valid = true → a ≤ d.dx ∧ b ≤ d.dy ∧ d.dx ≤ c ∧ d.dy ≤ e) ∧
      (∃ d ∈ l, d.valid = true ∧ d.dx = a) ∧ (∃ d ∈ l, d.valid = true ∧ d.dy = b) ∧
      (∃ d ∈ l, d.valid = true ∧ d.dx = c) ∧ (∃ d ∈ l, d.valid = true ∧ d.dy = e)

/-- **C93.** The range found is the exact range of the valid disparities. -/
theorem dispRange_spec (l : List (Disp K)) : IsRange l (dispRange l) := by
  unfold dispRange
  induction l using List.reverseRecOn with
  | nil => intro d hd; cases hd
  | append_singleton l d ih =>
    rw [List.foldl_append]
    simp only [List.foldl_cons, List.foldl_nil]
    generalize List.foldl _ _ l = acc at ih ⊢
    cases hv : d.valid with
    | false =>
      simp only [Bool.false_eq_true, if_false]
      cases acc with
      | none =>
        intro x hx
        rcases List.mem_append.1 hx with hx | hx
        · exact ih x hx
        · rw [List.mem_singleton.1 hx]; exact hv
      | some q =>
        obtain ⟨a, b, c, e⟩ := q
        obtain ⟨h0, h1, h2, h3, h4⟩ := ih
        refine ⟨fun x hx hxv => ?_, ?_, ?_, ?_, ?_⟩
        · rcases List.mem_append.1 hx with hx | hx
          · exact h0 x hx hxv
          · rw [List.mem_singleton.1 hx, hv] at hxv; cases hxv
        · obtain ⟨x, hx, h⟩ := h1; exact ⟨x, List.mem_append_left _ hx, h⟩
        · obtain ⟨x, hx, h⟩ := h2; exact ⟨x, List.mem_append_left _ hx, h⟩
        · obtain ⟨x, hx, h⟩ := h3; exact ⟨x, List.mem_append_left _ hx, h⟩
        · obtain ⟨x, hx, h⟩ := h4; exact ⟨x, List.mem_append_left _ hx, h⟩
    | true =>
      simp only [if_true]
      have hd : d ∈ l ++ [d] := by simp
      cases acc with
      | none =>
        refine ⟨fun x hx hxv => ?_, ⟨d, hd, hv, rfl⟩, ⟨d, hd, hv, rfl⟩, ⟨d, hd, hv, rfl⟩, ⟨d, hd, hv, rfl⟩⟩
        rcases List.mem_append.1 hx with hx | hx
        · have := ih x hx; rw [hxv] at this; cases this
        · rw [List.mem_singleton.1 hx]; exact ⟨le_rfl, le_rfl, le_rfl, le_rfl⟩
      | some q =>
        obtain ⟨a, b, c, e⟩ := q
        obtain ⟨h0, h1, h2, h3, h4⟩ := ih
        refine ⟨fun x hx hxv => ?_, ?_, ?_, ?_, ?_⟩
        · rcases List.mem_append.1 hx with hx | hx
          · obtain ⟨p1, p2, p3, p4⟩ := h0 x hx hxv
            exact ⟨(min_le_left _ _).trans p1, (min_le_left _ _).trans p2, p3.trans (le_max_left _ _), p4.trans (le_max_left _ _)⟩
          · rw [List.mem_singleton.1 hx]
            exact ⟨min_le_right _ _, min_le_right _ _, le_max_right _ _, le_max_right _ _⟩
        · rcases le_total a d.dx with h | h
          · obtain ⟨x, hx, p, q⟩ := h1; exact ⟨x, List.mem_append_left _ hx, p, by rw [min_eq_left h]; exact q⟩
          · exact ⟨d, hd, hv, by rw [min_eq_right h]⟩
        · rcases le_total b d.dy with h | h
          · obtain ⟨x, hx, p, q⟩ := h2; exact ⟨x, List.mem_append_left _ hx, p, by rw [min_eq_left h]; exact q⟩
          · exact ⟨d, hd, hv, by rw [min_eq_right h]⟩
        · rcases le_total c d.dx with h | h
          · exact ⟨d, hd, hv, by rw [max_eq_right h]⟩
          · obtain ⟨x, hx, p, q⟩ := h3; exact ⟨x, List.mem_append_left _ hx, p, by rw [max_eq_left h]; exact q⟩
        · rcases le_total e d.dy with h | h
          · exact ⟨d, hd, hv, by rw [max_eq_right h]⟩
          · obtain ⟨x, hx, p, q⟩ := h4; exact ⟨x, List.mem_append_left _ hx, p, by rw [max_eq_left h]; exact q⟩

theorem mem_boxPixels (b : Box) (x y : Int) : (x, y) ∈ boxPixels b ↔ b.has x y := by
  unfold boxPixels Box.has
  simp only [List.mem_flatMap, List.mem_map, List.mem_range, Prod.mk.injEq]
  constructor
  · rintro ⟨r, hr, c, hc, rfl, rfl⟩; omega
  · rintro ⟨h1, h2, h3, h4⟩
    exact ⟨(y - b.y0).toNat, by omega, (x - b.x0).toNat, by omega, by omega, by omega⟩

/-- Reading a tile: if what is read of the right mask is in memory, or known not to be set, the tile gives what the whole
view gives. -/
theorem eval_tile (disp : Img (Disp K)) (mask1 mask2 : Img Bool) (cols2 rows2 : Int) (b rb : Box) (i j : Int) (hb : b.has i j)
    (hrb : (disp i j).valid = true → 0 ≤ (i : K) + (disp i j).dx → (i : K) + (disp i j).dx < cols2 →
      0 ≤ (j : K) + (disp i j).dy → (j : K) + (disp i j).dy < rows2 →
      rb.has ⌊(i : K) + (disp i j).dx⌋ ⌊(j : K) + (disp i j).dy⌋) :
    (⟨part disp b, part mask1 b, part mask2 rb, cols2, rows2⟩ : MaskView K).eval i j =
      (fullView disp mask1 mask2 cols2 rows2).eval i j := by
  unfold MaskView.eval fullView part
  simp only [if_pos hb]
  cases h1 : mask1 i j with
  | false => rfl
  | true =>
    simp only
    cases h2 : (disp i j).valid with
    | false => rfl
    | true =>
      simp only [Bool.not_true, Bool.false_eq_true, if_false]
      by_cases h3 : (i : K) + (disp i j).dx < 0 ∨ (cols2 : K) ≤ i + (disp i j).dx ∨ (j : K) + (disp i j).dy < 0 ∨
          (rows2 : K) ≤ j + (disp i j).dy
      · rw [if_pos h3, if_pos h3]
      · rw [if_neg h3, if_neg h3]
        push Not at h3
        obtain ⟨a, c, d, e⟩ := h3
        rw [toInt_nonneg _ a, toInt_nonneg _ d, if_pos (hrb h2 a c d e)]

/-- A place in the right image is in the box of what is read of the right mask, if the disparity is within bounds. -/
theorem crop_has (x0 x1 y0 y1 : Int) (cols2 rows2 : Int) (x y : K) (hx : 0 ≤ x) (hx' : x < cols2) (hy : 0 ≤ y) (hy' : y < rows2)
    (h1 : (x0 : K) ≤ x) (h2 : x < x1) (h3 : (y0 : K) ≤ y) (h4 : y < y1) :
    (Box.crop ⟨x0, y0, x1, y1⟩ cols2 rows2).has ⌊x⌋ ⌊y⌋ := by
  unfold Box.has Box.crop
  simp only
  refine ⟨max_le (Int.le_floor.2 h1) (Int.floor_nonneg.2 hx), lt_min (Int.floor_lt.2 h2) (Int.floor_lt.2 hx'),
    max_le (Int.le_floor.2 h3) (Int.floor_nonneg.2 hy), lt_min (Int.floor_lt.2 h4) (Int.floor_lt.2 hy')⟩

/-- What is asked of a search range: the valid disparities of the tile are in it. -/
def InRange (disp : Img (Disp K)) (b s : Box) : Prop :=
  ∀ x y, b.has x y → (disp x y).valid = true →
    (s.x0 : K) ≤ (disp x y).dx ∧ (disp x y).dx < s.x1 + 1 ∧ (s.y0 : K) ≤ (disp x y).dy ∧ (disp x y).dy < s.y1 + 1

/-- **C93.** Tile by tile the masked map is that of the whole, and reads only what the tile put in memory: always when no
search range is given, and for a range that holds the disparities of the tile. -/
theorem mask_tile (disp : Img (Disp K)) (mask1 mask2 : Img Bool) (cols2 rows2 : Int) (range : Option Box) (b : Box)
    (hr : ∀ s, range = some s → InRange disp b s) (i j : Int) (hb : b.has i j) :
    (maskPrerasterize disp mask1 mask2 cols2 rows2 range b).eval i j = (fullView disp mask1 mask2 cols2 rows2).eval i j := by
  classical
  have lb : ((b.x0 : Int) : K) ≤ i ∧ (i : K) + 1 ≤ b.x1 ∧ (b.y0 : K) ≤ j ∧ (j : K) + 1 ≤ b.y1 := by
    obtain ⟨h1, h2, h3, h4⟩ := hb
    refine ⟨by exact_mod_cast h1, by exact_mod_cast h2, by exact_mod_cast h3, by exact_mod_cast h4⟩
  obtain ⟨l1, l2, l3, l4⟩ := lb
  unfold maskPrerasterize
  simp only
  by_cases hm : hasMask mask1 b
  · rw [if_neg (not_not.2 hm)]
    cases range with
    | some s =>
      have hr := hr s rfl
      simp only
      have key : (disp i j).valid = true → 0 ≤ (i : K) + (disp i j).dx → (i : K) + (disp i j).dx < cols2 →
          0 ≤ (j : K) + (disp i j).dy → (j : K) + (disp i j).dy < rows2 →
          (Box.crop ⟨b.x0 + s.x0, b.y0 + s.y0, b.x1 + s.x1, b.y1 + s.y1⟩ cols2 rows2).has
            ⌊(i : K) + (disp i j).dx⌋ ⌊(j : K) + (disp i j).dy⌋ := by
        intro hv a c d e
        obtain ⟨r1, r2, r3, r4⟩ := hr i j hb hv
        refine crop_has _ _ _ _ _ _ _ _ a c d e ?_ ?_ ?_ ?_ <;> push_cast <;> linarith
      by_cases hm2 : hasMask mask2 (Box.crop ⟨b.x0 + s.x0, b.y0 + s.y0, b.x1 + s.x1, b.y1 + s.y1⟩ cols2 rows2)
      · rw [if_neg (not_not.2 hm2)]
        exact eval_tile disp mask1 mask2 cols2 rows2 b _ i j hb key
      · rw [if_pos hm2, mask_full, if_neg]
        · unfold MaskView.eval part
          simp only [if_pos hb]
        · rintro ⟨-, a, c, d, e, f, g⟩
          exact hm2 ⟨_, _, key a c d e f, g⟩
    | none =>
      simp only
      have hR := dispRange_spec ((boxPixels b).map (fun p => disp p.1 p.2))
      have hmem : disp i j ∈ (boxPixels b).map (fun p => disp p.1 p.2) :=
        List.mem_map.2 ⟨(i, j), (mem_boxPixels b i j).2 hb, rfl⟩
      cases hD : dispRange ((boxPixels b).map (fun p => disp p.1 p.2)) with
      | none =>
        rw [hD] at hR
        have hv := hR _ hmem
        simp only
        rw [mask_full, if_neg (fun h => by rw [h.2.1] at hv; cases hv)]
        unfold MaskView.eval part
        simp only [if_pos hb]
        cases mask1 i j with
        | false => rfl
        | true => simp only [hv]; rfl
      | some q =>
        obtain ⟨a, c, e, f⟩ := q
        rw [hD] at hR
        simp only
        refine eval_tile disp mask1 mask2 cols2 rows2 b _ i j hb ?_
        intro hv g1 g2 g3 g4
        obtain ⟨r1, r2, r3, r4⟩ := hR.1 _ hmem hv
        have f1 := Int.floor_le a
        have f2 := Int.floor_le c
        have f3 := Int.le_ceil e
        have f4 := Int.le_ceil f
        refine crop_has _ _ _ _ _ _ _ _ g1 g2 g3 g4 ?_ ?_ ?_ ?_ <;> push_cast <;> linarith
  · rw [if_pos hm, mask_full, if_neg]
    · have : mask1 i j = false := by
        cases h : mask1 i j with
        | false => rfl
        | true => exact absurd ⟨i, j, hb, h⟩ hm
      unfold MaskView.eval part
      simp only [if_pos hb, this]
    · exact fun h => hm ⟨i, j, hb, h.1⟩

/-- **C93, refuted part.** With a search range that does not hold a disparity of the tile, the tile reads the right mask
outside of what it put in memory. -/
theorem mask_out_of_range : ∃ (disp : Img (Disp ℚ)) (mask1 mask2 : Img Bool) (s b : Box),
    b.has 0 0 ∧ (fullView disp mask1 mask2 10 1).eval 0 0 = some ⟨5, 0, true⟩ ∧
      (maskPrerasterize disp mask1 mask2 10 1 (some s) b).eval 0 0 = Option.none := by
  refine ⟨fun _ _ => ⟨5, 0, true⟩, fun _ _ => true, fun _ _ => true, ⟨0, 0, 1, 1⟩, ⟨0, 0, 1, 1⟩, by decide, ?_, ?_⟩
  · rw [mask_full, if_pos]
    refine ⟨rfl, rfl, by norm_num, by norm_num, by norm_num, by norm_num, rfl⟩
  · unfold maskPrerasterize
    simp only
    rw [if_neg (not_not.2 ⟨0, 0, by decide, rfl⟩), if_neg (not_not.2 ⟨0, 0, by decide, rfl⟩)]
    unfold MaskView.eval part
    simp only
    have hb : (⟨0, 0, 1, 1⟩ : Box).has 0 0 := by decide
    simp only [if_pos hb]
    norm_num [toInt, Box.has, Box.crop]

/-- A case of the property on tiles: a range that holds the disparities. -/
example : InRange (fun c _ => ⟨(c : ℚ) / 2, -1, decide (c < 4)⟩) ⟨0, 0, 8, 8⟩ ⟨0, -1, 2, 0⟩ ∧
    Allowed (fun c _ => ⟨(c : ℚ) / 2, -1, decide (c < 4)⟩) (fun _ _ => true) (fun _ _ => true) 8 8 3 3 := by
  refine ⟨fun x y hb hv => ?_, rfl, rfl, ?_⟩
  · have h : x ≤ 3 := by simp at hv; omega
    have h' : (x : ℚ) ≤ 3 := by exact_mod_cast h
    have h0 : (0 : ℚ) ≤ x := by exact_mod_cast hb.1
    simp only
    refine ⟨?_, ?_, ?_, ?_⟩ <;> push_cast <;> linarith
  · norm_num

/-- **C93.** The range mask, for bounds whose two lower coordinates are equal: a pixel is kept exactly if it is valid and
leads into the box less its last column and row; what is not valid is left as it is. -/
theorem rangeMask_spec (mn mx : K × K) (d : Disp K) (i j : Int) (hmn : mn.1 = mn.2) :
    ((rangeMask mn mx d i j).valid = true ↔ d.valid = true ∧ mn.1 ≤ i + d.dx ∧ i + d.dx < mx.1 - 1 ∧
      mn.2 ≤ j + d.dy ∧ j + d.dy < mx.2 - 1) ∧
    ((rangeMask mn mx d i j).valid = true → rangeMask mn mx d i j = d) ∧
    (d.valid = false → rangeMask mn mx d i j = d) := by
  unfold rangeMask
  cases hv : d.valid with
  | false => simp [hv]
  | true =>
    simp only [if_true]
    by_cases h : (i : K) + d.dx < mn.1 ∨ mx.1 - 1 ≤ (i : K) + d.dx ∨ (j : K) + d.dy < mn.1 ∨ mx.2 - 1 ≤ (j : K) + d.dy
    · rw [if_pos h]
      refine ⟨⟨fun h' => (by cases h'), ?_⟩, fun h' => (by cases h'), fun h' => (by cases h')⟩
      rintro ⟨-, a, b, c, e⟩
      rw [← hmn] at c
      rcases h with h | h | h | h
      · exact absurd h (not_lt.2 a)
      · exact absurd b (not_lt.2 h)
      · exact absurd h (not_lt.2 c)
      · exact absurd e (not_lt.2 h)
    · rw [if_neg h]
      push Not at h
      obtain ⟨a, b, c, e⟩ := h
      rw [hmn] at c
      exact ⟨⟨fun _ => ⟨trivial, a, b, c, e⟩, fun _ => hv⟩, fun _ => rfl, fun h' => (by cases h')⟩

/-- **C93, refuted part.** The row is compared with the lower bound of the column: with other bounds the mask removes
pixels that are within them and keeps pixels that are not. -/
theorem rangeMask_rows (mn mx : K × K) (hmn : mn.1 ≠ mn.2) (h1 : mn.1 < mx.1 - 1) (h2 : max mn.1 mn.2 < mx.2 - 1) :
    ∃ d : Disp K, d.valid = true ∧ ((rangeMask mn mx d 0 0).valid = true ↔
      ¬ (mn.1 ≤ d.dx ∧ d.dx < mx.1 - 1 ∧ mn.2 ≤ d.dy ∧ d.dy < mx.2 - 1)) := by
  refine ⟨⟨mn.1, min mn.1 mn.2, true⟩, rfl, ?_⟩
  unfold rangeMask
  simp only [if_true, Int.cast_zero, zero_add]
  rcases lt_or_gt_of_ne hmn with h | h
  · rw [min_eq_left h.le]
    rw [max_eq_right h.le] at h2
    rw [if_neg]
    · simp only [true_iff, not_and]
      intro _ _ h'
      exact absurd h (not_lt.2 h')
    · push Not
      exact ⟨le_rfl, h1, le_rfl, h.trans h2⟩
  · rw [min_eq_right h.le]
    rw [max_eq_left h.le] at h2
    rw [if_pos (Or.inr (Or.inr (Or.inl h)))]
    constructor
    · intro h'; cases h'
    · intro h'; exact absurd ⟨le_rfl, h1, le_rfl, h.trans h2⟩ h'

/-- **C93.** Warping a disparity map: validity is kept, and the new disparity leads where the transform takes the place the
old one led to. -/
theorem transformFunc_spec (rev : K × K → K × K) (d : Disp K) (i j : Int) :
    (transformFunc rev d i j).valid = d.valid ∧
    (((i : K) + (transformFunc rev d i j).dx, (j : K) + (transformFunc rev d i j).dy) : K × K) = rev (i + d.dx, j + d.dy) := by
  unfold transformFunc
  cases d.valid <;> simp

/-- **C93.** The same in a region of the map, with places counted from its corner, without rounding; with rounding the new
place is off by the rounding of the disparity. -/
theorem transformRegion_spec (fwd : K × K → K × K) (rnd : K → K) (corner : Int × Int) (d : Disp K) (x y : Int) :
    (transformRegion fwd rnd corner d x y).valid = d.valid ∧
    (d.valid = true → (∀ z, rnd z = z) →
      ((((corner.1 + x : Int) : K) + (transformRegion fwd rnd corner d x y).dx,
        ((corner.2 + y : Int) : K) + (transformRegion fwd rnd corner d x y).dy) : K × K) =
        fwd (((corner.1 + x : Int) : K) + d.dx, ((corner.2 + y : Int) : K) + d.dy)) ∧
    (∀ e, d.valid = true → (∀ z, |rnd z - z| ≤ e) →
      |((corner.1 + x : Int) : K) + (transformRegion fwd rnd corner d x y).dx -
        (fwd (((corner.1 + x : Int) : K) + d.dx, ((corner.2 + y : Int) : K) + d.dy)).1| ≤ e ∧
      |((corner.2 + y : Int) : K) + (transformRegion fwd rnd corner d x y).dy -
        (fwd (((corner.1 + x : Int) : K) + d.dx, ((corner.2 + y : Int) : K) + d.dy)).2| ≤ e) := by
  unfold transformRegion
  cases hv : d.valid with
  | false => refine ⟨rfl, fun h => (by cases h), fun _ h => (by cases h)⟩
  | true =>
    simp only [Bool.not_true, Bool.false_eq_true, if_false]
    generalize fwd (((corner.1 + x : Int) : K) + d.dx, ((corner.2 + y : Int) : K) + d.dy) = t
    refine ⟨trivial, fun _ h => ?_, fun e _ h => ⟨?_, ?_⟩⟩
    · rw [h, h]; simp
    · have := h (t.1 - ((corner.1 + x : Int) : K))
      rwa [show rnd (t.1 - ((corner.1 + x : Int) : K)) - (t.1 - ((corner.1 + x : Int) : K)) =
        ((corner.1 + x : Int) : K) + rnd (t.1 - ((corner.1 + x : Int) : K)) - t.1 by ring] at this
    · have := h (t.2 - ((corner.2 + y : Int) : K))
      rwa [show rnd (t.2 - ((corner.2 + y : Int) : K)) - (t.2 - ((corner.2 + y : Int) : K)) =
        ((corner.2 + y : Int) : K) + rnd (t.2 - ((corner.2 + y : Int) : K)) - t.2 by ring] at this

/-- **C93.** Merging: valid if either is, the first one has precedence. -/
theorem intersectData_spec (a b : Disp K) :
    ((intersectData a b).valid = true ↔ a.valid = true ∨ b.valid = true) ∧
    (a.valid = true → intersectData a b = a) ∧ (a.valid = false → b.valid = true → intersectData a b = b) := by
  unfold intersectData
  cases ha : a.valid <;> cases hb : b.valid <;> simp [ha, hb]

end Verif.DMap
