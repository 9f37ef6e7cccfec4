import Verif.BoxFilter.Model
import Verif.Integral.Props
import Mathlib.Tactic.Linarith
import Mathlib.Tactic.NormNum
import Mathlib.Tactic.Ring
/-
Property C166: box filters and the interest of OBALoG.
-/
namespace VW.BoxFilter

open Integral

/-! ### Specification -/

/-- A box about the origin: it starts half its size (rounded down) left of and above it. -/
def Centred (b : SumBox) : Prop := b.startX = -(b.sizeX / 2) ∧ b.startY = -(b.sizeY / 2) ∧ 0 ≤ b.sizeX ∧ 0 ≤ b.sizeY

/-- The pixel (i, j) is in the box of size `w` by `h` about (x, y). -/
def Within (w h x y : Int) (i j : Nat) : Prop :=
  (x - w / 2 ≤ i ∧ (i : Int) < x - w / 2 + w) ∧ (y - h / 2 ≤ j ∧ (j : Int) < y - h / 2 + h)

instance (w h x y : Int) (i j : Nat) : Decidable (Within w h x y i j) := by unfold Within; infer_instance

/-- Sum of the pixels in the box. -/
def pixelSum (cols rows : Nat) (src : Nat → Nat → ℚ) (w h x y : Int) : ℚ :=
  imgSum cols rows fun i j => if Within w h x y i j then src i j else 0

/-- Sum over the boxes of weight times sum of pixels. -/
def response (cols rows : Nat) (src : Nat → Nat → ℚ) (box : List SumBox) (x y : Int) : ℚ :=
  (box.map fun b => b.weight * pixelSum cols rows src b.sizeX b.sizeY x y).sum

/-! ### The filter -/

theorem integral_get {cols rows : Nat} {src : Nat → Nat → ℚ} {mem : Nat → ℚ} {x y : Int}
    (hx : 0 ≤ x ∧ x ≤ cols) (hy : 0 ≤ y ∧ y ≤ rows) :
    (integral cols rows src mem).get x y = some (pix (cols + 1) (integralImage cols rows src mem) x y) := by
  unfold IImg.get integral
  dsimp only
  rw [if_pos (by omega)]

/-- A box that lies in the image. -/
theorem boxSum_spec {cols rows : Nat} {src : Nat → Nat → ℚ} {mem : Nat → ℚ} {x y : Int} {b : SumBox} (hb : Centred b)
    (hx : b.sizeX / 2 ≤ x ∧ x - b.sizeX / 2 + b.sizeX ≤ cols) (hy : b.sizeY / 2 ≤ y ∧ y - b.sizeY / 2 + b.sizeY ≤ rows) :
    boxSum (integral cols rows src mem) x y b = some (pixelSum cols rows src b.sizeX b.sizeY x y) := by
  obtain ⟨h1, h2, h3, h4⟩ := hb
  unfold boxSum
  dsimp only
  rw [integral_get (by omega) (by omega), integral_get (by omega) (by omega), integral_get (by omega) (by omega),
    integral_get (by omega) (by omega)]
  simp only [Option.bind_eq_bind, Option.bind_some, Option.pure_def]
  congr 1
  have hs := block_sum cols rows src mem (x - b.sizeX / 2) (y - b.sizeY / 2) (x - b.sizeX / 2 + b.sizeX)
    (y - b.sizeY / 2 + b.sizeY) (by omega) (by omega)
  have hp : pixelSum cols rows src b.sizeX b.sizeY x y =
      imgSum cols rows fun i j => if inBlock (x - b.sizeX / 2) (y - b.sizeY / 2) (x - b.sizeX / 2 + b.sizeX)
        (y - b.sizeY / 2 + b.sizeY) i j then src i j else 0 := by
    unfold pixelSum
    refine imgSum_congr _ _ fun i j => ?_
    have : Within b.sizeX b.sizeY x y i j ↔ inBlock (x - b.sizeX / 2) (y - b.sizeY / 2) (x - b.sizeX / 2 + b.sizeX)
        (y - b.sizeY / 2 + b.sizeY) i j := by
      unfold Within inBlock
      constructor <;> intro h <;> omega
    simp only [this]
  rw [hp, ← hs]
  unfold integralBlock
  rw [h1, h2]
  have e1 : x + -(b.sizeX / 2) = x - b.sizeX / 2 := by omega
  have e2 : y + -(b.sizeY / 2) = y - b.sizeY / 2 := by omega
  have e3 : x - b.sizeX / 2 + b.sizeX + -b.sizeX = x - b.sizeX / 2 := by omega
  rw [e1, e2, e3]
  ring

theorem buffer_ge (box : List SumBox) : ∀ b ∈ box, b.sizeX / 2 ≤ pixelBuffer box ∧ b.sizeY / 2 ≤ pixelBuffer box := by
  have key : ∀ (box : List SumBox) (s : Int),
      s ≤ box.foldl growSize s ∧ ∀ b ∈ box, b.sizeX ≤ box.foldl growSize s ∧ b.sizeY ≤ box.foldl growSize s := by
    intro box
    induction box with
    | nil => intro s; exact ⟨le_refl _, fun b hb => by simp at hb⟩
    | cons a box ih =>
      intro s
      rw [List.foldl_cons]
      have h' : s ≤ growSize s a ∧ a.sizeX ≤ growSize s a ∧ a.sizeY ≤ growSize s a := by
        unfold growSize
        dsimp only
        split_ifs <;> omega
      obtain ⟨i1, i2⟩ := ih (growSize s a)
      refine ⟨by omega, fun b hb => ?_⟩
      rcases List.mem_cons.1 hb with h | h
      · rw [h]; omega
      · exact i2 b h
  intro b hb
  obtain ⟨_, h⟩ := key box 0
  obtain ⟨h1, h2⟩ := h b hb
  unfold pixelBuffer
  constructor
  · exact Int.ediv_le_ediv (by norm_num) h1
  · exact Int.ediv_le_ediv (by norm_num) h2

/-- **C166 (box filters)**: a filter of centred boxes on the integral image never reads outside of it; at a pixel not
closer to the border than half the largest side it is the sum over the boxes of weight times sum of pixels, else 0. -/
theorem view_spec (cols rows : Nat) (src : Nat → Nat → ℚ) (mem : Nat → ℚ) (box : List SumBox)
    (hb : ∀ b ∈ box, Centred b) (x y : Int) :
    view (integral cols rows src mem) box x y = some (
      if pixelBuffer box ≤ x ∧ x < cols - pixelBuffer box ∧ pixelBuffer box ≤ y ∧ y < rows - pixelBuffer box then
        response cols rows src box x y else 0) := by
  unfold view
  have e : (integral cols rows src mem).cols = (cols : Int) + 1 ∧ (integral cols rows src mem).rows = (rows : Int) + 1 :=
    ⟨rfl, rfl⟩
  rw [e.1, e.2]
  by_cases h : pixelBuffer box ≤ x ∧ x < cols - pixelBuffer box ∧ pixelBuffer box ≤ y ∧ y < rows - pixelBuffer box
  · rw [if_neg (by omega), if_pos h]
    have hg := buffer_ge box
    have key : ∀ (l : List SumBox) (a : ℚ), (∀ b ∈ l, b ∈ box) →
        l.foldlM (fun result b => (boxSum (integral cols rows src mem) x y b).map fun s => result + b.weight * s) a =
          some (a + response cols rows src l x y) := by
      intro l
      induction l with
      | nil => intro a _; simp [response]
      | cons b l ih =>
        intro a hl
        have hm := hl b (by simp)
        have hc := hb b hm
        have hq := hg b hm
        have hc' := hc
        obtain ⟨_, _, c1, c2⟩ := hc'
        rw [List.foldlM_cons, boxSum_spec hc (by omega) (by omega)]
        simp only [Option.map_some, Option.bind_eq_bind, Option.bind_some]
        rw [ih _ (fun b' hb' => hl b' (by simp [hb']))]
        unfold response
        rw [List.map_cons, List.sum_cons, add_assoc]
    unfold applyAt
    rw [key box 0 (fun b hb => hb), zero_add]
  · rw [if_pos (by omega), if_neg h]

/-! ### OBALoG -/

/-- The boxes of all ten filters are centred. -/
theorem obalog_centred (s : Nat) : ∀ b ∈ obalogFilter s, Centred b := by
  intro b hb
  unfold obalogFilter at hb
  rw [List.mem_map] at hb
  obtain ⟨k, hk, e⟩ := hb
  rw [List.mem_range] at hk
  rw [← e]
  have hpos : ∀ (T : List (List Int)), (∀ r ∈ T, ∀ v ∈ r, 0 ≤ v) → ∀ s k, 0 ≤ (T.getD s []).getD k 0 := by
    intro T hT s k
    rw [List.getD_eq_getElem?_getD, List.getD_eq_getElem?_getD]
    cases h1 : T[s]? with
    | none => simp
    | some r =>
      simp only [Option.getD_some]
      cases h2 : r[k]? with
      | none => simp
      | some v => exact hT r (List.mem_of_getElem? h1) v (List.mem_of_getElem? h2)
  exact ⟨rfl, rfl, hpos boxWidth (by decide) s k, hpos boxHeight (by decide) s k⟩

/-- **C166 (interest)**: the interest of OBALoG at every scale is the magnitude of the response of its boxes, 0 near the
border. -/
theorem interest_spec (cols rows : Nat) (src : Nat → Nat → ℚ) (mem : Nat → ℚ) (s : Nat) (x y : Int) :
    interest (integral cols rows src mem) s x y = some (
      if pixelBuffer (obalogFilter s) ≤ x ∧ x < cols - pixelBuffer (obalogFilter s) ∧
        pixelBuffer (obalogFilter s) ≤ y ∧ y < rows - pixelBuffer (obalogFilter s) then
        |response cols rows src (obalogFilter s) x y| else 0) := by
  unfold interest
  rw [view_spec cols rows src mem _ (obalog_centred s), Option.map_some]
  split_ifs <;> simp

/-- The borders left out at the ten scales. -/
theorem obalog_borders : (List.range 10).map (fun s => pixelBuffer (obalogFilter s)) = [5, 6, 8, 10, 13, 16, 20, 25, 1, 1] := by
  decide +kernel

theorem pixelSum_swap (cols rows : Nat) (src : Nat → Nat → ℚ) (w h x y : Int) :
    pixelSum rows cols (fun i j => src j i) h w y x = pixelSum cols rows src w h x y := by
  unfold pixelSum imgSum
  rw [Finset.sum_comm]
  refine Finset.sum_congr rfl fun i _ => Finset.sum_congr rfl fun j _ => ?_
  have : Within h w y x j i ↔ Within w h x y i j := by unfold Within; tauto
  simp only [this]

/-- Weights with sizes, and the same with the sizes exchanged. -/
def shapes (box : List SumBox) : List (Int × Int × ℚ) := box.map fun b => (b.sizeX, b.sizeY, b.weight)

theorem shapes_symmetric : ∀ s, s < 10 →
    ((shapes (obalogFilter s)).map fun t => (t.2.1, t.1, t.2.2)).Perm (shapes (obalogFilter s)) := by
  decide +kernel

/-- **C166 (symmetry)**: the interest of the transposed image is the transposed interest, at all ten scales. -/
theorem interest_transpose (cols rows : Nat) (src : Nat → Nat → ℚ) (mem mem' : Nat → ℚ) (s : Nat) (hs : s < 10) (x y : Int) :
    interest (integral rows cols (fun i j => src j i) mem') s y x = interest (integral cols rows src mem) s x y := by
  rw [interest_spec, interest_spec]
  have hr : response rows cols (fun i j => src j i) (obalogFilter s) y x = response cols rows src (obalogFilter s) x y := by
    have e1 : ∀ (c r : Nat) (f : Nat → Nat → ℚ) (u v : Int), response c r f (obalogFilter s) u v =
        ((shapes (obalogFilter s)).map fun t => t.2.2 * pixelSum c r f t.1 t.2.1 u v).sum := by
      intro c r f u v
      unfold response shapes
      rw [List.map_map]
      rfl
    rw [e1, e1, ← ((shapes_symmetric s hs).map _).sum_eq, List.map_map]
    congr 1
    refine List.map_congr_left fun t _ => ?_
    show t.2.2 * pixelSum rows cols (fun i j => src j i) t.2.1 t.1 y x = _
    rw [pixelSum_swap]
  rw [hr]
  congr 1
  by_cases h : pixelBuffer (obalogFilter s) ≤ x ∧ x < cols - pixelBuffer (obalogFilter s) ∧
        pixelBuffer (obalogFilter s) ≤ y ∧ y < rows - pixelBuffer (obalogFilter s)
  · rw [if_pos h, if_pos (by omega)]
  · rw [if_neg h, if_neg (by omega)]

/-- Number of pixels in an interval. -/
theorem count_interval (n : Nat) (a w : Int) (ha : 0 ≤ a) (hw : 0 ≤ w) (hn : a + w ≤ n) :
    ∑ i ∈ Finset.range n, (if a ≤ (i : Int) ∧ (i : Int) < a + w then (1 : ℚ) else 0) = w := by
  rw [Finset.sum_ite, Finset.sum_const_zero, add_zero, Finset.sum_const, nsmul_eq_mul, mul_one]
  have : (Finset.range n).filter (fun (i : Nat) => a ≤ (i : Int) ∧ (i : Int) < a + w) = Finset.Ico a.toNat (a + w).toNat := by
    ext i
    simp only [Finset.mem_filter, Finset.mem_range, Finset.mem_Ico]
    omega
  rw [this, Nat.card_Ico]
  have h : (((a + w).toNat - a.toNat : Nat) : Int) = w := by omega
  exact_mod_cast congrArg (fun z : Int => (z : ℚ)) h

theorem pixelSum_const (cols rows : Nat) (c : ℚ) (w h x y : Int) (hw : 0 ≤ w) (hh : 0 ≤ h)
    (hx : w / 2 ≤ x ∧ x - w / 2 + w ≤ cols) (hy : h / 2 ≤ y ∧ y - h / 2 + h ≤ rows) :
    pixelSum cols rows (fun _ _ => c) w h x y = c * (w * h) := by
  unfold pixelSum imgSum
  have e : ∀ i j : Nat, (if Within w h x y i j then c else 0) =
      c * ((if x - w / 2 ≤ (i : Int) ∧ (i : Int) < x - w / 2 + w then 1 else 0) *
        (if y - h / 2 ≤ (j : Int) ∧ (j : Int) < y - h / 2 + h then 1 else 0)) := by
    intro i j
    by_cases h1 : x - w / 2 ≤ (i : Int) ∧ (i : Int) < x - w / 2 + w
    · by_cases h2 : y - h / 2 ≤ (j : Int) ∧ (j : Int) < y - h / 2 + h
      · rw [if_pos (show Within w h x y i j from ⟨h1, h2⟩), if_pos h1, if_pos h2]; ring
      · rw [if_neg (fun h' : Within w h x y i j => h2 h'.2), if_neg h2]; ring
    · rw [if_neg (fun h' : Within w h x y i j => h1 h'.1), if_neg h1]; ring
  simp only [e, ← Finset.mul_sum]
  rw [← Finset.sum_mul, count_interval cols _ w (by omega) hw (by omega), count_interval rows _ h (by omega) hh (by omega)]

/-- Weight times area of all boxes. -/
def total (box : List SumBox) : ℚ := (box.map fun b => b.weight * ((b.sizeX : ℚ) * (b.sizeY : ℚ))).sum

theorem obalog_total : ∀ s, s < 10 → |total (obalogFilter s)| ≤ 1 / 40000 := by decide +kernel

/-- **C166 (flat images)**: on an image of constant value `c` the interest is at most `c / 40000` at all ten scales, so
with the default threshold of 0.05 and pixels from 0 to 1 nothing is detected. -/
theorem interest_flat (cols rows : Nat) (c : ℚ) (mem : Nat → ℚ) (s : Nat) (hs : s < 10) (x y : Int) :
    ∃ v, interest (integral cols rows (fun _ _ => c) mem) s x y = some v ∧ v ≤ |c| / 40000 := by
  refine ⟨_, interest_spec _ _ _ _ _ _ _, ?_⟩
  split_ifs with h
  · have e : response cols rows (fun _ _ => c) (obalogFilter s) x y = c * total (obalogFilter s) := by
      unfold response total
      rw [← List.sum_map_mul_left]
      congr 1
      refine List.map_congr_left fun b hb => ?_
      have hc := obalog_centred s b hb
      have hq := buffer_ge _ b hb
      rw [pixelSum_const cols rows c _ _ _ _ hc.2.2.1 hc.2.2.2 (by omega) (by omega)]
      ring
    rw [e, abs_mul]
    have := obalog_total s hs
    calc |c| * |total (obalogFilter s)| ≤ |c| * (1 / 40000) := mul_le_mul_of_nonneg_left this (abs_nonneg c)
      _ = |c| / 40000 := by ring
  · positivity

/-- A case: the response to a single bright pixel in the middle of an 11 by 11 image, at scale 0. -/
example (mem : Nat → ℚ) : interest (integral 11 11 (fun i j => if i = 5 ∧ j = 5 then 1 else 0) mem) 0 5 5 =
    some |response 11 11 (fun i j => if i = 5 ∧ j = 5 then 1 else 0) (obalogFilter 0) 5 5| := by
  rw [interest_spec]
  have : pixelBuffer (obalogFilter 0) = 5 := by decide +kernel
  rw [this, if_pos (by norm_num)]

/-- **Discrepancy**: with a box that is not centred the view reads outside of the integral image. -/
theorem not_centred_outside : view (integral 4 4 (fun _ _ => 1) (fun _ => 0)) [⟨1, 0, 2, 2, 1⟩] 1 1 ≠ none ∧
    view (integral 4 4 (fun _ _ => 1) (fun _ => 0)) [⟨1, 0, 2, 2, 1⟩] 2 1 = none := by
  decide +kernel

end VW.BoxFilter
