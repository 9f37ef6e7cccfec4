import Verif.Conv.Model
import Verif.Edge.Props
import Mathlib.Algebra.BigOperators.Intervals
import Mathlib.Algebra.BigOperators.Ring.Finset
import Mathlib.Tactic.Ring
import Mathlib.Tactic.NormNum
import Mathlib.Data.Rat.Floor
/-
C46: convolution views compute the mathematical convolution of the edge-extended image, by whichever path
(pixel access in the interior, pixel access near the edge, or rasterization of any block) they are read.
-/
namespace VW.Conv
open VW.Block (Rect)
open VW.Edge (Child Mode IsImage)
open Finset

section
variable {K : Type} [CommRing K]

/-! ### Specification -/

/-- The convolution of the (infinite) image `E` with a `w` by `h` kernel with origin (ci,cj), at (x,y). -/
def convSum (w h : Nat) (ker : Nat → Nat → K) (ci cj : Int) (E : Int → Int → K) (x y : Int) : K :=
  ∑ l ∈ range h, ∑ k ∈ range w, ker k l * E (x + ci - k) (y + cj - l)

/-- `E` is what the edge extension shows of the image, and agrees with the pixels of the image. -/
structure Shows (child : Child K) (ext : Child K → Int → Int → Option K) (E : Int → Int → K) : Prop where
  all : ∀ i j, ext child i j = some (E i j)
  inside : ∀ i j, 0 ≤ i → i < child.cols → 0 ≤ j → j < child.rows → child.get i j = some (E i j)

/-! ### Correlation loops -/

theorem corr1_sum (k : Nat → K) (s : Nat → Option K) (f : Nat → K) (n i : Nat) (acc : K)
    (h : ∀ t, i ≤ t → t < i + n → s t = some (f t)) :
    corr1 k s n i acc = some (acc + ∑ t ∈ range n, k (i + t) * f (i + t)) := by
  induction n generalizing i acc with
  | zero => simp [corr1]
  | succ n ih =>
    rw [corr1, h i (le_refl _) (by omega)]
    show corr1 k s n (i + 1) (acc + k i * f i) = _
    rw [ih (i + 1) _ (fun t h1 h2 => h t (by omega) (by omega)), sum_range_succ']
    congr 1
    have : ∀ t, i + 1 + t = i + (t + 1) := fun t => by omega
    simp only [this, Nat.add_zero]
    ring

theorem corr2_sum (cols : Nat) (k : Nat → Nat → K) (s : Nat → Nat → Option K) (f : Nat → Nat → K) (n j : Nat) (acc : K)
    (h : ∀ a b, a < cols → j ≤ b → b < j + n → s a b = some (f a b)) :
    corr2 cols k s n j acc = some (acc + ∑ b ∈ range n, ∑ a ∈ range cols, k a (j + b) * f a (j + b)) := by
  induction n generalizing j acc with
  | zero => simp [corr2]
  | succ n ih =>
    rw [corr2, corr1_sum _ _ (fun a => f a j) cols 0 acc (fun t _ h2 => h t j (by omega) (le_refl _) (by omega))]
    show corr2 cols k s n (j + 1) _ = _
    rw [ih (j + 1) _ (fun a b h0 h1 h2 => h a b h0 (by omega) (by omega)), sum_range_succ']
    congr 1
    have : ∀ t, j + 1 + t = j + (t + 1) := fun t => by omega
    simp only [this, Nat.add_zero, Nat.zero_add]
    ring

/-- Reading the kernel backwards over a window is the convolution sum. -/
theorem flip_sum (w h : Nat) (ker : Nat → Nat → K) (mci mcj : Int) (E : Int → Int → K) (x y : Int) :
    ∑ b ∈ range h, ∑ a ∈ range w, ker (w - 1 - a) (h - 1 - b) *
      E (x - ((w : Int) - 1 - mci) + a) (y - ((h : Int) - 1 - mcj) + b) = convSum w h ker mci mcj E x y := by
  unfold convSum
  rw [← sum_range_reflect (fun l => ∑ k ∈ range w, ker k l * E (x + mci - k) (y + mcj - l)) h]
  refine sum_congr rfl fun b hb => ?_
  rw [← sum_range_reflect _ w]
  refine sum_congr rfl fun a ha => ?_
  have hb := mem_range.1 hb; have ha := mem_range.1 ha
  congr 2 <;> omega

/-! ### ConvolutionView -/

/-- **C46 (pixel access)**: at every position, inside, at the edge or beyond, a convolution view shows the
convolution of the edge-extended image; no read falls outside the image. -/
theorem conv_eval (cast : K → K) (v : CView K) (E : Int → Int → K) (hE : Shows v.child v.ext E) (x y : Int) :
    v.eval cast x y = some (cast (convSum v.kw v.kh v.ker v.mci v.mcj E x y)) := by
  unfold CView.eval
  dsimp only
  split
  · rename_i h
    rw [corr2_sum v.kw _ _ (fun i j => E (x - ((v.kw : Int) - 1 - v.mci) + i) (y - ((v.kh : Int) - 1 - v.mcj) + j)) v.kh 0 0
      (fun a b ha _ hb => hE.inside _ _ (by omega) (by omega) (by omega) (by omega))]
    simp only [Nat.zero_add, zero_add, Option.map_some]
    rw [flip_sum]
  · rw [corr2_sum v.kw _ _ (fun i j => E (x - ((v.kw : Int) - 1 - v.mci) + i) (y - ((v.kh : Int) - 1 - v.mcj) + j)) v.kh 0 0
      (fun a b _ _ _ => hE.all _ _)]
    simp only [Nat.zero_add, zero_add, Option.map_some]
    rw [flip_sum]

theorem rect_width {r : Rect} (h : r.x0 < r.x1) (h' : r.y0 < r.y1) : r.width = r.x1 - r.x0 ∧ r.height = r.y1 - r.y0 := by
  have : r.empty = false := by simp [Rect.empty]; omega
  simp [Rect.width, Rect.height, this]

theorem buffer_some {r : Rect} {f : Int → Int → Option K} {a b : Int} (h : r.x0 < r.x1) (h' : r.y0 < r.y1)
    (ha : 0 ≤ a ∧ a < r.x1 - r.x0) (hb : 0 ≤ b ∧ b < r.y1 - r.y0) : buffer r f a b = f (a + r.x0) (b + r.y0) := by
  unfold buffer
  obtain ⟨e1, e2⟩ := rect_width h h'
  rw [e1, e2, if_pos ⟨ha.1, ha.2, hb.1, hb.2⟩]

/-- **C46 (rasterization of a block)**: the view prerasterized over any non-empty block, whatever its
position, shows the same convolution at every pixel of the block. -/
theorem conv_prerasterize (cast : K → K) (v : CView K) (E : Int → Int → K) (hE : Shows v.child v.ext E)
    (hw : 1 ≤ v.kw) (hh : 1 ≤ v.kh) (bbox : Rect) (x y : Int) (hx : bbox.x0 ≤ x ∧ x < bbox.x1) (hy : bbox.y0 ≤ y ∧ y < bbox.y1) :
    (v.prerasterize bbox).eval cast x y = some (cast (convSum v.kw v.kh v.ker v.mci v.mcj E x y)) := by
  obtain ⟨e1, e2⟩ := rect_width (r := bbox) (by omega) (by omega)
  have rd : ∀ a b : Nat, a < v.kw → b < v.kh →
      (v.prerasterize bbox).child.get (x - ((v.kw : Int) - 1 - v.mci) + a) (y - ((v.kh : Int) - 1 - v.mcj) + b) =
        some (E (x - ((v.kw : Int) - 1 - v.mci) + a) (y - ((v.kh : Int) - 1 - v.mcj) + b)) := by
    intro a b ha hb
    unfold CView.prerasterize
    dsimp only
    rw [buffer_some (by dsimp only; omega) (by dsimp only; omega) (by dsimp only; omega) (by dsimp only; omega)]
    dsimp only
    rw [hE.all]
    congr 2 <;> omega
  unfold CView.eval
  have k1 : (v.prerasterize bbox).kw = v.kw := rfl
  have k2 : (v.prerasterize bbox).kh = v.kh := rfl
  have k3 : (v.prerasterize bbox).mci = v.mci := rfl
  have k4 : (v.prerasterize bbox).mcj = v.mcj := rfl
  have k5 : (v.prerasterize bbox).ker = v.ker := rfl
  have k6 : (v.prerasterize bbox).ext = noEdge := rfl
  rw [k1, k2, k3, k4, k5, k6]
  dsimp only [noEdge]
  have key := corr2_sum v.kw (fun i j => v.ker (v.kw - 1 - i) (v.kh - 1 - j))
    (fun i j => (v.prerasterize bbox).child.get (x - ((v.kw : Int) - 1 - v.mci) + i) (y - ((v.kh : Int) - 1 - v.mcj) + j))
    (fun i j => E (x - ((v.kw : Int) - 1 - v.mci) + i) (y - ((v.kh : Int) - 1 - v.mcj) + j)) v.kh 0 0
    (fun a b ha _ hb => rd a b ha (by omega))
  rw [key]
  simp only [Nat.zero_add, zero_add, Option.map_some, ite_self]
  rw [flip_sum]

/-! ### SeparableConvolutionView -/

/-- The kernel of a separable view in one axis: an absent kernel is the identity. -/
def axisKer (n : Nat) (k : Nat → K) : Nat → K := fun i => if n = 0 then 1 else k i

/-- **C46 (separable, pixel access)**: the convolution with the product kernel. -/
theorem sep_eval (cast : K → K) (v : SView K) (E : Int → Int → K) (hE : Shows v.child v.ext E) (x y : Int) :
    v.eval cast x y = some (cast (convSum (max v.ni 1) (max v.nj 1)
      (fun i j => axisKer v.ni v.ik i * axisKer v.nj v.jk j)
      (if v.ni = 0 then 0 else v.mci) (if v.nj = 0 then 0 else v.mcj) E x y)) := by
  have h1 : (if v.ni = 0 then 1 else v.ni) = max v.ni 1 := by split <;> omega
  have h2 : (if v.nj = 0 then 1 else v.nj) = max v.nj 1 := by split <;> omega
  have h3 : (if v.ni = 0 then (0 : Int) else v.ni - 1 - v.mci) = ((max v.ni 1 : Nat) : Int) - 1 - (if v.ni = 0 then 0 else v.mci) := by
    split <;> omega
  have h4 : (if v.nj = 0 then (0 : Int) else v.nj - 1 - v.mcj) = ((max v.nj 1 : Nat) : Int) - 1 - (if v.nj = 0 then 0 else v.mcj) := by
    split <;> omega
  have hk : v.kernel2d = fun a b => axisKer v.ni v.ik (max v.ni 1 - 1 - a) * axisKer v.nj v.jk (max v.nj 1 - 1 - b) := by
    funext a b
    unfold SView.kernel2d axisKer
    dsimp only
    rw [h1, h2]
  have := conv_eval cast ⟨v.child, v.ext, max v.ni 1, max v.nj 1, fun i j => axisKer v.ni v.ik i * axisKer v.nj v.jk j,
    if v.ni = 0 then 0 else v.mci, if v.nj = 0 then 0 else v.mcj⟩ E hE x y
  rw [← this]
  unfold SView.eval CView.eval
  dsimp only
  rw [h1, h2, h3, h4, hk]

/-- One 1D pass. -/
theorem conv1_sum (cast : K → K) (n : Nat) (k : Nat → K) (s : Nat → Option K) (F : Int → K) (x c : Int)
    (h : ∀ t, t < n → s t = some (F (x - ((n : Int) - 1 - c) + t))) :
    conv1 cast n k s = some (cast (∑ i ∈ range n, k i * F (x + c - i))) := by
  unfold conv1
  rw [corr1_sum _ _ (fun t => F (x - ((n : Int) - 1 - c) + t)) n 0 0 (fun t _ ht => h t (by omega))]
  simp only [Nat.zero_add, zero_add, Option.map_some]
  congr 2
  rw [← sum_range_reflect (fun i => k i * F (x + c - i)) n]
  refine sum_congr rfl fun a ha => ?_
  have ha := mem_range.1 ha
  congr 2; omega

/-- What the rasterization path computes, with its intermediate conversion: rows first, then columns. -/
def twoPass (cast : K → K) (v : SView K) (E : Int → Int → K) (x y : Int) : K :=
  if v.ni = 0 ∧ v.nj = 0 then E x y
  else if v.nj = 0 then cast (∑ i ∈ range v.ni, v.ik i * E (x + v.mci - i) y)
  else if v.ni = 0 then cast (∑ j ∈ range v.nj, v.jk j * E x (y + v.mcj - j))
  else cast (∑ j ∈ range v.nj, v.jk j * cast (∑ i ∈ range v.ni, v.ik i * E (x + v.mci - i) (y + v.mcj - j)))

/-- **C46 (separable, rasterization)**: over any non-empty block the two passes read only inside their
buffers and compute `twoPass`; the kernel origins must be inside the kernels. -/
theorem sep_prerasterize (cast : K → K) (v : SView K) (E : Int → Int → K) (hE : Shows v.child v.ext E)
    (hi : v.ni ≠ 0 → 0 ≤ v.mci ∧ v.mci < v.ni) (hj : v.nj ≠ 0 → 0 ≤ v.mcj ∧ v.mcj < v.nj)
    (bbox : Rect) (x y : Int) (hx : bbox.x0 ≤ x ∧ x < bbox.x1) (hy : bbox.y0 ≤ y ∧ y < bbox.y1) :
    v.prerasterRead cast bbox x y = some (twoPass cast v E x y) := by
  obtain ⟨e1, e2⟩ := rect_width (r := bbox) (by omega) (by omega)
  unfold SView.prerasterRead
  dsimp only
  rw [e1, e2, if_pos (by omega)]
  unfold SView.rasterize twoPass
  by_cases h00 : v.ni = 0 ∧ v.nj = 0
  · rw [if_pos h00, if_pos h00, hE.all]
    congr 2 <;> omega
  · rw [if_neg h00, if_neg h00]
    dsimp only
    by_cases hi0 : v.ni = 0
    · have hj0 : v.nj ≠ 0 := fun h => h00 ⟨hi0, h⟩
      obtain ⟨c1, c2⟩ := hj hj0
      have hp : v.nj > 0 := by omega
      simp only [hi0, hj0, hp, if_true, if_false, gt_iff_lt, lt_irrefl, false_and]
      refine conv1_sum cast v.nj v.jk _ (fun t => E x t) y v.mcj fun t ht => ?_
      rw [buffer_some (by dsimp only; omega) (by dsimp only; omega) (by dsimp only; omega) (by dsimp only; omega), hE.all]
      dsimp only
      congr 2 <;> omega
    · obtain ⟨c1, c2⟩ := hi hi0
      by_cases hj0 : v.nj = 0
      · have hp : v.ni > 0 := by omega
        have hp' : 0 < v.ni := hp
        simp only [hi0, hj0, hp', if_true, if_false, gt_iff_lt, lt_irrefl, and_false]
        refine conv1_sum cast v.ni v.ik _ (fun t => E t y) x v.mci fun t ht => ?_
        rw [buffer_some (by dsimp only; omega) (by dsimp only; omega) (by dsimp only; omega) (by dsimp only; omega), hE.all]
        dsimp only
        congr 2 <;> omega
      · obtain ⟨d1, d2⟩ := hj hj0
        have hp : v.ni > 0 ∧ v.nj > 0 := by omega
        rw [if_pos hp]
        simp only [hi0, hj0, if_false]
        refine conv1_sum cast v.nj v.jk _
          (fun t => cast (∑ i ∈ range v.ni, v.ik i * E (x + v.mci - i) t)) y v.mcj fun t ht => ?_
        obtain ⟨f1, f2⟩ := rect_width (r := ⟨bbox.x0 - (v.ni - v.mci - 1), bbox.y0 - (v.nj - v.mcj - 1), bbox.x1 + v.mci, bbox.y1 + v.mcj⟩)
          (by dsimp only; omega) (by dsimp only; omega)
        rw [e1, f2, if_pos (by dsimp only; omega)]
        refine conv1_sum cast v.ni v.ik _ (fun s => E s (y - ((v.nj : Int) - 1 - v.mcj) + t)) x v.mci fun s hs => ?_
        rw [buffer_some (by dsimp only; omega) (by dsimp only; omega) (by dsimp only; omega) (by dsimp only; omega), hE.all]
        dsimp only
        congr 2 <;> omega

/-- **C46 (paths agree)**: when the pixel type holds the sums exactly (`cast = id`), pixel access and
rasterization of any block containing the pixel give the same value. -/
theorem sep_paths_agree (v : SView K) (E : Int → Int → K) (hE : Shows v.child v.ext E)
    (hi : v.ni ≠ 0 → 0 ≤ v.mci ∧ v.mci < v.ni) (hj : v.nj ≠ 0 → 0 ≤ v.mcj ∧ v.mcj < v.nj)
    (bbox : Rect) (x y : Int) (hx : bbox.x0 ≤ x ∧ x < bbox.x1) (hy : bbox.y0 ≤ y ∧ y < bbox.y1) :
    v.prerasterRead id bbox x y = v.eval id x y := by
  rw [sep_prerasterize id v E hE hi hj bbox x y hx hy, sep_eval id v E hE]
  congr 1
  unfold twoPass convSum axisKer
  by_cases hi0 : v.ni = 0 <;> by_cases hj0 : v.nj = 0 <;> simp only [hi0, hj0, if_true, if_false, and_true, and_false, id, and_self]
  · simp
  · have : max v.nj 1 = v.nj := by omega
    rw [this]; simp
  · have : max v.ni 1 = v.ni := by omega
    rw [this]; simp
  · have h1 : max v.nj 1 = v.nj := by omega
    have h2 : max v.ni 1 = v.ni := by omega
    rw [h1, h2]
    refine sum_congr rfl fun j _ => ?_
    rw [mul_sum]
    refine sum_congr rfl fun i _ => ?_
    ring

/-! ### The edge extension modes -/

/-- Every edge extension mode of the library shows some infinite image on every image that is large enough
for the mode (C27). -/
theorem mode_shows {c : Child K} {px : Int → Int → K} (h : IsImage c px) (m : Mode K)
    (hc : m.minSize ≤ c.cols) (hr : m.minSize ≤ c.rows) : ∃ E, Shows c m.eval E := by
  have tot : ∀ i j, ∃ v, m.eval c i j = some v := by
    intro i j
    cases m with
    | zero => exact ⟨_, VW.Edge.zero_spec h i j⟩
    | value v => exact ⟨_, VW.Edge.value_spec h v i j⟩
    | constant => obtain ⟨x, y, _, _, e⟩ := VW.Edge.constant_spec h hc hr i j; exact ⟨_, e⟩
    | periodic => obtain ⟨x, y, _, _, e⟩ := VW.Edge.periodic_spec h hc hr i j; exact ⟨_, e⟩
    | cylindrical => obtain ⟨x, y, _, _, e⟩ := VW.Edge.cylindrical_spec h hc hr i j; exact ⟨_, e⟩
    | reflect => obtain ⟨x, y, _, _, e⟩ := VW.Edge.reflect_spec_partial h hc hr i j; exact ⟨_, e⟩
    | linear => obtain ⟨x, y, _, _, e⟩ := VW.Edge.linear_spec_partial h hc hr i j; exact ⟨_, e⟩
  choose E hE using tot
  refine ⟨E, hE, fun i j h1 h2 h3 h4 => ?_⟩
  rw [h.at h1 h2 h3 h4, ← VW.Edge.eval_inside_partial h m hc hr h1 h2 h3 h4, hE]

/-! ### Examples -/

end

/-- A 3 by 3 ramp with the constant extension satisfies the hypotheses. -/
def exChild : Child ℚ :=
  { cols := 3, rows := 3, get := fun i j => if 0 ≤ i ∧ i < 3 ∧ 0 ≤ j ∧ j < 3 then some (10 * i + j) else none }

theorem exChild_image : IsImage exChild (fun i j => (10 * i + j : ℚ)) := fun _ _ => rfl

example : ∃ E, Shows exChild (Mode.constant).eval E := mode_shows exChild_image _ (by decide) (by decide)

/-- A 3-tap view over it: ½ of the pixel and ¼ of its neighbours, both axes. -/
def exView : SView ℚ :=
  { child := exChild, ext := Mode.constant.eval, ni := 3, nj := 3, ik := fun i => if i = 1 then 1/2 else 1/4,
    jk := fun i => if i = 1 then 1/2 else 1/4, mci := 1, mcj := 1 }

example : exView.eval id 1 1 = some 11 ∧ exView.eval id 0 0 = some (11/4) := by decide +kernel

/-- The two paths do differ when the pixel type rounds: the rasterization rounds the intermediate rows.
(Image `10 i + 3 j`, conversion by truncation: a read of pixel (0,0) gives 3, the rasterized view 2.) -/
theorem sep_paths_differ_rounding :
    ∃ (v : SView ℚ) (cast : ℚ → ℚ), (∀ q, cast q = ⌊q⌋) ∧
      v.prerasterRead cast ⟨0, 0, 3, 3⟩ 0 0 = some 2 ∧ v.eval cast 0 0 = some 3 :=
  ⟨{ exView with child := { exChild with
      get := fun i j => if 0 ≤ i ∧ i < 3 ∧ 0 ≤ j ∧ j < 3 then some (10 * i + 3 * j) else none } },
    fun q => ⌊q⌋, fun _ => rfl, by decide +kernel, by decide +kernel⟩

end VW.Conv
