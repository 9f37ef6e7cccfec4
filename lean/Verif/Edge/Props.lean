import Verif.Edge.Model
import Mathlib.Tactic.Ring
import Mathlib.Algebra.Order.Ring.Int
import Mathlib.Algebra.Order.Ring.Abs
/-
Properties C27 and C28: what an edge-extended image returns outside its pixels, and that the source box
it asks its child for is enough.

Theorems with suffix `_partial` assume `Mode.minSize`: at least 2 columns and rows for reflect and linear.
Without it the properties are false (`reflect_one_pixel_undefined`, `linear_one_column_undefined`,
`linear_one_column_source_outside`).
-/
namespace VW.Edge
open VW.Block (Rect)

variable {α : Type}

/-! ### Specification -/

/-- `c` is an image with pixel values `px`, and no others. -/
def IsImage (c : Child α) (px : Int → Int → α) : Prop :=
  ∀ i j, c.get i j = if 0 ≤ i ∧ i < c.cols ∧ 0 ≤ j ∧ j < c.rows then some (px i j) else none

/-- `x` is the index in [0,n) nearest to `i`. -/
def Nearest (n i x : Int) : Prop := 0 ≤ x ∧ x < n ∧ ∀ y, 0 ≤ y → y < n → |i - x| ≤ |i - y|

/-- `x` is the index in [0,n) that `i` has in the n-periodic repetition. -/
def Periodic (n i x : Int) : Prop := 0 ≤ x ∧ x < n ∧ n ∣ i - x

/-- `x` is the index in [0,n) that `i` has after mirroring about the first and last index. -/
def Mirrored (n i x : Int) : Prop :=
  0 ≤ x ∧ x < n ∧ (2 * (n - 1) ∣ i - x ∨ 2 * (n - 1) ∣ i + x)

/-! ### One axis -/

theorem tmod_nonneg_emod {a b : Int} (h : 0 ≤ a) : a.tmod b = a % b := Int.tmod_eq_emod_of_nonneg h

theorem fix_tmod {n i : Int} (h : 0 < n) : (if i.tmod n < 0 then i.tmod n + n else i.tmod n) = i % n := by
  have h0 := Int.emod_nonneg i (by omega : n ≠ 0)
  have h1 := Int.emod_lt_of_pos i h
  have e1 := Int.tmod_add_mul_tdiv i n
  have e2 := Int.emod_add_mul_ediv i n
  rcases Int.le_total 0 i with hi | hi
  · rw [tmod_nonneg_emod hi]; split <;> omega
  · have l1 := Int.lt_tmod_of_pos i h
    have l2 : i.tmod n ≤ 0 := by
      have := Int.tmod_nonneg n (a := -i) (by omega)
      rw [Int.neg_tmod] at this; omega
    have : (i.tmod n) % n = i % n := by
      conv_rhs => rw [← e1]
      simp
    split
    · rw [← this, ← Int.add_emod_right, Int.emod_eq_of_lt] <;> omega
    · have : i.tmod n = 0 := by omega
      rw [← ‹(i.tmod n) % n = i % n›, this]; simp

theorem periodIdx_eq {n i : Int} (h : 0 < n) : periodIdx n i = some (i % n) := by
  unfold periodIdx
  rw [if_neg (by omega)]
  simp only [fix_tmod h]

theorem vwMod_eq {n i : Int} (h : 0 < n) : vwMod i n = i % n := by
  unfold vwMod
  simp only [if_neg (by omega : ¬ n < 0), fix_tmod h]

/-- Adding less than a period. -/
theorem emod_step {n a k : Int} (ha : 0 ≤ a) (ha' : a < n) (hk : 0 ≤ k) (hk' : k < n) :
    (a + k) % n = if a + k < n then a + k else a + k - n := by
  split
  · rw [Int.emod_eq_of_lt] <;> omega
  · rw [← Int.sub_emod_right, Int.emod_eq_of_lt] <;> omega

theorem emod_shift (n lo i : Int) : i % n = (lo % n + (i - lo)) % n := by
  rw [Int.emod_add_emod]; congr 1; omega

/-- The fold of a residue modulo 2n-2 back onto [0,n). -/
def foldIdx (n d : Int) : Int := if d > n - 1 then 2 * (n - 1) - d else d

theorem reflectIdx_eq {n i : Int} (h : 2 ≤ n) :
    reflectIdx n i = some (foldIdx n (i % (2 * (n - 1)))) := by
  unfold reflectIdx foldIdx
  simp only [if_neg (by omega : ¬ 2 * (n - 1) = 0)]
  congr 1
  have hP : 0 < 2 * (n - 1) := by omega
  generalize hPe : 2 * (n - 1) = P at *
  have h0 := Int.emod_nonneg i (by omega : P ≠ 0)
  have h1 := Int.emod_lt_of_pos i hP
  split
  · rw [tmod_nonneg_emod (by omega)]
    have : (-i) % P = if i % P = 0 then 0 else P - i % P := by
      rw [Int.neg_emod]; simp [Int.dvd_iff_emod_eq_zero, abs_of_pos hP]
    rw [this]
    split <;> split <;> split <;> omega
  · rw [tmod_nonneg_emod (by omega)]

theorem clamp_nearest {n : Int} (i : Int) (h : 1 ≤ n) : Nearest n i (clampIdx n i) := by
  unfold clampIdx
  refine ⟨by split <;> [omega; (split <;> omega)], by split <;> [omega; (split <;> omega)], ?_⟩
  intro y hy hy'
  rw [abs_le]
  rcases abs_cases (i - y) with ⟨e, _⟩ | ⟨e, _⟩ <;> rw [e] <;> (split <;> [skip; split]) <;> omega

theorem nearest_in {n i x : Int} (h : Nearest n i x) (hi : 0 ≤ i) (hn : i < n) : x = i := by
  have := h.2.2 i hi hn
  simp at this
  omega

theorem period_spec {n : Int} (i : Int) (h : 1 ≤ n) : Periodic n i (i % n) :=
  ⟨Int.emod_nonneg i (by omega), Int.emod_lt_of_pos i (by omega), Int.dvd_self_sub_emod⟩

theorem mirror_spec {n : Int} (i : Int) (h : 2 ≤ n) : Mirrored n i (foldIdx n (i % (2 * (n - 1)))) := by
  have hP : 0 < 2 * (n - 1) := by omega
  have h0 := Int.emod_nonneg i (by omega : 2 * (n - 1) ≠ 0)
  have h1 := Int.emod_lt_of_pos i hP
  have hd : 2 * (n - 1) ∣ i - i % (2 * (n - 1)) := Int.dvd_self_sub_emod
  generalize i % (2 * (n - 1)) = r at *
  unfold foldIdx
  split
  · refine ⟨by omega, by omega, Or.inr ?_⟩
    have := Int.dvd_add hd (Int.dvd_refl (2 * (n - 1)))
    rwa [show i + (2 * (n - 1) - r) = i - r + 2 * (n - 1) by omega]
  · exact ⟨by omega, by omega, Or.inl hd⟩

/-- The mirrored index is unique, so `Mirrored` says exactly which pixel is meant. -/
theorem mirrored_unique {n i x y : Int} (h : 2 ≤ n) (hx : Mirrored n i x) (hy : Mirrored n i y) : x = y := by
  obtain ⟨x0, x1, hx⟩ := hx
  obtain ⟨y0, y1, hy⟩ := hy
  have small : ∀ t : Int, 2 * (n - 1) ∣ t → |t| < 2 * (n - 1) → t = 0 := fun t ht hl =>
    Int.eq_zero_of_abs_lt_dvd ht hl
  have two : ∀ t : Int, 2 * (n - 1) ∣ t → 0 ≤ t → t < 2 * (n - 1) → t = 0 := fun t ht h0 hl =>
    small t ht (by rw [abs_of_nonneg h0]; exact hl)
  have sub : 2 * (n - 1) ∣ x - y → x = y := fun hd => by
    have := small (x - y) hd (by rw [abs_lt]; omega)
    omega
  have add : 2 * (n - 1) ∣ x + y → x = y := fun hd => by
    by_cases hl : x + y < 2 * (n - 1)
    · have := two _ hd (by omega) hl; omega
    · omega
  rcases hx with hx | hx <;> rcases hy with hy | hy
  · exact sub (by have := Int.dvd_sub hy hx; rwa [show i - y - (i - x) = x - y by omega] at this)
  · exact add (by have := Int.dvd_sub hy hx; rwa [show i + y - (i - x) = x + y by omega] at this)
  · exact add (by have := Int.dvd_sub hx hy; rwa [show i + x - (i - y) = x + y by omega] at this)
  · exact sub (by have := Int.dvd_sub hx hy; rwa [show i + x - (i + y) = x - y by omega] at this)

theorem periodic_unique {n i x y : Int} (hx : Periodic n i x) (hy : Periodic n i y) : x = y := by
  obtain ⟨x0, x1, hx⟩ := hx
  obtain ⟨y0, y1, hy⟩ := hy
  have : n ∣ x - y := by have := Int.dvd_sub hy hx; rwa [show i - y - (i - x) = x - y by omega] at this
  have := Int.eq_zero_of_abs_lt_dvd this (by rw [abs_lt]; omega)
  omega

theorem IsImage.at {c : Child α} {px : Int → Int → α} (h : IsImage c px) {x y : Int}
    (hx : 0 ≤ x) (hx' : x < c.cols) (hy : 0 ≤ y) (hy' : y < c.rows) : c.get x y = some (px x y) := by
  rw [h x y, if_pos ⟨hx, hx', hy, hy'⟩]

/-! ### C27: values -/

section
variable [CommRing α] {c : Child α} {px : Int → Int → α}

/-- Outside its pixels the zero extension is zero; inside it is the pixel. -/
theorem zero_spec (h : IsImage c px) (i j : Int) :
    Mode.zero.eval c i j
      = some (if 0 ≤ i ∧ i < c.cols ∧ 0 ≤ j ∧ j < c.rows then px i j else 0) := by
  unfold Mode.eval
  by_cases hin : 0 ≤ i ∧ i < c.cols ∧ 0 ≤ j ∧ j < c.rows
  · rw [if_pos hin, if_pos ⟨hin.1, hin.2.2.1, hin.2.1, hin.2.2.2⟩, h, if_pos hin]
  · rw [if_neg hin, if_neg (fun ⟨a, b, d, e⟩ => hin ⟨a, d, b, e⟩)]

/-- Outside its pixels the value extension is the user's value; inside it is the pixel. -/
theorem value_spec (h : IsImage c px) (v : α) (i j : Int) :
    (Mode.value v).eval c i j
      = some (if 0 ≤ i ∧ i < c.cols ∧ 0 ≤ j ∧ j < c.rows then px i j else v) := by
  simp only [Mode.eval]
  by_cases hin : 0 ≤ i ∧ i < c.cols ∧ 0 ≤ j ∧ j < c.rows
  · rw [if_pos hin, if_pos ⟨hin.1, hin.2.2.1, hin.2.1, hin.2.2.2⟩, h, if_pos hin]
  · rw [if_neg hin, if_neg (fun ⟨a, b, d, e⟩ => hin ⟨a, d, b, e⟩)]

/-- Constant extension: the pixel nearest to the position, on a non-empty image. -/
theorem constant_spec (h : IsImage c px) (hc : 1 ≤ c.cols) (hr : 1 ≤ c.rows) (i j : Int) :
    ∃ x y, Nearest c.cols i x ∧ Nearest c.rows j y ∧ Mode.constant.eval c i j = some (px x y) := by
  have hx := clamp_nearest i hc
  have hy := clamp_nearest j hr
  exact ⟨_, _, hx, hy, h.at hx.1 hx.2.1 hy.1 hy.2.1⟩

/-- Periodic extension: the pixel at the same position of the tiled plane. -/
theorem periodic_spec (h : IsImage c px) (hc : 1 ≤ c.cols) (hr : 1 ≤ c.rows) (i j : Int) :
    ∃ x y, Periodic c.cols i x ∧ Periodic c.rows j y ∧ Mode.periodic.eval c i j = some (px x y) := by
  have hx := period_spec i hc
  have hy := period_spec j hr
  refine ⟨_, _, hx, hy, ?_⟩
  simp only [Mode.eval, periodIdx_eq (show 0 < c.cols by omega), periodIdx_eq (show 0 < c.rows by omega)]
  exact h.at hx.1 hx.2.1 hy.1 hy.2.1

/-- Cylindrical extension: periodic in x, nearest in y. -/
theorem cylindrical_spec (h : IsImage c px) (hc : 1 ≤ c.cols) (hr : 1 ≤ c.rows) (i j : Int) :
    ∃ x y, Periodic c.cols i x ∧ Nearest c.rows j y ∧ Mode.cylindrical.eval c i j = some (px x y) := by
  have hx := period_spec i hc
  have hy := clamp_nearest j hr
  refine ⟨_, _, hx, hy, ?_⟩
  simp only [Mode.eval, periodIdx_eq (show 0 < c.cols by omega)]
  exact h.at hx.1 hx.2.1 hy.1 hy.2.1

/-- Reflect extension: the mirrored pixel, on an image with at least two columns and two rows. -/
theorem reflect_spec_partial (h : IsImage c px) (hc : 2 ≤ c.cols) (hr : 2 ≤ c.rows) (i j : Int) :
    ∃ x y, Mirrored c.cols i x ∧ Mirrored c.rows j y ∧ Mode.reflect.eval c i j = some (px x y) := by
  have hx := mirror_spec i hc
  have hy := mirror_spec j hr
  refine ⟨_, _, hx, hy, ?_⟩
  simp only [Mode.eval, reflectIdx_eq hc, reflectIdx_eq hr]
  exact h.at hx.1 hx.2.1 hy.1 hy.2.1

/-- The one-pixel difference at the border of [0,n) beyond which `i` lies. -/
def borderSlope (n i : Int) (f : Int → α) : α := if i < 0 then f 1 - f 0 else f (n - 1) - f (n - 2)

/-- Linear extension: the nearest pixel plus, for each axis, the distance outside times the difference of
the two border pixels along that axis; on an image with at least two columns and rows. -/
theorem linear_spec_partial (h : IsImage c px) (hc : 2 ≤ c.cols) (hr : 2 ≤ c.rows) (i j : Int) :
    ∃ x y, Nearest c.cols i x ∧ Nearest c.rows j y ∧
      Mode.linear.eval c i j = some (px x y
        + ((i - x : Int) : α) * borderSlope c.cols i (fun a => px a y)
        + ((j - y : Int) : α) * borderSlope c.rows j (fun b => px x b)) := by
  refine ⟨_, _, clamp_nearest i (by omega), clamp_nearest j (by omega), ?_⟩
  have g : ∀ x y, 0 ≤ x → x < c.cols → 0 ≤ y → y < c.rows → c.get x y = some (px x y) :=
    fun x y a b d e => h.at a b d e
  unfold Mode.eval clampIdx borderSlope
  have e1 : c.cols - 1 - 1 = c.cols - 2 := by omega
  have e2 : c.rows - 1 - 1 = c.rows - 2 := by omega
  by_cases hi : i < 0
  · by_cases hj : j < 0
    · simp only [hi, hj, if_true]
      rw [g 0 0, g 1 0, g 0 1] <;> try omega
      simp; ring
    · by_cases hj' : j > c.rows - 1
      · simp only [hi, hj, hj', if_true, if_false, if_pos (show j ≥ c.rows by omega)]
        rw [g 0 (c.rows - 1), g 1 (c.rows - 1), g 0 (c.rows - 1 - 1)] <;> try omega
        simp [e2]; ring
      · simp only [hi, hj, hj', if_true, if_false, if_neg (show ¬ j ≥ c.rows by omega)]
        rw [g 0 j, g 1 j] <;> try omega
        simp; ring
  · by_cases hi' : i > c.cols - 1
    · by_cases hj : j < 0
      · simp only [hi, hi', hj, if_true, if_false, if_pos (show i ≥ c.cols by omega)]
        rw [g (c.cols - 1) 0, g (c.cols - 1 - 1) 0, g (c.cols - 1) 1] <;> try omega
        simp [e1]; ring
      · by_cases hj' : j > c.rows - 1
        · simp only [hi, hi', hj, hj', if_true, if_false, if_pos (show i ≥ c.cols by omega),
            if_pos (show j ≥ c.rows by omega)]
          rw [g (c.cols - 1) (c.rows - 1), g (c.cols - 1 - 1) (c.rows - 1),
            g (c.cols - 1) (c.rows - 1 - 1)] <;> try omega
          simp [e1, e2]
        · simp only [hi, hi', hj, hj', if_true, if_false, if_pos (show i ≥ c.cols by omega),
            if_neg (show ¬ j ≥ c.rows by omega)]
          rw [g (c.cols - 1) j, g (c.cols - 1 - 1) j] <;> try omega
          simp [e1]
    · by_cases hj : j < 0
      · simp only [hi, hi', hj, if_true, if_false, if_neg (show ¬ i ≥ c.cols by omega)]
        rw [g i 0, g i 1] <;> try omega
        simp; ring
      · by_cases hj' : j > c.rows - 1
        · simp only [hi, hi', hj, hj', if_true, if_false, if_neg (show ¬ i ≥ c.cols by omega),
            if_pos (show j ≥ c.rows by omega)]
          rw [g i (c.rows - 1), g i (c.rows - 1 - 1)] <;> try omega
          simp [e2]
        · simp only [hi, hi', hj, hj', if_false, if_neg (show ¬ i ≥ c.cols by omega),
            if_neg (show ¬ j ≥ c.rows by omega)]
          rw [g i j] <;> try omega
          simp

/-- Consequence: an affine image is extended to the affine function. -/
theorem linear_exact_on_affine (A B C : α)
    (h : IsImage c (fun x y => A + (x : α) * B + (y : α) * C)) (hc : 2 ≤ c.cols) (hr : 2 ≤ c.rows)
    (i j : Int) : Mode.linear.eval c i j = some (A + (i : α) * B + (j : α) * C) := by
  obtain ⟨x, y, hx, hy, e⟩ := linear_spec_partial h hc hr i j
  rw [e]
  have s1 : borderSlope c.cols i (fun a => A + (a : α) * B + (y : α) * C) = B := by
    unfold borderSlope; split <;> push_cast <;> ring
  have s2 : borderSlope c.rows j (fun b => A + (x : α) * B + (b : α) * C) = C := by
    unfold borderSlope; split <;> push_cast <;> ring
  rw [s1, s2]; congr 1; push_cast; ring

/-- What size of image the mode needs (the modes other than reflect and linear need a pixel at most). -/
def Mode.minSize : Mode α → Int
  | .reflect => 2
  | .linear => 2
  | .zero => 0
  | .value _ => 0
  | _ => 1

/-- In every mode the extended image agrees with the image on the image's own pixels. -/
theorem eval_inside_partial (h : IsImage c px) (m : Mode α) (hc : m.minSize ≤ c.cols) (hr : m.minSize ≤ c.rows)
    {i j : Int} (hi : 0 ≤ i) (hi' : i < c.cols) (hj : 0 ≤ j) (hj' : j < c.rows) :
    m.eval c i j = some (px i j) := by
  have per : ∀ {n k x : Int}, Periodic n k x → 0 ≤ k → k < n → x = k := fun p a b =>
    periodic_unique p ⟨a, b, by simp⟩
  have mir : ∀ {n k x : Int}, 2 ≤ n → Mirrored n k x → 0 ≤ k → k < n → x = k := fun g p a b =>
    mirrored_unique g p ⟨a, b, Or.inl (by simp)⟩
  cases m with
  | zero => rw [zero_spec h, if_pos ⟨hi, hi', hj, hj'⟩]
  | value v => rw [value_spec h, if_pos ⟨hi, hi', hj, hj'⟩]
  | constant =>
    obtain ⟨x, y, hx, hy, e⟩ := constant_spec h hc hr i j
    rw [e, nearest_in hx hi hi', nearest_in hy hj hj']
  | periodic =>
    obtain ⟨x, y, hx, hy, e⟩ := periodic_spec h hc hr i j
    rw [e, per hx hi hi', per hy hj hj']
  | cylindrical =>
    obtain ⟨x, y, hx, hy, e⟩ := cylindrical_spec h hc hr i j
    rw [e, per hx hi hi', nearest_in hy hj hj']
  | reflect =>
    obtain ⟨x, y, hx, hy, e⟩ := reflect_spec_partial h hc hr i j
    rw [e, mir hc hx hi hi', mir hr hy hj hj']
  | linear =>
    obtain ⟨x, y, hx, hy, e⟩ := linear_spec_partial h hc hr i j
    rw [e, nearest_in hx hi hi', nearest_in hy hj hj']
    simp

/-- Linear needs no second pixel for positions inside the image. -/
theorem linear_inside (h : IsImage c px) {i j : Int} (hi : 0 ≤ i) (hi' : i < c.cols) (hj : 0 ≤ j)
    (hj' : j < c.rows) : Mode.linear.eval c i j = some (px i j) := by
  unfold Mode.eval
  simp only [if_neg (show ¬ i < 0 by omega), if_neg (show ¬ i > c.cols - 1 by omega),
    if_neg (show ¬ j < 0 by omega), if_neg (show ¬ j > c.rows - 1 by omega)]
  exact h.at hi hi' hj hj'

/-- The property fails for reflect on an image one pixel wide or high: every read divides by zero,
even of the image's own pixels. -/
theorem reflect_one_pixel_undefined (hc : c.cols = 1 ∨ c.rows = 1) (i j : Int) :
    Mode.reflect.eval c i j = none := by
  unfold Mode.eval reflectIdx
  rcases hc with hc | hc
  · rw [hc]; rfl
  · rw [hc]; simp

/-- The property fails for linear on an image one pixel wide: a read to its left reads column 1, which
the image does not have. -/
theorem linear_one_column_undefined (h : IsImage c px) (hc : c.cols = 1) {i : Int} (j : Int) (hi : i < 0) :
    Mode.linear.eval c i j = none := by
  have g : ∀ y, c.get 1 y = none := fun y => by rw [h, if_neg (by omega)]
  unfold Mode.eval
  simp only [hi, if_true, g]
  split
  · cases c.get 0 0 <;> rfl
  · split
    · cases c.get 0 (c.rows - 1) <;> rfl
    · cases c.get 0 j <;> rfl

/-- The view reads its image at the offset position. -/
theorem view_read (e : EView α) (i j : Int) : e.read i j = e.mode.eval e.child (i + e.xoff) (j + e.yoff) := rfl

/-! ### C28: the source box -/

theorem constSrc_ok {n lo hi : Int} (hn : 1 ≤ n) (h : lo < hi) :
    0 ≤ (constSrc n lo hi).1 ∧ (constSrc n lo hi).2 ≤ n ∧
    ∀ i, lo ≤ i → i < hi → (constSrc n lo hi).1 ≤ clampIdx n i ∧ clampIdx n i < (constSrc n lo hi).2 := by
  unfold constSrc clampIdx
  refine ⟨by dsimp only; split <;> [omega; (split <;> omega)],
    by dsimp only; split <;> [omega; (split <;> omega)], fun i h1 h2 => ?_⟩
  dsimp only
  by_cases a : i < 0 <;> by_cases b : i ≥ n <;> by_cases c : lo < 0 <;> by_cases d : lo ≥ n <;>
    by_cases e : hi > n <;> by_cases f : hi ≤ 0 <;> simp only [a, b, c, d, e, f, if_true, if_false] <;> omega

theorem periodSrc_ok {n lo hi : Int} (hn : 1 ≤ n) (h : lo < hi) :
    0 ≤ (periodSrc n lo hi (hi - lo)).1 ∧ (periodSrc n lo hi (hi - lo)).2 ≤ n ∧
    ∀ i, lo ≤ i → i < hi →
      (periodSrc n lo hi (hi - lo)).1 ≤ i % n ∧ i % n < (periodSrc n lo hi (hi - lo)).2 := by
  unfold periodSrc
  simp only [vwMod_eq (show 0 < n by omega)]
  have a0 := Int.emod_nonneg lo (by omega : n ≠ 0)
  have a1 := Int.emod_lt_of_pos lo (by omega : 0 < n)
  have z0 := fun i : Int => Int.emod_nonneg i (by omega : n ≠ 0)
  have z1 := fun i : Int => Int.emod_lt_of_pos i (by omega : 0 < n)
  by_cases hw : hi - lo ≥ n
  · simp only [if_pos hw]
    exact ⟨by omega, by omega, fun i _ _ => ⟨z0 i, z1 i⟩⟩
  · simp only [if_neg hw]
    have st : ∀ i, lo ≤ i → i < hi →
        i % n = if lo % n + (i - lo) < n then lo % n + (i - lo) else lo % n + (i - lo) - n := by
      intro i h1 h2
      rw [emod_shift n lo i]
      exact emod_step a0 a1 (by omega) (by omega)
    have sb := st (hi - 1) (by omega) (by omega)
    generalize lo % n = a at *
    have b1 := z1 (hi - 1)
    generalize (hi - 1) % n = b at *
    by_cases hab : a ≥ b + 1
    · simp only [if_pos hab]
      exact ⟨by omega, by omega, fun i _ _ => ⟨z0 i, z1 i⟩⟩
    · simp only [if_neg hab]
      refine ⟨a0, by omega, fun i h1 h2 => ?_⟩
      rw [st i h1 h2]
      split at sb <;> split <;> omega

theorem reflectSrc_ok {n lo hi : Int} (hn : 2 ≤ n) (h : lo < hi) :
    0 ≤ (reflectSrc n lo hi (hi - lo)).1 ∧ (reflectSrc n lo hi (hi - lo)).2 ≤ n ∧
    ∀ i, lo ≤ i → i < hi →
      (reflectSrc n lo hi (hi - lo)).1 ≤ foldIdx n (i % (2 * (n - 1))) ∧
      foldIdx n (i % (2 * (n - 1))) < (reflectSrc n lo hi (hi - lo)).2 := by
  unfold reflectSrc foldIdx
  have eP : 2 * (n - 1) = 2 * n - 2 := by omega
  rw [eP]
  simp only [vwMod_eq (show 0 < 2 * n - 2 by omega)]
  have a0 := Int.emod_nonneg lo (by omega : 2 * n - 2 ≠ 0)
  have a1 := Int.emod_lt_of_pos lo (by omega : 0 < 2 * n - 2)
  have z0 := fun i : Int => Int.emod_nonneg i (by omega : 2 * n - 2 ≠ 0)
  have z1 := fun i : Int => Int.emod_lt_of_pos i (by omega : 0 < 2 * n - 2)
  by_cases hw : hi - lo ≥ 2 * n - 2
  · simp only [if_pos hw]
    refine ⟨by omega, by omega, fun i _ _ => ?_⟩
    have := z0 i; have := z1 i
    generalize i % (2 * n - 2) = r at *
    split <;> omega
  · simp only [if_neg hw]
    have st : ∀ i, lo ≤ i → i < hi → i % (2 * n - 2)
        = if lo % (2 * n - 2) + (i - lo) < 2 * n - 2 then lo % (2 * n - 2) + (i - lo)
          else lo % (2 * n - 2) + (i - lo) - (2 * n - 2) := by
      intro i h1 h2
      rw [emod_shift (2 * n - 2) lo i]
      exact emod_step a0 a1 (by omega) (by omega)
    have sb := st (hi - 1) (by omega) (by omega)
    have b0 := z0 (hi - 1)
    have b1 := z1 (hi - 1)
    have fin : ∀ i, lo ≤ i → i < hi → ∃ r, i % (2 * n - 2) = r ∧ 0 ≤ r ∧ r < 2 * n - 2 ∧
        r = if lo % (2 * n - 2) + (i - lo) < 2 * n - 2 then lo % (2 * n - 2) + (i - lo)
          else lo % (2 * n - 2) + (i - lo) - (2 * n - 2) :=
      fun i h1 h2 => ⟨_, rfl, z0 i, z1 i, st i h1 h2⟩
    generalize lo % (2 * n - 2) = a at *
    generalize (hi - 1) % (2 * n - 2) = b at *
    by_cases hab : a ≥ b + 1
    · simp only [if_pos hab]
      refine ⟨by omega, by omega, fun i h1 h2 => ?_⟩
      obtain ⟨r, e, r0, r1, hr⟩ := fin i h1 h2
      rw [e]
      split at sb <;> split at hr <;> split <;> omega
    · simp only [if_neg hab]
      by_cases han : a ≥ n
      · simp only [if_pos han]
        refine ⟨by omega, by omega, fun i h1 h2 => ?_⟩
        obtain ⟨r, e, r0, r1, hr⟩ := fin i h1 h2
        rw [e]
        split at sb <;> split at hr <;> split <;> omega
      · simp only [if_neg han]
        by_cases hbn : b + 1 > n
        · simp only [if_pos hbn]
          refine ⟨by omega, by omega, fun i h1 h2 => ?_⟩
          obtain ⟨r, e, r0, r1, hr⟩ := fin i h1 h2
          rw [e]
          split at sb <;> split at hr <;> split <;> omega
        · simp only [if_neg hbn]
          refine ⟨by omega, by omega, fun i h1 h2 => ?_⟩
          obtain ⟨r, e, r0, r1, hr⟩ := fin i h1 h2
          rw [e]
          split at sb <;> split at hr <;> split <;> omega

/-- The indices along one axis the linear mode reads for `i`. -/
def LinReads (n i x : Int) : Prop :=
  (i < 0 ∧ (x = 0 ∨ x = 1)) ∨ (¬ i < 0 ∧ i > n - 1 ∧ (x = n - 1 ∨ x = n - 1 - 1)) ∨ (¬ i < 0 ∧ ¬ i > n - 1 ∧ x = i)

theorem linearSrc_ok {n lo hi : Int} (hn : 2 ≤ n) (h : lo < hi) :
    0 ≤ (linearSrc n lo hi).1 ∧ (linearSrc n lo hi).2 ≤ n ∧
    ∀ i, lo ≤ i → i < hi → ∀ x, LinReads n i x →
      (linearSrc n lo hi).1 ≤ x ∧ x < (linearSrc n lo hi).2 := by
  unfold linearSrc LinReads
  by_cases a : lo < 0 <;> by_cases b : hi > n <;> simp only [a, b, if_true, if_false] <;>
    refine ⟨by omega, by omega, fun i h1 h2 x hx => ?_⟩ <;> omega

theorem has_iff {r : Rect} {x y : Int} : r.has x y = true ↔ r.x0 ≤ x ∧ r.y0 ≤ y ∧ x < r.x1 ∧ y < r.y1 := by
  simp [Rect.has, and_assoc]

theorem not_empty_of_has {r : Rect} {x y : Int} (h : r.has x y = true) : r.empty = false := by
  rw [has_iff] at h
  simp [Rect.empty]; omega

theorem width_eq {r : Rect} (h : r.empty = false) : r.width = r.x1 - r.x0 := by simp [Rect.width, h]
theorem height_eq {r : Rect} (h : r.empty = false) : r.height = r.y1 - r.y0 := by simp [Rect.height, h]
theorem lt_of_nonempty {r : Rect} (h : r.empty = false) : r.x0 < r.x1 ∧ r.y0 < r.y1 := by
  simp [Rect.empty] at h; omega

theorem crop_has {a b : Rect} {x y : Int} : (a.crop b).has x y = true ↔ a.has x y = true ∧ b.has x y = true := by
  simp only [has_iff, Rect.crop]
  constructor
  · rintro ⟨h1, h2, h3, h4⟩
    split at h1 <;> split at h2 <;> split at h3 <;> split at h4 <;> omega
  · rintro ⟨h1, h2⟩
    refine ⟨?_, ?_, ?_, ?_⟩ <;> split <;> omega

/-- Every pixel of the source box of a non-empty request is a pixel of the image. -/
theorem sourceBBox_in_image_partial (m : Mode α) {cols rows : Int} (hc : m.minSize ≤ cols) (hr : m.minSize ≤ rows)
    {b : Rect} (hb : b.empty = false) {x y : Int} (h : (m.sourceBBox cols rows b).has x y = true) :
    0 ≤ x ∧ x < cols ∧ 0 ≤ y ∧ y < rows := by
  have ⟨l1, l2⟩ := lt_of_nonempty hb
  have ew := width_eq hb
  have eh := height_eq hb
  cases m with
  | zero =>
    have := (crop_has.1 h).2
    simp only [has_iff] at this; omega
  | value v =>
    have := (crop_has.1 h).2
    simp only [has_iff] at this; omega
  | constant =>
    simp only [Mode.sourceBBox, has_iff] at h
    have a := constSrc_ok hc l1; have b := constSrc_ok hr l2
    omega
  | periodic =>
    simp only [Mode.sourceBBox, has_iff, ew, eh] at h
    have a := periodSrc_ok hc l1; have b := periodSrc_ok hr l2
    omega
  | cylindrical =>
    simp only [Mode.sourceBBox, has_iff, ew, eh] at h
    have a := periodSrc_ok hc l1; have b := constSrc_ok hr l2
    omega
  | reflect =>
    simp only [Mode.sourceBBox, has_iff, ew, eh] at h
    have a := reflectSrc_ok hc l1; have b := reflectSrc_ok hr l2
    omega
  | linear =>
    simp only [Mode.sourceBBox, has_iff] at h
    have a := linearSrc_ok hc l1; have b := linearSrc_ok hr l2
    omega

theorem restrict_get {c : Child α} {b : Rect} {x y : Int} (h : b.has x y = true) :
    (c.restrict b).get x y = c.get x y := by simp [Child.restrict, h]

/-- Reading any requested pixel needs no child pixel outside the source box: replacing the child by one
that only has the pixels of the source box changes nothing.  The child is arbitrary. -/
theorem sourceBBox_enough_partial (m : Mode α) (c : Child α) (hc : m.minSize ≤ c.cols) (hr : m.minSize ≤ c.rows)
    (b : Rect) {i j : Int} (h : b.has i j = true) :
    m.eval (c.restrict (m.sourceBBox c.cols c.rows b)) i j = m.eval c i j := by
  have hb := not_empty_of_has h
  have ⟨l1, l2⟩ := lt_of_nonempty hb
  have ew := width_eq hb
  have eh := height_eq hb
  have h' := has_iff.1 h
  obtain ⟨p1, p2, p3, p4⟩ := h'
  cases m with
  | zero =>
    simp only [Mode.eval]
    split
    · rename_i g
      simp only [Child.restrict] at g
      rw [if_pos g]
      exact restrict_get (crop_has.2 ⟨h, has_iff.2 ⟨g.1, g.2.1, g.2.2.1, g.2.2.2⟩⟩)
    · rename_i g
      simp only [Child.restrict] at g
      rw [if_neg g]
  | value v =>
    simp only [Mode.eval]
    split
    · rename_i g
      simp only [Child.restrict] at g
      rw [if_pos g]
      exact restrict_get (crop_has.2 ⟨h, has_iff.2 ⟨g.1, g.2.1, g.2.2.1, g.2.2.2⟩⟩)
    · rename_i g
      simp only [Child.restrict] at g
      rw [if_neg g]
  | constant =>
    have a := (constSrc_ok hc l1).2.2 i p1 p3
    have b := (constSrc_ok hr l2).2.2 j p2 p4
    simp only [Mode.eval]
    exact restrict_get (has_iff.2 ⟨a.1, b.1, a.2, b.2⟩)
  | periodic =>
    have a := (periodSrc_ok hc l1).2.2 i p1 p3
    have b := (periodSrc_ok hr l2).2.2 j p2 p4
    simp only [Mode.eval, Mode.sourceBBox, ew, eh]
    simp only [Child.restrict, periodIdx_eq (show 0 < c.cols from hc), periodIdx_eq (show 0 < c.rows from hr)]
    exact restrict_get (has_iff.2 ⟨a.1, b.1, a.2, b.2⟩)
  | cylindrical =>
    have a := (periodSrc_ok hc l1).2.2 i p1 p3
    have b := (constSrc_ok hr l2).2.2 j p2 p4
    simp only [Mode.eval, Mode.sourceBBox, ew]
    simp only [Child.restrict, periodIdx_eq (show 0 < c.cols from hc)]
    exact restrict_get (has_iff.2 ⟨a.1, b.1, a.2, b.2⟩)
  | reflect =>
    have a := (reflectSrc_ok hc l1).2.2 i p1 p3
    have b := (reflectSrc_ok hr l2).2.2 j p2 p4
    simp only [Mode.eval, Mode.sourceBBox, ew, eh]
    simp only [Child.restrict, reflectIdx_eq (show 2 ≤ c.cols from hc), reflectIdx_eq (show 2 ≤ c.rows from hr)]
    exact restrict_get (has_iff.2 ⟨a.1, b.1, a.2, b.2⟩)
  | linear =>
    have a := (linearSrc_ok hc l1).2.2 i p1 p3
    have b := (linearSrc_ok hr l2).2.2 j p2 p4
    have key : ∀ x y, LinReads c.cols i x → LinReads c.rows j y →
        (c.restrict (Mode.linear.sourceBBox (α := α) c.cols c.rows ‹Rect›)).get x y = c.get x y := by
      intro x y hx hy
      have a := a x hx; have b := b y hy
      exact restrict_get (has_iff.2 ⟨a.1, b.1, a.2, b.2⟩)
    have ec : ∀ r, (c.restrict r).cols = c.cols := fun _ => rfl
    have er : ∀ r, (c.restrict r).rows = c.rows := fun _ => rfl
    clear a b
    simp only [Mode.eval, ec, er]
    unfold LinReads at key
    by_cases hi : i < 0
    · by_cases hj : j < 0
      · simp only [hi, hj, if_true]
        rw [key 0 0, key 1 0, key 0 1] <;> omega
      · by_cases hj' : j > c.rows - 1
        · simp only [hi, hj, hj', if_true, if_false]
          rw [key 0 (c.rows - 1), key 1 (c.rows - 1), key 0 (c.rows - 1 - 1)] <;> omega
        · simp only [hi, hj, hj', if_true, if_false]
          rw [key 0 j, key 1 j] <;> omega
    · by_cases hi' : i > c.cols - 1
      · by_cases hj : j < 0
        · simp only [hi, hi', hj, if_true, if_false]
          rw [key (c.cols - 1) 0, key (c.cols - 1 - 1) 0, key (c.cols - 1) 1] <;> omega
        · by_cases hj' : j > c.rows - 1
          · simp only [hi, hi', hj, hj', if_true, if_false]
            rw [key (c.cols - 1) (c.rows - 1), key (c.cols - 1 - 1) (c.rows - 1),
              key (c.cols - 1) (c.rows - 1 - 1)] <;> omega
          · simp only [hi, hi', hj, hj', if_true, if_false]
            rw [key (c.cols - 1) j, key (c.cols - 1 - 1) j] <;> omega
      · by_cases hj : j < 0
        · simp only [hi, hi', hj, if_true, if_false]
          rw [key i 0, key i 1] <;> omega
        · by_cases hj' : j > c.rows - 1
          · simp only [hi, hi', hj, hj', if_true, if_false]
            rw [key i (c.rows - 1), key i (c.rows - 1 - 1)] <;> omega
          · simp only [hi, hi', hj, hj', if_false]
            rw [key i j] <;> omega

/-- C28 for the view: after `prerasterize(bbox)`, which gives the child only the source box, every pixel
of bbox reads as before, for every offset. -/
theorem prerasterize_read_partial (e : EView α) (hc : e.mode.minSize ≤ e.child.cols)
    (hr : e.mode.minSize ≤ e.child.rows) (bbox : Rect) {i j : Int} (h : bbox.has i j = true) :
    (e.prerasterize bbox).read i j = e.read i j := by
  have hb := not_empty_of_has h
  have hs : (shift bbox e.xoff e.yoff).has (i + e.xoff) (j + e.yoff) = true := by
    rw [has_iff] at h ⊢
    simp only [shift, hb]
    simp; omega
  have key := sourceBBox_enough_partial e.mode e.child hc hr _ hs
  unfold EView.read EView.prerasterize
  rw [← key]
  unfold EView.sourceBBox
  dsimp only
  split
  · rename_i he
    -- an empty source box has no pixels, like (0,0,0,0)
    have : e.child.restrict ⟨0, 0, 0, 0⟩
        = e.child.restrict (e.mode.sourceBBox e.child.cols e.child.rows (shift bbox e.xoff e.yoff)) := by
      unfold Child.restrict
      congr 1
      funext x y
      have n1 : Rect.has ⟨0, 0, 0, 0⟩ x y = false := by
        by_contra hh
        have := not_empty_of_has (Bool.of_not_eq_false hh)
        simp [Rect.empty] at this
      have n2 : Rect.has (e.mode.sourceBBox e.child.cols e.child.rows (shift bbox e.xoff e.yoff)) x y = false := by
        by_contra hh
        rw [not_empty_of_has (Bool.of_not_eq_false hh)] at he
        cases he
      rw [n1, n2]
    rw [this]
  · rfl

/-- Together: with an image as child, the prerasterized view of any request reads, without leaving the
source box, which lies in the image. -/
theorem prerasterize_total_partial (e : EView α) (h : IsImage e.child px) (hc : e.mode.minSize ≤ e.child.cols)
    (hr : e.mode.minSize ≤ e.child.rows) (bbox : Rect) {i j : Int} (hb : bbox.has i j = true) :
    ∃ v, (e.prerasterize bbox).read i j = some v := by
  rw [prerasterize_read_partial e hc hr bbox hb, view_read]
  generalize i + e.xoff = i; generalize j + e.yoff = j
  revert hc hr
  cases e.mode with
  | zero => intro _ _; exact ⟨_, zero_spec h i j⟩
  | value v => intro _ _; exact ⟨_, value_spec h v i j⟩
  | constant => intro hc hr; obtain ⟨x, y, _, _, r⟩ := constant_spec h hc hr i j; exact ⟨_, r⟩
  | periodic => intro hc hr; obtain ⟨x, y, _, _, r⟩ := periodic_spec h hc hr i j; exact ⟨_, r⟩
  | cylindrical => intro hc hr; obtain ⟨x, y, _, _, r⟩ := cylindrical_spec h hc hr i j; exact ⟨_, r⟩
  | reflect => intro hc hr; obtain ⟨x, y, _, _, r⟩ := reflect_spec_partial h hc hr i j; exact ⟨_, r⟩
  | linear => intro hc hr; obtain ⟨x, y, _, _, r⟩ := linear_spec_partial h hc hr i j; exact ⟨_, r⟩

/-- The property fails for linear on an image one column wide: the source box asks for a column the image
does not have. -/
theorem linear_one_column_source_outside :
    ∃ b : Rect, b.empty = false ∧ ∃ x y, ((Mode.linear (α := α)).sourceBBox 1 5 b).has x y = true ∧ ¬ x < 1 :=
  ⟨⟨-2, 0, 1, 3⟩, by decide, 1, 0, rfl, by decide⟩

/-! ### Non-vacuity -/

/-- A 4x3 integer image. -/
def exImg : Child Int := ⟨4, 3, fun i j => if 0 ≤ i ∧ i < 4 ∧ 0 ≤ j ∧ j < 3 then some (10 * i + j) else none⟩

theorem exImg_isImage : IsImage exImg (fun i j => 10 * i + j) := fun _ _ => rfl

example : Mode.reflect.eval exImg (-2) 4 = some 20 := by decide
example : Mode.periodic.eval exImg (-2) 4 = some 21 := by decide
example : Mode.constant.eval exImg (-2) 4 = some 2 := by decide
example : Mode.cylindrical.eval exImg (-2) 4 = some 22 := by decide
example : (EView.mk exImg (-3) (-1) .reflect).read 0 0 = some 31 := by decide
example : ((EView.mk exImg (-3) (-1) .reflect).prerasterize ⟨0, 0, 3, 2⟩).child.get 0 0 = none := by decide
example : (EView.mk exImg (-3) (-1) .reflect).sourceBBox ⟨0, 0, 3, 2⟩ = ⟨1, 0, 4, 2⟩ := by decide
example : ∃ v, ((EView.mk exImg (-3) (-1) .reflect).prerasterize ⟨0, 0, 3, 2⟩).read 2 1 = some v :=
  prerasterize_total_partial _ exImg_isImage (by decide) (by decide) _ (by decide)

end
end VW.Edge
