import Verif.Stereo.Correlation
import Mathlib.Algebra.BigOperators.Group.Finset.Basic
import Mathlib.Algebra.BigOperators.Intervals
import Mathlib.Algebra.Order.BigOperators.Group.Finset
import Mathlib.Algebra.Order.BigOperators.Ring.Finset
import Mathlib.Data.Real.Sqrt
import Mathlib.Tactic.Ring
import Mathlib.Tactic.Linarith
import Mathlib.Tactic.ByContra
import Mathlib.Tactic.FieldSimp

namespace VW.Corr

open Finset

section
variable {α : Type} [Field α] [LinearOrder α]

/-! ### Specification -/

/-- Sum over the window with corner `(x, y)`. -/
def windowSum (f : Int → Int → α) (x y : Int) (kx ky : Nat) : α := ∑ i ∈ range kx, ∑ j ∈ range ky, f (x + i) (y + j)

/-- The score of a disparity for the window of the left image with corner `(x, y)`: sum of absolute differences, of squared
differences, or normalized cross correlation. -/
def score (sqrt : α → α) (t : Cost) (l r : Int → Int → α) (kx ky : Nat) (x y : Int) (d : Nat × Nat) : α :=
  let r' : Int → Int → α := fun u v => r (u + d.1) (v + d.2)
  match t with
  | .absolute => windowSum (fun u v => max (l u v - r' u v) (r' u v - l u v)) x y kx ky
  | .squared => windowSum (fun u v => (l u v - r' u v) ^ 2) x y kx ky
  | .ncc => windowSum (fun u v => l u v * r' u v) x y kx ky *
      sqrt (1 / windowSum (fun u v => l u v ^ 2) x y kx ky * (1 / windowSum (fun u v => r' u v ^ 2) x y kx ky))

/-- Small differences and large correlations are good. -/
def Beats (t : Cost) (a b : α) : Prop := if t = .ncc then b < a else a < b

/-- The order in which disparities are tried. -/
def Earlier (d e : Nat × Nat) : Prop := d.2 < e.2 ∨ d.2 = e.2 ∧ d.1 < e.1

/-! ### Box sums -/

theorem zip_maps (f : α → α → α) (g h : Nat → α) (n : Nat) :
    List.zipWith f ((List.range n).map g) ((List.range n).map h) = (List.range n).map fun x => f (g x) (h x) := by
  rw [List.zipWith_map, List.zipWith_self]

def colSpec (im : Image α) (ky y : Nat) : List α := (List.range im.cols).map fun x => ∑ j ∈ range ky, im.px x (y + j)

theorem colStart_eq (im : Image α) (ky : Nat) : colStart im ky = colSpec im ky 0 := by
  unfold colStart
  induction ky with
  | zero =>
    unfold colSpec
    simp only [List.range_zero, List.foldl_nil, range_zero, sum_empty]
    rw [List.map_const', List.length_range]
  | succ ky ih =>
    rw [List.range_succ, List.foldl_append, List.foldl_cons, List.foldl_nil, ih]
    unfold addRow colSpec
    rw [zip_maps]
    apply List.map_congr_left
    intro x _
    rw [sum_range_succ, Nat.zero_add]

theorem col_next (im : Image α) (ky y : Nat) :
    subRow im y (addRow im (y + ky) (colSpec im ky y)) = colSpec im ky (y + 1) := by
  unfold addRow subRow colSpec
  rw [zip_maps, zip_maps]
  apply List.map_congr_left
  intro x _
  rw [← sum_range_succ (fun j => im.px x (y + j)), sum_range_succ' (fun j => im.px x (y + j))]
  simp only [Nat.add_zero, add_sub_cancel_right]
  apply sum_congr rfl
  intro j _
  rw [show y + (j + 1) = y + 1 + j by omega]

theorem slide_eq (g : Nat → α) (k m : Nat) : ∀ (x m' : Nat), m ≤ m' →
    slide (∑ i ∈ range k, g (x + i)) ((List.range m).map fun t => g (x + k + t)) ((List.range m').map fun t => g (x + t)) =
      (List.range (m + 1)).map fun t => ∑ i ∈ range k, g (x + t + i) := by
  induction m with
  | zero => intro x m' _; simp [slide]
  | succ m ih =>
    intro x m' hm
    obtain ⟨m', rfl⟩ : ∃ n, m' = n + 1 := ⟨m' - 1, by omega⟩
    rw [List.range_succ_eq_map (n := m), List.range_succ_eq_map (n := m'), List.map_cons, List.map_cons]
    unfold slide
    rw [List.range_succ_eq_map (n := m + 1), List.map_cons]
    have e1 : (∑ i ∈ range k, g (x + i)) + (g (x + k + 0) - g (x + 0)) = ∑ i ∈ range k, g (x + 1 + i) := by
      have h1 := sum_range_succ (fun i => g (x + i)) k
      have h2 := sum_range_succ' (fun i => g (x + i)) k
      have h3 : ∑ i ∈ range k, g (x + (i + 1)) = ∑ i ∈ range k, g (x + 1 + i) := by
        apply sum_congr rfl; intro i _; rw [show x + (i + 1) = x + 1 + i by omega]
      rw [h3] at h2
      rw [h1] at h2
      simp only [Nat.add_zero] at h2 ⊢
      rw [← add_sub_assoc, h2]; ring
    rw [e1]
    have e2 : ((List.range m).map Nat.succ).map (fun t => g (x + k + t)) = (List.range m).map fun t => g (x + 1 + k + t) := by
      rw [List.map_map]; apply List.map_congr_left; intro t _
      show g (x + k + (t + 1)) = _
      rw [show x + k + (t + 1) = x + 1 + k + t by omega]
    have e3 : ((List.range m').map Nat.succ).map (fun t => g (x + t)) = (List.range m').map fun t => g (x + 1 + t) := by
      rw [List.map_map]; apply List.map_congr_left; intro t _
      show g (x + (t + 1)) = _
      rw [show x + (t + 1) = x + 1 + t by omega]
    rw [e2, e3, ih (x + 1) m' (by omega)]
    congr 1
    rw [List.map_map]; apply List.map_congr_left; intro t _
    show _ = ∑ i ∈ range k, g (x + (t + 1) + i)
    rw [show x + (t + 1) = x + 1 + t by omega]

theorem foldl_range (g : Nat → α) (k : Nat) : ((List.range k).map g).foldl (· + ·) 0 = ∑ i ∈ range k, g i := by
  induction k with
  | zero => rfl
  | succ k ih => rw [List.range_succ, List.map_append, List.foldl_append, ih, sum_range_succ]; rfl

theorem line_eq (g : Nat → α) (k n : Nat) (h : k ≤ n) :
    line k ((List.range n).map g) = (List.range (n - k + 1)).map fun t => ∑ i ∈ range k, g (t + i) := by
  unfold line
  have e1 : ((List.range n).map g).take k = (List.range k).map g := by
    rw [← List.map_take, List.take_range, Nat.min_eq_left h]
  have e2 : ((List.range n).map g).drop k = (List.range (n - k)).map fun t => g (0 + k + t) := by
    apply List.ext_getElem
    · simp
    · intro i h1 h2
      simp
  rw [e1, e2, foldl_range]
  have := slide_eq g k (n - k) 0 n (by omega)
  simp only [Nat.zero_add] at this ⊢
  exact this

theorem boxRows_get (im : Image α) (kx ky : Nat) (n : Nat) : ∀ (y t : Nat), t ≤ n →
    (boxRows im kx ky n y (colSpec im ky y)).getD t [] = line kx (colSpec im ky (y + t)) := by
  induction n with
  | zero =>
    intro y t ht
    obtain rfl : t = 0 := by omega
    rfl
  | succ n ih =>
    intro y t ht
    unfold boxRows
    rcases t with _ | t
    · rfl
    · rw [List.getD_cons_succ, col_next, ih (y + 1) t (by omega), show y + 1 + t = y + (t + 1) by omega]

/-- `fast_box_sum` sums over windows. -/
theorem fastBoxSum_spec (im : Image α) (kx ky : Nat) (hk : kx % 2 = 1 ∧ ky % 2 = 1) (hx : kx ≤ im.cols) (_hy : ky ≤ im.rows) :
    ∃ s, fastBoxSum im kx ky = .ok s ∧ s.cols = im.cols - kx + 1 ∧ s.rows = im.rows - ky + 1 ∧
      ∀ x y, x + kx ≤ im.cols → y + ky ≤ im.rows → s.px x y = ∑ i ∈ range kx, ∑ j ∈ range ky, im.px (x + i) (y + j) := by
  unfold fastBoxSum
  rw [if_neg (by simpa using hk)]
  refine ⟨_, rfl, rfl, rfl, ?_⟩
  intro x y h1 h2
  dsimp only
  rw [colStart_eq, boxRows_get im kx ky _ 0 y (by omega), Nat.zero_add]
  unfold colSpec
  rw [line_eq _ _ _ hx, List.getD_eq_getElem?_getD, List.getElem?_map, List.getElem?_range (by omega)]
  rfl

/-! ### The search -/

theorem better_iff (t : Cost) (a b : α) : better t a b ↔ Beats t a b := by
  cases t <;> simp [better, Beats]

theorem beats_irrefl (t : Cost) (a : α) : ¬ Beats t a a := by unfold Beats; split <;> exact lt_irrefl _

theorem beats_trans {t : Cost} {a b c : α} (h : Beats t a b) (h' : Beats t b c) : Beats t a c := by
  unfold Beats at *
  by_cases ht : t = .ncc
  · rw [if_pos ht] at *; exact lt_trans h' h
  · rw [if_neg ht] at *; exact lt_trans h h'

theorem beats_total (t : Cost) (a b : α) : Beats t a b ∨ a = b ∨ Beats t b a := by
  unfold Beats
  by_cases ht : t = .ncc
  · simp only [if_pos ht]; rcases lt_trichotomy a b with h | h | h
    · exact .inr (.inr h)
    · exact .inr (.inl h)
    · exact .inl h
  · simp only [if_neg ht]; exact lt_trichotomy a b

theorem not_beats_trans {t : Cost} {a b c : α} (h : ¬ Beats t a b) (h' : Beats t c b) : Beats t c a := by
  rcases beats_total t a b with h1 | h1 | h1
  · exact absurd h1 h
  · rw [h1]; exact h'
  · exact beats_trans h' h1

/-- What is known of a pixel when the disparities `done` have been tried and `c` are their scores. -/
structure Inv (t : Cost) (c : Nat × Nat → α) (done : List (Nat × Nat)) (b : Best α) : Prop where
  first : b.first = c b.disp
  mem : b.disp ∈ done
  best : ∀ d ∈ done, ¬ Beats t (c d) b.first
  early : ∃ pre post, done = pre ++ b.disp :: post ∧ ∀ d ∈ pre, Beats t b.first (c d)
  second : ∃ d ∈ done, b.second = c d
  worst : ∀ d ∈ done, ¬ Beats t b.second (c d)

theorem update_inv (t : Cost) (c : Nat × Nat → α) (done : List (Nat × Nat)) (b : Best α) (d : Nat × Nat) (hd : d ≠ (0, 0))
    (h : Inv t c done b) : Inv t c (done ++ [d]) (update t (c d) d b) := by
  unfold update
  rw [if_pos hd]
  obtain ⟨pre, post, he, hpre⟩ := h.early
  obtain ⟨ds, hds, hsec⟩ := h.second
  by_cases h1 : better t (c d) b.first
  · rw [if_pos h1]
    rw [better_iff] at h1
    have hall : ∀ e ∈ done, Beats t (c d) (c e) := fun e he => not_beats_trans (h.best e he) h1
    refine ⟨rfl, by simp, ?_, ⟨done, [], rfl, hall⟩, ⟨ds, List.mem_append_left _ hds, hsec⟩, ?_⟩
    · intro e he
      rcases List.mem_append.mp he with he | he
      · exact fun hb => beats_irrefl t _ (beats_trans hb (hall e he))
      · rw [List.mem_singleton] at he; rw [he]; exact beats_irrefl t _
    · intro e he
      rcases List.mem_append.mp he with he | he
      · exact h.worst e he
      · rw [List.mem_singleton] at he; rw [he]
        intro hb
        have : Beats t b.second b.first := beats_trans hb h1
        rw [h.first] at this
        exact h.worst _ h.mem this
  · rw [if_neg h1]
    rw [better_iff] at h1
    have best' : ∀ e ∈ done ++ [d], ¬ Beats t (c e) b.first := by
      intro e he
      rcases List.mem_append.mp he with he | he
      · exact h.best e he
      · rw [List.mem_singleton] at he; rw [he]; exact h1
    have early' : ∃ pre post, done ++ [d] = pre ++ b.disp :: post ∧ ∀ d ∈ pre, Beats t b.first (c d) :=
      ⟨pre, post ++ [d], by rw [he]; simp, hpre⟩
    by_cases h2 : ¬ better t (c d) b.second
    · rw [if_pos h2]
      rw [better_iff] at h2
      refine ⟨h.first, List.mem_append_left _ h.mem, best', early', ⟨d, by simp, rfl⟩, ?_⟩
      intro e he
      rcases List.mem_append.mp he with he | he
      · intro hb
        have hb : Beats t (c d) (c e) := hb
        rcases beats_total t (c d) b.second with h3 | h3 | h3
        · exact h2 h3
        · rw [h3] at hb; exact h.worst e he hb
        · exact h.worst e he (beats_trans h3 hb)
      · rw [List.mem_singleton] at he; rw [he]; exact beats_irrefl t _
    · rw [if_neg h2]
      rw [better_iff] at h2
      refine ⟨h.first, List.mem_append_left _ h.mem, best', early', ⟨ds, List.mem_append_left _ hds, hsec⟩, ?_⟩
      intro e he
      rcases List.mem_append.mp he with he | he
      · exact h.worst e he
      · rw [List.mem_singleton] at he; rw [he]
        intro hb
        exact beats_irrefl t _ (beats_trans hb (not_not.mp h2))

theorem mem_disparities (sx sy : Nat) (d : Nat × Nat) : d ∈ disparities sx sy ↔ d.1 < sx ∧ d.2 < sy := by
  unfold disparities
  simp only [List.mem_flatMap, List.mem_map, List.mem_range]
  constructor
  · rintro ⟨y, hy, x, hx, rfl⟩; exact ⟨hx, hy⟩
  · rintro ⟨h1, h2⟩; exact ⟨d.2, h2, d.1, h1, rfl⟩

theorem disparities_sorted (sx sy : Nat) : (disparities sx sy).Pairwise Earlier := by
  unfold disparities
  rw [List.pairwise_flatMap]
  constructor
  · intro y _
    rw [List.pairwise_map]
    exact List.pairwise_lt_range.imp fun h => .inr ⟨rfl, h⟩
  · refine List.pairwise_lt_range.imp ?_
    intro a b hab d hd e he
    simp only [List.mem_map] at hd he
    obtain ⟨_, _, rfl⟩ := hd
    obtain ⟨_, _, rfl⟩ := he
    exact .inl hab

theorem disparities_head (sx sy : Nat) (hx : 0 < sx) (hy : 0 < sy) :
    ∃ ds, disparities sx sy = (0, 0) :: ds ∧ ∀ d ∈ ds, d ≠ (0, 0) := by
  have hs := disparities_sorted sx sy
  have h0 : ∃ ds, disparities sx sy = (0, 0) :: ds := by
    unfold disparities
    obtain ⟨sx, rfl⟩ : ∃ n, sx = n + 1 := ⟨sx - 1, by omega⟩
    obtain ⟨sy, rfl⟩ : ∃ n, sy = n + 1 := ⟨sy - 1, by omega⟩
    rw [List.range_succ_eq_map (n := sy), List.flatMap_cons, List.range_succ_eq_map (n := sx), List.map_cons]
    exact ⟨_, rfl⟩
  obtain ⟨ds, hds⟩ := h0
  refine ⟨ds, hds, ?_⟩
  rw [hds, List.pairwise_cons] at hs
  intro d hd e
  have := hs.1 d hd
  rw [e] at this
  rcases this with h | ⟨_, h⟩ <;> exact absurd h (Nat.lt_irrefl 0)

/-- The metric of one disparity. -/
theorem metric_spec (sqrt : α → α) (t : Cost) (left right lp rp : Image α) (kx ky dx dy : Nat) (hk : kx % 2 = 1 ∧ ky % 2 = 1)
    (hx : kx ≤ left.cols) (hy : ky ≤ left.rows) :
    ∃ c, metric sqrt t left right lp rp kx ky dx dy = .ok c ∧ ∀ x y, x + kx ≤ left.cols → y + ky ≤ left.rows →
      c.px x y = (∑ i ∈ range kx, ∑ j ∈ range ky, pixelCost t (left.px (x + i) (y + j)) (right.px (x + i + dx) (y + j + dy))) *
        (if t = .ncc then sqrt (lp.px x y * rp.px (x + dx) (y + dy)) else 1) := by
  obtain ⟨s, h1, _, _, h2⟩ := fastBoxSum_spec
    (⟨left.cols, left.rows, fun x y => pixelCost t (left.px x y) (right.px (x + dx) (y + dy))⟩ : Image α) kx ky hk hx hy
  refine ⟨modify sqrt t lp rp s dx dy, ?_, ?_⟩
  · unfold metric
    dsimp only
    rw [h1]
  · intro x y hx' hy'
    have := h2 x y hx' hy'
    cases t
    · show s.px x y = _
      rw [this, if_neg (by decide), mul_one]
    · show s.px x y = _
      rw [this, if_neg (by decide), mul_one]
    · show s.px x y * _ = _
      rw [this, if_pos rfl]

theorem search_spec (sqrt : α → α) (t : Cost) (left right lp rp : Image α) (kx ky : Nat) (hk : kx % 2 = 1 ∧ ky % 2 = 1)
    (hx : kx ≤ left.cols) (hy : ky ≤ left.rows) (S : Nat → Nat → Nat × Nat → α)
    (hS : ∀ d c, metric sqrt t left right lp rp kx ky d.1 d.2 = .ok c → ∀ x y, x + kx ≤ left.cols → y + ky ≤ left.rows →
      c.px x y = S x y d)
    (ds : List (Nat × Nat)) : ∀ (done : List (Nat × Nat)) (m : Nat → Nat → Best α), (∀ d ∈ ds, d ≠ (0, 0)) →
      (∀ x y, x + kx ≤ left.cols → y + ky ≤ left.rows → Inv t (S x y) done (m x y)) →
      ∃ m', search sqrt t left right lp rp kx ky ds m = .ok m' ∧
        ∀ x y, x + kx ≤ left.cols → y + ky ≤ left.rows → Inv t (S x y) (done ++ ds) (m' x y) := by
  induction ds with
  | nil => intro done m _ h; exact ⟨m, rfl, by simpa using h⟩
  | cons d ds ih =>
    intro done m hne h
    obtain ⟨c, hc, _⟩ := metric_spec sqrt t left right lp rp kx ky d.1 d.2 hk hx hy
    obtain ⟨m', h1, h2⟩ := ih (done ++ [d]) (fun x y => update t (c.px x y) d (m x y))
      (fun e he => hne e (List.mem_cons_of_mem _ he)) (by
        intro x y hx' hy'
        have := update_inv t (S x y) done (m x y) d (hne d (by simp)) (h x y hx' hy')
        rw [← hS d c hc x y hx' hy'] at this
        exact this)
    refine ⟨m', ?_, by simpa using h2⟩
    unfold search
    rw [hc]
    exact h1

/-- Sums over windows of an image cut out of another one. -/
theorem window_cast (f : Int → Int → α) (mx my : Int) (x y kx ky : Nat) :
    ∑ i ∈ range kx, ∑ j ∈ range ky, f (mx + ((x + i : Nat) : Int)) (my + ((y + j : Nat) : Int)) = windowSum f (mx + x) (my + y) kx ky := by
  unfold windowSum
  refine sum_congr rfl fun i _ => sum_congr rfl fun j _ => ?_
  congr 1 <;> push_cast <;> ring

theorem abs_pixel (a b : α) [IsStrictOrderedRing α] : pixelCost .absolute a b = max (a - b) (b - a) := by
  show (if a < b then b - a else a - b) = _
  by_cases h : a < b
  · rw [if_pos h, max_eq_right (by linarith)]
  · rw [if_neg h, max_eq_left (by linarith [not_lt.mp h])]

theorem precision_spec (im : Image α) (kx ky : Nat) (hk : kx % 2 = 1 ∧ ky % 2 = 1) (hx : kx ≤ im.cols) (hy : ky ≤ im.rows) (t : Cost) :
    ∃ p, precision t im kx ky = .ok p ∧ (t = .ncc → ∀ x y, x + kx ≤ im.cols → y + ky ≤ im.rows →
      p.px x y = 1 / ∑ i ∈ range kx, ∑ j ∈ range ky, im.px (x + i) (y + j) ^ 2) := by
  cases t
  · exact ⟨_, rfl, fun h => by cases h⟩
  · exact ⟨_, rfl, fun h => by cases h⟩
  · obtain ⟨s, h1, _, _, h2⟩ := fastBoxSum_spec (square im) kx ky hk hx hy
    refine ⟨_, by unfold precision; rw [h1], fun _ x y h3 h4 => ?_⟩
    dsimp only
    rw [h2 x y h3 h4]
    unfold square
    simp only [sq]

variable [IsStrictOrderedRing α]

/-- **C59**: for every pixel of the region (but for the rim the kernel needs), `calc_disparity` returns a disparity in the search
range that no other disparity in the range beats, the first such one, and marks it invalid exactly if all disparities in the range
score the same. -/
theorem disparity_best (sqrt : α → α) (t : Cost) (l r : Int → Int → α) (mx my : Int) (w h sx sy kx ky : Nat)
    (hk : kx % 2 = 1 ∧ ky % 2 = 1) (hw : kx ≤ w) (hh : ky ≤ h) (hsx : 0 < sx) (hsy : 0 < sy) :
    ∃ out, calcDisparity sqrt t l r mx my w h sx sy kx ky = .ok out ∧ out.cols = w - kx + 1 ∧ out.rows = h - ky + 1 ∧
      ∀ x y, x < out.cols → y < out.rows → ∃ d valid, out.px x y = (d, valid) ∧ d.1 < sx ∧ d.2 < sy ∧
        (∀ e : Nat × Nat, e.1 < sx → e.2 < sy →
          ¬ Beats t (score sqrt t l r kx ky (mx + x) (my + y) e) (score sqrt t l r kx ky (mx + x) (my + y) d)) ∧
        (∀ e : Nat × Nat, e.1 < sx → e.2 < sy → Earlier e d →
          Beats t (score sqrt t l r kx ky (mx + x) (my + y) d) (score sqrt t l r kx ky (mx + x) (my + y) e)) ∧
        (valid = true ↔ ∃ e e' : Nat × Nat, e.1 < sx ∧ e.2 < sy ∧ e'.1 < sx ∧ e'.2 < sy ∧
          score sqrt t l r kx ky (mx + x) (my + y) e ≠ score sqrt t l r kx ky (mx + x) (my + y) e') := by
  unfold calcDisparity bestOf
  dsimp only
  generalize hL : (⟨w, h, fun x y => l (mx + x) (my + y)⟩ : Image α) = left
  generalize hR : (⟨w + sx - 1, h + sy - 1, fun x y => r (mx + x) (my + y)⟩ : Image α) = right
  have lw : left.cols = w := by rw [← hL]
  have lh : left.rows = h := by rw [← hL]
  have rw' : right.cols = w + sx - 1 := by rw [← hR]
  have rh : right.rows = h + sy - 1 := by rw [← hR]
  have lpx : ∀ x y : Nat, left.px x y = l (mx + x) (my + y) := fun x y => by rw [← hL]
  have rpx : ∀ x y : Nat, right.px x y = r (mx + x) (my + y) := fun x y => by rw [← hR]
  obtain ⟨lp, hlp, hlp2⟩ := precision_spec left kx ky hk (by omega) (by omega) t
  obtain ⟨rp, hrp, hrp2⟩ := precision_spec right kx ky hk (by omega) (by omega) t
  rw [hlp]; dsimp only
  rw [hrp]; dsimp only
  -- the metric is the score
  have key : ∀ d : Nat × Nat, d.1 < sx → d.2 < sy → ∀ c, metric sqrt t left right lp rp kx ky d.1 d.2 = .ok c →
      ∀ x y, x + kx ≤ left.cols → y + ky ≤ left.rows → c.px x y = score sqrt t l r kx ky (mx + x) (my + y) d := by
    intro d hd1 hd2 c hc x y hx hy
    obtain ⟨c', hc', hpx⟩ := metric_spec sqrt t left right lp rp kx ky d.1 d.2 hk (by omega) (by omega)
    rw [hc] at hc'
    cases hc'
    rw [hpx x y hx hy]
    have e1 : ∀ i j : Nat, right.px (x + i + d.1) (y + j + d.2) = r (mx + ((x + i : Nat) : Int) + d.1) (my + ((y + j : Nat) : Int) + d.2) := by
      intro i j
      rw [rpx]; congr 1 <;> push_cast <;> ring
    have e1' : ∀ i j : Nat, right.px (x + d.1 + i) (y + d.2 + j) = r (mx + ((x + i : Nat) : Int) + d.1) (my + ((y + j : Nat) : Int) + d.2) := by
      intro i j
      rw [rpx]; congr 1 <;> push_cast <;> ring
    cases t
    · rw [if_neg (by decide), mul_one]
      simp only [abs_pixel, e1, lpx]
      exact window_cast (fun u v => max (l u v - r (u + d.1) (v + d.2)) (r (u + d.1) (v + d.2) - l u v)) mx my x y kx ky
    · rw [if_neg (by decide), mul_one]
      simp only [pixelCost, e1, lpx, ← sq]
      exact window_cast (fun u v => (l u v - r (u + d.1) (v + d.2)) ^ 2) mx my x y kx ky
    · rw [if_pos rfl, hlp2 rfl x y hx hy, hrp2 rfl (x + d.1) (y + d.2) (by omega) (by omega)]
      simp only [pixelCost, e1, e1', lpx]
      unfold score
      dsimp only
      rw [window_cast (fun u v => l u v * r (u + d.1) (v + d.2)) mx my x y kx ky, window_cast (fun u v => l u v ^ 2) mx my x y kx ky,
        window_cast (fun u v => r (u + d.1) (v + d.2) ^ 2) mx my x y kx ky]
  obtain ⟨ds, hds, hne⟩ := disparities_head sx sy hsx hsy
  have hmem : ∀ d, d ∈ (0, 0) :: ds ↔ d.1 < sx ∧ d.2 < sy := fun d => by rw [← hds]; exact mem_disparities sx sy d
  have hsort : ((0, 0) :: ds).Pairwise Earlier := hds ▸ disparities_sorted sx sy
  rw [hds]
  obtain ⟨c0, hc0, _⟩ := metric_spec sqrt t left right lp rp kx ky 0 0 hk (by omega) (by omega)
  -- scores outside of the range do not matter: extend the metric
  let S : Nat → Nat → Nat × Nat → α := fun x y d =>
    match metric sqrt t left right lp rp kx ky d.1 d.2 with
    | .error _ => 0
    | .ok c => c.px x y
  have hS : ∀ d c, metric sqrt t left right lp rp kx ky d.1 d.2 = .ok c → ∀ x y, x + kx ≤ left.cols → y + ky ≤ left.rows →
      c.px x y = S x y d := by
    intro d c hc x y _ _
    show _ = (match metric sqrt t left right lp rp kx ky d.1 d.2 with | .error _ => 0 | .ok c => c.px x y)
    rw [hc]
  have hS2 : ∀ d : Nat × Nat, d.1 < sx → d.2 < sy → ∀ x y, x + kx ≤ left.cols → y + ky ≤ left.rows →
      S x y d = score sqrt t l r kx ky (mx + x) (my + y) d := by
    intro d hd1 hd2 x y hx hy
    obtain ⟨c, hc, _⟩ := metric_spec sqrt t left right lp rp kx ky d.1 d.2 hk (by omega) (by omega)
    rw [← hS d c hc x y hx hy]
    exact key d hd1 hd2 c hc x y hx hy
  obtain ⟨m, hm, hinv⟩ := search_spec sqrt t left right lp rp kx ky hk (by omega) (by omega) S hS ds [(0, 0)]
    (fun x y => update t (c0.px x y) (0, 0) ⟨0, 0, (0, 0)⟩) hne (by
      intro x y hx hy
      have e := hS (0, 0) c0 hc0 x y hx hy
      unfold update
      rw [if_neg (by simp), e]
      exact ⟨rfl, by simp, fun d hd => by rw [List.mem_singleton] at hd; rw [hd]; exact beats_irrefl t _,
        ⟨[], [], rfl, fun d hd => by cases hd⟩, ⟨(0, 0), by simp, rfl⟩,
        fun d hd => by rw [List.mem_singleton] at hd; rw [hd]; exact beats_irrefl t _⟩)
  have hsr : search sqrt t left right lp rp kx ky ((0, 0) :: ds) (fun _ _ => ⟨0, 0, (0, 0)⟩) = .ok m := by
    unfold search
    rw [hc0]
    exact hm
  rw [hsr]
  refine ⟨_, rfl, rfl, rfl, ?_⟩
  intro x y hx hy
  have hx' : x + kx ≤ left.cols := by dsimp only at hx; omega
  have hy' : y + ky ≤ left.rows := by dsimp only at hy; omega
  have I := hinv x y hx' hy'
  dsimp only
  generalize m x y = b at I ⊢
  have hb := (hmem b.disp).mp I.mem
  have E : ∀ e : Nat × Nat, e.1 < sx → e.2 < sy → score sqrt t l r kx ky (mx + x) (my + y) e = S x y e :=
    fun e h1 h2 => (hS2 e h1 h2 x y hx' hy').symm
  refine ⟨_, _, rfl, hb.1, hb.2, ?_, ?_, ?_⟩
  · intro e h1 h2
    rw [E e h1 h2, E _ hb.1 hb.2, ← I.first]
    exact I.best e ((hmem e).mpr ⟨h1, h2⟩)
  · intro e h1 h2 he
    rw [E e h1 h2, E _ hb.1 hb.2, ← I.first]
    obtain ⟨pre, post, hpp, hpre⟩ := I.early
    apply hpre
    have hem : e ∈ pre ++ b.disp :: post := by rw [← hpp]; exact (hmem e).mpr ⟨h1, h2⟩
    rcases List.mem_append.mp hem with h | h
    · exact h
    · exfalso
      have irr : ∀ d : Nat × Nat, ¬ Earlier d d := by
        rintro d (h | ⟨_, h⟩) <;> exact absurd h (Nat.lt_irrefl _)
      rcases List.mem_cons.mp h with h | h
      · rw [h] at he; exact irr _ he
      · have hs : (pre ++ b.disp :: post).Pairwise Earlier := by rw [← hpp]; exact hsort
        have := (List.pairwise_cons.mp (List.pairwise_append.mp hs).2.1).1 e h
        rcases this with h3 | ⟨h3, h4⟩ <;> rcases he with h5 | ⟨h5, h6⟩ <;> omega
  · rw [decide_eq_true_eq]
    obtain ⟨s, hs, hsec⟩ := I.second
    have hsr := (hmem s).mp hs
    constructor
    · intro hne
      refine ⟨b.disp, s, hb.1, hb.2, hsr.1, hsr.2, ?_⟩
      rw [E _ hb.1 hb.2, E s hsr.1 hsr.2, ← I.first, ← hsec]; exact hne
    · rintro ⟨e, e', h1, h2, h3, h4, hne⟩ heq
      apply hne
      rw [E e h1 h2, E e' h3 h4]
      have : ∀ f : Nat × Nat, f.1 < sx → f.2 < sy → S x y f = b.first := by
        intro f hf1 hf2
        have hf := (hmem f).mpr ⟨hf1, hf2⟩
        rcases beats_total t (S x y f) b.first with h | h | h
        · exact absurd h (I.best f hf)
        · exact h
        · rw [heq] at h; exact absurd h (I.worst f hf)
      rw [this e h1 h2, this e' h3 h4]

/-- **C59 (even kernels)** are refused. -/
theorem even_refused (sqrt : α → α) (t : Cost) (l r : Int → Int → α) (mx my : Int) (w h sx sy kx ky : Nat)
    (hk : ¬ (kx % 2 = 1 ∧ ky % 2 = 1)) (hsx : 0 < sx) (hsy : 0 < sy) :
    ∃ e, calcDisparity sqrt t l r mx my w h sx sy kx ky = .error e := by
  have hf : ∀ im : Image α, fastBoxSum im kx ky = .error "fast_box_sum: Kernel input not sized with odd values." := by
    intro im; unfold fastBoxSum; rw [if_pos hk]
  obtain ⟨ds, hds, _⟩ := disparities_head sx sy hsx hsy
  unfold calcDisparity bestOf
  dsimp only
  cases t
  · simp only [precision, hds]
    unfold search metric
    simp only [hf]
    exact ⟨_, rfl⟩
  · simp only [precision, hds]
    unfold search metric
    simp only [hf]
    exact ⟨_, rfl⟩
  · simp only [precision, hf]
    exact ⟨_, rfl⟩

/-- **C59 (one disparity)**: with a search range of a single disparity nothing is ever valid. -/
theorem single_invalid (sqrt : α → α) (t : Cost) (l r : Int → Int → α) (mx my : Int) (w h kx ky : Nat)
    (hk : kx % 2 = 1 ∧ ky % 2 = 1) (hw : kx ≤ w) (hh : ky ≤ h) :
    ∃ out, calcDisparity sqrt t l r mx my w h 1 1 kx ky = .ok out ∧
      ∀ x y, x < out.cols → y < out.rows → (out.px x y).2 = false := by
  obtain ⟨out, h1, _, _, h2⟩ := disparity_best sqrt t l r mx my w h 1 1 kx ky hk hw hh (by decide) (by decide)
  refine ⟨out, h1, fun x y hx hy => ?_⟩
  obtain ⟨d, v, h3, _, _, _, _, h4⟩ := h2 x y hx hy
  rw [h3]
  rcases v with _ | _
  · rfl
  · obtain ⟨e, e', a, b, c, d, hne⟩ := h4.mp rfl
    exfalso
    apply hne
    have : e = e' := Prod.ext (by omega) (by omega)
    rw [this]

/-! ### Shifted images -/

theorem windowSum_nonneg (f : Int → Int → α) (x y : Int) (kx ky : Nat) (h : ∀ u v, 0 ≤ f u v) : 0 ≤ windowSum f x y kx ky :=
  sum_nonneg fun _ _ => sum_nonneg fun _ _ => h _ _

theorem windowSum_zero (f : Int → Int → α) (x y : Int) (kx ky : Nat) (h : ∀ u v, 0 ≤ f u v) (h0 : windowSum f x y kx ky = 0) :
    ∀ i < kx, ∀ j < ky, f (x + i) (y + j) = 0 := by
  intro i hi j hj
  unfold windowSum at h0
  have h1 := (sum_eq_zero_iff_of_nonneg (fun i _ => sum_nonneg fun j _ => h _ _)).mp h0 i (mem_range.mpr hi)
  exact (sum_eq_zero_iff_of_nonneg (fun j _ => h _ _)).mp h1 j (mem_range.mpr hj)

/-- **C59 (copies are found)**: if the window occurs in the right image at some disparity in the range, then the disparity returned
(for absolute and squared differences) is one where it occurs, pixel for pixel. -/
theorem copy_found (sqrt : α → α) (t : Cost) (ht : t ≠ .ncc) (l r : Int → Int → α) (mx my : Int) (w h sx sy kx ky : Nat)
    (hk : kx % 2 = 1 ∧ ky % 2 = 1) (hw : kx ≤ w) (hh : ky ≤ h) (x y : Nat) (hx : x + kx ≤ w) (hy : y + ky ≤ h)
    (d0 : Nat × Nat) (h1 : d0.1 < sx) (h2 : d0.2 < sy)
    (hcopy : ∀ i < kx, ∀ j < ky, r (mx + x + i + d0.1) (my + y + j + d0.2) = l (mx + x + i) (my + y + j)) :
    ∃ out d valid, calcDisparity sqrt t l r mx my w h sx sy kx ky = .ok out ∧ out.px x y = (d, valid) ∧
      ∀ i < kx, ∀ j < ky, r (mx + x + i + d.1) (my + y + j + d.2) = l (mx + x + i) (my + y + j) := by
  obtain ⟨out, ho, hc, hr, hbest⟩ := disparity_best sqrt t l r mx my w h sx sy kx ky hk hw hh (by omega) (by omega)
  obtain ⟨d, valid, hp, _, _, hb, _, _⟩ := hbest x y (by omega) (by omega)
  refine ⟨out, d, valid, ho, hp, ?_⟩
  have hb := hb d0 h1 h2
  have z : ∀ (f : α → α → α), (∀ a, f a a = 0) →
      windowSum (fun u v => f (l u v) (r (u + d0.1) (v + d0.2))) (mx + x) (my + y) kx ky = 0 := by
    intro f hf
    unfold windowSum
    refine sum_eq_zero fun i hi => sum_eq_zero fun j hj => ?_
    rw [mem_range] at hi hj
    show f _ _ = 0
    rw [hcopy i hi j hj]; exact hf _
  unfold Beats at hb
  rw [if_neg ht, not_lt] at hb
  cases t
  · have z0 := z (fun a b => max (a - b) (b - a)) (by intro a; simp)
    have hle : score sqrt .absolute l r kx ky (mx + x) (my + y) d ≤ 0 := by
      refine le_trans hb (le_of_eq ?_); exact z0
    have nn : ∀ u v : Int, 0 ≤ max (l u v - r (u + d.1) (v + d.2)) (r (u + d.1) (v + d.2) - l u v) := by
      intro u v
      rcases le_total (l u v) (r (u + d.1) (v + d.2)) with h | h
      · exact le_max_of_le_right (by linarith)
      · exact le_max_of_le_left (by linarith)
    have hz := le_antisymm hle (windowSum_nonneg _ _ _ kx ky nn)
    intro i hi j hj
    have := windowSum_zero _ _ _ kx ky nn hz i hi j hj
    have a1 := le_max_left (l (mx + x + i) (my + y + j) - r (mx + x + i + d.1) (my + y + j + d.2))
      (r (mx + x + i + d.1) (my + y + j + d.2) - l (mx + x + i) (my + y + j))
    have a2 := le_max_right (l (mx + x + i) (my + y + j) - r (mx + x + i + d.1) (my + y + j + d.2))
      (r (mx + x + i + d.1) (my + y + j + d.2) - l (mx + x + i) (my + y + j))
    rw [this] at a1 a2
    linarith
  · have z0 := z (fun a b => (a - b) ^ 2) (by intro a; simp)
    have hle : score sqrt .squared l r kx ky (mx + x) (my + y) d ≤ 0 := by
      refine le_trans hb (le_of_eq ?_); exact z0
    have nn : ∀ u v : Int, 0 ≤ (l u v - r (u + d.1) (v + d.2)) ^ 2 := fun u v => sq_nonneg _
    have hz := le_antisymm hle (windowSum_nonneg _ _ _ kx ky nn)
    intro i hi j hj
    have := windowSum_zero _ _ _ kx ky nn hz i hi j hj
    have := pow_eq_zero_iff (two_ne_zero) |>.mp this
    linarith
  · exact absurd rfl ht

end

/-! ### Normalized cross correlation over the reals -/

theorem windowSum_pair (f : Int → Int → ℝ) (x y : Int) (kx ky : Nat) :
    windowSum f x y kx ky = ∑ p ∈ range kx ×ˢ range ky, f (x + p.1) (y + p.2) := by
  unfold windowSum
  rw [sum_product]

/-- A correlation is at most one. -/
theorem ncc_le_one (l r : Int → Int → ℝ) (kx ky : Nat) (x y : Int) (d : Nat × Nat) : score Real.sqrt .ncc l r kx ky x y d ≤ 1 := by
  unfold score
  dsimp only
  rw [windowSum_pair, windowSum_pair, windowSum_pair]
  have cs := sum_mul_sq_le_sq_mul_sq (range kx ×ˢ range ky) (fun p => l (x + p.1) (y + p.2))
    (fun p => r (x + p.1 + d.1) (y + p.2 + d.2))
  generalize ∑ p ∈ range kx ×ˢ range ky, l (x + p.1) (y + p.2) * r (x + p.1 + d.1) (y + p.2 + d.2) = S at *
  have nA : 0 ≤ ∑ p ∈ range kx ×ˢ range ky, l (x + p.1) (y + p.2) ^ 2 := sum_nonneg fun _ _ => sq_nonneg _
  have nB : 0 ≤ ∑ p ∈ range kx ×ˢ range ky, r (x + p.1 + d.1) (y + p.2 + d.2) ^ 2 := sum_nonneg fun _ _ => sq_nonneg _
  generalize ∑ p ∈ range kx ×ˢ range ky, l (x + p.1) (y + p.2) ^ 2 = A at *
  generalize ∑ p ∈ range kx ×ˢ range ky, r (x + p.1 + d.1) (y + p.2 + d.2) ^ 2 = B at *
  have e : 1 / A * (1 / B) = 1 / (A * B) := by rw [one_div_mul_one_div]
  rw [e]
  rcases eq_or_lt_of_le (mul_nonneg nA nB) with h | h
  · rw [← h]; simp
  · have hs : 0 < Real.sqrt (A * B) := Real.sqrt_pos.mpr h
    rw [Real.sqrt_div zero_le_one, Real.sqrt_one, mul_one_div, div_le_one hs]
    exact Real.le_sqrt_of_sq_le cs

/-- The correlation of a window with a brighter or darker copy of itself is one. -/
theorem ncc_copy (l r : Int → Int → ℝ) (kx ky : Nat) (x y : Int) (d : Nat × Nat) (g : ℝ) (hg : 0 < g)
    (hcopy : ∀ i < kx, ∀ j < ky, r (x + i + d.1) (y + j + d.2) = g * l (x + i) (y + j))
    (hne : ∃ i < kx, ∃ j < ky, l (x + i) (y + j) ≠ 0) : score Real.sqrt .ncc l r kx ky x y d = 1 := by
  unfold score
  dsimp only
  have e1 : windowSum (fun u v => l u v * r (u + d.1) (v + d.2)) x y kx ky = g * windowSum (fun u v => l u v ^ 2) x y kx ky := by
    unfold windowSum
    rw [mul_sum]
    refine sum_congr rfl fun i hi => ?_
    rw [mul_sum]
    refine sum_congr rfl fun j hj => ?_
    dsimp only
    rw [hcopy i (mem_range.mp hi) j (mem_range.mp hj)]; ring
  have e2 : windowSum (fun u v => r (u + d.1) (v + d.2) ^ 2) x y kx ky = g ^ 2 * windowSum (fun u v => l u v ^ 2) x y kx ky := by
    unfold windowSum
    rw [mul_sum]
    refine sum_congr rfl fun i hi => ?_
    rw [mul_sum]
    refine sum_congr rfl fun j hj => ?_
    dsimp only
    rw [hcopy i (mem_range.mp hi) j (mem_range.mp hj)]; ring
  have pos : 0 < windowSum (fun u v => l u v ^ 2) x y kx ky := by
    rcases eq_or_lt_of_le (windowSum_nonneg (fun u v => l u v ^ 2) x y kx ky fun u v => sq_nonneg _) with h | h
    · obtain ⟨i, hi, j, hj, hne⟩ := hne
      have := windowSum_zero (fun u v => l u v ^ 2) x y kx ky (fun u v => sq_nonneg _) h.symm i hi j hj
      exact absurd (pow_eq_zero_iff (two_ne_zero) |>.mp this) hne
    · exact h
  rw [e1, e2]
  generalize windowSum (fun u v => l u v ^ 2) x y kx ky = A at *
  have e : 1 / A * (1 / (g ^ 2 * A)) = (1 / (g * A)) ^ 2 := by
    field_simp
  rw [e, Real.sqrt_sq (by positivity)]
  field_simp

/-- **C59 (copies are found, cross correlation)**: if a brighter, darker or equal copy of the window is in the range, the disparity
returned has the highest correlation there is, one. -/
theorem ncc_found (l r : Int → Int → ℝ) (mx my : Int) (w h sx sy kx ky : Nat)
    (hk : kx % 2 = 1 ∧ ky % 2 = 1) (hw : kx ≤ w) (hh : ky ≤ h) (x y : Nat) (hx : x + kx ≤ w) (hy : y + ky ≤ h)
    (d0 : Nat × Nat) (h1 : d0.1 < sx) (h2 : d0.2 < sy) (g : ℝ) (hg : 0 < g)
    (hcopy : ∀ i < kx, ∀ j < ky, r (mx + x + i + d0.1) (my + y + j + d0.2) = g * l (mx + x + i) (my + y + j))
    (hne : ∃ i < kx, ∃ j < ky, l (mx + x + i) (my + y + j) ≠ 0) :
    ∃ out d valid, calcDisparity Real.sqrt .ncc l r mx my w h sx sy kx ky = .ok out ∧ out.px x y = (d, valid) ∧
      score Real.sqrt .ncc l r kx ky (mx + x) (my + y) d = 1 := by
  obtain ⟨out, ho, hc, hr, hbest⟩ := disparity_best Real.sqrt .ncc l r mx my w h sx sy kx ky hk hw hh (by omega) (by omega)
  obtain ⟨d, valid, hp, _, _, hb, _, _⟩ := hbest x y (by omega) (by omega)
  refine ⟨out, d, valid, ho, hp, ?_⟩
  have hb := hb d0 h1 h2
  unfold Beats at hb
  rw [if_pos rfl, not_lt, ncc_copy l r kx ky _ _ d0 g hg hcopy hne] at hb
  exact le_antisymm (ncc_le_one l r kx ky _ _ d) hb

/-- A run of the model: a 5 by 4 image and its copy shifted by (2, 1), kernel 3 by 3, search range 4 by 3. -/
def l0 : Int → Int → ℚ := fun x y => (((x * x * 3 + y * y * x + 2 * y + 7 * x) % 11 : Int) : ℚ)

theorem sample : (match calcDisparity (fun a => a) .absolute l0 (fun x y => l0 (x - 2) (y - 1)) 0 0 5 4 4 3 3 3 with
    | .error _ => false
    | .ok o => o.cols == 3 && o.rows == 2 &&
      (List.range 3).all fun x => (List.range 2).all fun y => o.px x y == ((2, 1), true)) = true := by
  decide +kernel

end VW.Corr
