import Verif.Window.Model
import Verif.Stats.Props
import Verif.Stats.Acc
import Verif.Stats.Brackets
import Mathlib.Tactic.Linarith
import Mathlib.Tactic.NormNum
import Mathlib.Tactic.Ring
import Mathlib.Tactic.SplitIfs
/-
Properties C157 (deviation filter) and C158 (median filter).
-/
namespace VW.Window
open VW.Stats

variable {K : Type} [Field K] [LinearOrder K] [IsStrictOrderedRing K] [FloorRing K]

/-! ### Specification -/

/-- The mean of the squared distances from the mean. -/
def popVar (l : List K) : K := (l.map (fun x => (x - l.sum / l.length) ^ 2)).sum / l.length

/-- The values of the w x h rectangle with its corner at (x0, y0), by columns. -/
def rect (v : Int → Int → K) (x0 y0 : Int) (w h : Nat) : List K :=
  (List.range w).flatMap fun (a : Nat) => (List.range h).map fun (b : Nat) => v (x0 + a) (y0 + b)

/-- The valid values of the w x h rectangle with its corner at (x0, y0), by rows. -/
def validIn (e : Ext K) (x0 y0 : Int) (w h : Nat) : List K :=
  (List.range h).flatMap fun (r : Nat) => (List.range w).filterMap fun (c : Nat) => e (x0 + c) (y0 + r)

/-! ### The loops of the deviation filter -/

theorem feed_loop {ι : Type} (L : List ι) (f : ι → Option (Option K)) (g : ι → K)
    (h : ∀ x ∈ L, f x = some (some (g x))) (s : Sliding K) :
    L.foldl (fun s x => feed s (f x)) (some s) = some ((L.map g).foldl Sliding.push s) := by
  induction L generalizing s with
  | nil => rfl
  | cons x L ih =>
    rw [List.foldl_cons, List.map_cons, List.foldl_cons, ← ih (fun y hy => h y (by simp [hy]))]
    congr 1
    unfold feed
    rw [h x (by simp)]
    rfl

theorem col_loop {ι : Type} (L : List ι) (F : Option (Sliding K) → ι → Option (Sliding K)) (h : ι → List K)
    (hF : ∀ x ∈ L, ∀ s, F (some s) x = some ((h x).foldl Sliding.push s)) (s : Sliding K) :
    L.foldl F (some s) = some ((L.flatMap h).foldl Sliding.push s) := by
  induction L generalizing s with
  | nil => rfl
  | cons x L ih =>
    rw [List.foldl_cons, hF x (by simp), ih (fun y hy => hF y (by simp [hy])), List.flatMap_cons, List.foldl_append]

/-- Column `a` of what is read for row `r` of the tile. -/
def colOf (v : Int → Int → K) (b : Box) (w h : Nat) (r : Nat) (a : Nat) : List K :=
  (List.range h).map fun (k : Nat) => v (b.x - half w + a) (b.y + r - half h + k)

theorem half_odd {h : Nat} (ho : h % 2 = 1) : (2 * half h + 1).toNat = h := by unfold half; omega

theorem feedColumn_spec (v : Int → Int → K) (w h : Nat) (b : Box) (ho : h % 2 = 1) (hle : half h ≤ half w) (r a : Nat)
    (hr : (r : Int) < b.h) (ha : (a : Int) < b.w + 2 * half w) (s : Sliding K) :
    feedColumn (copied (fun i j => some (v i j)) (larger b (half w))) (half w) (half h) a r (some s) =
      some ((colOf v b w h r a).foldl Sliding.push s) := by
  unfold feedColumn
  rw [feed_loop (span (half h)) _ (fun y => v (b.x - half w + a) (b.y + r + y))]
  · congr 2
    unfold span colOf
    rw [half_odd ho, List.map_map]
    apply List.map_congr_left
    intro k _
    simp only [Function.comp]
    congr 1
    ring
  · intro y hy
    unfold span at hy
    rw [half_odd ho] at hy
    simp only [List.mem_map, List.mem_range] at hy
    obtain ⟨k, hk, rfl⟩ := hy
    have : half h = (h / 2 : Nat) := rfl
    have h0 : (0 : Int) ≤ half w := by unfold half; omega
    unfold copied larger
    dsimp only
    rw [if_pos (by omega)]
    congr 3
    ring

theorem stdState_spec (v : Int → Int → K) (w h : Nat) (b : Box) (ho : h % 2 = 1) (hle : half h ≤ half w) (r c : Nat)
    (hr : (r : Int) < b.h) (hc : (c : Int) < b.w) :
    stdState (copied (fun i j => some (v i j)) (larger b (half w))) w h r c =
      some (((List.range (2 * (w / 2) + 1 + c)).flatMap (colOf v b w h r)).foldl Sliding.push (Sliding.new (w * h))) := by
  have hw0 : half w = (w / 2 : Nat) := rfl
  induction c with
  | zero =>
    unfold stdState
    rw [col_loop (span (half w)) _ (fun x => colOf v b w h r (x + half w).toNat)]
    · congr 2
      unfold span
      have : (2 * half w + 1).toNat = 2 * (w / 2) + 1 := by unfold half; omega
      rw [this, List.flatMap_map, Nat.add_zero]
      congr 1
      funext k
      congr 1
      omega
    · intro x hx s
      unfold span at hx
      simp only [List.mem_map, List.mem_range] at hx
      obtain ⟨k, hk, rfl⟩ := hx
      have e : (0 + ((k : Int) - half w) + half w) = ((k : Nat) : Int) := by ring
      have e' : ((k : Int) - half w + half w).toNat = k := by omega
      rw [e, e']
      exact feedColumn_spec v w h b ho hle r k hr (by omega) s
  | succ c ih =>
    unfold stdState
    rw [ih (by omega)]
    have e : ((c + 1 : Nat) : Int) + half w + half w = ((2 * (w / 2) + 1 + c : Nat) : Int) := by omega
    rw [e, feedColumn_spec v w h b ho hle r _ hr (by omega)]
    have : 2 * (w / 2) + 1 + (c + 1) = (2 * (w / 2) + 1 + c) + 1 := by omega
    rw [this, List.range_succ, List.flatMap_append, List.foldl_append]
    simp

theorem flatMap_length {h : Nat} (f : Nat → List K) (hf : ∀ a, (f a).length = h) (n : Nat) :
    ((List.range n).flatMap f).length = n * h := by
  induction n with
  | zero => simp
  | succ n ih => rw [List.range_succ, List.flatMap_append, List.length_append, ih]; simp [hf]; ring

theorem flatMap_drop {h : Nat} (f : Nat → List K) (hf : ∀ a, (f a).length = h) (m n : Nat) :
    ((List.range (m + n)).flatMap f).drop (m * h) = (List.range n).flatMap fun a => f (m + a) := by
  rw [List.range_add, List.flatMap_append, List.drop_append_of_le_length (by rw [flatMap_length f hf]),
    List.drop_eq_nil_of_le (by rw [flatMap_length f hf]), List.nil_append, List.flatMap_map]

theorem one_value (l : List K) (s : Sliding K) (h1 : s.maxSize = 1) (h2 : s.values.length ≤ 1) :
    (l.foldl Sliding.push s).values.length ≤ 1 := by
  induction l generalizing s with
  | nil => exact h2
  | cons x l ih =>
    apply ih
    · unfold Sliding.push
      dsimp only
      split_ifs
      · unfold Sliding.pop; cases s.values <;> exact h1
      · exact h1
    · unfold Sliding.push
      dsimp only
      split_ifs with hs
      · unfold Sliding.pop
        rcases hv : s.values with _ | ⟨o, rest⟩
        · simp [hv]
        · rw [hv] at h2; simp at h2 ⊢; exact h2
      · rw [List.length_append, List.length_singleton]; omega

theorem popVar_eq (l : List K) : popVar l = sqDist l (l.sum / l.length) / l.length := by
  unfold popVar sqDist
  congr 3
  funext x
  ring

theorem sliding_popVar (n : Nat) (hn : 1 ≤ n) (l : List K) (hl : n ≤ l.length) :
    (l.foldl Sliding.push (Sliding.new n)).variance = some (popVar (l.drop (l.length - n))) := by
  by_cases h2 : 2 ≤ n
  · have := sliding_spec n h2 l
    dsimp only at this
    rw [this]
    unfold lastN
    rw [if_neg (by rw [List.length_drop]; omega), popVar_eq]
  · have h1 : n = 1 := by omega
    subst h1
    have := one_value l (Sliding.new 1) rfl (by simp [Sliding.new])
    unfold Sliding.variance
    rw [if_pos (by omega)]
    have hd : (l.drop (l.length - 1)).length = 1 := by rw [List.length_drop]; omega
    obtain ⟨x, hx⟩ := List.length_eq_one_iff.1 hd
    rw [hx]
    simp [popVar]

/-- **C157 (deviation filter, proved part)**: for an image without invalid pixels and a window of odd height that is
not higher than wide, in every tile and for every pixel nothing is read outside, and the result is (the square root of)
the variance of the w x h pixels whose last column is half a width to the right of the pixel and whose middle row is
that of the pixel. The incremental updates lose nothing. -/
theorem stdDev_spec_partial (v : Int → Int → K) (w h : Nat) (b : Box) (hw : 1 ≤ w) (ho : h % 2 = 1) (hle : h / 2 ≤ w / 2)
    (c r : Nat) (hc : (c : Int) < b.w) (hr : (r : Int) < b.h) :
    stdDev (fun i j => some (v i j)) w h b c r =
      some (some (popVar (rect v (b.x + c + (w / 2 : Nat) - w + 1) (b.y + r - (h / 2 : Nat)) w h))) := by
  have hw0 : half w = (w / 2 : Nat) := rfl
  have hh0 : half h = (h / 2 : Nat) := rfl
  unfold stdDev
  rw [stdState_spec v w h b ho (by rw [hw0, hh0]; exact_mod_cast hle) r c hr hc, Option.map_some]
  have hf : ∀ a, (colOf v b w h r a).length = h := fun a => by simp [colOf]
  have hh : 1 ≤ h := by omega
  have hlen := flatMap_length _ hf (2 * (w / 2) + 1 + c)
  have hge : w * h ≤ ((List.range (2 * (w / 2) + 1 + c)).flatMap (colOf v b w h r)).length := by
    rw [hlen]; exact Nat.mul_le_mul_right h (by omega)
  rw [sliding_popVar (w * h) (Nat.mul_pos hw hh) _ hge, hlen]
  obtain ⟨m, hm⟩ : ∃ m, 2 * (w / 2) + 1 + c = m + w := ⟨2 * (w / 2) + 1 + c - w, by omega⟩
  rw [hm]
  have e : (m + w) * h - w * h = m * h := by rw [Nat.add_mul, Nat.add_sub_cancel]
  rw [e, flatMap_drop _ hf]
  congr 3
  unfold rect colOf
  apply List.flatMap_congr
  intro a _
  apply List.map_congr_left
  intro k _
  congr 1
  rw [hw0]
  have : ((2 * (w / 2) + 1 + c : Nat) : Int) = ((m + w : Nat) : Int) := by rw [hm]
  push_cast at this ⊢
  linarith

/-- For odd sizes the rectangle is centred on the pixel. -/
theorem stdDev_odd_partial (v : Int → Int → K) (w h : Nat) (b : Box) (hw : w % 2 = 1) (ho : h % 2 = 1) (hle : h ≤ w)
    (c r : Nat) (hc : (c : Int) < b.w) (hr : (r : Int) < b.h) :
    stdDev (fun i j => some (v i j)) w h b c r =
      some (some (popVar (rect v (b.x + c - (w / 2 : Nat)) (b.y + r - (h / 2 : Nat)) w h))) := by
  rw [stdDev_spec_partial v w h b (by omega) ho (by omega) c r hc hr]
  congr 4
  omega

/-- The result for a pixel does not depend on the tile. -/
theorem stdDev_tile (v : Int → Int → K) (w h : Nat) (b b' : Box) (hw : 1 ≤ w) (ho : h % 2 = 1) (hle : h / 2 ≤ w / 2)
    (c r c' r' : Nat) (hc : (c : Int) < b.w) (hr : (r : Int) < b.h) (hc' : (c' : Int) < b'.w) (hr' : (r' : Int) < b'.h)
    (hx : b.x + c = b'.x + c') (hy : b.y + r = b'.y + r') :
    stdDev (fun i j => some (v i j)) w h b c r = stdDev (fun i j => some (v i j)) w h b' c' r' := by
  rw [stdDev_spec_partial v w h b hw ho hle c r hc hr, stdDev_spec_partial v w h b' hw ho hle c' r' hc' hr', hx, hy]

theorem feed_none (L : List Int) (f : Int → Option (Option K)) :
    L.foldl (fun s y => feed s (f y)) (none : Option (Sliding K)) = none := by
  induction L with
  | nil => rfl
  | cons x L ih => rw [List.foldl_cons]; exact ih

theorem feedColumn_none (src : Int → Int → Option (Option K)) (hw hh x r : Int) :
    feedColumn src hw hh x r none = none := feed_none _ _

theorem span_cons {n : Int} (hn : 0 ≤ n) : ∃ L, span n = -n :: L := by
  unfold span
  obtain ⟨m, hm⟩ : ∃ m, (2 * n + 1).toNat = m + 1 := ⟨(2 * n).toNat, by omega⟩
  rw [hm, List.range_succ_eq_map, List.map_cons]
  refine ⟨List.map (fun (k : Nat) => (k : Int) - n) (List.map Nat.succ (List.range m)), ?_⟩
  simp

/-- **C157 refuted**: the region copied grows by half the width on all sides, so with a window that is higher than wide
the first row of every tile reads outside of it, for every image. -/
theorem high_window_undefined (e : Ext K) (w h : Nat) (b : Box) (hlt : w / 2 < h / 2) (c : Nat) :
    stdDev e w h b c 0 = none := by
  have hw0 : half w = (w / 2 : Nat) := rfl
  have hh0 : half h = (h / 2 : Nat) := rfl
  have hcol : ∀ s x, feedColumn (copied e (larger b (half w))) (half w) (half h) x 0 s = none := by
    intro s x
    unfold feedColumn
    obtain ⟨L, hL⟩ := span_cons (n := half h) (by omega)
    rw [hL, List.foldl_cons]
    have : feed s (copied e (larger b (half w)) x (0 + -half h + half w)) = none := by
      unfold copied
      rw [if_neg (by omega)]
      cases s <;> rfl
    rw [this, feed_none]
  have hst : ∀ c, stdState (copied e (larger b (half w))) w h 0 c = none := by
    intro c
    cases c with
    | zero =>
      unfold stdState
      obtain ⟨L, hL⟩ := span_cons (n := half w) (by omega)
      rw [hL, List.foldl_cons, hcol]
      clear hL
      induction L with
      | nil => rfl
      | cons x L ih => rw [List.foldl_cons, hcol]; exact ih
    | succ c => unfold stdState; exact hcol _ _
  unfold stdDev
  rw [Nat.cast_zero, hst]
  rfl

/-- A row of pixels: 1, invalid, then 5, 7, 9, 11, ... -/
def gapRow : Ext ℚ := fun x _ => if x = 0 then some 1 else if x = 1 then none else some (2 * (x : ℚ) + 1)

/-- **C157 refuted**: an invalid pixel takes the oldest value out of the window, whatever it is. With a 3x1 window at
pixel 2 of `gapRow` the valid values are 5 and 7 with variance 1; the filter takes out the only value it holds at the
invalid pixel, divides by zero, and gives NaN from there on. -/
theorem invalid_poisons :
    stdDev gapRow 3 1 ⟨1, 0, 10, 1⟩ 1 0 = some none ∧ stdDev gapRow 3 1 ⟨1, 0, 10, 1⟩ 2 0 = some none ∧
    validIn gapRow 1 0 3 1 = [5, 7] := by decide +kernel

/-- **C157 refuted**: here the valid values are 1 and 5 with variance 4, but the filter gives 0. -/
theorem invalid_drops_valid :
    stdDev (fun x _ => if x = 0 then some (1 : ℚ) else if x = 1 then some 5 else none) 3 1 ⟨1, 0, 1, 1⟩ 0 0 = some (some 0)
    ∧ validIn (fun x _ => if x = 0 then some (1 : ℚ) else if x = 1 then some 5 else none) 0 0 3 1 = [1, 5] := by
  decide +kernel

/-- A case: 3x3 windows in a tile at (2, 1) of an image with values x². -/
example : stdDev (fun x _ => some ((x : ℚ) * x)) 3 3 ⟨2, 1, 4, 4⟩ 1 2 =
    some (some (popVar [4, 4, 4, 9, 9, 9, 16, 16, 16])) := by decide +kernel

/-! ### The median filter -/

theorem collect_spec (f : Nat → Nat → Option K) (w h : Nat) :
    collect (fun c r => some (f c r)) w h = some ((List.range h).flatMap fun r => (List.range w).filterMap fun c => f c r) := by
  have hrow : ∀ (L : List Nat) (r : Nat) (acc : List K), L.foldl (fun s c => gather s (some (f c r))) (some acc) =
      some (acc ++ L.filterMap fun c => f c r) := by
    intro L r
    induction L with
    | nil => intro acc; simp
    | cons c L ih =>
      intro acc
      rw [List.foldl_cons, List.filterMap_cons]
      cases hf : f c r with
      | none =>
        have : gather (some acc) (some (none : Option K)) = some acc := rfl
        rw [this, ih]
      | some v =>
        have : gather (some acc) (some (some v)) = some (acc ++ [v]) := rfl
        rw [this, ih]; simp
  have hall : ∀ (L : List Nat) (acc : List K), L.foldl (fun s r => (List.range w).foldl (fun s c =>
      gather s (some (f c r))) s) (some acc) =
      some (acc ++ L.flatMap fun r => (List.range w).filterMap fun c => f c r) := by
    intro L
    induction L with
    | nil => intro acc; simp
    | cons r L ih => intro acc; rw [List.foldl_cons, hrow, ih, List.flatMap_cons, List.append_assoc]
  exact hall _ []

theorem valid_length (f : Nat → Nat → Option K) (w h : Nat) :
    ((List.range h).flatMap fun r => (List.range w).filterMap fun c => f c r).length ≤ w * h := by
  induction h with
  | zero => simp
  | succ h ih =>
    rw [List.range_succ, List.flatMap_append, List.length_append]
    have := List.length_filterMap_le (fun c => f c h) (List.range w)
    rw [List.length_range] at this
    simp only [List.flatMap_cons, List.flatMap_nil, List.append_nil]
    rw [Nat.mul_succ]
    omega

/-- **C158 (median filter)**: whatever was computed before with the same functor, at every pixel the result depends
only on the valid values of the w x h window about it: with fewer than nine tenths (rounded down) of the pixels valid
the result is invalid; otherwise it is the median of the valid values, at least half of which are not greater and at
least half not less. The store keeps its size, so it can be used for the next pixel. -/
theorem medianAt_spec (store : List K) (e : Ext K) (w h : Nat) (x y : Int) (hs : store.length = w * h) (h2 : 2 ≤ w * h) :
    let vals := validIn e (x - (w / 2 : Nat)) (y - (h / 2 : Nat)) w h
    let r := medianAt store (fun i j => some (e i j)) w h x y
    r.2.length = w * h ∧
    (10 * (vals.length + 1) ≤ 9 * (w * h) → r.1 = .invalid) ∧
    (¬ 10 * (vals.length + 1) ≤ 9 * (w * h) → ∃ m, r.1 = .value m ∧ median vals = some m ∧
      vals.length ≤ 2 * vals.countP (fun v => decide (v ≤ m)) ∧
      vals.length ≤ 2 * vals.countP (fun v => decide (m ≤ v))) := by
  intro vals r
  have hc : collect (fun (c r : Nat) => some (e (x - half w + c) (y - half h + r))) w h = some vals := by
    rw [collect_spec]; rfl
  have hvl : vals.length ≤ w * h := valid_length (fun c r => e (x - (w / 2 : Nat) + c) (y - (h / 2 : Nat) + r)) w h
  have hmin : vals.length < minValid w h ↔ 10 * (vals.length + 1) ≤ 9 * (w * h) := by
    unfold minValid; rw [Nat.mul_comm h w]; omega
  have hr : r = medianOp store (fun (c r : Nat) => some (e (x - half w + c) (y - half h + r))) w h := rfl
  unfold medianOp at hr
  rw [hc] at hr
  dsimp only at hr
  rw [if_neg (by omega)] at hr
  have hstl : (vals ++ store.drop vals.length).length = w * h := by
    rw [List.length_append, List.length_drop]; omega
  by_cases hlt : vals.length < minValid w h
  · rw [if_pos hlt] at hr
    rw [hr]
    exact ⟨hstl, fun _ => rfl, fun hn => absurd (hmin.1 hlt) hn⟩
  · rw [if_neg hlt] at hr
    have hne : vals ≠ [] := by
      intro h0
      rw [h0] at hmin hlt
      simp only [List.length_nil] at hmin hlt
      exact hlt (hmin.2 (by omega))
    obtain ⟨m, hm, hm1, hm2⟩ := median_half vals hne
    have hdm : destructiveMedian vals = some (m, sort vals) := by rw [destructiveMedian_eq, hm]; rfl
    have key : r.1 = .value m ∧ r.2.length = w * h := by
      by_cases hfull : vals.length = (vals ++ store.drop vals.length).length
      · rw [if_pos hfull] at hr
        have hd : store.drop vals.length = [] := by
          rw [List.length_append] at hfull
          exact List.length_eq_zero_iff.1 (by omega)
        rw [hd, List.append_nil, hdm] at hr
        rw [hr]
        refine ⟨rfl, ?_⟩
        dsimp only
        rw [sort_length]
        rw [hstl] at hfull
        exact hfull
      · rw [if_neg hfull, List.take_left, hdm] at hr
        rw [hr]
        refine ⟨rfl, ?_⟩
        dsimp only
        rw [List.length_append, sort_length, List.length_replicate, hstl]
        omega
    exact ⟨key.2, fun hn => absurd (hmin.2 hn) hlt, fun _ => ⟨m, key.1, hm, hm1, hm2⟩⟩

/-- Rasterizing in tiles reads nothing outside of the copied region and gives at every pixel of the tile what the view
gives there. -/
theorem medianTile_eq (store : List K) (e : Ext K) (w h : Nat) (b : Box) (x y : Int) (hx : b.x ≤ x) (hx' : x < b.x + b.w)
    (hy : b.y ≤ y) (hy' : y < b.y + b.h) :
    medianTile store e w h b x y = medianAt store (fun i j => some (e i j)) w h x y := by
  unfold medianTile medianAt
  dsimp only
  have hcol : collect (fun (c r : Nat) => copied e (support b w h) (x - half w + c + -(support b w h).x)
      (y - half h + r + -(support b w h).y)) w h =
      collect (fun (c r : Nat) => some (e (x - half w + c) (y - half h + r))) w h := by
    have hcell : ∀ c, c < w → ∀ r, r < h → copied e (support b w h) (x - half w + c + -(support b w h).x)
        (y - half h + r + -(support b w h).y) = some (e (x - half w + c) (y - half h + r)) := by
      intro c hc r hr
      unfold copied support
      dsimp only
      rw [if_pos (by omega)]
      congr 2 <;> ring
    unfold collect
    apply List.foldl_ext
    intro s r hr
    apply List.foldl_ext
    intro s c hc
    exact congrArg (gather s) (hcell c (List.mem_range.1 hc) r (List.mem_range.1 hr))
  unfold medianOp
  rw [hcol]

/-- **Discrepancy**: with a 1x1 window an invalid pixel makes the filter throw instead of giving an invalid pixel, and
leaves the store empty: for the next valid pixel it would write outside of it. -/
theorem one_pixel_throws (store : List K) (e e' : Ext K) (hs : store.length = 1) (x y : Int) (he : e x y = none) (v : K)
    (he' : e' x y = some v) :
    medianAt store (fun i j => some (e i j)) 1 1 x y = (.throw, []) ∧
    medianAt [] (fun i j => some (e' i j)) 1 1 x y = (.undefined, []) := by
  have h0 : half 1 = 0 := rfl
  have hc : ∀ f : Ext K, collect (fun (c r : Nat) => some (f (x - half 1 + c) (y - half 1 + r))) 1 1 =
      some ((f x y).toList) := by
    intro f
    rw [collect_spec, h0]
    simp [List.filterMap_cons]
    cases f x y <;> rfl
  constructor
  · unfold medianAt medianOp
    rw [hc, he]
    simp [minValid, hs, destructiveMedian]
  · unfold medianAt medianOp
    rw [hc, he']
    simp

/-- Of nine pixels eight must be valid, of 25 there must be 22. -/
example : minValid 3 3 = 8 ∧ minValid 5 5 = 22 := by decide

example : (medianAt [0, 0, 0] (fun i _ => some (if i = 1 then (none : Option ℚ) else some (i : ℚ))) 3 1 1 0).1 = .value 1 := by
  have h := (medianAt_spec (K := ℚ) [0, 0, 0] (fun i _ => if i = 1 then none else some (i : ℚ)) 3 1 1 0 rfl (by norm_num)).2.2
  have hv : validIn (fun i _ => if i = 1 then none else some (i : ℚ)) (1 - (3 / 2 : Nat)) (0 - (1 / 2 : Nat)) 3 1 = [0, 2] := by
    decide +kernel
  rw [hv] at h
  obtain ⟨m, h1, h2, _⟩ := h (by norm_num)
  rw [h1]
  have hs : sort [(0 : ℚ), 2] = [0, 2] := sort_eq (List.Perm.refl _) (by decide +kernel)
  unfold median at h2
  rw [hs] at h2
  simp at h2
  rw [← h2]

end VW.Window
