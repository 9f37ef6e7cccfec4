import Verif.Block.Cover
/-
Model of `subdivide_bbox` (src/vw/Image/AlgorithmFunctions.cc:28-78) and property C48.
Integers are unbounded.  A block dimension that is not positive makes the C++ loop forever; the model then
returns no box, and every theorem assumes positive block dimensions.
-/
namespace VW.View
open VW.Block (Rect)

/-- One axis of the two nested loops (AlgorithmFunctions.cc:38-53 and 55-70 are the same code): the (offset,
dimension) pairs, starting at offset `off` of an extent `n`. -/
def segs (n bs : Int) (partials full : Bool) (off : Int) : List (Int × Int) :=
  if h : off < n ∧ 0 < bs then
    if n - off < bs then
      if partials = false then segs n bs partials full (off + bs)
      else if full = true then (n - bs, bs) :: segs n bs partials full (n - bs + bs)
      else (off, n - off) :: segs n bs partials full (off + bs)
    else (off, bs) :: segs n bs partials full (off + bs)
  else []
termination_by (n - off).toNat
decreasing_by all_goals omega

/-- `subdivide_bbox`, AlgorithmFunctions.cc:28-78, for a legal combination of flags. -/
def subdivide (r : Rect) (bw bh : Int) (partials full : Bool) : List Rect :=
  (segs r.height bh partials full 0).flatMap fun j =>
    (segs r.width bw partials full 0).map fun i =>
      ⟨i.1 + r.x0, j.1 + r.y0, i.1 + r.x0 + i.2, j.1 + r.y0 + j.2⟩

/-- The call: `none` is the LogicErr of AlgorithmFunctions.cc:32-34. -/
def subdivideBBox (r : Rect) (bw bh : Int) (partials full : Bool) : Option (List Rect) :=
  if partials = false ∧ full = true then none else some (subdivide r bw bh partials full)

/-! ### One axis -/

theorem segs_stop {n bs off : Int} {p f : Bool} (h : n ≤ off) : segs n bs p f off = [] := by
  rw [segs, dif_neg (by omega)]

/-- Offset `i` of the axis is inside the segment. -/
def inSeg (s : Int × Int) (i : Int) : Bool := decide (s.1 ≤ i) && decide (i < s.1 + s.2)

theorem inSeg_iff {s : Int × Int} {i : Int} : inSeg s i = true ↔ s.1 ≤ i ∧ i < s.1 + s.2 := by
  simp [inSeg]

theorem segs_partials {n bs : Int} (hb : 0 < bs) (off : Int) (i : Int) :
    (segs n bs true false off).countP (inSeg · i) = if off ≤ i ∧ i < n then 1 else 0 := by
  by_cases h : off < n
  · rw [segs, dif_pos ⟨h, hb⟩]
    simp only [Bool.true_eq_false, Bool.false_eq_true, if_false]
    have ih := segs_partials (n := n) hb (off + bs) i
    split
    · rw [List.countP_cons, ih]
      by_cases hi : inSeg (off, n - off) i = true
      · have := inSeg_iff.1 hi
        simp only at this
        rw [if_pos hi, if_neg (by omega), if_pos (by omega)]
      · have : ¬ (off ≤ i ∧ i < n) := fun hh => hi (inSeg_iff.2 ⟨hh.1, by show i < off + (n - off); omega⟩)
        rw [if_neg hi, if_neg (by omega), if_neg this]
    · rw [List.countP_cons, ih]
      by_cases hi : inSeg (off, bs) i = true
      · have := inSeg_iff.1 hi
        simp only at this
        rw [if_pos hi, if_neg (by omega), if_pos (by omega)]
      · have : ¬ (off ≤ i ∧ i < off + bs) := fun hh => hi (inSeg_iff.2 hh)
        rw [if_neg hi]
        by_cases hh : off + bs ≤ i ∧ i < n
        · rw [if_pos hh, if_pos (by omega)]
        · rw [if_neg hh, if_neg (by omega)]
  · rw [segs_stop (by omega), if_neg (by omega)]; rfl
termination_by (n - off).toNat

/-- Without partial boxes: exactly the multiples of `bs` that fit. -/
theorem segs_full_only {n bs : Int} (hb : 0 < bs) (off : Int) (s : Int × Int) :
    s ∈ segs n bs false false off ↔ s.2 = bs ∧ off ≤ s.1 ∧ bs ∣ s.1 - off ∧ s.1 + bs ≤ n := by
  by_cases h : off < n
  · rw [segs, dif_pos ⟨h, hb⟩]
    have ih := segs_full_only (n := n) hb (off + bs) s
    have e : ∀ k, bs ∣ k - (off + bs) ↔ bs ∣ k - off := fun k => by
      rw [show k - (off + bs) = (k - off) - bs by omega]
      constructor
      · intro hd
        have := Int.dvd_add hd (Int.dvd_refl bs)
        rwa [show k - off - bs + bs = k - off by omega] at this
      · intro hd; exact Int.dvd_sub hd (Int.dvd_refl bs)
    split
    · simp only [if_true]
      rw [ih, e]
      constructor
      · rintro ⟨h1, h2, h3, h4⟩; exact ⟨h1, by omega, h3, h4⟩
      · rintro ⟨h1, h2, h3, h4⟩; omega
    · rw [List.mem_cons, ih, e]
      constructor
      · rintro (rfl | ⟨h1, h2, h3, h4⟩)
        · exact ⟨rfl, by simp, by simp, by simp; omega⟩
        · exact ⟨h1, by omega, h3, h4⟩
      · rintro ⟨h1, h2, h3, h4⟩
        by_cases h5 : off + bs ≤ s.1
        · exact Or.inr ⟨h1, h5, h3, h4⟩
        · left
          obtain ⟨q, hq⟩ := h3
          have : q = 0 := by
            have a : bs * q < bs * 1 := by omega
            have b : bs * (-1) < bs * q := by omega
            have := Int.lt_of_mul_lt_mul_left a (by omega)
            have := Int.lt_of_mul_lt_mul_left b (by omega)
            omega
          subst this
          rw [Int.mul_zero] at hq
          ext
          · show s.1 = off; omega
          · exact h1
  · rw [segs_stop (by omega)]
    constructor
    · intro hh; cases hh
    · rintro ⟨h1, h2, h3, h4⟩; omega
termination_by (n - off).toNat

theorem segs_bounds {n bs : Int} (hb : 0 < bs) {p : Bool} (off : Int) {s : Int × Int}
    (h : s ∈ segs n bs p false off) : off ≤ s.1 ∧ 0 < s.2 ∧ s.2 ≤ bs ∧ s.1 + s.2 ≤ n := by
  by_cases h0 : off < n
  · rw [segs, dif_pos ⟨h0, hb⟩] at h
    have ih := segs_bounds (n := n) hb (p := p) (off + bs) (s := s)
    split at h
    · split at h
      · have := ih h; omega
      · simp only [Bool.false_eq_true, if_false] at h
        rcases List.mem_cons.1 h with rfl | h
        · refine ⟨by simp, ?_, ?_, ?_⟩ <;> dsimp only <;> omega
        · have := ih h; omega
    · rcases List.mem_cons.1 h with rfl | h
      · refine ⟨by simp, ?_, ?_, ?_⟩ <;> dsimp only <;> omega
      · have := ih h; omega
  · rw [segs_stop (by omega)] at h; cases h
termination_by (n - off).toNat

/-- Full-size segments: every segment has the block size and none ends beyond `n`. -/
theorem segs_full_bounds {n bs : Int} (hb : 0 < bs) (off : Int) {s : Int × Int}
    (h : s ∈ segs n bs true true off) : s.2 = bs ∧ (off ≤ s.1 ∨ s.1 = n - bs) ∧ s.1 + bs ≤ n := by
  by_cases h0 : off < n
  · rw [segs, dif_pos ⟨h0, hb⟩] at h
    split at h
    · simp only [Bool.true_eq_false, if_false, if_true] at h
      rw [segs_stop (show n ≤ n - bs + bs by omega)] at h
      rcases List.mem_cons.1 h with rfl | h
      · exact ⟨rfl, Or.inr rfl, by dsimp only; omega⟩
      · cases h
    · have ih := segs_full_bounds (n := n) hb (off + bs) (s := s)
      rcases List.mem_cons.1 h with rfl | h
      · exact ⟨rfl, Or.inl (by simp), by dsimp only; omega⟩
      · have := ih h
        omega
  · rw [segs_stop (by omega)] at h; cases h
termination_by (n - off).toNat

theorem segs_full_cover {n bs : Int} (hb : 0 < bs) (off i : Int) (h : off ≤ i) (h' : i < n) :
    ∃ s ∈ segs n bs true true off, inSeg s i = true := by
  rw [segs, dif_pos ⟨by omega, hb⟩]
  split
  · simp only [Bool.true_eq_false, if_false, if_true]
    exact ⟨_, List.mem_cons_self, inSeg_iff.2 (by dsimp only; omega)⟩
  · by_cases hi : i < off + bs
    · exact ⟨_, List.mem_cons_self, inSeg_iff.2 (by dsimp only; omega)⟩
    · obtain ⟨s, hs, hh⟩ := segs_full_cover (n := n) hb (off + bs) i (by omega) h'
      exact ⟨s, List.mem_cons_of_mem _ hs, hh⟩
termination_by (n - off).toNat

/-! ### Boxes -/

/-- How many boxes contain the pixel. -/
def times (l : List Rect) (x y : Int) : Nat := l.countP (fun b => b.has x y)

theorem countP_prod (L M : List (Int × Int)) (x0 y0 x y : Int) :
    times (L.flatMap fun j => M.map fun i => (⟨i.1 + x0, j.1 + y0, i.1 + x0 + i.2, j.1 + y0 + j.2⟩ : Rect)) x y =
      L.countP (inSeg · (y - y0)) * M.countP (inSeg · (x - x0)) := by
  unfold times
  induction L with
  | nil => simp
  | cons j L ih =>
    rw [List.flatMap_cons, List.countP_append, ih, List.countP_cons, List.countP_map]
    by_cases hj : inSeg j (y - y0) = true
    · have : ((fun b : Rect => b.has x y) ∘ fun i : Int × Int => (⟨i.1 + x0, j.1 + y0, i.1 + x0 + i.2, j.1 + y0 + j.2⟩ : Rect)) = (inSeg · (x - x0)) := by
        funext i
        have := inSeg_iff.1 hj
        simp only [Function.comp, Rect.has, inSeg]
        rw [Bool.eq_iff_iff]; simp; omega
      rw [this, if_pos hj, Nat.add_mul, Nat.one_mul, Nat.add_comm]
    · have : M.countP ((fun b : Rect => b.has x y) ∘ fun i : Int × Int => (⟨i.1 + x0, j.1 + y0, i.1 + x0 + i.2, j.1 + y0 + j.2⟩ : Rect)) = 0 := by
        rw [List.countP_eq_zero]
        intro i _ hh
        apply hj
        rw [inSeg_iff]
        simp [Function.comp, Rect.has] at hh
        omega
      rw [this, if_neg hj, Nat.zero_add, Nat.add_zero]

theorem size_of {r : Rect} (h : r.empty = false) : r.width = r.x1 - r.x0 ∧ r.height = r.y1 - r.y0 := by
  simp [Rect.width, Rect.height, h]

theorem size_empty {r : Rect} (h : r.empty = true) : r.width = 0 ∧ r.height = 0 := by
  simp [Rect.width, Rect.height, h]

theorem empty_iff {r : Rect} : r.empty = false ↔ r.x0 < r.x1 ∧ r.y0 < r.y1 := by
  simp [Rect.empty]

/-- **C48 (default)**: every pixel of the object lies in exactly one of the boxes, and pixels outside the
object in none. -/
theorem subdivide_partition (r : Rect) {bw bh : Int} (hw : 0 < bw) (hh : 0 < bh) (x y : Int) :
    times (subdivide r bw bh true false) x y = if r.has x y then 1 else 0 := by
  unfold subdivide
  rw [countP_prod, segs_partials hh, segs_partials hw]
  by_cases he : r.empty = true
  · obtain ⟨e1, e2⟩ := size_empty he
    rw [e1, e2, if_neg (by omega), Nat.zero_mul, if_neg]
    simp [Rect.empty] at he; simp [Rect.has]; omega
  · have he := Bool.eq_false_iff.2 he
    obtain ⟨e1, e2⟩ := size_of he
    rw [e1, e2]
    by_cases hx : r.has x y = true
    · rw [if_pos hx]; simp [Rect.has] at hx
      rw [if_pos (by omega), if_pos (by omega)]
    · rw [if_neg hx]; simp [Rect.has] at hx
      by_cases h1 : 0 ≤ y - r.y0 ∧ y - r.y0 < r.y1 - r.y0
      · rw [if_pos h1, if_neg (by omega)]
      · rw [if_neg h1, Nat.zero_mul]

/-- Every box is non-empty, inside the object, and no larger than the block size. -/
theorem subdivide_inside (r : Rect) {bw bh : Int} (hw : 0 < bw) (hh : 0 < bh) (p : Bool) {b : Rect}
    (h : b ∈ subdivide r bw bh p false) :
    b.empty = false ∧ r.x0 ≤ b.x0 ∧ b.x1 ≤ r.x1 ∧ r.y0 ≤ b.y0 ∧ b.y1 ≤ r.y1 ∧
      b.x1 - b.x0 ≤ bw ∧ b.y1 - b.y0 ≤ bh := by
  unfold subdivide at h
  obtain ⟨j, hj, h⟩ := List.mem_flatMap.1 h
  obtain ⟨i, hi, rfl⟩ := List.mem_map.1 h
  have a := segs_bounds hh 0 hj
  have c := segs_bounds hw 0 hi
  have he : r.empty = false := by
    by_contra he
    obtain ⟨e1, e2⟩ := size_empty (by simpa using he)
    rw [e2] at a; omega
  obtain ⟨e1, e2⟩ := size_of he
  rw [e2] at a; rw [e1] at c
  refine ⟨?_, ?_, ?_, ?_, ?_, ?_, ?_⟩ <;> (try rw [empty_iff]) <;> dsimp only <;> omega

/-- **C48 (only full boxes)**: without partial boxes the result is exactly the grid cells of full size
inside the object. -/
theorem subdivide_full_only (r : Rect) {bw bh : Int} (hw : 0 < bw) (hh : 0 < bh) (b : Rect) :
    b ∈ subdivide r bw bh false false ↔
      b.x1 = b.x0 + bw ∧ b.y1 = b.y0 + bh ∧ r.x0 ≤ b.x0 ∧ bw ∣ b.x0 - r.x0 ∧ r.y0 ≤ b.y0 ∧ bh ∣ b.y0 - r.y0 ∧
      b.x1 ≤ r.x1 ∧ b.y1 ≤ r.y1 := by
  have hsz : ∀ i j : Int, 0 ≤ i → 0 ≤ j → ((i + bw ≤ r.width ∧ j + bh ≤ r.height) ↔ (i + bw ≤ r.x1 - r.x0 ∧ j + bh ≤ r.y1 - r.y0)) := by
    intro i j hi hj
    by_cases he : r.empty = true
    · obtain ⟨e1, e2⟩ := size_empty he
      rw [e1, e2]; simp [Rect.empty] at he; omega
    · obtain ⟨e1, e2⟩ := size_of (Bool.eq_false_iff.2 he)
      rw [e1, e2]
  unfold subdivide
  simp only [List.mem_flatMap, List.mem_map, segs_full_only hw, segs_full_only hh, Int.sub_zero]
  constructor
  · rintro ⟨j, ⟨j1, j2, j3, j4⟩, i, ⟨i1, i2, i3, i4⟩, rfl⟩
    have := (hsz i.1 j.1 i2 j2).1 ⟨i4, j4⟩
    refine ⟨by dsimp only; omega, by dsimp only; omega, by dsimp only; omega, ?_, by dsimp only; omega, ?_, by dsimp only; omega, by dsimp only; omega⟩
    · dsimp only; rw [show i.1 + r.x0 - r.x0 = i.1 by omega]; exact i3
    · dsimp only; rw [show j.1 + r.y0 - r.y0 = j.1 by omega]; exact j3
  · rintro ⟨h1, h2, h3, h4, h5, h6, h7, h8⟩
    have := (hsz (b.x0 - r.x0) (b.y0 - r.y0) (by omega) (by omega)).2 ⟨by omega, by omega⟩
    refine ⟨(b.y0 - r.y0, bh), ⟨rfl, by dsimp only; omega, h6, this.2⟩, (b.x0 - r.x0, bw), ⟨rfl, by dsimp only; omega, h4, this.1⟩, ?_⟩
    cases b
    simp only [Rect.mk.injEq] at *
    omega

/-- **C48 (full size)**: with `full_size` every box has exactly the block size, the boxes cover the object,
and they stay inside it provided the object is at least one block wide and high. -/
theorem subdivide_full_size (r : Rect) {bw bh : Int} (hw : 0 < bw) (hh : 0 < bh) :
    (∀ b ∈ subdivide r bw bh true true, b.x1 = b.x0 + bw ∧ b.y1 = b.y0 + bh ∧ b.x1 ≤ r.x1 ∧ b.y1 ≤ r.y1 ∧
      (bw ≤ r.x1 - r.x0 → r.x0 ≤ b.x0) ∧ (bh ≤ r.y1 - r.y0 → r.y0 ≤ b.y0)) ∧
    (∀ x y, r.has x y = true → 1 ≤ times (subdivide r bw bh true true) x y) := by
  constructor
  · intro b h
    unfold subdivide at h
    obtain ⟨j, hj, h⟩ := List.mem_flatMap.1 h
    obtain ⟨i, hi, rfl⟩ := List.mem_map.1 h
    have he : r.empty = false := by
      by_contra he
      obtain ⟨e1, e2⟩ := size_empty (by simpa using he)
      rw [e2, segs_stop (le_refl _)] at hj; cases hj
    obtain ⟨e1, e2⟩ := size_of he
    rw [e2] at hj; rw [e1] at hi
    have a := segs_full_bounds hh 0 hj
    have c := segs_full_bounds hw 0 hi
    dsimp only
    refine ⟨?_, ?_, ?_, ?_, ?_, ?_⟩ <;> omega
  · intro x y h
    have he : r.empty = false := by rw [empty_iff]; simp [Rect.has] at h; omega
    obtain ⟨e1, e2⟩ := size_of he
    simp [Rect.has] at h
    unfold subdivide
    rw [countP_prod, e1, e2]
    obtain ⟨s, hs, h1⟩ := segs_full_cover (n := r.y1 - r.y0) hh 0 (y - r.y0) (by omega) (by omega)
    obtain ⟨t, ht, h2⟩ := segs_full_cover (n := r.x1 - r.x0) hw 0 (x - r.x0) (by omega) (by omega)
    have a := List.countP_pos_iff (p := (inSeg · (y - r.y0))) |>.2 ⟨s, hs, h1⟩
    have b := List.countP_pos_iff (p := (inSeg · (x - r.x0))) |>.2 ⟨t, ht, h2⟩
    exact Nat.mul_pos a b

/-- **Discrepancy**: an object narrower than a block, with `full_size`: the box starts left of the object
(the header says edge boxes are "grown inward"). -/
theorem full_size_outside : subdivideBBox ⟨0, 0, 5, 8⟩ 8 8 true true = some [⟨-3, 0, 5, 8⟩] := by
  simp [subdivideBBox, subdivide, segs, Rect.width, Rect.height, Rect.empty]

/-- The illegal combination is rejected, every other one is answered. -/
theorem subdivide_flags (r : Rect) (bw bh : Int) (p f : Bool) :
    subdivideBBox r bw bh p f = none ↔ p = false ∧ f = true := by
  unfold subdivideBBox; split <;> simp_all

/-- 5 by 4 in blocks of 2 by 3: six boxes, in raster order. -/
example : subdivide ⟨1, 1, 6, 5⟩ 2 3 true false =
    [⟨1, 1, 3, 4⟩, ⟨3, 1, 5, 4⟩, ⟨5, 1, 6, 4⟩, ⟨1, 4, 3, 5⟩, ⟨3, 4, 5, 5⟩, ⟨5, 4, 6, 5⟩] := by
  simp [subdivide, segs, Rect.width, Rect.height, Rect.empty]

end VW.View
