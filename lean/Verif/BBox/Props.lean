import Verif.BBox.Model
import Mathlib.Tactic.Ring
import Mathlib.Tactic.Linarith
import Mathlib.Tactic.Tauto
import Mathlib.Tactic.Order
import Mathlib.Tactic.NormNum
import Mathlib.Data.Fin.VecNotation
import Mathlib.Data.Rat.Floor
/-! C19–C23. -/
namespace VW.BBox
variable {α : Type} {n : Nat}

/-- membership of a point in the half-open extent -/
def Box.Mem (b : Box α n) [LinearOrder α] (p : Fin n → α) : Prop :=
  0 < n ∧ ∀ i, b.min i ≤ p i ∧ p i < b.max i

/-- membership in the closed extent -/
def Box.ClosedMem (b : Box α n) [LinearOrder α] (p : Fin n → α) : Prop :=
  ∀ i, b.min i ≤ p i ∧ p i ≤ b.max i

section order
variable [LinearOrder α]

theorem contains_iff (b : Box α n) (p : Fin n → α) : b.contains p = true ↔ b.Mem p := by
  simp [Box.contains, Box.Mem, forall_and, Nat.pos_iff_ne_zero, and_assoc]

theorem empty_iff (b : Box α n) : b.empty = false ↔ 0 < n ∧ ∀ i, b.min i < b.max i := by
  simp [Box.empty, Nat.pos_iff_ne_zero, and_comm]

/-- `empty()` is exactly "no point is contained", when the coordinates can be chosen freely. -/
theorem empty_iff_no_point (b : Box α n) : b.empty = true ↔ ∀ p, b.contains p = false := by
  constructor
  · intro h p
    by_contra hc
    rw [Bool.not_eq_false, contains_iff] at hc
    have : b.empty = false := (empty_iff b).2 ⟨hc.1, fun i => lt_of_le_of_lt (hc.2 i).1 (hc.2 i).2⟩
    simp_all
  · intro h
    by_contra hc
    rw [Bool.not_eq_true, empty_iff] at hc
    have h1 := h b.min
    have h2 : b.contains b.min = true := (contains_iff b _).2 ⟨hc.1, fun i => ⟨le_refl _, hc.2 i⟩⟩
    simp_all

/-! ### C19 -/

/-- C19: cropping is intersection of the point sets — for all boxes, even degenerate or inverted. -/
theorem crop_is_intersection (a b : Box α n) (p : Fin n → α) :
    (a.crop b).contains p = true ↔ a.contains p = true ∧ b.contains p = true := by
  simp only [contains_iff, Box.Mem, Box.crop]
  constructor
  · rintro ⟨h0, h⟩
    refine ⟨⟨h0, fun i => ?_⟩, ⟨h0, fun i => ?_⟩⟩
    all_goals
      have := h i
      split at this <;> split at this <;> constructor <;> order
  · rintro ⟨⟨h0, h1⟩, ⟨-, h2⟩⟩
    refine ⟨h0, fun i => ?_⟩
    have := h1 i; have := h2 i
    split <;> split <;> constructor <;> order

/-- C19: two non-empty boxes `intersect` iff some point lies in both, iff the cropped box is not
empty. -/
theorem intersects_iff (a b : Box α n) (ha : a.empty = false) (hb : b.empty = false) :
    (a.intersects b = true ↔ ∃ p, a.contains p = true ∧ b.contains p = true) ∧
    (a.intersects b = true ↔ (a.crop b).empty = false) := by
  have key : a.intersects b = true ↔ (a.crop b).empty = false := by
    rw [empty_iff] at ha hb ⊢
    simp only [Box.intersects, Box.crop]
    constructor
    · intro h
      split at h
      · simp at h
      · rename_i h'
        refine ⟨ha.1, fun i => ?_⟩
        have h1 := ha.2 i; have h2 := hb.2 i
        have h3 : ¬ (a.min i ≥ b.max i ∨ a.max i ≤ b.min i) := fun hc => h' ⟨i, hc⟩
        rw [not_or] at h3
        obtain ⟨h3, h4⟩ := h3
        split <;> split <;> order
    · rintro ⟨h0, h⟩
      rw [if_neg]
      · simp; omega
      · rintro ⟨i, hi⟩
        have h1 := ha.2 i; have h2 := hb.2 i; have h3 := h i
        split at h3 <;> split at h3 <;> rcases hi with hi | hi <;> order
  refine ⟨?_, key⟩
  rw [key]
  constructor
  · intro h
    by_contra hc
    have : (a.crop b).empty = true := by
      rw [empty_iff_no_point]
      intro p
      by_contra hp
      rw [Bool.not_eq_false, crop_is_intersection] at hp
      exact hc ⟨p, hp⟩
    simp_all
  · rintro ⟨p, hp⟩
    by_contra hc
    rw [Bool.not_eq_false, empty_iff_no_point] at hc
    have := hc p
    rw [(crop_is_intersection a b p).2 hp] at this
    simp at this

/-- `contains(bbox)` for non-empty boxes is inclusion of the point sets, provided coordinates are dense
enough that every upper bound is approached (stated without that: inclusion follows). -/
theorem containsBox_subset (a b : Box α n) (h : a.containsBox b = true) (p : Fin n → α)
    (hp : b.contains p = true) : a.contains p = true := by
  rw [contains_iff] at *
  simp only [Box.containsBox, Bool.and_eq_true, decide_eq_true_eq] at h
  refine ⟨hp.1, fun i => ?_⟩
  have h1 := h.1.2 i; have h2 := h.2 i; have h3 := hp.2 i
  constructor <;> order

/-- For integer boxes and a non-empty argument `contains(bbox)` is exactly inclusion of the pixel
sets. -/
theorem containsBox_iff_int (a b : Box Int n) (hb : b.empty = false) :
    a.containsBox b = true ↔ ∀ p, b.contains p = true → a.contains p = true := by
  refine ⟨fun h p hp => containsBox_subset a b h p hp, fun h => ?_⟩
  obtain ⟨h0, hlt⟩ := (empty_iff b).1 hb
  have h1 := (contains_iff a _).1 (h b.min ((contains_iff b _).2 ⟨h0, fun i => ⟨le_refl _, hlt i⟩⟩))
  have h2 := (contains_iff a _).1 (h (fun i => b.max i - 1)
    ((contains_iff b _).2 ⟨h0, fun i => ⟨by have := hlt i; dsimp only; omega, by dsimp only; omega⟩⟩))
  simp only [Box.containsBox, Bool.and_eq_true, decide_eq_true_eq]
  refine ⟨⟨by omega, fun i => (h1.2 i).1⟩, fun i => ?_⟩
  have := (h2.2 i).2
  dsimp only at this
  omega

/-- The same over the reals, rationals, ... (any dense order). -/
theorem containsBox_iff_dense [DenselyOrdered α] (a b : Box α n) (hb : b.empty = false) :
    a.containsBox b = true ↔ ∀ p, b.contains p = true → a.contains p = true := by
  refine ⟨fun h p hp => containsBox_subset a b h p hp, fun h => ?_⟩
  obtain ⟨h0, hlt⟩ := (empty_iff b).1 hb
  have h1 := (contains_iff a _).1 (h b.min ((contains_iff b _).2 ⟨h0, fun i => ⟨le_refl _, hlt i⟩⟩))
  simp only [Box.containsBox, Bool.and_eq_true, decide_eq_true_eq]
  refine ⟨⟨by omega, fun i => (h1.2 i).1⟩, fun i => ?_⟩
  by_contra hc
  obtain ⟨x, hx1, hx2⟩ := exists_between (max_lt (hlt i) (not_le.1 hc))
  have h3 := (contains_iff a _).1 (h (fun j => if j = i then x else b.min j)
    ((contains_iff b _).2 ⟨h0, fun j => by
      by_cases hj : j = i
      · subst hj; simp only [if_true]
        exact ⟨le_of_lt (lt_of_le_of_lt (le_max_left _ _) hx1), hx2⟩
      · simp only [hj, if_false]; exact ⟨le_refl _, hlt j⟩⟩))
  have h4 := (h3.2 i).2
  simp only [if_true] at h4
  exact absurd h4 (not_lt.2 (le_of_lt (lt_of_le_of_lt (le_max_right _ _) hx1)))

/-! ### C20 -/

/-- growing by points, one after the other -/
def Box.growPts (b : Box α n) (ps : List (Fin n → α)) : Box α n := ps.foldl Box.growPt b

theorem growPts_spec (b : Box α n) (ps : List (Fin n → α)) (i : Fin n) (x : α) :
    (x ≤ (b.growPts ps).min i ↔ x ≤ b.min i ∧ ∀ p ∈ ps, x ≤ p i) ∧
    ((b.growPts ps).max i ≤ x ↔ b.max i ≤ x ∧ ∀ p ∈ ps, p i ≤ x) := by
  induction ps generalizing b with
  | nil => simp [Box.growPts]
  | cons p ps ih =>
    have := ih (b.growPt p)
    simp only [Box.growPts, List.foldl_cons] at this ⊢
    rw [this.1, this.2]
    simp only [Box.growPt, List.mem_cons, forall_eq_or_imp]
    constructor
    · split <;> constructor <;> rintro ⟨h1, h2⟩ <;> refine ⟨?_, ?_⟩ <;> try (first | exact h2 | exact h2.2)
      · order
      · exact ⟨h1, h2⟩
      · exact h2.1
      · exact h1
      · exact ⟨by order, h2⟩
      · exact h1
    · split <;> constructor <;> rintro ⟨h1, h2⟩ <;> refine ⟨?_, ?_⟩ <;> try (first | exact h2 | exact h2.2)
      · order
      · exact ⟨h1, h2⟩
      · exact h2.1
      · exact h1
      · exact ⟨by order, h2⟩
      · exact h1

/-- C20: growing any box by points gives the least closed box containing the box's corners and the
points. -/
theorem grow_least (b : Box α n) (ps : List (Fin n → α)) (c : Box α n) :
    (∀ i, c.min i ≤ (b.growPts ps).min i ∧ (b.growPts ps).max i ≤ c.max i) ↔
    (∀ i, c.min i ≤ b.min i ∧ b.max i ≤ c.max i) ∧ ∀ p ∈ ps, c.ClosedMem p := by
  simp only [fun i => (growPts_spec b ps i (c.min i)).1, fun i => (growPts_spec b ps i (c.max i)).2,
    Box.ClosedMem]
  constructor
  · intro h
    exact ⟨fun i => ⟨(h i).1.1, (h i).2.1⟩, fun p hp i => ⟨(h i).1.2 p hp, (h i).2.2 p hp⟩⟩
  · rintro ⟨h1, h2⟩ i
    exact ⟨⟨(h1 i).1, fun p hp => (h2 p hp i).1⟩, ⟨(h1 i).2, fun p hp => (h2 p hp i).2⟩⟩

/-- C20: order and repetition of the points do not matter. -/
theorem grow_order_irrelevant (b : Box α n) (ps qs : List (Fin n → α)) (h : ∀ p, p ∈ ps ↔ p ∈ qs) :
    b.growPts ps = b.growPts qs := by
  have e1 : (b.growPts ps).min = (b.growPts qs).min := by
    funext i
    apply eq_of_forall_le_iff
    intro x
    rw [(growPts_spec b ps i x).1, (growPts_spec b qs i x).1]
    simp only [h]
  have e2 : (b.growPts ps).max = (b.growPts qs).max := by
    funext i
    apply eq_of_forall_ge_iff
    intro x
    rw [(growPts_spec b ps i x).2, (growPts_spec b qs i x).2]
    simp only [h]
  cases hx : b.growPts ps; cases hy : b.growPts qs
  simp_all

/-- C20: growing by a non-empty box encloses it (and the original box), and is least. -/
theorem growBox_least (b d c : Box α n) (hd : d.empty = false) :
    (∀ i, c.min i ≤ (b.growBox d).min i ∧ (b.growBox d).max i ≤ c.max i) ↔
    (∀ i, c.min i ≤ b.min i ∧ b.max i ≤ c.max i) ∧ (∀ i, c.min i ≤ d.min i ∧ d.max i ≤ c.max i) := by
  have e : b.growBox d = b.growPts [d.min, d.max] := by
    simp [Box.growBox, hd, Box.growPts]
  rw [e, grow_least]
  have hlt := ((empty_iff d).1 hd).2
  refine and_congr_right fun _ => ?_
  simp only [List.mem_cons, List.not_mem_nil, or_false, forall_eq_or_imp, forall_eq, Box.ClosedMem]
  constructor
  · rintro ⟨h1, h2⟩ i
    exact ⟨(h1 i).1, (h2 i).2⟩
  · intro h
    refine ⟨fun i => ?_, fun i => ?_⟩ <;>
    · have := h i; have := hlt i
      constructor <;> order

/-- Growing by a box that `empty()` reports empty changes nothing. -/
theorem growBox_empty (b d : Box α n) (hd : d.empty = true) : b.growBox d = b := by
  simp [Box.growBox, hd]

end order

section ring
variable [CommRing α] [LinearOrder α] [IsStrictOrderedRing α]

/-- coordinates in the documented range -/
def InRange (big : α) (p : Fin n → α) : Prop := ∀ i, -big ≤ p i ∧ p i ≤ big

/-- C20: growing the default box by a non-empty list of points in range gives the smallest closed box
containing them: it contains all of them, and every closed box containing them contains it. -/
theorem grow_default_least (big : α) (ps : List (Fin n → α)) (hne : ps ≠ [])
    (hr : ∀ p ∈ ps, InRange big p) :
    (∀ p ∈ ps, ((Box.default n big).growPts ps).ClosedMem p) ∧
    ∀ c : Box α n, (∀ p ∈ ps, c.ClosedMem p) →
      ∀ i, c.min i ≤ ((Box.default n big).growPts ps).min i ∧
           ((Box.default n big).growPts ps).max i ≤ c.max i := by
  constructor
  · exact ((grow_least (Box.default n big) ps _).1 (fun i => ⟨le_refl _, le_refl _⟩)).2
  · intro c hc
    rw [grow_least]
    refine ⟨fun i => ?_, hc⟩
    obtain ⟨p, hp⟩ := List.exists_mem_of_ne_nil _ hne
    have h1 := hc p hp i
    have h2 := hr p hp i
    simp only [Box.default]
    constructor <;> order

/-- C20: growing the default box by one point in range gives the degenerate box at that point. -/
theorem grow_default_point (big : α) (p : Fin n → α) (hr : InRange big p) :
    (Box.default n big).growPt p = ⟨p, p⟩ := by
  have e1 : (fun i => if p i > (Box.default n big).max i then p i else (Box.default n big).max i) = p := by
    funext i
    have h := hr i
    split
    · rfl
    · rename_i h1; simp only [Box.default] at h1 ⊢; order
  have e2 : (fun i => if p i < (Box.default n big).min i then p i else (Box.default n big).min i) = p := by
    funext i
    have h := hr i
    split
    · rfl
    · rename_i h1; simp only [Box.default] at h1 ⊢; order
  simp only [Box.growPt, e1, e2]

/-! ### C21 -/

/-- C21 (signed and floating types): the default box is empty, contains no point, and is neutral:
growing it by a point gives the degenerate box at the point, growing it by a non-empty box in range
gives that box, and growing a box by it changes nothing. -/
theorem default_neutral (big : α) (hb : 0 < big) :
    (Box.default n big).empty = true ∧ (∀ p, (Box.default n big).contains p = false) ∧
    (∀ p : Fin n → α, InRange big p → (Box.default n big).growPt p = ⟨p, p⟩) ∧
    (∀ b : Box α n, b.empty = false → InRange big b.min → InRange big b.max →
      (Box.default n big).growBox b = b) ∧
    (∀ b : Box α n, b.growBox (Box.default n big) = b) := by
  have he : (Box.default n big : Box α n).empty = true := by
    rcases Nat.eq_zero_or_pos n with h | h
    · simp [Box.empty, h]
    · have : ∃ i : Fin n, (Box.default n big).min i ≥ (Box.default n big).max i :=
        ⟨⟨0, h⟩, by simp only [Box.default]; linarith⟩
      simp [Box.empty, this]
  refine ⟨he, (empty_iff_no_point _).1 he, fun p => grow_default_point big p, ?_, ?_⟩
  · intro b hbe h1 h2
    have hlt := ((empty_iff b).1 hbe).2
    obtain ⟨mn, mx⟩ := b
    simp only [Box.growBox, hbe, Bool.false_eq_true, if_false]
    rw [grow_default_point big mn h1]
    simp only [Box.growPt, Box.mk.injEq]
    constructor <;> funext i <;> have := hlt i <;> simp only [] at this <;> split <;> order
  · intro b; exact growBox_empty _ _ he

/-! ### C22 -/

/-- C22: translation acts on the point set. -/
theorem translate_mem (b : Box α n) (v p : Fin n → α) :
    (b.translate v).contains p = true ↔ b.contains (fun i => p i - v i) = true := by
  by_cases he : b.empty = true
  · have h1 := (empty_iff_no_point b).1 he
    simp [Box.translate, he, h1]
  · simp only [Box.translate, he, contains_iff, Box.Mem]
    refine and_congr_right fun _ => forall_congr' fun i => ?_
    simp only [Bool.false_eq_true, if_false]
    constructor <;> rintro ⟨h1, h2⟩ <;> constructor <;> linarith

/-- C22: subtracting a vector undoes adding it. -/
theorem translate_cancel (b : Box α n) (v : Fin n → α) : (b.translate v).translateNeg v = b := by
  by_cases he : b.empty = true
  · simp [Box.translate, Box.translateNeg, he]
  · rw [Bool.not_eq_true] at he
    obtain ⟨h0, h⟩ := (empty_iff b).1 he
    have he' : (Box.mk (fun i => b.min i + v i) (fun i => b.max i + v i)).empty = false :=
      (empty_iff _).2 ⟨h0, fun i => by simpa using h i⟩
    simp [Box.translate, Box.translateNeg, he, he']

/-- C22: expanding acts on the point set as widening each side. -/
theorem expand_mem (b : Box α n) (v p : Fin n → α) (he : b.empty = false) :
    (b.expand v).contains p = true ↔
      ∀ i, b.min i - v i ≤ p i ∧ p i < b.max i + v i := by
  have h0 := ((empty_iff b).1 he).1
  simp [Box.expand, he, contains_iff, Box.Mem, h0]

/-- C22: `contract` undoes `expand` (by a non-negative amount). -/
theorem contract_expand (b : Box α n) (o : α) (ho : 0 ≤ o) : (b.expand fun _ => o).contract o = b := by
  by_cases he : b.empty = true
  · simp [Box.expand, Box.contract, he]
  · rw [Bool.not_eq_true] at he
    obtain ⟨h0, h⟩ := (empty_iff b).1 he
    have he' : (Box.mk (fun i => b.min i - o) (fun i => b.max i + o)).empty = false :=
      (empty_iff _).2 ⟨h0, fun i => by have := h i; simp only []; linarith⟩
    simp [Box.expand, Box.contract, he, he']

/-- C22: scaling by a positive number scales membership; a non-positive factor throws. -/
theorem scale_mem (b : Box α n) (s : α) :
    (0 < s → ∃ c, b.scale s = some c ∧
      ∀ p : Fin n → α, c.contains (fun i => p i * s) = true ↔ b.contains p = true) ∧
    (¬ 0 < s → b.scale s = none) := by
  constructor
  · intro hs
    simp only [Box.scale, gt_iff_lt, hs, if_true]
    refine ⟨_, rfl, fun p => ?_⟩
    by_cases he : b.empty = true
    · have h1 := (empty_iff_no_point b).1 he
      simp [he, h1]
    · simp only [he, contains_iff, Box.Mem, Bool.false_eq_true, if_false]
      refine and_congr_right fun _ => forall_congr' fun i => ?_
      rw [mul_le_mul_iff_left₀ hs, mul_lt_mul_iff_left₀ hs]
  · intro hs
    simp [Box.scale, hs]

/-- C22: widths are kept by translation, widened by `2*o` by expansion, multiplied by scaling. -/
theorem extent_laws (b : Box α n) (i : Fin n) (v : Fin n → α) (o s : α) :
    (b.translate v).extent i = b.extent i ∧
    (b.empty = false → 0 ≤ o → (b.expand fun _ => o).extent i = b.extent i + 2 * o) ∧
    (∀ c, b.scale s = some c → c.extent i = b.extent i * s) := by
  refine ⟨?_, ?_, ?_⟩
  · by_cases he : b.empty = true
    · simp [Box.translate, Box.extent, he]
    · rw [Bool.not_eq_true] at he
      obtain ⟨h0, h⟩ := (empty_iff b).1 he
      have he' : (Box.mk (fun i => b.min i + v i) (fun i => b.max i + v i)).empty = false :=
        (empty_iff _).2 ⟨h0, fun i => by simpa using h i⟩
      simp [Box.translate, Box.extent, he, he']
  · intro he ho
    obtain ⟨h0, h⟩ := (empty_iff b).1 he
    have he' : (Box.mk (fun i => b.min i - o) (fun i => b.max i + o)).empty = false :=
      (empty_iff _).2 ⟨h0, fun i => by have := h i; simp only []; linarith⟩
    simp [Box.expand, Box.extent, he, he']
    ring
  · intro c hc
    by_cases hs : s > 0
    · simp only [Box.scale, hs, if_true, Option.some.injEq] at hc
      subst hc
      by_cases he : b.empty = true
      · simp [Box.extent, he]
      · rw [Bool.not_eq_true] at he
        obtain ⟨h0, h⟩ := (empty_iff b).1 he
        have he' : (Box.mk (fun i => b.min i * s) (fun i => b.max i * s)).empty = false :=
          (empty_iff _).2 ⟨h0, fun i => mul_lt_mul_of_pos_right (h i) hs⟩
        simp [Box.extent, he, he']
        ring
    · simp [Box.scale, hs] at hc

/-- C22: all of these leave an empty box unchanged. -/
theorem empty_unchanged (b : Box α n) (he : b.empty = true) (v : Fin n → α) (o s : α) (hs : 0 < s) :
    b.translate v = b ∧ b.translateNeg v = b ∧ b.expand v = b ∧ b.contract o = b ∧ b.scale s = some b := by
  simp [Box.translate, Box.translateNeg, Box.expand, Box.contract, Box.scale, he, hs]

end ring

/-! ### C21: uint32 -/

/-- C21 is false for `BBox<uint32>`: the default box is not empty, contains a point, and growing it by
the point 5 does not give the box at 5. -/
theorem default_uint32_not_empty :
    (defaultU32 2).empty = false ∧ (defaultU32 2).contains (fun _ => 2147483648) = true ∧
    ((defaultU32 2).growPt (fun _ => 5)).max 0 = 2147483650 := by decide

/-! ### C20: where it fails -/

/-- C20 is false for points outside the range ±(2^31-2): the default `BBox<double>` grown by
3·10⁹ keeps its lower bound 2147483646. -/
theorem grow_default_out_of_range :
    ((Box.default 1 (2147483646 : Rat)).growPt (fun _ => 3000000000)).min 0 = 2147483646 := by
  simp [Box.growPt, Box.default]; norm_num

/-- C20 is false for degenerate boxes: a box grown by a single point is skipped by `grow(bbox)`, so the
point is lost. -/
theorem grow_degenerate_lost :
    let d := (Box.default 1 (big32 : Int)).growPt (fun _ => 7)
    d.ClosedMem (fun _ => 7) ∧ ((Box.mk (fun _ => 0) (fun _ => 1) : Box Int 1).growBox d).max 0 = 1 := by
  refine ⟨?_, by decide⟩
  intro i
  simp [Box.growPt, Box.default, big32]

/-! ### C23 -/

section field
variable [Field α] [LinearOrder α] [IsStrictOrderedRing α] [FloorRing α]

/-- C23: for a box with `min ≤ max` everywhere, the integer box's half-open extent contains the whole
closed box, and it is less than one unit larger below and at most one unit larger above. -/
theorem growToInt_encloses (b : Box α n) (h : ∀ i, b.min i ≤ b.max i) :
    (∀ p, b.ClosedMem p → ∀ i, ((growToInt b).min i : α) ≤ p i ∧ p i < ((growToInt b).max i : α)) ∧
    ∀ i, b.min i - ((growToInt b).min i : α) < 1 ∧ ((growToInt b).max i : α) - b.max i ≤ 1 := by
  have hn : ¬ ∃ i, b.min i > b.max i := by
    rintro ⟨i, hi⟩; exact absurd (h i) (not_le.2 hi)
  simp only [growToInt, hn, if_false]
  constructor
  · intro p hp i
    have h1 := Int.floor_le (b.min i)
    have h2 := Int.lt_floor_add_one (b.max i)
    have := hp i
    push_cast
    constructor <;> linarith
  · intro i
    have h1 := Int.lt_floor_add_one (b.min i)
    have h2 := Int.floor_le (b.max i)
    push_cast
    constructor <;> linarith

/-- C23: a box that is inverted in some dimension maps to the default, empty integer box. -/
theorem growToInt_empty (b : Box α n) (h : ∃ i, b.min i > b.max i) :
    growToInt b = Box.default n big32 ∧ (growToInt b).empty = true := by
  have : growToInt b = Box.default n big32 := by simp only [growToInt, h, if_true]
  refine ⟨this, ?_⟩
  rw [this]
  exact (default_neutral (n := n) big32 (by decide)).1

end field

section fieldops
variable [Field α] [LinearOrder α] [IsStrictOrderedRing α]

/-- C22: on floating types division undoes scaling by the same positive factor. -/
theorem scale_div_cancel (b : Box α n) (s : α) (hs : 0 < s) :
    ∃ c, b.scale s = some c ∧ c.scaleDiv s = some b := by
  simp only [Box.scale, Box.scaleDiv, gt_iff_lt, hs, if_true]
  refine ⟨_, rfl, ?_⟩
  by_cases he : b.empty = true
  · simp [he]
  · rw [Bool.not_eq_true] at he
    obtain ⟨h0, h⟩ := (empty_iff b).1 he
    have he' : (Box.mk (fun i => b.min i * s) (fun i => b.max i * s)).empty = false :=
      (empty_iff _).2 ⟨h0, fun i => mul_lt_mul_of_pos_right (h i) hs⟩
    simp [he, he', hs.ne']

/-- `elem_prod` by a positive vector scales membership coordinate by coordinate; the area of a
translated or scaled 2-d box is the area, resp. the area times the square of the factor. -/
theorem elemProd_mem (big : α) (hbig : 0 < big) (b : Box α n) (v p : Fin n → α) (hv : ∀ i, 0 < v i) :
    (b.elemProd big v).contains (fun i => p i * v i) = true ↔ b.contains p = true := by
  by_cases he : b.empty = true
  · have h1 := (empty_iff_no_point b).1 he
    have h2 := (default_neutral (n := n) big hbig).2.1
    simp [Box.elemProd, he, h1, h2]
  · simp only [Box.elemProd, he, contains_iff, Box.Mem, Bool.false_eq_true, if_false]
    refine and_congr_right fun _ => forall_congr' fun i => ?_
    rw [mul_le_mul_iff_left₀ (hv i), mul_lt_mul_iff_left₀ (hv i)]

theorem area_laws (b : Box α 2) (v : Fin 2 → α) (s : α) :
    b.area = b.extent 0 * b.extent 1 ∧ (b.translate v).area = b.area ∧
    (∀ c, b.scale s = some c → c.area = b.area * s ^ 2) ∧ 0 ≤ b.area := by
  have key : ∀ b : Box α 2, b.area = b.extent 0 * b.extent 1 := by
    intro b
    by_cases he : b.empty = true <;> simp [Box.area, Box.extent, he]
  refine ⟨key b, ?_, ?_, ?_⟩
  · rw [key, key, (extent_laws b 0 v 0 0).1, (extent_laws b 1 v 0 0).1]
  · intro c hc
    rw [key, key, (extent_laws b 0 v 0 s).2.2 c hc, (extent_laws b 1 v 0 s).2.2 c hc]
    ring
  · by_cases he : b.empty = true
    · simp [Box.area, he]
    · simp only [Box.area, he]
      rw [Bool.not_eq_true] at he
      obtain ⟨h0, h⟩ := (empty_iff b).1 he
      exact mul_nonneg (sub_nonneg.2 (h 0).le) (sub_nonneg.2 (h 1).le)

end fieldops

/-! ### Non-vacuity -/

example : (Box.mk ![0, 0] ![4, 3] : Box Int 2).empty = false ∧
    (Box.mk ![2, 1] ![9, 9] : Box Int 2).empty = false ∧
    (Box.mk ![0, 0] ![4, 3] : Box Int 2).intersects (Box.mk ![2, 1] ![9, 9]) = true := by decide

example : InRange (big32 : Int) (![5, -7] : Fin 2 → Int) ∧ (0 : Int) < big32 := by
  refine ⟨fun i => ?_, by decide⟩
  revert i; decide

example : ∀ i, (Box.mk ![(1 : Rat) / 2, 3] ![2, 3] : Box Rat 2).min i ≤
    (Box.mk ![(1 : Rat) / 2, 3] ![2, 3] : Box Rat 2).max i := by
  intro i; match i with | 0 => norm_num | 1 => norm_num

end VW.BBox
