import Verif.Stereo.Census
import Verif.Stereo.SGMSelect
import Mathlib.Tactic.Linarith
import Mathlib.Tactic.IntervalCases
import Mathlib.Tactic.SplitIfs

/-! C150 (census codes) and C151 (matching costs from census codes). -/

namespace VW.Census

open VW.SGM (Pt Range rowMajor bufferStarts)

/-! ### Specification: which pixels, in which order -/

/-- All offsets of a square window but the centre, in reading order. -/
def square (h : Nat) : List Pt :=
  ((List.range (2 * h + 1)).flatMap fun (y : Nat) => (List.range (2 * h + 1)).map fun (x : Nat) =>
    ((x : Int) - (h : Int), (y : Int) - (h : Int))).filter (· ≠ (0, 0))

/-- The offsets of the marked places of a picture (`true` is a star), in reading order. -/
def marked (h : Nat) (pic : List (List Nat)) : List Pt :=
  pic.zipIdx.flatMap fun (line, (y : Nat)) => line.zipIdx.filterMap fun (b, (x : Nat)) =>
    if b = 1 then some ((x : Int) - (h : Int), (y : Int) - (h : Int)) else none

/-- The picture in CensusTransform.h:118-127, 283-292. -/
def picture9 : List (List Nat) :=
  [[1,0,0,0,1,0,0,0,1],
   [0,1,0,1,0,1,0,1,0],
   [0,0,1,0,1,0,1,0,0],
   [0,1,0,0,1,0,0,1,0],
   [1,0,1,1,0,1,1,0,1],
   [0,1,0,0,1,0,0,1,0],
   [0,0,1,0,1,0,1,0,0],
   [0,1,0,1,0,1,0,1,0],
   [1,0,0,0,1,0,0,0,1]]

/-- The picture in CensusTransform.h:228-237. -/
def picture7 : List (List Nat) :=
  [[1,0,1,1,1,0,1],
   [0,1,0,1,0,1,0],
   [1,0,1,1,1,0,1],
   [1,1,1,0,1,1,1],
   [1,0,1,1,1,0,1],
   [0,1,0,1,0,1,0],
   [1,0,1,1,1,0,1]]

/-- Is the pixel at an offset brighter than the pixel itself? -/
def brighter (I : Img) (c r : Int) (d : Pt) : Prop := I c r < I (c + d.1) (r + d.2)

instance (I : Img) (c r : Int) (d : Pt) : Decidable (brighter I c r d) := by unfold brighter; infer_instance

/-- Darker than the pixel by more than `t` (0), alike (1), brighter by more than `t` (2). -/
def level (t : Int) (I : Img) (c r : Int) (d : Pt) : Nat :=
  if (I (c + d.1) (r + d.2) : Int) < I c r - t then 0 else if (I (c + d.1) (r + d.2) : Int) ≤ I c r + t then 1 else 2

/-- The binary code of an image at a pixel has exactly the bits of the comparisons, the lowest first. -/
def IsBinaryCode (v w : Nat) (I : Img) (c r : Int) (offs : List Pt) : Prop :=
  v < 2 ^ w ∧ ∀ i, v.testBit i = true ↔ ∃ d, offs[i]? = some d ∧ brighter I c r d

/-- The ternary code has two bits for each comparison: 00 for darker, 01 for alike, 11 for brighter. -/
def IsTernaryCode (v w : Nat) (t : Int) (I : Img) (c r : Int) (offs : List Pt) : Prop :=
  v < 2 ^ w ∧ ∀ i, (v.testBit (2 * i) = true ↔ ∃ d, offs[i]? = some d ∧ 1 ≤ level t I c r d) ∧
    (v.testBit (2 * i + 1) = true ↔ ∃ d, offs[i]? = some d ∧ level t I c r d = 2)

/-! ### Bits -/

/-- The number with the given bits, the lowest first. -/
def ofBits : List Bool → Nat
  | [] => 0
  | b :: bs => b.toNat + 2 * ofBits bs

theorem ofBits_lt (bs : List Bool) : ofBits bs < 2 ^ bs.length := by
  induction bs with
  | nil => simp [ofBits]
  | cons b bs ih =>
    have : b.toNat ≤ 1 := Bool.toNat_le b
    simp only [ofBits, List.length_cons, Nat.pow_succ]; omega

theorem ofBits_testBit (bs : List Bool) (i : Nat) : (ofBits bs).testBit i = bs.getD i false := by
  induction bs generalizing i with
  | nil => simp [ofBits]
  | cons b bs ih =>
    have e : ofBits (b :: bs) = b.toNat + 2 * ofBits bs := rfl
    cases i with
    | zero =>
      rw [e, Nat.testBit_zero]
      cases b <;> simp
    | succ i =>
      rw [Nat.testBit_succ]
      have : ofBits (b :: bs) / 2 = ofBits bs := by rw [e]; cases b <;> simp <;> omega
      rw [this, ih]; simp

theorem ofBits_append (a b : List Bool) : ofBits (a ++ b) = ofBits a + 2 ^ a.length * ofBits b := by
  induction a with
  | nil => simp [ofBits]
  | cons x a ih =>
    simp only [List.cons_append, ofBits, ih, List.length_cons, Nat.pow_succ]
    ring_nf

/-- Bits that differ. -/
def diffs (a b : List Bool) : Nat := (List.zipWith (fun x y => (x != y).toNat) a b).sum

theorem popcount_xor (a b : List Bool) (h : a.length = b.length) : Functions.popcount (ofBits a ^^^ ofBits b) = diffs a b := by
  induction a generalizing b with
  | nil =>
    cases b with
    | nil => simp [ofBits, diffs, Functions.popcount_zero]
    | cons => simp at h
  | cons x a ih =>
    cases b with
    | nil => simp at h
    | cons y b =>
      have h' : a.length = b.length := by simpa using h
      have e : (ofBits (x :: a) ^^^ ofBits (y :: b)) = (x != y).toNat + 2 * (ofBits a ^^^ ofBits b) := by
        apply Nat.eq_of_testBit_eq
        intro i
        cases i with
        | zero =>
          rw [Nat.testBit_xor, Nat.testBit_zero, Nat.testBit_zero, Nat.testBit_zero]
          cases x <;> cases y <;> simp [ofBits] <;> omega
        | succ i =>
          rw [Nat.testBit_xor, Nat.testBit_succ, Nat.testBit_succ, Nat.testBit_succ]
          have h1 : ofBits (x :: a) / 2 = ofBits a := by cases x <;> simp [ofBits] <;> omega
          have h2 : ofBits (y :: b) / 2 = ofBits b := by cases y <;> simp [ofBits] <;> omega
          have h3 : ((x != y).toNat + 2 * (ofBits a ^^^ ofBits b)) / 2 = ofBits a ^^^ ofBits b := by
            have := Bool.toNat_le (x != y)
            omega
          rw [h1, h2, h3, Nat.testBit_xor]
      rw [e, Functions.popcount_step]
      have := Bool.toNat_le (x != y)
      have h3 : ((x != y).toNat + 2 * (ofBits a ^^^ ofBits b)) / 2 = ofBits a ^^^ ofBits b := by omega
      have h4 : ((x != y).toNat + 2 * (ofBits a ^^^ ofBits b)) % 2 = (x != y).toNat := by omega
      rw [h3, h4, ih b h']
      simp [diffs]

/-! ### The loops -/

theorem binary_fold (w : Nat) (I : Img) (center : Nat) (ps : List Pt) (o A : Nat) :
    (ps.foldl (binStep w I center) (o % 2 ^ w, A % 2 ^ w)).1 = (o + A * ofBits (ps.map fun p => decide (I p.1 p.2 > center))) % 2 ^ w := by
  induction ps generalizing o A with
  | nil => simp [ofBits]
  | cons p ps ih =>
    have e : binStep w I center (o % 2 ^ w, A % 2 ^ w) p =
        ((o + A * (decide (I p.1 p.2 > center)).toNat) % 2 ^ w, (A * 2) % 2 ^ w) := by
      unfold binStep
      by_cases h : I p.1 p.2 > center
      · simp [h, Nat.add_mod, Nat.mul_mod]
      · simp [h, Nat.mul_mod]
    rw [List.foldl_cons, e, ih]
    simp only [List.map_cons, ofBits]
    congr 1
    ring_nf

theorem binary_eq (w : Nat) (I : Img) (center : Nat) (ps : List Pt) (hw : ps.length ≤ w) :
    binary w I center ps = ofBits (ps.map fun p => decide (I p.1 p.2 > center)) := by
  rcases Nat.eq_zero_or_pos w with h | h
  · subst h
    have : ps = [] := by simpa using hw
    subst this
    simp [binary, ofBits]
  · have := binary_fold w I center ps 0 1
    have h1 : (1 : Nat) % 2 ^ w = 1 := Nat.mod_eq_of_lt (Nat.one_lt_two_pow (by omega))
    rw [h1, Nat.zero_mod] at this
    unfold binary
    rw [this, Nat.zero_add, Nat.one_mul]
    apply Nat.mod_eq_of_lt
    have h2 := ofBits_lt (ps.map fun p => decide (I p.1 p.2 > center))
    rw [List.length_map] at h2
    exact lt_of_lt_of_le h2 (Nat.pow_le_pow_right (by omega) hw)

/-- The two bits of a pixel. -/
def two (I : Img) (low high : Int) (p : Pt) : List Bool :=
  [decide ((I p.1 p.2 : Int) ≥ low), decide ((I p.1 p.2 : Int) ≥ low ∧ (I p.1 p.2 : Int) > high)]

theorem ternary_fold (w : Nat) (I : Img) (low high : Int) (ps : List Pt) (o A : Nat) :
    (ps.foldl (terStep w I low high) (o % 2 ^ w, A % 2 ^ w)).1 = (o + A * ofBits (ps.flatMap (two I low high))) % 2 ^ w := by
  induction ps generalizing o A with
  | nil => simp [ofBits]
  | cons p ps ih =>
    have e : terStep w I low high (o % 2 ^ w, A % 2 ^ w) p = ((o + A * ofBits (two I low high p)) % 2 ^ w, (A * 4) % 2 ^ w) := by
      unfold terStep two
      by_cases h : (I p.1 p.2 : Int) ≥ low
      · by_cases h' : (I p.1 p.2 : Int) > high
        · simp only [h, h', ofBits, if_true, and_self, decide_true, Bool.toNat_true]
          refine Prod.ext ?_ ?_
          · show ((o % 2 ^ w + A % 2 ^ w) % 2 ^ w + A % 2 ^ w * 2) % 2 ^ w = _
            rw [Nat.mod_add_mod, Nat.add_assoc, Nat.mod_add_mod, ← Nat.add_mod_mod o]
            have : A % 2 ^ w + A % 2 ^ w * 2 = A % 2 ^ w * 3 := by omega
            rw [this, Nat.mod_mul_mod, Nat.add_mod_mod]
          · simp [Nat.mul_mod]
        · simp [h, h', ofBits, Nat.add_mod, Nat.mul_mod]
      · simp [h, ofBits, Nat.mul_mod]
    rw [List.foldl_cons, e, ih]
    rw [List.flatMap_cons, ofBits_append]
    congr 1
    have : (two I low high p).length = 2 := rfl
    rw [this]
    ring_nf

theorem length_two (I : Img) (low high : Int) (ps : List Pt) : (ps.flatMap (two I low high)).length = 2 * ps.length := by
  induction ps with
  | nil => rfl
  | cons p ps ih => rw [List.flatMap_cons, List.length_append, ih, List.length_cons]; simp [two]; omega

theorem ternary_eq (w : Nat) (I : Img) (low high : Int) (ps : List Pt) (hw : 2 * ps.length ≤ w) :
    ternary w I low high ps = ofBits (ps.flatMap (two I low high)) := by
  rcases Nat.eq_zero_or_pos w with h | h
  · subst h
    have : ps = [] := by
      cases ps with
      | nil => rfl
      | cons => simp at hw
    subst this
    simp [ternary, ofBits]
  · have := ternary_fold w I low high ps 0 1
    have h1 : (1 : Nat) % 2 ^ w = 1 := Nat.mod_eq_of_lt (Nat.one_lt_two_pow (by omega))
    rw [h1, Nat.zero_mod] at this
    unfold ternary
    rw [this, Nat.zero_add, Nat.one_mul]
    apply Nat.mod_eq_of_lt
    have h2 := ofBits_lt (ps.flatMap (two I low high))
    rw [length_two] at h2
    exact lt_of_lt_of_le h2 (Nat.pow_le_pow_right (by omega) hw)

/-! ### Positions -/

theorem down_eq (x : Int) (h : Nat) : down (x + h) (x - h) = (List.range (2 * h + 1)).map fun (k : Nat) => x + ((h : Int) - (k : Int)) := by
  unfold down
  have : (x + (h : Int) - (x - (h : Int)) + 1).toNat = 2 * h + 1 := by omega
  rw [this]
  apply List.map_congr_left
  intro a _
  omega

/-- Shifted offsets. -/
def at_ (c r : Int) (offs : List Pt) : List Pt := offs.map fun d => (c + d.1, r + d.2)

theorem windowPos_eq (h : Nat) (c r : Int) (offs : List Pt)
    (ho : ((List.range (2 * h + 1)).flatMap fun (k : Nat) => (List.range (2 * h + 1)).filterMap fun (l : Nat) =>
      if (h : Int) - (k : Int) = 0 ∧ (h : Int) - (l : Int) = 0 then none else some ((h : Int) - (l : Int), (h : Int) - (k : Int))) = offs) :
    windowPos h c r = at_ c r offs := by
  unfold windowPos at_
  rw [down_eq, down_eq, ← ho, List.map_flatMap, List.flatMap_map]
  congr 1
  funext k
  rw [List.filterMap_map, List.map_filterMap]
  apply List.filterMap_congr
  intro l _
  show (if r + ((h : Int) - (k : Int)) = r ∧ c + ((h : Int) - (l : Int)) = c then none else
    some (c + ((h : Int) - (l : Int)), r + ((h : Int) - (k : Int)))) = _
  by_cases h1 : (h : Int) - (k : Int) = 0 ∧ (h : Int) - (l : Int) = 0
  · rw [if_pos h1, if_pos (by omega)]; rfl
  · rw [if_neg h1, if_neg (by omega)]; rfl

theorem window1 (c r : Int) : windowPos 1 c r = at_ c r (square 1).reverse := windowPos_eq 1 c r _ (by decide)
theorem window2 (c r : Int) : windowPos 2 c r = at_ c r (square 2).reverse := windowPos_eq 2 c r _ (by decide)
theorem window3 (c r : Int) : windowPos 3 c r = at_ c r (square 3).reverse := windowPos_eq 3 c r _ (by decide +kernel)

theorem tablePos_eq (cs rs : List Int) (h c r : Int) (offs : List Pt) (ho : List.zipWith (fun a b => (a - h, b - h)) cs rs = offs) :
    tablePos cs rs h c r = at_ c r offs := by
  unfold tablePos at_
  rw [← ho, List.map_zipWith]
  congr 1
  funext a b
  refine Prod.ext ?_ ?_ <;> dsimp only <;> omega

theorem table9 (c r : Int) : tablePos cols9 rows9 4 c r = at_ c r (marked 4 picture9) := tablePos_eq _ _ _ c r _ (by decide)
theorem table7 (c r : Int) : tablePos cols7 rows7 3 c r = at_ c r (marked 3 picture7) := tablePos_eq _ _ _ c r _ (by decide)

/-! ### C150 -/

/-- The bits of the comparisons with the offsets. -/
def bitsOf (I : Img) (c r : Int) (offs : List Pt) : List Bool := offs.map fun d => decide (brighter I c r d)

theorem binary_at (w : Nat) (I : Img) (c r : Int) (offs : List Pt) (hw : offs.length ≤ w) :
    binary w I (I c r) (at_ c r offs) = ofBits (bitsOf I c r offs) := by
  rw [binary_eq w I _ _ (by simpa [at_] using hw)]
  unfold at_ bitsOf brighter
  rw [List.map_map]
  rfl

theorem census3_eq (I : Img) (c r : Int) : census3 I c r = ofBits (bitsOf I c r (square 1).reverse) := by
  have hs : (square 1).reverse = [(1, 1), (0, 1), (-1, 1), (1, 0), (-1, 0), (1, -1), (0, -1), (-1, -1)] := by decide
  rw [hs]
  unfold census3 add8 bitsOf brighter
  simp only [List.map_cons, List.map_nil, ofBits, gt_iff_lt, Int.add_zero, Int.add_neg_eq_sub]
  have key : ∀ a b d e f g h k : Prop, ∀ [Decidable a] [Decidable b] [Decidable d] [Decidable e] [Decidable f] [Decidable g] [Decidable h]
      [Decidable k], ∀ o1 o2 o3 o4 o5 o6 o7 : Nat,
      o1 = (if a then (0 + 128) % 2 ^ 8 else 0) → o2 = (if b then (o1 + 64) % 2 ^ 8 else o1) → o3 = (if d then (o2 + 32) % 2 ^ 8 else o2) →
      o4 = (if e then (o3 + 16) % 2 ^ 8 else o3) → o5 = (if f then (o4 + 8) % 2 ^ 8 else o4) → o6 = (if g then (o5 + 4) % 2 ^ 8 else o5) →
      o7 = (if h then (o6 + 2) % 2 ^ 8 else o6) →
      (if k then (o7 + 1) % 2 ^ 8 else o7) = (decide k).toNat + 2 * ((decide h).toNat + 2 * ((decide g).toNat + 2 * ((decide f).toNat + 2 *
        ((decide e).toNat + 2 * ((decide d).toNat + 2 * ((decide b).toNat + 2 * ((decide a).toNat + 2 * 0))))))) := by
    intro a b d e f g h k _ _ _ _ _ _ _ _ o1 o2 o3 o4 o5 o6 o7 h1 h2 h3 h4 h5 h6 h7
    have t : ∀ p : Prop, ∀ [Decidable p], (p ∧ (decide p).toNat = 1) ∨ (¬ p ∧ (decide p).toNat = 0) := by
      intro p _
      by_cases hp : p <;> simp [hp]
    have i1 : o1 = 128 * (decide a).toNat := by rcases t a with ⟨x, y⟩ | ⟨x, y⟩ <;> simp only [x, if_true, if_false] at h1 <;> omega
    have i2 : o2 = o1 + 64 * (decide b).toNat := by
      have := Bool.toNat_le (decide a)
      rcases t b with ⟨x, y⟩ | ⟨x, y⟩ <;> simp only [x, if_true, if_false] at h2 <;> omega
    have i3 : o3 = o2 + 32 * (decide d).toNat := by
      have := Bool.toNat_le (decide a); have := Bool.toNat_le (decide b)
      rcases t d with ⟨x, y⟩ | ⟨x, y⟩ <;> simp only [x, if_true, if_false] at h3 <;> omega
    have i4 : o4 = o3 + 16 * (decide e).toNat := by
      have := Bool.toNat_le (decide a); have := Bool.toNat_le (decide b); have := Bool.toNat_le (decide d)
      rcases t e with ⟨x, y⟩ | ⟨x, y⟩ <;> simp only [x, if_true, if_false] at h4 <;> omega
    have i5 : o5 = o4 + 8 * (decide f).toNat := by
      have := Bool.toNat_le (decide a); have := Bool.toNat_le (decide b); have := Bool.toNat_le (decide d); have := Bool.toNat_le (decide e)
      rcases t f with ⟨x, y⟩ | ⟨x, y⟩ <;> simp only [x, if_true, if_false] at h5 <;> omega
    have i6 : o6 = o5 + 4 * (decide g).toNat := by
      have := Bool.toNat_le (decide a); have := Bool.toNat_le (decide b); have := Bool.toNat_le (decide d); have := Bool.toNat_le (decide e)
      have := Bool.toNat_le (decide f)
      rcases t g with ⟨x, y⟩ | ⟨x, y⟩ <;> simp only [x, if_true, if_false] at h6 <;> omega
    have i7 : o7 = o6 + 2 * (decide h).toNat := by
      have := Bool.toNat_le (decide a); have := Bool.toNat_le (decide b); have := Bool.toNat_le (decide d); have := Bool.toNat_le (decide e)
      have := Bool.toNat_le (decide f); have := Bool.toNat_le (decide g)
      rcases t h with ⟨x, y⟩ | ⟨x, y⟩ <;> simp only [x, if_true, if_false] at h7 <;> omega
    have := Bool.toNat_le (decide a); have := Bool.toNat_le (decide b); have := Bool.toNat_le (decide d); have := Bool.toNat_le (decide e)
    have := Bool.toNat_le (decide f); have := Bool.toNat_le (decide g); have := Bool.toNat_le (decide h)
    rcases t k with ⟨x, y⟩ | ⟨x, y⟩ <;> simp only [x, if_true, if_false, decide_true, decide_false, Bool.toNat_true, Bool.toNat_false] <;> omega
  exact key _ _ _ _ _ _ _ _ _ _ _ _ _ _ _ rfl rfl rfl rfl rfl rfl rfl

theorem isBinary_of (w : Nat) (I : Img) (c r : Int) (offs : List Pt) (hw : offs.length ≤ w) :
    IsBinaryCode (ofBits (bitsOf I c r offs)) w I c r offs := by
  constructor
  · have := ofBits_lt (bitsOf I c r offs)
    unfold bitsOf at this ⊢
    rw [List.length_map] at this
    exact lt_of_lt_of_le this (Nat.pow_le_pow_right (by omega) hw)
  · intro i
    rw [ofBits_testBit]
    unfold bitsOf
    rw [List.getD_eq_getElem?_getD, List.getElem?_map]
    cases h : offs[i]? with
    | none => simp
    | some d => simp

/-- **C150 (binary)**: every bit of the code says whether one of the pixels of the pattern is brighter than the centre. -/
theorem binary_codes (I : Img) (c r : Int) :
    IsBinaryCode (census3 I c r) 8 I c r (square 1).reverse ∧ IsBinaryCode (census5 I c r) 32 I c r (square 2).reverse ∧
    IsBinaryCode (census7 I c r) 64 I c r (square 3).reverse ∧ IsBinaryCode (census9 I c r) 32 I c r (marked 4 picture9) := by
  refine ⟨?_, ?_, ?_, ?_⟩
  · rw [census3_eq]; exact isBinary_of 8 I c r _ (by decide)
  · unfold census5; rw [window2, binary_at 32 _ _ _ _ (by decide)]; exact isBinary_of 32 I c r _ (by decide)
  · unfold census7; rw [window3, binary_at 64 _ _ _ _ (by decide)]; exact isBinary_of 64 I c r _ (by decide)
  · unfold census9; rw [table9, binary_at 32 _ _ _ _ (by decide)]; exact isBinary_of 32 I c r _ (by decide)

/-- The two bits of a level. -/
def levelBits (n : Nat) : List Bool := [decide (1 ≤ n), decide (n = 2)]

theorem two_level (t : Int) (I : Img) (c r : Int) (d : Pt) :
    two I (I c r - t) (I c r + t) (c + d.1, r + d.2) = levelBits (level t I c r d) := by
  unfold two levelBits level
  by_cases h : (I (c + d.1) (r + d.2) : Int) < I c r - t
  · have h1 : ¬ ((I c r : Int) - t ≤ I (c + d.1) (r + d.2)) := by omega
    simp only [ge_iff_le, h, h1, false_and, if_true]
    rfl
  · by_cases h' : (I (c + d.1) (r + d.2) : Int) ≤ I c r + t
    · have h1 : (I c r : Int) - t ≤ I (c + d.1) (r + d.2) := by omega
      simp [h, h', h1]
    · have h1 : (I c r : Int) - t ≤ I (c + d.1) (r + d.2) := by omega
      have h2 : (I c r : Int) + t < I (c + d.1) (r + d.2) := by omega
      simp [h, h', h1, h2]

/-- All bits of the levels. -/
def tbitsOf (t : Int) (I : Img) (c r : Int) (offs : List Pt) : List Bool := offs.flatMap fun d => levelBits (level t I c r d)

theorem ternary_at (w : Nat) (t : Int) (I : Img) (c r : Int) (offs : List Pt) (hw : 2 * offs.length ≤ w) :
    ternary w I (I c r - t) (I c r + t) (at_ c r offs) = ofBits (tbitsOf t I c r offs) := by
  rw [ternary_eq w I _ _ _ (by simpa [at_] using hw)]
  unfold at_ tbitsOf
  rw [List.flatMap_map]
  congr 1
  congr 1
  funext d
  exact two_level t I c r d

theorem length_tbits (t : Int) (I : Img) (c r : Int) (offs : List Pt) : (tbitsOf t I c r offs).length = 2 * offs.length := by
  unfold tbitsOf
  induction offs with
  | nil => rfl
  | cons p ps ih => rw [List.flatMap_cons, List.length_append, ih, List.length_cons]; simp [levelBits]; omega

theorem isTernary_of (w : Nat) (t : Int) (I : Img) (c r : Int) (offs : List Pt) (hw : 2 * offs.length ≤ w) :
    IsTernaryCode (ofBits (tbitsOf t I c r offs)) w t I c r offs := by
  constructor
  · have := ofBits_lt (tbitsOf t I c r offs)
    rw [length_tbits] at this
    exact lt_of_lt_of_le this (Nat.pow_le_pow_right (by omega) hw)
  · intro i
    have key : ∀ b, b < 2 → (tbitsOf t I c r offs)[2 * i + b]? = offs[i]?.bind fun d => (levelBits (level t I c r d))[b]? := by
      intro b hb
      unfold tbitsOf
      have := SGM.getElem?_flatMap_const (fun d => levelBits (level t I c r d)) 2 offs (by intro x _; rfl) i b hb
      rw [Nat.mul_comm] at this
      exact this
    have k0 := key 0 (by omega)
    have k1 := key 1 (by omega)
    rw [Nat.add_zero] at k0
    rw [ofBits_testBit, ofBits_testBit, List.getD_eq_getElem?_getD, List.getD_eq_getElem?_getD, k0, k1]
    cases h : offs[i]? with
    | none => simp
    | some d => simp [levelBits]

/-- **C150 (ternary)**: every pair of bits says whether one of the pixels of the pattern is darker than the centre by more than the threshold
(00), brighter by more than the threshold (11) or neither (01). -/
theorem ternary_codes (t : Int) (I : Img) (c r : Int) :
    IsTernaryCode (ternary3 t I c r) 16 t I c r (square 1).reverse ∧ IsTernaryCode (ternary5 t I c r) 64 t I c r (square 2).reverse ∧
    IsTernaryCode (ternary7 t I c r) 64 t I c r (marked 3 picture7) ∧ IsTernaryCode (ternary9 t I c r) 64 t I c r (marked 4 picture9) := by
  refine ⟨?_, ?_, ?_, ?_⟩
  · unfold ternary3; rw [window1, ternary_at 16 _ _ _ _ _ (by decide)]; exact isTernary_of 16 t I c r _ (by decide)
  · unfold ternary5; rw [window2, ternary_at 64 _ _ _ _ _ (by decide)]; exact isTernary_of 64 t I c r _ (by decide)
  · unfold ternary7; rw [table7, ternary_at 64 _ _ _ _ _ (by decide)]; exact isTernary_of 64 t I c r _ (by decide)
  · unfold ternary9; rw [table9, ternary_at 64 _ _ _ _ _ (by decide)]; exact isTernary_of 64 t I c r _ (by decide)

/-- The patterns: no place twice, not the centre, all in the window; unchanged by reflection and by exchanging rows and columns. -/
def GoodPattern (h : Int) (offs : List Pt) : Prop :=
  offs.Nodup ∧ ∀ d ∈ offs, d ≠ (0, 0) ∧ -h ≤ d.1 ∧ d.1 ≤ h ∧ -h ≤ d.2 ∧ d.2 ≤ h ∧ (-d.1, d.2) ∈ offs ∧ (d.2, d.1) ∈ offs

instance (h : Int) (offs : List Pt) : Decidable (GoodPattern h offs) := by unfold GoodPattern; infer_instance

/-- The five patterns are of that kind; those of the binary transforms up to 7x7 have all pixels of the window. -/
theorem patterns :
    GoodPattern 1 (square 1) ∧ GoodPattern 2 (square 2) ∧ GoodPattern 3 (square 3) ∧ GoodPattern 3 (marked 3 picture7) ∧
    GoodPattern 4 (marked 4 picture9) ∧
    (square 1).length = 8 ∧ (square 2).length = 24 ∧ (square 3).length = 48 ∧ (marked 3 picture7).length = 32 ∧
    (marked 4 picture9).length = 32 := by
  refine ⟨by decide +kernel, by decide +kernel, by decide +kernel, by decide +kernel, by decide +kernel, by decide, by decide, by decide,
    by decide, by decide⟩

/-- A code that is determined by the comparisons only. -/
theorem binaryCode_unique (v v' w w' : Nat) (I J : Img) (c r c' r' : Int) (offs : List Pt) (h : IsBinaryCode v w I c r offs)
    (h' : IsBinaryCode v' w' J c' r' offs) : v = v' ↔ ∀ d ∈ offs, (brighter I c r d ↔ brighter J c' r' d) := by
  constructor
  · rintro rfl d hd
    obtain ⟨i, hi, e⟩ := List.mem_iff_getElem.1 hd
    have e' : offs[i]? = some d := by rw [List.getElem?_eq_getElem hi, e]
    have a := h.2 i
    have b := h'.2 i
    rw [e'] at a b
    simp only [Option.some.injEq, exists_eq_left'] at a b
    rw [← a, ← b]
  · intro hd
    apply Nat.eq_of_testBit_eq
    intro i
    rw [Bool.eq_iff_iff, h.2 i, h'.2 i]
    constructor
    · rintro ⟨d, hm, hb⟩
      exact ⟨d, hm, (hd d (List.mem_of_getElem? hm)).1 hb⟩
    · rintro ⟨d, hm, hb⟩
      exact ⟨d, hm, (hd d (List.mem_of_getElem? hm)).2 hb⟩

/-- **C150 (brightness)**: a change of brightness that keeps the order of all values changes no binary code. -/
theorem binary_invariant (I : Img) (f : Nat → Nat) (hf : ∀ a b, a < b ↔ f a < f b) (c r : Int) :
    census3 (fun x y => f (I x y)) c r = census3 I c r ∧ census5 (fun x y => f (I x y)) c r = census5 I c r ∧
    census7 (fun x y => f (I x y)) c r = census7 I c r ∧ census9 (fun x y => f (I x y)) c r = census9 I c r := by
  obtain ⟨a1, a2, a3, a4⟩ := binary_codes (fun x y => f (I x y)) c r
  obtain ⟨b1, b2, b3, b4⟩ := binary_codes I c r
  have hb : ∀ d : Pt, brighter (fun x y => f (I x y)) c r d ↔ brighter I c r d := fun d => (hf _ _).symm
  exact ⟨(binaryCode_unique _ _ _ _ _ _ _ _ _ _ _ a1 b1).2 fun d _ => hb d, (binaryCode_unique _ _ _ _ _ _ _ _ _ _ _ a2 b2).2 fun d _ => hb d,
    (binaryCode_unique _ _ _ _ _ _ _ _ _ _ _ a3 b3).2 fun d _ => hb d, (binaryCode_unique _ _ _ _ _ _ _ _ _ _ _ a4 b4).2 fun d _ => hb d⟩

/-! ### C151 -/

/-- The number of places of the pattern where the comparisons of the two images differ. -/
def disagreements (I J : Img) (c r c' r' : Int) (offs : List Pt) : Nat :=
  (offs.filter fun d => decide (¬ (brighter I c r d ↔ brighter J c' r' d))).length

/-- The sum over the pattern of the differences of the levels. -/
def levelDistance (t : Int) (I J : Img) (c r c' r' : Int) (offs : List Pt) : Nat :=
  (offs.map fun d => ((level t I c r d : Int) - level t J c' r' d).natAbs).sum

theorem diffs_bits (I J : Img) (c r c' r' : Int) (offs : List Pt) :
    diffs (bitsOf I c r offs) (bitsOf J c' r' offs) = disagreements I J c r c' r' offs := by
  unfold diffs bitsOf disagreements
  induction offs with
  | nil => rfl
  | cons d offs ih =>
    simp only [List.map_cons, List.zipWith_cons_cons, List.sum_cons, List.filter_cons]
    rw [ih]
    by_cases a : brighter I c r d <;> by_cases b : brighter J c' r' d <;> simp [a, b] <;> omega

theorem level_le (t : Int) (I : Img) (c r : Int) (d : Pt) : level t I c r d = 0 ∨ level t I c r d = 1 ∨ level t I c r d = 2 := by
  unfold level; split_ifs <;> simp

theorem diffs_tbits (t : Int) (I J : Img) (c r c' r' : Int) (offs : List Pt) :
    diffs (tbitsOf t I c r offs) (tbitsOf t J c' r' offs) = levelDistance t I J c r c' r' offs := by
  unfold diffs tbitsOf levelDistance
  induction offs with
  | nil => rfl
  | cons d offs ih =>
    simp only [List.flatMap_cons, List.map_cons, List.sum_cons]
    rw [← ih]
    rcases level_le t I c r d with a | a | a <;> rcases level_le t J c' r' d with b | b | b <;>
      simp [a, b, levelBits] <;> omega

theorem pop_binary (I J : Img) (c r c' r' : Int) (offs : List Pt) :
    hammingPop (ofBits (bitsOf I c r offs)) (ofBits (bitsOf J c' r' offs)) = disagreements I J c r c' r' offs := by
  unfold hammingPop
  rw [popcount_xor _ _ (by simp [bitsOf]), diffs_bits]

theorem pop_ternary (t : Int) (I J : Img) (c r c' r' : Int) (offs : List Pt) :
    hammingPop (ofBits (tbitsOf t I c r offs)) (ofBits (tbitsOf t J c' r' offs)) = levelDistance t I J c r c' r' offs := by
  unfold hammingPop
  rw [popcount_xor _ _ (by rw [length_tbits, length_tbits]), diffs_tbits]

theorem hamming_pop (w a b : Nat) (ha : a < 2 ^ w) (hb : b < 2 ^ w) : Functions.hamming w a b = hammingPop a b := by
  have hx : a ^^^ b < 2 ^ w := Nat.xor_lt_two_pow ha hb
  unfold Functions.hamming hammingPop
  rw [Functions.bitLoop_eq w _ 0 (by have := Functions.popcount_le w _ hx; have := Nat.lt_two_pow_self (n := w); omega), Nat.zero_add]

theorem disagreements_le (I J : Img) (c r c' r' : Int) (offs : List Pt) : disagreements I J c r c' r' offs ≤ offs.length :=
  List.length_filter_le _ _

theorem levelDistance_le (t : Int) (I J : Img) (c r c' r' : Int) (offs : List Pt) :
    levelDistance t I J c r c' r' offs ≤ 2 * offs.length := by
  unfold levelDistance
  induction offs with
  | nil => simp
  | cons d offs ih =>
    rw [List.map_cons, List.sum_cons, List.length_cons]
    have : ((level t I c r d : Int) - level t J c' r' d).natAbs ≤ 2 := by
      rcases level_le t I c r d with a | a | a <;> rcases level_le t J c' r' d with b | b | b <;> rw [a, b] <;> decide
    omega

/-- The window of `half` pixels around a pixel lies in the image. -/
def Fits (S : Sized) (half c r : Int) : Prop := half ≤ c ∧ c + half < S.cols ∧ half ≤ r ∧ r + half < S.rows

theorem codeAt_fits (w : Nat) (code : Img → Int → Int → Nat) (half : Int) (S : Sized) (c r : Int) (h : Fits S half c r) :
    codeAt w code half S (c - half) (r - half) = some (code S.at_ c r % 2 ^ w) := by
  unfold Fits at h
  unfold codeAt
  rw [if_pos (by omega)]
  have h1 : c - half + half = c := by omega
  have h2 : r - half + half = r := by omega
  rw [h1, h2]

theorem cost_fits (w : Nat) (ham : Nat → Nat → Nat) (code : Img → Int → Int → Nat) (half : Int) (L R : Sized) (c r dx dy : Int)
    (hL : Fits L half c r) (hR : Fits R half (c + dx) (r + dy)) :
    cost w ham code half L R c r dx dy = some (ham (code L.at_ c r % 2 ^ w) (code R.at_ (c + dx) (r + dy) % 2 ^ w) % 2 ^ 8) := by
  unfold cost
  rw [codeAt_fits w code half L c r hL]
  have e1 : c - half + dx = c + dx - half := by omega
  have e2 : r - half + dy = r + dy - half := by omega
  rw [e1, e2, codeAt_fits w code half R _ _ hR]
  rfl

theorem cost_binary (w : Nat) (ham : Nat → Nat → Nat) (code : Img → Int → Int → Nat) (half : Int) (L R : Sized) (c r dx dy : Int)
    (hL : Fits L half c r) (hR : Fits R half (c + dx) (r + dy)) (offs : List Pt) (hw : offs.length ≤ w) (h8 : offs.length < 256)
    (hcode : ∀ I c r, code I c r = ofBits (bitsOf I c r offs)) (hham : ∀ a b, a < 2 ^ w → b < 2 ^ w → ham a b = hammingPop a b) :
    cost w ham code half L R c r dx dy = some (disagreements L.at_ R.at_ c r (c + dx) (r + dy) offs) := by
  have hlt : ∀ I c r, code I c r < 2 ^ w := by
    intro I c r
    rw [hcode]
    exact (isBinary_of w I c r offs hw).1
  rw [cost_fits w ham code half L R c r dx dy hL hR, Nat.mod_eq_of_lt (hlt _ _ _), Nat.mod_eq_of_lt (hlt _ _ _),
    hham _ _ (hlt _ _ _) (hlt _ _ _), hcode, hcode, pop_binary, Nat.mod_eq_of_lt]
  have := disagreements_le L.at_ R.at_ c r (c + dx) (r + dy) offs
  omega

theorem cost_ternary (w : Nat) (t : Int) (ham : Nat → Nat → Nat) (code : Img → Int → Int → Nat) (half : Int) (L R : Sized) (c r dx dy : Int)
    (hL : Fits L half c r) (hR : Fits R half (c + dx) (r + dy)) (offs : List Pt) (hw : 2 * offs.length ≤ w) (h8 : 2 * offs.length < 256)
    (hcode : ∀ I c r, code I c r % 2 ^ w = ofBits (tbitsOf t I c r offs)) (hham : ∀ a b, a < 2 ^ w → b < 2 ^ w → ham a b = hammingPop a b) :
    cost w ham code half L R c r dx dy = some (levelDistance t L.at_ R.at_ c r (c + dx) (r + dy) offs) := by
  have hlt : ∀ I c r, ofBits (tbitsOf t I c r offs) < 2 ^ w := by
    intro I c r
    exact (isTernary_of w t I c r offs hw).1
  rw [cost_fits w ham code half L R c r dx dy hL hR, hcode, hcode,
    hham _ _ (hlt _ _ _) (hlt _ _ _), pop_ternary, Nat.mod_eq_of_lt]
  have := levelDistance_le t L.at_ R.at_ c r (c + dx) (r + dy) offs
  omega

/-- The pattern of a kernel size. -/
def binaryPattern (k : Int) : List Pt := if k = 3 then square 1 else if k = 5 then square 2 else if k = 7 then square 3 else marked 4 picture9

/-- The pattern of a kernel size, ternary. -/
def ternaryPattern (k : Int) : List Pt :=
  if k = 3 then square 1 else if k = 5 then square 2 else if k = 7 then marked 3 picture7 else marked 4 picture9

theorem disagreements_reverse (I J : Img) (c r c' r' : Int) (offs : List Pt) :
    disagreements I J c r c' r' offs.reverse = disagreements I J c r c' r' offs := by
  unfold disagreements; rw [List.filter_reverse, List.length_reverse]

theorem levelDistance_reverse (t : Int) (I J : Img) (c r c' r' : Int) (offs : List Pt) :
    levelDistance t I J c r c' r' offs.reverse = levelDistance t I J c r c' r' offs := by
  unfold levelDistance; rw [List.map_reverse, List.sum_reverse]

/-- **C151 (binary)**: where the windows of the pixel and of the shifted pixel lie in the images, the cost is the number of pixels of the
pattern that compare differently with their centre. -/
theorem cost_binary_spec (k : Int) (hk : k = 3 ∨ k = 5 ∨ k = 7 ∨ k = 9) (L R : Sized) (c r dx dy : Int)
    (hL : Fits L ((k - 1) / 2) c r) (hR : Fits R ((k - 1) / 2) (c + dx) (r + dy)) :
    costOf k none L R c r dx dy = some (disagreements L.at_ R.at_ c r (c + dx) (r + dy) (binaryPattern k)) := by
  rcases hk with rfl | rfl | rfl | rfl
  · rw [show binaryPattern 3 = square 1 from rfl, ← disagreements_reverse]
    exact cost_binary 8 _ census3 1 L R c r dx dy hL hR _ (by decide) (by decide) census3_eq fun a b => hamming_pop 8 a b
  · rw [show binaryPattern 5 = square 2 from rfl, ← disagreements_reverse]
    exact cost_binary 32 _ census5 2 L R c r dx dy hL hR _ (by decide) (by decide)
      (fun I c r => by unfold census5; rw [window2, binary_at 32 _ _ _ _ (by decide)]) fun a b _ _ => rfl
  · rw [show binaryPattern 7 = square 3 from rfl, ← disagreements_reverse]
    exact cost_binary 64 _ census7 3 L R c r dx dy hL hR _ (by decide) (by decide)
      (fun I c r => by unfold census7; rw [window3, binary_at 64 _ _ _ _ (by decide)]) fun a b _ _ => rfl
  · exact cost_binary 32 _ census9 4 L R c r dx dy hL hR (marked 4 picture9) (by decide) (by decide)
      (fun I c r => by unfold census9; rw [table9, binary_at 32 _ _ _ _ (by decide)]) fun a b _ _ => rfl

/-- **C151 (ternary, partial)**: for kernels of 3, 7 and 9 the cost is the sum of the differences of the levels over the pattern. For 5 see
`cost_ternary5`. -/
theorem cost_ternary_spec_partial (k : Int) (hk : k = 3 ∨ k = 7 ∨ k = 9) (t : Int) (L R : Sized) (c r dx dy : Int)
    (hL : Fits L ((k - 1) / 2) c r) (hR : Fits R ((k - 1) / 2) (c + dx) (r + dy)) :
    costOf k (some t) L R c r dx dy = some (levelDistance t L.at_ R.at_ c r (c + dx) (r + dy) (ternaryPattern k)) := by
  have hm : ∀ (w : Nat) I c r offs, 2 * offs.length ≤ w → ofBits (tbitsOf t I c r offs) % 2 ^ w = ofBits (tbitsOf t I c r offs) :=
    fun w I c r offs h => Nat.mod_eq_of_lt (isTernary_of w t I c r offs h).1
  rcases hk with rfl | rfl | rfl
  · rw [show ternaryPattern 3 = square 1 from rfl, ← levelDistance_reverse]
    exact cost_ternary 16 t _ (ternary3 t) 1 L R c r dx dy hL hR _ (by decide) (by decide)
      (fun I c r => by unfold ternary3; rw [window1, ternary_at 16 _ _ _ _ _ (by decide), hm _ _ _ _ _ (by decide)])
      fun a b => hamming_pop 16 a b
  · exact cost_ternary 64 t _ (ternary7 t) 3 L R c r dx dy hL hR (marked 3 picture7) (by decide) (by decide)
      (fun I c r => by unfold ternary7; rw [table7, ternary_at 64 _ _ _ _ _ (by decide), hm _ _ _ _ _ (by decide)]) fun a b _ _ => rfl
  · exact cost_ternary 64 t _ (ternary9 t) 4 L R c r dx dy hL hR (marked 4 picture9) (by decide) (by decide)
      (fun I c r => by unfold ternary9; rw [table9, ternary_at 64 _ _ _ _ _ (by decide), hm _ _ _ _ _ (by decide)]) fun a b _ _ => rfl

/-- The 16 pixels of the 5x5 window that remain when its code of 48 bits is put into an image of 32 bits: without the upper row and the
pixels above and to the upper left. -/
def kept5 : List Pt := (square 2).filter fun d => decide (0 ≤ d.2 ∨ (d.2 = -1 ∧ 0 < d.1))

theorem cut5 (t : Int) (I : Img) (c r : Int) : ternary5 t I c r % 2 ^ 32 = ofBits (tbitsOf t I c r kept5.reverse) := by
  unfold ternary5
  rw [window2, ternary_at 64 _ _ _ _ _ (by decide)]
  have hs : (square 2).reverse = kept5.reverse ++ (square 2).reverse.drop 16 := by decide +kernel
  have hl : (tbitsOf t I c r kept5.reverse).length = 32 := by rw [length_tbits]; decide
  rw [hs]
  unfold tbitsOf at hl ⊢
  rw [List.flatMap_append, ofBits_append, hl, Nat.add_mul_mod_self_left]
  apply Nat.mod_eq_of_lt
  have := ofBits_lt (kept5.reverse.flatMap fun d => levelBits (level t I c r d))
  rwa [hl] at this

/-- **C151 (ternary 5x5, refuted)**: with the ternary transform of 5x5 only 16 of the 24 pixels count. -/
theorem cost_ternary5 (t : Int) (L R : Sized) (c r dx dy : Int) (hL : Fits L 2 c r) (hR : Fits R 2 (c + dx) (r + dy)) :
    costOf 5 (some t) L R c r dx dy = some (levelDistance t L.at_ R.at_ c r (c + dx) (r + dy) kept5) := by
  rw [← levelDistance_reverse]
  exact cost_ternary 32 t _ (ternary5 t) 2 L R c r dx dy hL hR kept5.reverse (by decide) (by decide) (cut5 t) fun a b _ _ => rfl

/-- Two images of 5x5 that differ in the upper row, where the first is brighter than the centre, and so in the levels of five pixels. -/
def exL : Sized := ⟨5, 5, fun _ y => if y = 0 then 200 else 100⟩
def exR : Sized := ⟨5, 5, fun _ _ => 100⟩

/-- Five pixels differ, the cost is 0. -/
theorem ternary5_misses : Fits exL 2 2 2 ∧ Fits exR 2 2 2 ∧ costOf 5 (some 2) exL exR 2 2 0 0 = some 0 ∧
    levelDistance 2 exL.at_ exR.at_ 2 2 2 2 (ternaryPattern 5) = 5 := by
  have hL : Fits exL 2 2 2 := by unfold Fits exL; decide
  have hR : Fits exR 2 2 2 := by unfold Fits exR; decide
  refine ⟨hL, hR, ?_, by decide +kernel⟩
  rw [cost_ternary5 2 exL exR 2 2 0 0 hL hR]
  decide +kernel

/-- Other kernel sizes are refused. -/
theorem costOf_other (k : Int) (hk : k ≠ 3 ∧ k ≠ 5 ∧ k ≠ 7 ∧ k ≠ 9) (tern : Option Int) (L R : Sized) (c r dx dy : Int) :
    costOf k tern L R c r dx dy = none := by
  obtain ⟨h3, h5, h7, h9⟩ := hk
  unfold costOf
  dsimp only
  split <;> first | rfl | (exfalso; omega)

/-! ### The buffer -/

theorem flatMap_get {α β : Type} (f : α → List β) (l : List α) (k i : Nat) (x : α) (hx : l[k]? = some x) (hi : i < (f x).length) :
    (l.flatMap f)[((l.take k).map fun y => (f y).length).sum + i]? = (f x)[i]? := by
  induction l generalizing k with
  | nil => simp at hx
  | cons y l ih =>
    cases k with
    | zero =>
      obtain rfl : y = x := by simpa using hx
      simp only [List.take_zero, List.map_nil, List.sum_nil, Nat.zero_add, List.flatMap_cons]
      rw [List.getElem?_append_left hi]
    | succ k =>
      rw [List.getElem?_cons_succ] at hx
      rw [List.take_succ_cons, List.map_cons, List.sum_cons, List.flatMap_cons, List.getElem?_append_right (by omega)]
      have : (f y).length + ((l.take k).map fun y => (f y).length).sum + i - (f y).length =
        ((l.take k).map fun y => (f y).length).sum + i := by omega
      rw [this, ih k hx]

theorem costBuffer_eq (f : Int → Int → Int → Int → Option Nat) (minRow maxRow minCol maxCol : Int) (bounds : Int → Int → Range) :
    costBuffer f minRow maxRow minCol maxCol bounds =
      (rowMajor (maxCol - minCol + 1) (maxRow - minRow + 1)).flatMap fun q =>
        (bounds q.1 q.2).disps.map fun d => f (minCol + q.1) (minRow + q.2) d.1 d.2 := by
  unfold costBuffer rowMajor
  rw [List.flatMap_assoc]
  congr 1
  funext j
  rw [List.flatMap_map]

/-- **C151 (buffer)**: the cost of pixel (i,j) of the output and of a disparity of its range stands in the buffer where the matcher looks for
it: at the start of that pixel (`bufferStarts`, the running sum of the numbers of disparities in row-major order) plus the row of the
disparity in its range times the width of the range plus its column. -/
theorem costBuffer_spec (f : Int → Int → Int → Int → Option Nat) (minRow maxRow minCol maxCol : Int) (bounds : Int → Int → Range)
    (hb : ∀ i j, (bounds i j).x0 ≤ (bounds i j).x1 + 1 ∧ (bounds i j).y0 ≤ (bounds i j).y1 + 1)
    (i j : Nat) (hi : (i : Int) ≤ maxCol - minCol) (hj : (j : Int) ≤ maxRow - minRow) (dx dy : Int)
    (hx : (bounds i j).x0 ≤ dx ∧ dx ≤ (bounds i j).x1) (hy : (bounds i j).y0 ≤ dy ∧ dy ≤ (bounds i j).y1) :
    let W := maxCol - minCol + 1
    let nums := (rowMajor W (maxRow - minRow + 1)).map fun q => (bounds q.1 q.2).num
    let start := (bufferStarts nums).1.getD (j * W.toNat + i) 0
    0 ≤ start ∧ (costBuffer f minRow maxRow minCol maxCol bounds)[(start + ((dy - (bounds i j).y0) * ((bounds i j).x1 - (bounds i j).x0 + 1) +
      (dx - (bounds i j).x0))).toNat]? = some (f (minCol + i) (minRow + j) dx dy) := by
  intro W nums start
  set b := bounds i j with hbdef
  have hWi : i < W.toNat := by omega
  -- the pixel
  have hget : (rowMajor W (maxRow - minRow + 1))[j * W.toNat + i]? = some ((i : Int), (j : Int)) := by
    unfold rowMajor
    rw [SGM.getElem?_flatMap_const _ W.toNat _ (by intro x _; simp) _ _ hWi, List.getElem?_range (by omega), Option.bind_some,
      List.getElem?_map, List.getElem?_range hWi]
    rfl
  have hlt : j * W.toNat + i < (rowMajor W (maxRow - minRow + 1)).length := by
    by_contra h
    rw [List.getElem?_eq_none (by omega)] at hget
    cases hget
  -- lengths
  have hlen : ∀ q : Pt, ((((bounds q.1 q.2).disps.map fun d => f (minCol + q.1) (minRow + q.2) d.1 d.2).length : Nat) : Int) =
      (bounds q.1 q.2).num := by
    intro q
    rw [List.length_map, SGM.length_disps]
    unfold Range.height Range.width Range.num
    have := hb q.1 q.2
    rw [Int.natCast_mul, Int.toNat_of_nonneg (by omega), Int.toNat_of_nonneg (by omega), Int.mul_comm]
  have hstart : start = (((((rowMajor W (maxRow - minRow + 1)).take (j * W.toNat + i)).map fun q =>
      ((bounds q.1 q.2).disps.map fun d => f (minCol + q.1) (minRow + q.2) d.1 d.2).length).sum : Nat) : Int) := by
    show (bufferStarts nums).1.getD (j * W.toNat + i) 0 = _
    unfold bufferStarts
    rw [SGM.bufferStarts_fold]
    have hl : j * W.toNat + i < nums.length := by rw [List.length_map]; exact hlt
    rw [List.getD_eq_getElem?_getD, List.getElem?_map, List.getElem?_range hl]
    simp only [Option.map_some, Option.getD_some]
    show (nums.take _).sum = _
    rw [← List.map_take]
    generalize (rowMajor W (maxRow - minRow + 1)).take (j * W.toNat + i) = l
    induction l with
    | nil => rfl
    | cons q l ih => rw [List.map_cons, List.sum_cons, List.map_cons, List.sum_cons, ih, ← hlen q]; rfl
  refine ⟨by rw [hstart]; exact Int.natCast_nonneg _, ?_⟩
  -- the disparity
  have hw : (b.width : Int) = b.x1 - b.x0 + 1 := by unfold Range.width; omega
  have hh : (b.height : Int) = b.y1 - b.y0 + 1 := by unfold Range.height; omega
  obtain ⟨u, hu⟩ := Int.eq_ofNat_of_zero_le (show 0 ≤ dx - b.x0 by omega)
  obtain ⟨v, hv⟩ := Int.eq_ofNat_of_zero_le (show 0 ≤ dy - b.y0 by omega)
  have hu' : u < b.width := by omega
  have hv' : v < b.height := by omega
  have hdi : v * b.width + u < b.disps.length := by
    rw [SGM.length_disps]
    calc v * b.width + u < v * b.width + b.width := by omega
      _ = (v + 1) * b.width := by rw [Nat.add_mul, Nat.one_mul]
      _ ≤ b.height * b.width := Nat.mul_le_mul_right _ hv'
  have hd := SGM.disps_getElem? b (v * b.width + u) hdi
  have m1 : (v * b.width + u) % b.width = u := by rw [Nat.mul_comm, Nat.mul_add_mod, Nat.mod_eq_of_lt hu']
  have m2 : (v * b.width + u) / b.width = v := by
    rw [Nat.mul_comm, Nat.mul_add_div (by omega), Nat.div_eq_of_lt hu', Nat.add_zero]
  rw [m1, m2] at hd
  have hg := flatMap_get (fun q : Pt => (bounds q.1 q.2).disps.map fun d => f (minCol + q.1) (minRow + q.2) d.1 d.2)
    (rowMajor W (maxRow - minRow + 1)) (j * W.toNat + i) (v * b.width + u) _ hget (by rw [List.length_map]; exact hdi)
  rw [costBuffer_eq]
  have hidx : (start + ((dy - b.y0) * (b.x1 - b.x0 + 1) + (dx - b.x0))).toNat =
      (((rowMajor W (maxRow - minRow + 1)).take (j * W.toNat + i)).map fun q =>
        ((bounds q.1 q.2).disps.map fun d => f (minCol + q.1) (minRow + q.2) d.1 d.2).length).sum + (v * b.width + u) := by
    rw [hstart, ← hw, hu, hv]
    rw [show ((v : Int) * (b.width : Int) + (u : Int)) = ((v * b.width + u : Nat) : Int) by push_cast; rfl, ← Int.natCast_add, Int.toNat_natCast]
  rw [hidx, hg, List.getElem?_map]
  show (b.disps[v * b.width + u]?).map _ = _
  rw [hd]
  simp only [Option.map_some]
  have a1 : b.x0 + (u : Int) = dx := by omega
  have a2 : b.y0 + (v : Int) = dy := by omega
  rw [a1, a2]

example : ∃ b : Int → Int → Range, (∀ i j, (b i j).x0 ≤ (b i j).x1 + 1 ∧ (b i j).y0 ≤ (b i j).y1 + 1) ∧
    (costBuffer (fun c r dx dy => some (c + 10 * r + 100 * dx + 1000 * dy).toNat) 1 2 1 2 b).length = 8 :=
  ⟨fun i _ => ⟨0, 0, if i = 0 then 2 else 0, 0⟩, by intro i j; dsimp only; split_ifs <;> omega, by decide +kernel⟩

end VW.Census
