import Verif.IPMatch.MatchProps

/-! Duplicates, order and selection of interest points (C131). -/

namespace VW.IPMatch

/-! ### Duplicates -/

/-- Two pairs share a position, in the first or in the second image. -/
def Shares (a b : Point × Point) : Prop :=
  (a.1.x = b.1.x ∧ a.1.y = b.1.y) ∨ (a.2.x = b.2.x ∧ a.2.y = b.2.y)

open Classical in
/-- The pairs that remain, last first: a pair remains if it shares no position with a later one that remains. -/
noncomputable def keepLast : List (Point × Point) → List (Point × Point)
  | [] => []
  | p :: rest => if ∃ q ∈ keepLast rest, Shares p q then keepLast rest else p :: keepLast rest

theorem keepLast_append_acc (rev out : List (Point × Point)) (s1 s2 : List (ℚ × ℚ))
    (h1 : ∀ a, a ∈ s1 ↔ ∃ q ∈ out, (q.1.x, q.1.y) = a) (h2 : ∀ a, a ∈ s2 ↔ ∃ q ∈ out, (q.2.x, q.2.y) = a)
    (l : List (Point × Point)) (ho : out.reverse = keepLast l) :
    (dupLoop rev s1 s2 out).reverse = keepLast (rev.reverse ++ l) := by
  induction rev generalizing out s1 s2 l with
  | nil => simpa [dupLoop] using ho
  | cons pq rest ih =>
    obtain ⟨p, q⟩ := pq
    have e : ((p, q) :: rest).reverse ++ l = rest.reverse ++ (p, q) :: l := by simp
    rw [e]
    unfold dupLoop
    have hm : ((p.x, p.y) ∈ s1 ∨ (q.x, q.y) ∈ s2) ↔ ∃ r ∈ keepLast l, Shares (p, q) r := by
      rw [← ho, h1, h2]
      simp only [List.mem_reverse, Shares, Prod.mk.injEq]
      constructor
      · rintro (⟨r, hr, h, h'⟩ | ⟨r, hr, h, h'⟩)
        · exact ⟨r, hr, Or.inl ⟨h.symm, h'.symm⟩⟩
        · exact ⟨r, hr, Or.inr ⟨h.symm, h'.symm⟩⟩
      · rintro ⟨r, hr, ⟨h, h'⟩ | ⟨h, h'⟩⟩
        · exact Or.inl ⟨r, hr, h.symm, h'.symm⟩
        · exact Or.inr ⟨r, hr, h.symm, h'.symm⟩
    by_cases h : (p.x, p.y) ∈ s1 ∨ (q.x, q.y) ∈ s2
    · rw [if_pos h]
      apply ih _ _ _ h1 h2
      rw [keepLast, if_pos (hm.1 h)]; exact ho
    · rw [if_neg h]
      apply ih
      · intro a
        rw [List.mem_cons, h1]
        constructor
        · rintro (rfl | ⟨r, hr, e⟩)
          · exact ⟨(p, q), by simp, rfl⟩
          · exact ⟨r, by simp [hr], e⟩
        · rintro ⟨r, hr, e⟩
          rcases List.mem_append.1 hr with hr | hr
          · exact Or.inr ⟨r, hr, e⟩
          · rw [List.mem_singleton] at hr; subst hr; exact Or.inl e.symm
      · intro a
        rw [List.mem_cons, h2]
        constructor
        · rintro (rfl | ⟨r, hr, e⟩)
          · exact ⟨(p, q), by simp, rfl⟩
          · exact ⟨r, by simp [hr], e⟩
        · rintro ⟨r, hr, e⟩
          rcases List.mem_append.1 hr with hr | hr
          · exact Or.inr ⟨r, hr, e⟩
          · rw [List.mem_singleton] at hr; subst hr; exact Or.inl e.symm
      · rw [keepLast, if_neg (fun h' => h (hm.2 h'))]
        simp [ho]

theorem removeDuplicates_eq (ip1 ip2 : List Point) (h : ip1.length = ip2.length) :
    removeDuplicates ip1 ip2 = some ((keepLast (ip1.zip ip2)).map Prod.fst, (keepLast (ip1.zip ip2)).map Prod.snd) := by
  unfold removeDuplicates
  rw [if_pos h]
  have := keepLast_append_acc (ip1.zip ip2).reverse [] [] [] (by simp) (by simp) [] (by simp [keepLast])
  simp only [List.reverse_reverse, List.append_nil] at this
  simp only [this]

theorem keepLast_sublist (l : List (Point × Point)) : (keepLast l).Sublist l := by
  induction l with
  | nil => exact List.Sublist.refl _
  | cons p l ih =>
    unfold keepLast
    split
    · exact ih.cons _
    · exact ih.cons_cons _

theorem keepLast_pairwise (l : List (Point × Point)) : (keepLast l).Pairwise (fun a b => ¬ Shares a b) := by
  induction l with
  | nil => exact List.Pairwise.nil
  | cons p l ih =>
    unfold keepLast
    split
    · exact ih
    · rename_i h
      rw [List.pairwise_cons]
      exact ⟨fun q hq hs => h ⟨q, hq, hs⟩, ih⟩

theorem keepLast_covers (a b : List (Point × Point)) (p : Point × Point) :
    p ∈ keepLast (p :: b) ∨ ∃ q ∈ keepLast (a ++ p :: b), q ∈ b ∧ Shares p q := by
  by_cases h : ∃ q ∈ keepLast b, Shares p q
  · right
    obtain ⟨q, hq, hs⟩ := h
    refine ⟨q, ?_, (keepLast_sublist b).subset hq, hs⟩
    have h1 : q ∈ keepLast (p :: b) := by
      unfold keepLast
      rw [if_pos ⟨q, hq, hs⟩]; exact hq
    induction a with
    | nil => exact h1
    | cons x a ih =>
      rw [List.cons_append]
      unfold keepLast
      split
      · exact ih
      · exact List.mem_cons_of_mem _ ih
  · left
    unfold keepLast
    rw [if_neg h]; simp

theorem keepLast_fixed (l : List (Point × Point)) (h : l.Pairwise (fun a b => ¬ Shares a b)) : keepLast l = l := by
  induction l with
  | nil => rfl
  | cons p l ih =>
    rw [List.pairwise_cons] at h
    unfold keepLast
    rw [ih h.2, if_neg]
    rintro ⟨q, hq, hs⟩
    exact h.1 q hq hs

/-- **C131 (duplicates).** For lists of equal length `remove_duplicates` keeps some of the pairs, in order; no two of them share a
position in the first or in the second image; the last pair is kept, and each pair that is not kept shares a position with a pair
after it that is kept. -/
theorem removeDuplicates_spec (ip1 ip2 : List Point) (h : ip1.length = ip2.length) :
    ∃ r : List (Point × Point), removeDuplicates ip1 ip2 = some (r.map Prod.fst, r.map Prod.snd) ∧ r.Sublist (ip1.zip ip2) ∧
      r.Pairwise (fun a b => ¬ Shares a b) ∧
      (∀ a p b, ip1.zip ip2 = a ++ p :: b → p ∈ r ∨ ∃ q ∈ r, q ∈ b ∧ Shares p q) := by
  refine ⟨_, removeDuplicates_eq ip1 ip2 h, keepLast_sublist _, keepLast_pairwise _, ?_⟩
  intro a p b e
  rw [e]
  rcases keepLast_covers a b p with h1 | h1
  · left
    clear e
    induction a with
    | nil => exact h1
    | cons x a ih =>
      rw [List.cons_append]
      unfold keepLast
      split
      · exact ih
      · exact List.mem_cons_of_mem _ ih
  · right; exact h1

/-- Lists of different lengths are refused. -/
theorem removeDuplicates_throws (ip1 ip2 : List Point) : removeDuplicates ip1 ip2 = none ↔ ip1.length ≠ ip2.length := by
  unfold removeDuplicates
  split <;> simp_all

/-- **C131.** A second call changes nothing; nor does the first, if no two pairs share a position. -/
theorem removeDuplicates_idem (ip1 ip2 r1 r2 : List Point) (h : removeDuplicates ip1 ip2 = some (r1, r2)) :
    removeDuplicates r1 r2 = some (r1, r2) ∧
      ((ip1.zip ip2).Pairwise (fun a b => ¬ Shares a b) → r1 = ip1 ∧ r2 = ip2) := by
  have hl : ip1.length = ip2.length := by
    by_contra hne
    rw [(removeDuplicates_throws ip1 ip2).2 hne] at h; cases h
  rw [removeDuplicates_eq ip1 ip2 hl] at h
  simp only [Option.some.injEq, Prod.mk.injEq] at h
  obtain ⟨rfl, rfl⟩ := h
  have hz : ∀ l : List (Point × Point), (l.map Prod.fst).zip (l.map Prod.snd) = l := by
    intro l; induction l with
    | nil => rfl
    | cons a l ih => simp [ih]
  refine ⟨?_, ?_⟩
  · rw [removeDuplicates_eq _ _ (by simp), hz, keepLast_fixed _ (keepLast_pairwise _)]
  · intro hp
    rw [keepLast_fixed _ hp]
    exact ⟨List.map_fst_zip hl.le, List.map_snd_zip hl.ge⟩

/-- A case: the first and the last pair share a position in the second image, the last two none; the last of the repeated is kept. -/
example : removeDuplicates [pt 0 0 [], pt 1 0 [], pt 2 0 []] [pt 5 5 [], pt 6 6 [], pt 5 5 []] =
    some ([pt 1 0 [], pt 2 0 []], [pt 6 6 [], pt 5 5 []]) := by
  decide +kernel

/-! ### Order -/

/-- The fields that are compared, in order. -/
def key (p : Point) : ℚ ×ₗ ℚ ×ₗ ℚ ×ₗ ℚ ×ₗ ℚ ×ₗ Bool ×ₗ ℕ ×ₗ ℕ :=
  toLex (p.x, toLex (p.y, toLex (p.scale, toLex (p.orientation, toLex (p.interest, toLex (p.polarity, toLex (p.octave, p.scaleLvl)))))))

theorem lex_step {α β : Type} [LinearOrder α] [LinearOrder β] (a b : α) (c d : β) :
    toLex (a, c) < toLex (b, d) ↔ a < b ∨ (¬ a > b ∧ c < d) := by
  rw [Prod.Lex.toLex_lt_toLex]
  simp only [gt_iff_lt]
  constructor
  · rintro (h | ⟨rfl, h⟩)
    · exact Or.inl h
    · exact Or.inr ⟨lt_irrefl _, h⟩
  · rintro (h | ⟨h1, h2⟩)
    · exact Or.inl h
    · rcases lt_or_eq_of_le (not_lt.1 h1) with h | h
      · exact Or.inl h
      · exact Or.inr ⟨h, h2⟩

theorem if_or {P Q : Prop} [Decidable P] [Decidable Q] (b : Bool) :
    ((if P then true else if Q then false else b) = true) ↔ (P ∨ (¬ Q ∧ b = true)) := by
  by_cases h : P
  · simp [h]
  · by_cases h' : Q <;> simp [h, h']

/-- **C131 (order).** `InterestPointLessThan` is the lexicographic order of x, y, scale, orientation, interest, polarity, octave and
scale level; in particular a strict weak order. -/
theorem lessThan_iff (p q : Point) : lessThan p q = true ↔ key p < key q := by
  unfold lessThan key
  rw [if_or, if_or, if_or, if_or, if_or, if_or, if_or]
  rw [lex_step, lex_step, lex_step, lex_step, lex_step, lex_step, lex_step]
  have : (if p.scaleLvl < q.scaleLvl then true else false) = true ↔ p.scaleLvl < q.scaleLvl := by
    by_cases h : p.scaleLvl < q.scaleLvl <;> simp [h]
  rw [this]

theorem lessThan_weak_order (p q r : Point) :
    lessThan p p = false ∧ (lessThan p q = true → lessThan q p = false) ∧
      (lessThan p q = true → lessThan q r = true → lessThan p r = true) ∧
      (lessThan p q = false → lessThan q p = false → lessThan q r = false → lessThan r q = false →
        lessThan p r = false ∧ lessThan r p = false) := by
  simp only [← Bool.not_eq_true, lessThan_iff]
  refine ⟨lt_irrefl _, fun h => h.asymm, fun h h' => h.trans h', fun h1 h2 h3 h4 => ?_⟩
  have e1 : key p = key q := le_antisymm (not_lt.1 h2) (not_lt.1 h1)
  have e2 : key q = key r := le_antisymm (not_lt.1 h4) (not_lt.1 h3)
  rw [e1, e2]; exact ⟨lt_irrefl _, lt_irrefl _⟩

/-- **C131 (unique order).** The same points in another order, as threads may leave them, give the same sorted list, whatever the
sorting algorithms, provided that no two of them agree in all of the fields that are compared. -/
theorem sort_unique (s1 s2 : List Point → List Point) (h1 : IsSort s1) (h2 : IsSort s2) (l l' : List Point) (hp : l.Perm l')
    (hd : l.Pairwise (fun a b => key a ≠ key b)) : s1 l = s2 l' := by
  have perm : (s1 l).Perm (s2 l') := (h1.perm l).trans (hp.trans (h2.perm l').symm)
  have inj : ∀ a ∈ s1 l, ∀ b ∈ s1 l, key a = key b → a = b := by
    have hd' : (s1 l).Pairwise (fun a b => key a ≠ key b) := (List.Perm.pairwise_iff (fun h => Ne.symm h) (h1.perm l)).2 hd
    intro a ha b hb hab
    by_contra hne
    have : Std.Symm (fun a b : Point => key a ≠ key b) := ⟨fun _ _ h => Ne.symm h⟩
    exact (List.Pairwise.forall hd' ha hb hne) hab
  refine List.Perm.eq_of_pairwise (le := fun a b => lessThan b a = false) ?_ (h1.sorted l) (h2.sorted l') perm
  intro a b ha hb hab hba
  rw [← Bool.not_eq_true, lessThan_iff, not_lt] at hab hba
  exact inj a ha b (perm.symm.subset hb) (le_antisymm hab hba)

example : [pt 0 1 [], pt 0 0 [], pt 1 0 []].Pairwise (fun a b => key a ≠ key b) := by
  simp [key, pt]

/-- **Refuted (C131).** "Restore a unique order": points that differ only in the descriptor stay in the order in which they came. -/
theorem sort_not_unique : ∃ s1, IsSort s1 ∧ ∃ l l' : List Point, l.Perm l' ∧ l.Nodup ∧ s1 l ≠ s1 l' := by
  have total : ∀ a b c : Point, (!lessThan b a) = true → (!lessThan c b) = true → (!lessThan c a) = true := by
    intro a b c h1 h2
    rw [Bool.not_eq_true', ← Bool.not_eq_true, lessThan_iff, not_lt] at h1 h2 ⊢
    exact h1.trans h2
  have tot2 : ∀ a b : Point, ((!lessThan b a) || (!lessThan a b)) = true := by
    intro a b
    rw [Bool.or_eq_true, Bool.not_eq_true', Bool.not_eq_true', ← Bool.not_eq_true, ← Bool.not_eq_true, lessThan_iff, lessThan_iff,
      not_lt, not_lt]
    exact le_total _ _
  refine ⟨fun l => l.mergeSort (fun a b => !lessThan b a), ⟨fun l => List.mergeSort_perm _ _, fun l => ?_⟩,
    [pt 0 0 [1], pt 0 0 [2]], [pt 0 0 [2], pt 0 0 [1]], List.Perm.swap _ _ _, by simp [pt], ?_⟩
  · have := List.pairwise_mergeSort total tot2 l
    simpa using this
  · have s1 : [pt 0 0 [1], pt 0 0 [2]].Pairwise (fun a b => (!lessThan b a) = true) := by
      simp [lessThan, pt]
    have s2 : [pt 0 0 [2], pt 0 0 [1]].Pairwise (fun a b => (!lessThan b a) = true) := by
      simp [lessThan, pt]
    show List.mergeSort _ _ ≠ List.mergeSort _ _
    rw [List.mergeSort_of_pairwise s1, List.mergeSort_of_pairwise s2]
    simp [pt]

/-! ### Points in a box, points near no data -/

/-- **C131 (crop).** With a box of numbers that are not integers, the points in the box are selected, in order. -/
theorem cropReal_spec (minx miny maxx maxy : ℚ) (l : List Point) :
    (cropReal minx miny maxx maxy l).Sublist l ∧
      ∀ p, p ∈ cropReal minx miny maxx maxy l ↔ p ∈ l ∧ (minx ≤ p.x ∧ p.x < maxx) ∧ (miny ≤ p.y ∧ p.y < maxy) := by
  refine ⟨List.filter_sublist, fun p => ?_⟩
  unfold cropReal
  rw [List.mem_filter, decide_eq_true_iff]
  tauto

/-- **C131 (crop with an integer box).** If the points have no negative coordinates, the points in the box are selected. -/
theorem cropInt_spec (minx miny maxx maxy : ℤ) (l : List Point) (hl : ∀ p ∈ l, 0 ≤ p.x ∧ 0 ≤ p.y) :
    (cropInt minx miny maxx maxy l).Sublist l ∧
      ∀ p, p ∈ cropInt minx miny maxx maxy l ↔ p ∈ l ∧ ((minx : ℚ) ≤ p.x ∧ p.x < maxx) ∧ ((miny : ℚ) ≤ p.y ∧ p.y < maxy) := by
  refine ⟨List.filter_sublist, fun p => ?_⟩
  unfold cropInt
  rw [List.mem_filter, decide_eq_true_iff]
  refine and_congr_right (fun hp => ?_)
  obtain ⟨hx, hy⟩ := hl p hp
  unfold trunc
  rw [if_pos hx, if_pos hy, Int.le_floor, Int.le_floor, Int.floor_lt, Int.floor_lt]
  tauto

example : pt (3 / 2) 2 [] ∈ cropInt 1 1 2 3 [pt (3 / 2) 2 [], pt 2 2 []] := by
  rw [(cropInt_spec 1 1 2 3 _ (by intro p hp; simp [pt] at hp; rcases hp with rfl | rfl <;> norm_num)).2]
  refine ⟨by simp, ?_⟩
  norm_num [pt]

/-- **Refuted (C131).** A point with a negative coordinate is taken to be in a box that begins at 0. -/
theorem cropInt_negative : pt (-1 / 2) 0 [] ∈ cropInt 0 0 10 10 [pt (-1 / 2) 0 []] := by
  unfold cropInt
  rw [List.mem_filter]
  refine ⟨by simp, ?_⟩
  have : trunc (-1 / 2) = 0 := by
    unfold trunc
    rw [if_neg (by norm_num)]
    norm_num
  have h0 : trunc 0 = 0 := by simp [trunc]
  simp only [pt, this, h0]
  decide

/-- The window of the point is in the image, and none of its pixels is `nodata`. -/
def Clear (img : Img) (nodata : ℚ) (radius : ℕ) (p : Point) : Prop :=
  ∀ c r : ℤ, |c - p.ix| ≤ radius → |r - p.iy| ≤ radius → (0 ≤ c ∧ c < img.w ∧ 0 ≤ r ∧ r < img.h) ∧ img.px c r ≠ nodata

theorem nearNodata_iff (img : Img) (nodata : ℚ) (radius : ℕ) (p : Point) :
    nearNodata img nodata radius p = false ↔ Clear img nodata radius p := by
  unfold nearNodata Clear
  constructor
  · intro h c r hc hr
    rw [abs_le] at hc hr
    by_cases hb : (radius : ℤ) ≤ p.ix ∧ (radius : ℤ) ≤ p.iy ∧ p.ix < img.w - radius ∧ p.iy < img.h - radius
    · rw [if_pos hb] at h
      refine ⟨⟨by omega, by omega, by omega, by omega⟩, fun he => ?_⟩
      rw [List.any_eq_false] at h
      apply h (r - (p.iy - radius)).toNat (List.mem_range.2 (by omega))
      rw [List.any_eq_true]
      refine ⟨(c - (p.ix - radius)).toNat, List.mem_range.2 (by omega), ?_⟩
      rw [decide_eq_true_iff, show p.ix - radius + ((c - (p.ix - radius)).toNat : ℤ) = c by omega,
        show p.iy - radius + ((r - (p.iy - radius)).toNat : ℤ) = r by omega]
      exact he
    · rw [if_neg hb] at h; cases h
  · intro h
    have hlo := (h (p.ix - radius) (p.iy - radius) (by rw [abs_le]; omega) (by rw [abs_le]; omega)).1
    have hhi := (h (p.ix + radius) (p.iy + radius) (by rw [abs_le]; omega) (by rw [abs_le]; omega)).1
    rw [if_pos ⟨by omega, by omega, by omega, by omega⟩, List.any_eq_false]
    intro j hj
    rw [List.mem_range] at hj
    rw [Bool.not_eq_true, List.any_eq_false]
    intro i hi
    rw [List.mem_range] at hi
    rw [decide_eq_true_iff]
    exact (h _ _ (by rw [abs_le]; omega) (by rw [abs_le]; omega)).2

theorem nodataLoop_some (bad : Point → Bool) (before rest : List Point) (h : before ≠ []) :
    nodataLoop bad before rest = some (before ++ rest.filter (fun p => !bad p)) := by
  induction rest generalizing before with
  | nil => simp [nodataLoop]
  | cons p rest ih =>
    unfold nodataLoop
    by_cases hb : bad p = true
    · rw [if_pos hb, if_neg h, ih _ h]; simp [hb]
    · rw [if_neg hb, ih _ (by simp)]; simp [hb]

/-- **C131 (near no data).** If the first point of the list is clear of no data and of the border (or the list is empty), exactly the
points that are so remain, in order. -/
theorem removeNearNodata_spec (img : Img) (nodata : ℚ) (l : List Point) (radius : ℕ)
    (h : ∀ p, l.head? = some p → Clear img nodata radius p) :
    ∃ r, removeNearNodata img nodata l radius = some r ∧ r.Sublist l ∧ ∀ p, p ∈ r ↔ p ∈ l ∧ Clear img nodata radius p := by
  have key : removeNearNodata img nodata l radius = some (l.filter (fun p => !nearNodata img nodata radius p)) := by
    unfold removeNearNodata
    cases l with
    | nil => rfl
    | cons p rest =>
      have hb := (nearNodata_iff img nodata radius p).2 (h p rfl)
      unfold nodataLoop
      rw [if_neg (by simp [hb]), nodataLoop_some _ _ _ (by simp)]
      simp [hb]
  refine ⟨_, key, List.filter_sublist, fun p => ?_⟩
  rw [List.mem_filter, Bool.not_eq_true', nearNodata_iff]

/-- An image of 9 × 9 pixels, no data at (0, 0), negative at (4, 4). -/
def exImg : Img := ⟨9, 9, fun c r => if c = 0 ∧ r = 0 then 0 else if c = 4 ∧ r = 4 then -1 else 1⟩

def at' (ix iy : ℤ) : Point := ⟨ix, iy, 1, ix, iy, 0, 0, false, 0, 0, []⟩

example : removeNearNodata exImg 0 [at' 2 2, at' 1 1, at' 7 8, at' 7 7] 1 = some [at' 2 2, at' 7 7] := by decide +kernel

/-- **Refuted (C131).** If the first point is to be removed, the iterator is moved before the beginning of the list: undefined. -/
theorem removeNearNodata_undefined (img : Img) (nodata : ℚ) (p : Point) (l : List Point) (radius : ℕ)
    (h : ¬ Clear img nodata radius p) : removeNearNodata img nodata (p :: l) radius = none := by
  have hb : nearNodata img nodata radius p = true := by
    rw [← Bool.not_eq_false, nearNodata_iff]; exact h
  unfold removeNearNodata nodataLoop
  rw [if_pos hb, if_pos rfl]

example : ¬ Clear exImg 0 1 (at' 1 1) := by
  intro h
  exact (h 0 0 (by decide) (by decide)).2 (by decide +kernel)

/-- **Refuted (C131).** "A nodata pixel is one for which pixel <= nodata": a pixel below `nodata` counts as data. -/
theorem removeNearNodata_below : removeNearNodata exImg 0 [at' 4 4] 1 = some [at' 4 4] ∧ exImg.px 4 4 ≤ 0 := by decide +kernel

/-! ### Random subset -/

theorem mapM_index {α : Type} (l : List α) (s : List ℕ) (h : ∀ k ∈ s, k < l.length) :
    ∃ r, s.mapM (fun k => l[k]?) = some r ∧ r.length = s.length ∧ ∀ i (hi : i < s.length), r[i]? = l[s[i]]? := by
  induction s with
  | nil => exact ⟨[], rfl, rfl, fun i hi => by simp at hi⟩
  | cons k s ih =>
    obtain ⟨r, h1, h2, h3⟩ := ih (fun j hj => h j (by simp [hj]))
    have hk := h k (by simp)
    refine ⟨l[k] :: r, ?_, by simp [h2], ?_⟩
    · rw [List.mapM_cons, h1, List.getElem?_eq_getElem hk]; rfl
    · intro i hi
      cases i with
      | zero => simp [List.getElem?_eq_getElem hk]
      | succ i => simpa using h3 i (by simpa using hi)

/-- **C131 (random subset).** For lists of equal length, any shuffling and sorting of indices: if there are more pairs than `max`, which
is not negative, `max` pairs at increasing places remain, each point with its partner; otherwise all pairs remain. -/
theorem pickPairs_spec {α : Type} (shuffle sort : List ℕ → List ℕ) (hsh : ∀ l, (shuffle l).Perm l)
    (hso : ∀ l, (sort l).Perm l ∧ (sort l).Pairwise (· ≤ ·)) (ip1 ip2 : List α) (hl : ip1.length = ip2.length) (max : ℤ) :
    ∃ r1 r2, pickPairs shuffle sort ip1 ip2 max = some (r1, r2) ∧
      ((max < 0 ∨ (ip1.length : ℤ) ≤ max) → r1 = ip1 ∧ r2 = ip2) ∧
      (0 ≤ max → max < ip1.length → (r1.length : ℤ) = max ∧ (r2.length : ℤ) = max ∧
        ∃ s : List ℕ, s.length = r1.length ∧ s.Pairwise (· < ·) ∧
          ∀ i (hi : i < s.length), s[i] < ip1.length ∧ r1[i]? = ip1[s[i]]? ∧ r2[i]? = ip2[s[i]]?) := by
  unfold pickPairs
  by_cases hc : max ≥ 0 ∧ (ip1.length : ℤ) > max
  · rw [if_pos hc]
    obtain ⟨hc1, hc2⟩ := hc
    have hlen : (shuffle (List.range ip1.length)).length = ip1.length := by rw [(hsh _).length_eq, List.length_range]
    have hpick : pickIndices shuffle ip1.length max = some ((shuffle (List.range ip1.length)).take max.toNat) := by
      unfold pickIndices pickSubset
      rw [if_neg (by omega), if_neg (by omega), Int.toNat_natCast, if_neg (by rw [hlen]; omega)]
    rw [hpick]
    simp only []
    have htl : ((shuffle (List.range ip1.length)).take max.toNat).length = max.toNat := by
      rw [List.length_take, hlen]; omega
    rw [if_pos htl]
    generalize hs : (shuffle (List.range ip1.length)).take max.toNat = s at htl
    have hnd : s.Nodup := by
      rw [← hs]
      exact ((List.take_sublist _ _).nodup ((hsh _).nodup_iff.2 List.nodup_range))
    have hmem : ∀ k ∈ sort s, k < ip1.length := by
      intro k hk
      have h1 := (hso s).1.subset hk
      rw [← hs] at h1
      exact List.mem_range.1 ((hsh _).subset (List.mem_of_mem_take h1))
    have hsl : (sort s).length = max.toNat := by rw [(hso s).1.length_eq, htl]
    obtain ⟨r1, e1, l1, g1⟩ := mapM_index ip1 (sort s) hmem
    obtain ⟨r2, e2, l2, g2⟩ := mapM_index ip2 (sort s) (fun k hk => hl ▸ hmem k hk)
    rw [e1, e2]
    refine ⟨r1, r2, rfl, fun h => by omega, fun _ _ => ⟨by omega, by omega, sort s, l1.symm, ?_, ?_⟩⟩
    · have hn : (sort s).Nodup := (hso s).1.nodup_iff.2 hnd
      exact ((hso s).2.and hn).imp (fun h => lt_of_le_of_ne h.1 h.2)
    · intro i hi
      exact ⟨hmem _ (List.getElem_mem hi), g1 i hi, g2 i hi⟩
  · rw [if_neg hc]
    exact ⟨ip1, ip2, rfl, fun _ => ⟨rfl, rfl⟩, fun h1 h2 => absurd ⟨h1, h2⟩ hc⟩

example : pickPairs List.reverse (fun l => l.insertionSort (· ≤ ·)) [10, 11, 12, 13] [20, 21, 22, 23] 2 = some ([12, 13], [22, 23]) := by
  decide +kernel

end VW.IPMatch
