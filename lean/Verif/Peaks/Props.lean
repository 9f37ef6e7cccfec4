import Verif.Peaks.Model
import Mathlib.Tactic.Linarith
import Mathlib.Tactic.NormNum
import Mathlib.Tactic.Push
import Mathlib.Tactic.FieldSimp
import Mathlib.Tactic.Ring
import Mathlib.Tactic.Positivity
import Mathlib.Tactic.SplitIfs
import Mathlib.Data.List.Basic
/-
Properties C155 (peaks of an interest image) and C156 (peaks in a scale space).
-/
namespace VW.Peaks

variable {α : Type} [LinearOrder α]

/-! ### Specification -/

/-- One of the eight pixels round (i, j). -/
def Neighbour (i j a b : Int) : Prop :=
  (i - 1 ≤ a ∧ a ≤ i + 1) ∧ (j - 1 ≤ b ∧ b ≤ j + 1) ∧ ¬ (a = i ∧ b = j)

/-- Greater than all eight neighbours. -/
def StrictMax (g : Img α) (i j : Int) : Prop := ∀ a b, Neighbour i j a b → g.px a b < g.px i j

/-- Less than all eight neighbours. -/
def StrictMin (g : Img α) (i j : Int) : Prop := ∀ a b, Neighbour i j a b → g.px i j < g.px a b

/-- What a kind of peak asks of a maximum and a minimum. -/
def Kind.wants (t : Kind) (mx mn : Prop) : Prop :=
  (t = .max ∧ mx) ∨ (t = .min ∧ mn) ∨ (t = .minmax ∧ (mx ∨ mn))

/-- Not on the outermost pixels of the image. -/
def Inner (g : Img α) (i j : Int) : Prop := 1 ≤ i ∧ i ≤ g.cols - 2 ∧ 1 ≤ j ∧ j ≤ g.rows - 2

/-! ### The checks -/

theorem get_some {g : Img α} {i j : Int} (h : 0 ≤ i ∧ i < g.cols ∧ 0 ≤ j ∧ j < g.rows) :
    g.get i j = some (g.px i j) := if_pos h

theorem passAll_spec (bad : α → α → Bool) (v : α) (ws : List α) :
    passAll bad v (ws.map some) = some (ws.all fun w => !bad v w) := by
  induction ws with
  | nil => rfl
  | cons w ws ih =>
    rw [List.map_cons, passAll, List.all_cons]
    cases h : bad v w <;> simp [ih]

/-- The eight values round a pixel, in the order of the code. -/
def ring8 (g : Img α) (i j : Int) : List α :=
  [g.px i (j - 1), g.px i (j + 1), g.px (i - 1) j, g.px (i + 1) j] ++
  [g.px (i - 1) (j - 1), g.px (i - 1) (j + 1), g.px (i + 1) (j - 1), g.px (i + 1) (j + 1)]

theorem cross_eq {g : Img α} {i j : Int} (h : Inner g i j) :
    cross g i j = [g.px i (j - 1), g.px i (j + 1), g.px (i - 1) j, g.px (i + 1) j].map some := by
  obtain ⟨h1, h2, h3, h4⟩ := h
  unfold cross
  rw [get_some (by omega), get_some (by omega), get_some (by omega), get_some (by omega)]
  rfl

theorem corners_eq {g : Img α} {i j : Int} (h : Inner g i j) :
    corners g i j = [g.px (i - 1) (j - 1), g.px (i - 1) (j + 1), g.px (i + 1) (j - 1), g.px (i + 1) (j + 1)].map some := by
  obtain ⟨h1, h2, h3, h4⟩ := h
  unfold corners
  rw [get_some (by omega), get_some (by omega), get_some (by omega), get_some (by omega)]
  rfl

theorem ring8_mem (g : Img α) (i j : Int) (P : α → Prop) :
    (∀ w ∈ ring8 g i j, P w) ↔ ∀ a b, Neighbour i j a b → P (g.px a b) := by
  constructor
  · intro h a b ⟨⟨h1, h2⟩, ⟨h3, h4⟩, h5⟩
    have ha : a = i - 1 ∨ a = i ∨ a = i + 1 := by omega
    have hb : b = j - 1 ∨ b = j ∨ b = j + 1 := by omega
    apply h
    unfold ring8
    rcases ha with rfl | rfl | rfl <;> rcases hb with rfl | rfl | rfl <;> simp at h5 ⊢
  · intro h w hw
    unfold ring8 at hw
    simp only [List.mem_append, List.mem_cons, List.not_mem_nil, or_false] at hw
    rcases hw with (rfl | rfl | rfl | rfl) | (rfl | rfl | rfl | rfl) <;>
      exact h _ _ ⟨⟨by omega, by omega⟩, ⟨by omega, by omega⟩, by omega⟩

theorem isLocalMax_spec {g : Img α} {i j : Int} (h : Inner g i j) :
    ∃ b, isLocalMax g i j = some b ∧ (b = true ↔ StrictMax g i j) := by
  have hi : g.get i j = some (g.px i j) := get_some (by obtain ⟨h1, h2, h3, h4⟩ := h; omega)
  unfold isLocalMax
  rw [hi, Option.bind_some, cross_eq h, corners_eq h, ← List.map_append, passAll_spec]
  refine ⟨_, rfl, ?_⟩
  unfold StrictMax
  rw [← ring8_mem g i j (fun w => w < g.px i j)]
  simp [ring8]

theorem isLocalMin_spec {g : Img α} {i j : Int} (h : Inner g i j) :
    ∃ b, isLocalMin g i j = some b ∧ (b = true ↔ StrictMin g i j) := by
  have hi : g.get i j = some (g.px i j) := get_some (by obtain ⟨h1, h2, h3, h4⟩ := h; omega)
  unfold isLocalMin
  rw [hi, Option.bind_some, cross_eq h, corners_eq h, ← List.map_append, passAll_spec]
  refine ⟨_, rfl, ?_⟩
  unfold StrictMin
  rw [← ring8_mem g i j (fun w => g.px i j < w)]
  simp [ring8]

theorem wants_spec (t : Kind) {a b : Option Bool} {x y : Bool} {A B : Prop} (ha : a = some x) (hb : b = some y)
    (hx : x = true ↔ A) (hy : y = true ↔ B) :
    ∃ z, (if t = .max then a else if t = .min then b else orElse a b) = some z ∧ (z = true ↔ t.wants A B) := by
  subst ha hb
  cases t
  · exact ⟨x, rfl, by simp [Kind.wants, hx]⟩
  · exact ⟨y, rfl, by simp [Kind.wants, hy]⟩
  · refine ⟨x || y, ?_, by simp [Kind.wants, ← hx, ← hy]⟩
    cases x <;> cases y <;> rfl

theorem isExtremum_spec (t : Kind) {g : Img α} {i j : Int} (h : Inner g i j) :
    ∃ b, isExtremum t g i j = some b ∧ (b = true ↔ t.wants (StrictMax g i j) (StrictMin g i j)) := by
  obtain ⟨x, hx, hx'⟩ := isLocalMax_spec h
  obtain ⟨y, hy, hy'⟩ := isLocalMin_spec h
  exact wants_spec t hx hy hx' hy'

/-! ### The loops -/

theorem mem_upto {lo hi x : Int} : x ∈ upto lo hi ↔ lo ≤ x ∧ x < hi := by
  unfold upto
  simp only [List.mem_map, List.mem_range]
  constructor
  · rintro ⟨k, hk, rfl⟩; omega
  · intro h; exact ⟨(x - lo).toNat, by omega, by omega⟩

theorem upto_sorted (lo hi : Int) : (upto lo hi).Pairwise (· < ·) := by
  unfold upto
  rw [List.pairwise_map]
  exact List.pairwise_lt_range.imp (fun {a b} h => by omega)

theorem visit_loop {ι : Type} (L : List ι) (chk : ι → Option Bool) (pk : ι → Option (Peak α)) (c : ι → Bool)
    (q : ι → Peak α) (hc : ∀ x ∈ L, chk x = some (c x)) (hp : ∀ x ∈ L, pk x = some (q x)) (acc : List (Peak α)) :
    L.foldl (fun s x => visit (chk x) (pk x) s) (some acc) = some (acc ++ (L.filter c).map q) := by
  induction L generalizing acc with
  | nil => simp
  | cons x L ih =>
    rw [List.foldl_cons]
    have e : visit (chk x) (pk x) (some acc) = some (acc ++ if c x then [q x] else []) := by
      unfold visit
      rw [hc x (by simp), hp x (by simp)]
      cases c x <;> simp
    rw [e, ih (fun y hy => hc y (by simp [hy])) (fun y hy => hp y (by simp [hy])), List.filter_cons]
    cases c x <;> simp

theorem append_loop {ι : Type} (L : List ι) (F : Option (List (Peak α)) → ι → Option (List (Peak α)))
    (h : ι → List (Peak α)) (hF : ∀ x ∈ L, ∀ acc, F (some acc) x = some (acc ++ h x)) (acc : List (Peak α)) :
    L.foldl F (some acc) = some (acc ++ L.flatMap h) := by
  induction L generalizing acc with
  | nil => simp
  | cons x L ih =>
    rw [List.foldl_cons, hF x (by simp), ih (fun y hy => hF y (by simp [hy])), List.flatMap_cons, List.append_assoc]

/-- Row by row, from left to right in a row. -/
def RowMajor (p q : Peak α) : Prop := p.y < q.y ∨ p.y = q.y ∧ p.x < q.x

open Classical in
/-- The peaks of one image in the order they are met. -/
noncomputable def peakList (cols rows : Int) (c : Int → Int → Prop) (q : Int → Int → Peak α) : List (Peak α) :=
  (upto 1 (rows - 1)).flatMap fun j => ((upto 1 (cols - 1)).filter (fun i => decide (c i j))).map (fun i => q i j)

theorem peakList_sorted (cols rows : Int) (c : Int → Int → Prop) (q : Int → Int → Peak α)
    (hx : ∀ i j, (q i j).x = i) (hy : ∀ i j, (q i j).y = j) : (peakList cols rows c q).Pairwise RowMajor := by
  classical
  unfold peakList
  rw [List.pairwise_flatMap]
  constructor
  · intro j _
    rw [List.pairwise_map]
    refine ((upto_sorted _ _).filter _).imp ?_
    intro a b hab
    right
    rw [hy, hy, hx, hx]
    exact ⟨rfl, hab⟩
  · refine (upto_sorted _ _).imp ?_
    intro j k hjk p hp r hr
    simp only [List.mem_map] at hp hr
    obtain ⟨a, _, rfl⟩ := hp
    obtain ⟨b, _, rfl⟩ := hr
    left
    rw [hy, hy]; exact hjk

theorem mem_peakList (cols rows : Int) (c : Int → Int → Prop) (q : Int → Int → Peak α) (p : Peak α) :
    p ∈ peakList cols rows c q ↔ ∃ i j, (1 ≤ i ∧ i ≤ cols - 2 ∧ 1 ≤ j ∧ j ≤ rows - 2) ∧ c i j ∧ p = q i j := by
  classical
  unfold peakList
  simp only [List.mem_flatMap, List.mem_map, List.mem_filter, mem_upto, decide_eq_true_eq]
  constructor
  · rintro ⟨j, hj, i, ⟨hi, hc⟩, rfl⟩
    exact ⟨i, j, by omega, hc, rfl⟩
  · rintro ⟨i, j, h, hc, rfl⟩
    exact ⟨j, by omega, i, ⟨by omega, hc⟩, rfl⟩

/-- **C155 (peaks of an image)**: for every interest image the search reads no pixel outside of it; it keeps what the
list held and appends, row by row and from left to right, exactly the inner pixels that are greater (less) than all of
their eight neighbours, each once, with scale 1 and their interest. -/
theorem findPeaks_spec (t : Kind) (g : Img α) (acc : List (Peak α)) :
    ∃ l, findPeaks t g acc = some (acc ++ l) ∧ l.Pairwise RowMajor ∧
      ∀ p : Peak α, p ∈ l ↔ Inner g p.x p.y ∧ t.wants (StrictMax g p.x p.y) (StrictMin g p.x p.y) ∧ p.scale = 1 ∧
        p.interest = g.px p.x p.y := by
  classical
  refine ⟨peakList g.cols g.rows (fun i j => t.wants (StrictMax g i j) (StrictMin g i j))
    (fun i j => ⟨i, j, 1, g.px i j⟩), ?_, peakList_sorted _ _ _ _ (fun _ _ => rfl) (fun _ _ => rfl), ?_⟩
  · unfold findPeaks peakList
    apply append_loop
    intro j hj acc
    apply visit_loop
    · intro i hi
      rw [mem_upto] at hi hj
      unfold border at hi hj
      obtain ⟨b, hb, hb'⟩ := isExtremum_spec t (g := g) (i := i) (j := j) ⟨by omega, by omega, by omega, by omega⟩
      rw [hb]
      congr 1
      rw [Bool.eq_iff_iff, hb', decide_eq_true_eq]
    · intro i hi
      rw [mem_upto] at hi hj
      unfold border at hi hj
      rw [get_some (by omega)]
      rfl
  · intro p
    rw [mem_peakList]
    constructor
    · rintro ⟨i, j, h, hc, rfl⟩
      exact ⟨h, hc, rfl, rfl⟩
    · rintro ⟨h, hc, h1, h2⟩
      obtain ⟨x, y, s, v⟩ := p
      dsimp only at h hc h1 h2
      exact ⟨x, y, h, hc, by rw [h1, h2]⟩

/-- Two maxima are never neighbours. -/
theorem maxima_apart (g : Img α) (l : List (Peak α)) (h : findPeaks .max g [] = some l) (p q : Peak α) (hp : p ∈ l)
    (hq : q ∈ l) : ¬ Neighbour p.x p.y q.x q.y := by
  obtain ⟨l', h', _, hm⟩ := findPeaks_spec .max g []
  rw [h, List.nil_append, Option.some.injEq] at h'
  subst h'
  intro hn
  have hp' := ((hm p).1 hp).2.1
  have hq' := ((hm q).1 hq).2.1
  simp only [Kind.wants, true_and, reduceCtorEq, false_and, or_false] at hp' hq'
  have a := hp' _ _ hn
  have b := hq' p.x p.y ⟨⟨by have := hn.1; omega, by have := hn.1; omega⟩,
    ⟨by have := hn.2.1; omega, by have := hn.2.1; omega⟩, fun h => hn.2.2 ⟨h.1.symm, h.2.symm⟩⟩
  exact absurd a (not_lt.2 (le_of_lt b))

/-- A flat image, and one of fewer than three rows or columns, has no peaks. -/
theorem no_peaks (t : Kind) (g : Img α) (h : (∀ i j i' j', g.px i j = g.px i' j') ∨ g.cols < 3 ∨ g.rows < 3) :
    findPeaks t g [] = some [] := by
  obtain ⟨l, h', _, hm⟩ := findPeaks_spec t g []
  rw [h', List.nil_append]
  congr 1
  apply List.eq_nil_iff_forall_not_mem.2
  intro p hp
  obtain ⟨⟨h1, h2, h3, h4⟩, hw, _⟩ := (hm p).1 hp
  rcases h with h | h | h
  · have a : ¬ StrictMax g p.x p.y := fun hs =>
      absurd (hs (p.x + 1) p.y ⟨by omega, by omega, by omega⟩) (by rw [h (p.x + 1) p.y p.x p.y]; exact lt_irrefl _)
    have b : ¬ StrictMin g p.x p.y := fun hs =>
      absurd (hs (p.x + 1) p.y ⟨by omega, by omega, by omega⟩) (by rw [h (p.x + 1) p.y p.x p.y]; exact lt_irrefl _)
    simp [Kind.wants, a, b] at hw
  · omega
  · omega

/-- A case: in a 4x3 image with a 5 in the middle of zeros the 5 is the one maximum; there is no minimum. -/
example : isExtremum .max (⟨4, 3, fun i j => if i = 2 ∧ j = 1 then 5 else 0⟩ : Img Int) 2 1 = some true ∧
    isExtremum .max (⟨4, 3, fun i j => if i = 2 ∧ j = 1 then 5 else 0⟩ : Img Int) 1 1 = some false ∧
    isExtremum .minmax (⟨4, 3, fun i j => if i = 2 ∧ j = 1 then 5 else 0⟩ : Img Int) 2 1 = some true ∧
    isExtremum .min (⟨4, 3, fun i j => if i = 2 ∧ j = 1 then 5 else 0⟩ : Img Int) 2 1 = some false := by decide

/-- On the border the check itself would read outside. -/
example : isLocalMax (⟨4, 3, fun _ _ => 0⟩ : Img Int) 0 0 = none := by decide

/-! ### Space and scale -/

/-- All planes have the same size. -/
def SameSize (d : List (Img α)) : Prop := ∀ g ∈ d, ∀ g' ∈ d, g.cols = g'.cols ∧ g.rows = g'.rows

/-- Greater than the eight neighbours in its plane and than the same pixel of the planes below and above. -/
def StrictMax10 (d : List (Img α)) (i j : Int) (k : Nat) : Prop :=
  ∃ g lo hi, d[k]? = some g ∧ d[k - 1]? = some lo ∧ d[k + 1]? = some hi ∧ StrictMax g i j ∧
    lo.px i j < g.px i j ∧ hi.px i j < g.px i j

/-- The same for less. -/
def StrictMin10 (d : List (Img α)) (i j : Int) (k : Nat) : Prop :=
  ∃ g lo hi, d[k]? = some g ∧ d[k - 1]? = some lo ∧ d[k + 1]? = some hi ∧ StrictMin g i j ∧
    g.px i j < lo.px i j ∧ g.px i j < hi.px i j

theorem plane_nat (d : List (Img α)) (k : Nat) : plane d (k : Int) = d[k]? := by
  unfold plane
  rw [if_neg (by omega), Int.toNat_natCast]

theorem isExtremum3_spec (t : Kind) {d : List (Img α)} {i j : Int} {k : Nat} {g lo hi : Img α} (hk : 1 ≤ k)
    (hg : d[k]? = some g) (hlo : d[k - 1]? = some lo) (hhi : d[k + 1]? = some hi)
    (h : Inner g i j) (h1 : Inner lo i j) (h2 : Inner hi i j) :
    ∃ b, isExtremum3 t d i j k = some b ∧ (b = true ↔ t.wants (StrictMax10 d i j k) (StrictMin10 d i j k)) := by
  have hi' : g.get i j = some (g.px i j) := get_some (by obtain ⟨h1, h2, h3, h4⟩ := h; omega)
  have hab : above d i j (k : Int) = [lo.px i j, hi.px i j].map some := by
    unfold above
    have e1 : (k : Int) - 1 = ((k - 1 : Nat) : Int) := by omega
    have e2 : (k : Int) + 1 = ((k + 1 : Nat) : Int) := by omega
    rw [e1, e2, plane_nat, plane_nat, hlo, hhi, Option.bind_some, Option.bind_some,
      get_some (by obtain ⟨h1, h2, h3, h4⟩ := h1; omega), get_some (by obtain ⟨h1, h2, h3, h4⟩ := h2; omega)]
    rfl
  have hmx : ∃ x, isLocalMax3 d i j k = some x ∧ (x = true ↔ StrictMax10 d i j k) := by
    unfold isLocalMax3
    rw [plane_nat, hg, Option.bind_some, hi', Option.bind_some, cross_eq h, corners_eq h, hab, ← List.map_append,
      ← List.map_append, passAll_spec]
    refine ⟨_, rfl, ?_⟩
    have : StrictMax10 d i j k ↔ (StrictMax g i j ∧ lo.px i j < g.px i j ∧ hi.px i j < g.px i j) := by
      unfold StrictMax10
      rw [hg, hlo, hhi]
      constructor
      · rintro ⟨_, _, _, ha, hb, hc, h⟩
        cases ha; cases hb; cases hc
        exact h
      · intro h; exact ⟨g, lo, hi, rfl, rfl, rfl, h⟩
    rw [this]
    unfold StrictMax
    rw [← ring8_mem g i j (fun w => w < g.px i j)]
    simp [ring8]
    tauto
  have hmn : ∃ x, isLocalMin3 d i j k = some x ∧ (x = true ↔ StrictMin10 d i j k) := by
    unfold isLocalMin3
    rw [plane_nat, hg, Option.bind_some, hi', Option.bind_some, cross_eq h, corners_eq h, hab, ← List.map_append,
      ← List.map_append, passAll_spec]
    refine ⟨_, rfl, ?_⟩
    have : StrictMin10 d i j k ↔ (StrictMin g i j ∧ g.px i j < lo.px i j ∧ g.px i j < hi.px i j) := by
      unfold StrictMin10
      rw [hg, hlo, hhi]
      constructor
      · rintro ⟨_, _, _, ha, hb, hc, h⟩
        cases ha; cases hb; cases hc
        exact h
      · intro h; exact ⟨g, lo, hi, rfl, rfl, rfl, h⟩
    rw [this]
    unfold StrictMin
    rw [← ring8_mem g i j (fun w => g.px i j < w)]
    simp [ring8]
    tauto
  obtain ⟨x, hx, hx'⟩ := hmx
  obtain ⟨y, hy, hy'⟩ := hmn
  exact wants_spec t hx hy hx' hy'

/-- The search throws exactly when there are no planes or their sizes differ. -/
theorem findPeaks3_throw (t : Kind) (d : List (Img α)) (sc : Int → ℝ) (acc : List (Peak α)) :
    findPeaks3 t d sc acc = .throw ↔ d = [] ∨ ¬ SameSize d := by
  unfold findPeaks3
  cases d with
  | nil => simp
  | cons g0 d =>
    dsimp only
    have : ((g0 :: d).any (fun g => g.cols ≠ g0.cols || g.rows ≠ g0.rows) = true) ↔ ¬ SameSize (g0 :: d) := by
      unfold SameSize
      rw [List.any_eq_true]
      push Not
      constructor
      · rintro ⟨g, hg, h⟩
        refine ⟨g, hg, g0, by simp, ?_⟩
        intro hc
        simpa [hc] using h
      · rintro ⟨g, hg, g', hg', h⟩
        by_cases e : g.cols = g0.cols ∧ g.rows = g0.rows
        · refine ⟨g', hg', ?_⟩
          by_cases e' : g'.cols = g0.cols
          · have := h (by rw [e.1, e'])
            have : g'.rows ≠ g0.rows := fun hr => this (by rw [e.2, hr])
            simp [this]
          · simp [e']
        · refine ⟨g, hg, ?_⟩
          by_cases e' : g.cols = g0.cols
          · have : g.rows ≠ g0.rows := fun hr => e ⟨e', hr⟩
            simp [this]
          · simp [e']
    by_cases h : (g0 :: d).any (fun g => g.cols ≠ g0.cols || g.rows ≠ g0.rows) = true
    · rw [if_pos h]
      simp only [true_iff, reduceCtorEq, false_or]
      exact this.1 h
    · rw [if_neg h]
      simp only [reduceCtorEq, false_or]
      constructor
      · intro hh
        split at hh <;> cases hh
      · intro hh; exact absurd (this.2 hh) h

/-- **C156 (peaks in a scale space, proved part)**: for planes of one size the search reads nothing outside; it appends
exactly the inner pixels of the inner planes that are greater (less) than their eight neighbours in the plane and than
the same pixel in the planes below and above, with the scale of their plane. -/
theorem findPeaks3_spec_partial (t : Kind) (d : List (Img α)) (sc : Int → ℝ) (acc : List (Peak α)) (hd : d ≠ [])
    (hs : SameSize d) :
    ∃ l, findPeaks3 t d sc acc = .ok (acc ++ l) ∧
      ∀ p : Peak α, p ∈ l ↔ ∃ (k : Nat) (g : Img α), 1 ≤ k ∧ k + 1 < d.length ∧ d[k]? = some g ∧ Inner g p.x p.y ∧
        t.wants (StrictMax10 d p.x p.y k) (StrictMin10 d p.x p.y k) ∧ p.scale = sc k ∧
        p.interest = g.px p.x p.y := by
  classical
  have hno : findPeaks3 t d sc acc ≠ .throw := by
    rw [Ne, findPeaks3_throw]; exact fun h => h.elim hd (fun h => h hs)
  cases d with
  | nil => exact absurd rfl hd
  | cons g0 ds =>
    set d := g0 :: ds with hdd
    have hdim : ∀ k : Nat, ∀ g, d[k]? = some g → g.cols = g0.cols ∧ g.rows = g0.rows := fun k g h =>
      hs g (List.mem_of_getElem? h) g0 (by simp [hdd])
    let G : Nat → Img α := fun k => d.getD k g0
    have hG : ∀ k, k < d.length → d[k]? = some (G k) := fun k hk => by
      simp only [G, List.getD_eq_getElem?_getD, List.getElem?_eq_getElem hk, Option.getD_some]
    let H : Int → List (Peak α) := fun k =>
      peakList g0.cols g0.rows (fun i j => t.wants (StrictMax10 d i j k.toNat) (StrictMin10 d i j k.toNat))
        (fun i j => ⟨i, j, sc k, (G k.toNat).px i j⟩)
    have hloop : (upto 1 ((d.length : Int) - 1)).foldl (fun s k =>
        (upto border (g0.rows - border)).foldl (fun s j =>
          (upto border (g0.cols - border)).foldl (fun s i =>
            visit (isExtremum3 t d i j k)
              (((plane d k).bind fun g => g.get i j).map fun v => ⟨i, j, sc k, v⟩) s) s) s) (some acc) =
        some (acc ++ (upto 1 ((d.length : Int) - 1)).flatMap H) := by
      apply append_loop
      intro k hk acc
      rw [mem_upto] at hk
      obtain ⟨n, rfl⟩ : ∃ n : Nat, k = n := ⟨k.toNat, by omega⟩
      simp only [H, Int.toNat_natCast]
      unfold peakList
      apply append_loop
      intro j hj acc
      apply visit_loop
      · intro i hi
        rw [mem_upto] at hi hj
        unfold border at hi hj
        have e0 := hG n (by omega)
        have e1 := hG (n - 1) (by omega)
        have e2 := hG (n + 1) (by omega)
        have inn : ∀ m, m < d.length → Inner (G m) i j := fun m hm => by
          obtain ⟨a, b⟩ := hdim m _ (hG m hm)
          unfold Inner
          rw [a, b]
          omega
        obtain ⟨b, hb, hb'⟩ := isExtremum3_spec t (i := i) (j := j) (by omega) e0 e1 e2 (inn _ (by omega))
          (inn _ (by omega)) (inn _ (by omega))
        rw [hb]
        congr 1
        rw [Bool.eq_iff_iff, hb', decide_eq_true_eq]
      · intro i hi
        rw [mem_upto] at hi hj
        unfold border at hi hj
        rw [plane_nat, hG n (by omega), Option.bind_some]
        obtain ⟨a, b⟩ := hdim n _ (hG n (by omega))
        rw [get_some (by rw [a, b]; omega)]
        rfl
    refine ⟨(upto 1 ((d.length : Int) - 1)).flatMap H, ?_, ?_⟩
    · unfold findPeaks3 at hno ⊢
      rw [hdd] at hno ⊢
      dsimp only at hno ⊢
      rw [← hdd] at hno ⊢
      by_cases h : d.any (fun g => g.cols ≠ g0.cols || g.rows ≠ g0.rows) = true
      · rw [if_pos h] at hno; exact absurd rfl hno
      · rw [if_neg h, hloop]
    · intro p
      simp only [List.mem_flatMap, mem_upto, H, mem_peakList]
      constructor
      · rintro ⟨k, hk, i, j, hij, hw, rfl⟩
        refine ⟨k.toNat, G k.toNat, by omega, by omega, hG _ (by omega), ?_, hw, ?_, rfl⟩
        · obtain ⟨a, b⟩ := hdim _ _ (hG k.toNat (by omega))
          unfold Inner
          rw [a, b]
          exact hij
        · dsimp only
          rw [Int.toNat_of_nonneg (by omega)]
      · rintro ⟨k, g, hk, hk', hg, hin, hw, hsc, hint⟩
        obtain ⟨a, b⟩ := hdim _ _ hg
        have hgG : g = G k := by
          have := hG k (by omega)
          rw [hg] at this
          exact Option.some.inj this
        obtain ⟨x, y, s, v⟩ := p
        dsimp only at hin hw hsc hint
        unfold Inner at hin
        rw [a, b] at hin
        refine ⟨(k : Int), by omega, x, y, hin, by rw [Int.toNat_natCast]; exact hw, ?_⟩
        rw [hsc, hint, hgG, Int.toNat_natCast]

/-- **C156 refuted**: a point reported as greatest in space and scale need not be: here the pixel beside it in the next
plane is greater. -/
theorem scale_diagonal_missed :
    let flat : Img Int := ⟨3, 3, fun _ _ => 0⟩
    let mid : Img Int := ⟨3, 3, fun i j => if i = 1 ∧ j = 1 then 5 else 0⟩
    let top : Img Int := ⟨3, 3, fun i j => if i = 2 ∧ j = 1 then 9 else 0⟩
    isExtremum3 .max [flat, mid, top] 1 1 1 = some true ∧ top.px 2 1 > mid.px 1 1 := by decide

/-- A case of three planes with a peak in the middle one. -/
example : isExtremum3 .max [(⟨3, 3, fun _ _ => 0⟩ : Img Int), ⟨3, 3, fun i j => if i = 1 ∧ j = 1 then 5 else 0⟩,
    ⟨3, 3, fun _ _ => 4⟩] 1 1 1 = some true ∧
    isExtremum3 .max [(⟨3, 3, fun _ _ => 0⟩ : Img Int), ⟨3, 3, fun i j => if i = 1 ∧ j = 1 then 5 else 0⟩,
    ⟨3, 3, fun _ _ => 5⟩] 1 1 1 = some false := by decide

/-! ### The octave -/

theorem ratio_pos (P : Nat) : 0 < ratio P := Real.rpow_pos_of_pos (by norm_num) _

theorem ratio_pow {P : Nat} (hP : 1 ≤ P) : ratio P ^ P = 2 := by
  unfold ratio
  rw [← Real.rpow_natCast, ← Real.rpow_mul (by norm_num)]
  have : (P : ℝ) ≠ 0 := by positivity
  rw [one_div_mul_cancel this, Real.rpow_one]

theorem ratio_ge_one (P : Nat) : 1 ≤ ratio P := Real.one_le_rpow (by norm_num) (by positivity)

theorem ratio_le_two {P : Nat} (hP : 1 ≤ P) : ratio P ≤ 2 := by
  unfold ratio
  have h1 : (1 : ℝ) / P ≤ 1 := by
    rw [div_le_one (by positivity)]
    exact_mod_cast hP
  calc (2 : ℝ) ^ ((1 : ℝ) / P) ≤ (2 : ℝ) ^ (1 : ℝ) := Real.rpow_le_rpow_of_exponent_le (by norm_num) h1
    _ = 2 := Real.rpow_one 2

theorem sigma_eq (P k : Nat) : sigma P k = 1.6 / ratio P * ratio P ^ k := by
  induction k with
  | zero => simp [sigma]
  | succ k ih => rw [sigma, ih, pow_succ]; ring

theorem sigma_pos (P k : Nat) : 0 < sigma P k := by
  rw [sigma_eq]; have := ratio_pos P; positivity

theorem sigma_mono (P k : Nat) : sigma P k ≤ sigma P (k + 1) := by
  rw [sigma]
  exact le_mul_of_one_le_right (le_of_lt (sigma_pos P k)) (ratio_ge_one P)

/-- Plane 1 has the initial sigma 1.6, and P planes further the sigma is doubled. -/
theorem sigma_octave {P : Nat} (hP : 1 ≤ P) (k : Nat) : sigma P 1 = 1.6 ∧ sigma P (k + P) = 2 * sigma P k := by
  have hr := ratio_pos P
  constructor
  · rw [sigma_eq]; field_simp
  · rw [sigma_eq, sigma_eq, pow_add, ratio_pow hP]; ring

theorem blurFrom_spec (P lo : Nat) (start : Nat → ℝ) (hlo : 1 ≤ lo) (h : ∀ k, k < lo → start k = sigma P k ^ 2) (k : Nat) :
    blurFrom P lo start k = sigma P k ^ 2 := by
  induction k with
  | zero => exact h 0 hlo
  | succ i ih =>
    unfold blurFrom
    split_ifs with hi
    · exact h _ hi
    · rw [ih]
      unfold blur
      have h1 := sigma_mono P i
      have h2 := sigma_pos P i
      have hn : 0 ≤ sigma P (i + 1) * sigma P (i + 1) - sigma P i * sigma P i :=
        sub_nonneg.2 (mul_self_le_mul_self (le_of_lt h2) h1)
      rw [Real.sq_sqrt hn]
      ring

/-- The octave after n calls of `build_next`. -/
noncomputable def octave (P : Nat) : Nat → Octave
  | 0 => Octave.first P
  | n + 1 => Octave.next P (octave P n)

/-- **C156 (the scale space)**: with at least one scale in an octave, after any number of octaves the base scale is the
power of two and every plane is blurred, in its own pixels, with the sigma listed for it. -/
theorem octave_spec {P : Nat} (hP : 1 ≤ P) (n : Nat) :
    (octave P n).base = 2 ^ n ∧ ∀ k, (octave P n).planes k = sigma P k ^ 2 := by
  induction n with
  | zero =>
    refine ⟨rfl, fun k => ?_⟩
    unfold octave Octave.first
    dsimp only
    apply blurFrom_spec P 1 _ le_rfl
    intro k hk
    have hk0 : k = 0 := by omega
    subst hk0
    have h0 : sigma P 0 ≥ 0.8 := by
      have h1 := ratio_le_two hP
      have h2 := ratio_pos P
      unfold sigma
      rw [ge_iff_le, le_div_iff₀ h2]
      nlinarith
    rw [if_pos (by norm_num at h0 ⊢; linarith)]
    unfold blur
    have hn : (0 : ℝ) ≤ sigma P 0 * sigma P 0 - 0.5 * 0.5 := by nlinarith
    rw [Real.sq_sqrt hn]
    ring
  | succ n ih =>
    refine ⟨?_, fun k => ?_⟩
    · unfold octave Octave.next
      dsimp only
      rw [ih.1]; ring
    · unfold octave Octave.next
      dsimp only
      apply blurFrom_spec P 2 _ (by omega)
      intro k hk
      have h0 := (sigma_octave hP 0).2
      have h1 := (sigma_octave hP 1).2
      unfold halve numPlanes
      rw [ih.2, ih.2]
      by_cases hk0 : k = 0
      · subst hk0
        rw [if_pos rfl]
        have : P + 2 - 2 = 0 + P := by omega
        rw [this, h0]; ring
      · have : k = 1 := by omega
        subst this
        rw [if_neg hk0]
        have : P + 2 - 1 = 1 + P := by omega
        rw [this, h1]; ring

/-- The scale reported for a plane is the blur of the plane, in pixels of the original image, over the blur of plane 0
of the first octave. -/
theorem scale_is_blur {P : Nat} (hP : 1 ≤ P) (n k : Nat) :
    planeToScale P (octave P n).base k = (2 : ℝ) ^ n * sigma P k / sigma P 0 := by
  unfold planeToScale
  rw [(octave_spec hP n).1, sigma_eq P k]
  have hr := ratio_pos P
  have : (2 : ℝ) ^ ((k : ℝ) / P) = ratio P ^ k := by
    unfold ratio
    rw [← Real.rpow_natCast, ← Real.rpow_mul (by norm_num)]
    congr 1
    ring
  rw [this]
  unfold sigma
  push_cast
  field_simp

theorem index_of_scale {P base : Nat} (hP : 1 ≤ P) (hb : 1 ≤ base) (x : ℝ) :
    (P : ℝ) * (Real.log (planeToScale P base x) - Real.log (base : ℝ)) / Real.log 2 = x := by
  have hb' : (0 : ℝ) < base := by exact_mod_cast hb
  have hP' : (0 : ℝ) < P := by exact_mod_cast hP
  have hl : Real.log 2 ≠ 0 := ne_of_gt (Real.log_pos (by norm_num))
  unfold planeToScale
  rw [Real.log_mul (ne_of_gt hb') (ne_of_gt (Real.rpow_pos_of_pos (by norm_num) _)), Real.log_rpow (by norm_num)]
  field_simp
  ring

/-- From the scale of a plane one gets back its index. -/
theorem scale_roundtrip {P base : Nat} (hP : 1 ≤ P) (hb : 1 ≤ base) (k : Nat) :
    scaleToPlane P base (planeToScale P base k) = k := by
  unfold scaleToPlane
  rw [index_of_scale hP hb]
  unfold trunc
  have hk : (0 : ℝ) ≤ k := Nat.cast_nonneg k
  rw [if_neg (by norm_num; linarith)]
  rw [Int.floor_eq_iff]
  push_cast
  constructor <;> norm_num

/-- **Discrepancy**: it is said to give the plane that matches a scale most closely, but the fraction is cut: a scale
nine tenths of the way from plane k to plane k + 1 gives plane k. -/
theorem not_closest {P base : Nat} (hP : 1 ≤ P) (hb : 1 ≤ base) (k : Nat) :
    scaleToPlane P base (planeToScale P base (k + 0.9)) = k := by
  unfold scaleToPlane
  rw [index_of_scale hP hb]
  unfold trunc
  have hk : (0 : ℝ) ≤ k := Nat.cast_nonneg k
  rw [if_neg (by norm_num; linarith)]
  rw [Int.floor_eq_iff]
  push_cast
  constructor
  · norm_num; linarith
  · norm_num; linarith

/-- A case: three scales in an octave. -/
example : (octave 3 2).base = 4 ∧ (octave 3 2).planes 1 = 1.6 ^ 2 := by
  have h := octave_spec (P := 3) (by norm_num) 2
  refine ⟨h.1, ?_⟩
  rw [h.2 1, (sigma_octave (P := 3) (by norm_num) 0).1]

end VW.Peaks
