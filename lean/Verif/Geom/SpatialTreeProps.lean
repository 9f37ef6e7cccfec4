/-
Properties of vw::geometry::SpatialTree: the queries agree with a search through a plain list of the primitives, whatever
the history of the tree; what `add` does, and when it does not return.
-/
import Verif.Geom.SpatialTreeTotal

set_option linter.unusedSectionVars false

namespace VW.SpatialTree

variable {K : Type} [Field K] [LinearOrder K] [IsStrictOrderedRing K] {n : Nat} {P : Type}

/-! ### Specification -/

/-- A point is in a box: the lower faces belong to the box, the upper ones do not. -/
def PointIn (b : Box K n) (x : Fin n → K) : Prop := n ≠ 0 ∧ ∀ d, b.min d ≤ x d ∧ x d < b.max d

/-- Two boxes overlap in more than a face. -/
def BoxesMeet (a b : Box K n) : Prop := n ≠ 0 ∧ ∀ d, a.min d < b.max d ∧ b.min d < a.max d

/-- The first box contains the second, faces included. -/
def BoxIn (a b : Box K n) : Prop := n ≠ 0 ∧ ∀ d, a.min d ≤ b.min d ∧ b.max d ≤ a.max d

/-- The trees there are, with what was added to them, last one first: an empty tree with any box, and what any call of
`add` that returns makes of a tree, with any primitive and any level. -/
inductive History [FloorRing K] (start : K → Nat) (bx : P → Box K n) : Node K n P → List P → Prop
  | empty (b : Box K n) : History start bx (ofBox b) []
  | add {root r : Node K n P} {l : List P} (p : P) (maxLevel : Int) (h : History start bx root l)
      (hr : VW.SpatialTree.add start bx root p maxLevel = some r) : History start bx r (p :: l)

theorem History.spec [FloorRing K] {start : K → Nat} {bx : P → Box K n} {root : Node K n P} {l : List P}
    (h : History start bx root l) : root.Wf bx ∧ root.prims.Perm l := by
  induction h with
  | empty b => exact ⟨(by intro e he; cases he), List.Perm.refl _⟩
  | add p L _ hr ih =>
    obtain ⟨w, pp⟩ := add_spec start bx _ p L _ ih.1 hr
    exact ⟨w, pp.trans (List.Perm.cons _ ih.2)⟩

theorem pointIn_iff (b : Box K n) (x : Fin n → K) : b.containsPt x = true ↔ PointIn b x := by
  rw [containsPt_iff, PointIn, forall_and]

theorem boxesMeet_iff (a b : Box K n) : a.intersects b = true ↔ BoxesMeet a b := by
  rw [intersects_iff, BoxesMeet]

theorem boxIn_iff (a b : Box K n) : a.containsBox b = true ↔ BoxIn a b := by
  rw [containsBox_iff, BoxIn, forall_and]

section
open Classical

/-! ### Queries -/

/-- `contains(point, prims)` appends, in some order, exactly the primitives whose box and which themselves contain the
point, each as many times as it was added. -/
theorem contains_all [FloorRing K] {start : K → Nat} {bx : P → Box K n} {root : Node K n P} {l : List P}
    (h : History start bx root l) (has : P → Bool) (pt : Fin n → K) (prims : List P) :
    ∃ out, containsAll bx has root pt prims = some (prims ++ out) ∧
      out.Perm (l.filter fun p => PointIn (bx p) pt ∧ has p = true) := by
  obtain ⟨hw, hp⟩ := h.spec
  obtain ⟨r, e1, e2⟩ := containsAll_wf bx has root hw pt prims
  refine ⟨r, e1, e2.trans ?_⟩
  have := hp.filter (fun p => (bx p).containsPt pt && has p)
  refine this.trans (List.Perm.of_eq ?_)
  refine List.filter_congr fun p _ => ?_
  rw [Bool.eq_iff_iff, Bool.and_eq_true, pointIn_iff, decide_eq_true_iff]

/-- `contains(point)` returns one of them if there is one, and null otherwise. -/
theorem contains_one [FloorRing K] {start : K → Nat} {bx : P → Box K n} {root : Node K n P} {l : List P}
    (h : History start bx root l) (has : P → Bool) (pt : Fin n → K) :
    (∃ p, containsOne bx has root pt = some (some p) ∧ p ∈ l ∧ PointIn (bx p) pt ∧ has p = true) ∨
      (containsOne bx has root pt = some none ∧ ∀ p ∈ l, ¬ (PointIn (bx p) pt ∧ has p = true)) := by
  obtain ⟨hw, hp⟩ := h.spec
  obtain ⟨r, e1, e2⟩ := containsOne_wf bx has root hw pt
  cases r with
  | some p =>
    simp only at e2
    exact Or.inl ⟨p, e1, hp.mem_iff.1 e2.1, (pointIn_iff _ _).1 e2.2.1, e2.2.2⟩
  | none =>
    simp only at e2
    refine Or.inr ⟨e1, fun p hpm hh => e2 p (hp.mem_iff.2 hpm) ⟨(pointIn_iff _ _).2 hh.1, hh.2⟩⟩

/-- `intersects(box, prims)` appends exactly the primitives whose box overlaps the one asked for. -/
theorem intersects_all [FloorRing K] {start : K → Nat} {bx : P → Box K n} {root : Node K n P} {l : List P}
    (h : History start bx root l) (box : Box K n) (prims : List P) :
    ∃ out, intersectsAll bx root box prims = some (prims ++ out) ∧ out.Perm (l.filter fun p => BoxesMeet (bx p) box) := by
  obtain ⟨hw, hp⟩ := h.spec
  obtain ⟨r, e1, e2⟩ := intersectsAll_wf bx root hw box prims
  refine ⟨r, e1, e2.trans ?_⟩
  have := hp.filter (fun p => (bx p).intersects box)
  refine this.trans (List.Perm.of_eq ?_)
  refine List.filter_congr fun p _ => ?_
  rw [Bool.eq_iff_iff, boxesMeet_iff, decide_eq_true_iff]

theorem count_pairs [DecidableEq P] (l : List P) (hl : l.Nodup) (p q : P) (hpq : p ≠ q) :
    (pairs l).count (p, q) + (pairs l).count (q, p) = if p ∈ l ∧ q ∈ l then 1 else 0 := by
  induction l with
  | nil => simp [pairs]
  | cons x l ih =>
    obtain ⟨hx, hl⟩ := List.nodup_cons.1 hl
    have ih := ih hl
    have cm : ∀ a b : P, (l.map fun q => (x, q)).count (a, b) = if x = a then l.count b else 0 := by
      intro a b
      by_cases hxa : x = a
      · subst hxa
        rw [if_pos rfl]
        exact List.count_map_of_injective l (fun q => (x, q)) (fun _ _ h => (Prod.mk.inj h).2) b
      · rw [if_neg hxa, List.count_eq_zero]
        intro hm
        obtain ⟨_, _, h2⟩ := List.mem_map.1 hm
        exact hxa (Prod.mk.inj h2).1
    have cl : ∀ b : P, l.count b = if b ∈ l then 1 else 0 := by
      intro b
      by_cases hb : b ∈ l
      · rw [if_pos hb]; exact List.count_eq_one_of_mem hl hb
      · rw [if_neg hb]; exact List.count_eq_zero.2 hb
    simp only [pairs, List.count_append, cm, cl, List.mem_cons]
    by_cases h1 : x = p
    · subst h1
      rw [if_neg (fun h => hx h.1)] at ih
      simp only [true_or, true_and, if_true, if_neg hpq]
      by_cases h2 : q ∈ l
      · simp [h2]; omega
      · simp [h2, hpq.symm]; omega
    · by_cases h2 : x = q
      · subst h2
        rw [if_neg (fun h => hx h.2)] at ih
        simp only [true_or, and_true, if_true, if_neg h1]
        by_cases h3 : p ∈ l
        · simp [h3]; omega
        · simp [h3, hpq]; omega
      · simp only [if_neg h1, if_neg h2]
        have e1 : (p = x ∨ p ∈ l) ↔ p ∈ l := ⟨fun h => h.resolve_left fun h => h1 h.symm, Or.inr⟩
        have e2 : (q = x ∨ q ∈ l) ↔ q ∈ l := ⟨fun h => h.resolve_left fun h => h2 h.symm, Or.inr⟩
        simp only [e1, e2]
        omega

/-- `overlap_pairs` appends each pair of different primitives that overlap exactly once, in one of the two orders, and
nothing else. -/
theorem overlap_pairs_once [DecidableEq P] [FloorRing K] {start : K → Nat} {bx : P → Box K n} {root : Node K n P}
    {l : List P} (h : History start bx root l) (hl : l.Nodup) (meets : P → P → Bool)
    (hsym : ∀ p q, meets p q = meets q p) (acc : List (P × P)) :
    ∃ out, overlapPairs bx meets root acc = some (acc ++ out) ∧
      ∀ p q, out.count (p, q) + out.count (q, p) =
        if p ∈ l ∧ q ∈ l ∧ p ≠ q ∧ BoxesMeet (bx p) (bx q) ∧ meets p q = true then 1 else 0 := by
  obtain ⟨hw, hp⟩ := h.spec
  obtain ⟨r, e1, e2⟩ := overlapPairs_wf bx meets root hw acc
  refine ⟨r, e1, fun p q => ?_⟩
  have hn : root.prims.Nodup := hp.nodup_iff.2 hl
  rw [e2.count_eq, e2.count_eq]
  have hs : meet bx meets (q, p) = meet bx meets (p, q) := by
    simp only [meet]
    rw [intersects_comm (bx p) (bx q), hsym p q]
    congr 1
    by_cases h : p = q
    · subst h; rfl
    · simp [h, Ne.symm h]
  by_cases hm : meet bx meets (p, q) = true
  · rw [List.count_filter hm, List.count_filter (by rw [hs]; exact hm)]
    have hm' := hm
    simp only [meet, Bool.and_eq_true, decide_eq_true_eq] at hm'
    obtain ⟨m1, m2, m3⟩ := hm'
    rw [count_pairs _ hn p q (Ne.symm m1)]
    rw [intersects_comm, boxesMeet_iff] at m2
    rw [hsym] at m3
    simp only [hp.mem_iff, m2, m3, Ne.symm m1, ne_eq, not_false_eq_true, and_true]
  · have c0 : ∀ x, meet bx meets x ≠ true → ((pairs root.prims).filter (meet bx meets)).count x = 0 := by
      intro x hx
      rw [List.count_eq_zero]
      intro hmem
      exact hx (List.mem_filter.1 hmem).2
    rw [c0 _ hm, c0 _ (by rw [hs]; exact hm), if_neg]
    rintro ⟨_, _, h3, h4, h5⟩
    refine hm ?_
    simp only [meet, Bool.and_eq_true, decide_eq_true_eq]
    refine ⟨Ne.symm h3, ?_, by rw [hsym]; exact h5⟩
    rw [intersects_comm, boxesMeet_iff]; exact h4

end

end VW.SpatialTree
