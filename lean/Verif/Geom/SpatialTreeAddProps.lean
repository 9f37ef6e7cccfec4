/-
Properties of vw::geometry::SpatialTree::add: when it returns and where the primitive is put; and when it does not return.
-/
import Verif.Geom.SpatialTreeProps
import Mathlib.Algebra.Order.Floor.Ring
import Mathlib.Data.Rat.Floor
import Mathlib.Tactic.NormNum
import Mathlib.Tactic.FinCases

set_option linter.unusedSectionVars false

namespace VW.SpatialTree

variable {K : Type} [Field K] [LinearOrder K] [IsStrictOrderedRing K] {n : Nat} {P : Type}

/-! ### Trees built with one level -/

/-- The trees made from an empty one by calls of `add` with the same level, for primitives whose boxes have an inside. -/
inductive LevelHistory [FloorRing K] (start : K → Nat) (bx : P → Box K n) (L : Int) : Node K n P → List P → Prop
  | empty (b : Box K n) : LevelHistory start bx L (ofBox b) []
  | add {root r : Node K n P} {l : List P} (p : P) (h : LevelHistory start bx L root l) (hb : ∀ d, (bx p).min d < (bx p).max d)
      (hr : VW.SpatialTree.add start bx root p L = some r) : LevelHistory start bx L r (p :: l)

theorem LevelHistory.history [FloorRing K] {start : K → Nat} {bx : P → Box K n} {L : Int} {root : Node K n P} {l : List P}
    (h : LevelHistory start bx L root l) : History start bx root l := by
  induction h with
  | empty b => exact .empty b
  | add p _ _ hr ih => exact .add p L ih hr

theorem add_none_of_zero [FloorRing K] (start : K → Nat) (bx : P → Box K 0) (root : Node K 0 P) (p : P) (L : Int)
    (hw : root.Wf bx) : add start bx root p L = none := by
  cases h : add start bx root p L with
  | none => rfl
  | some r =>
    exfalso
    obtain ⟨w, pp⟩ := add_spec start bx root p L r hw h
    have := prims_inside bx r w p (pp.mem_iff.2 List.mem_cons_self)
    exact ((containsBox_iff _ _).1 this).1 rfl

theorem growOnGrid_of_regrow [FloorRing K] {start : K → Nat} {root r : Node K n P} {new : Box K n}
    (h : regrow start root new = some r) : ∃ sup, growOnGrid start root.box new = some sup := by
  unfold regrow at h
  obtain ⟨sup, hs, _⟩ := Option.bind_eq_some_iff.1 h
  exact ⟨sup, hs⟩

theorem LevelHistory.settled [FloorRing K] {start : K → Nat} {bx : P → Box K n} {L : Int} {root : Node K n P} {l : List P}
    (h : LevelHistory start bx L root l) : Settled bx L root := by
  induction h with
  | empty b => exact settled_ofBox bx L b
  | @add root r l p h hb hr ih =>
    have hw := h.history.spec.1
    by_cases hn : n = 0
    · subst hn
      rw [add_none_of_zero start bx root p L hw] at hr
      cases hr
    · have hbe : (bx p).empty = false := (nonempty_iff _).2 ⟨hn, hb⟩
      obtain ⟨r', e1, _, e3, _⟩ := add_total start bx L root p hw ih hbe (by
        by_cases hc : root.box.containsBox (bx p) = true
        · exact Or.inl hc
        · refine Or.inr ?_
          unfold VW.SpatialTree.add at hr
          obtain ⟨root1, h1, _⟩ := Option.bind_eq_some_iff.1 hr
          rw [if_neg hc] at h1
          exact growOnGrid_of_regrow h1)
      rw [hr, Option.some.injEq] at e1
      rw [e1]; exact e3

/-- Every primitive is in the smallest node there can be: the box of the node contains that of the primitive, and no
quadrant of it does, unless the level forbids a node that deep; then the node is not split. -/
theorem placed_smallest [FloorRing K] {start : K → Nat} {bx : P → Box K n} {L : Int} {root : Node K n P} {l : List P}
    (h : LevelHistory start bx L root l) (path : Path n) (t : Node K n P) (ht : root.get? path = some t) (p : P)
    (hp : p ∈ t.list.map Elem.prim) : BoxIn t.box (bx p) ∧
      ((∀ q, quadrants t.box = some q → ∀ i, ¬ BoxIn (q i) (bx p)) ∨ (t.isLeaf = true ∧ 0 ≤ L ∧ L ≤ path.length)) := by
  obtain ⟨e, he, rfl⟩ := List.mem_map.1 hp
  obtain ⟨h1, h2⟩ := h.settled path t ht e he
  refine ⟨(boxIn_iff _ _).1 (wf_list bx t (wf_get? bx root h.history.spec.1 path t ht) e he), ?_⟩
  cases hf : e.forced with
  | false =>
    refine Or.inl fun q hq i hi => ?_
    have := h1 hf q hq i
    rw [(boxIn_iff _ _).2 hi] at this
    cases this
  | true => exact Or.inr (h2 hf)

/-- `add` returns if the box of the primitive has an inside, and is in the box of the tree or makes it no more than
`2 ^ 30` times larger. -/
theorem add_returns [FloorRing K] {start : K → Nat} {bx : P → Box K n} {L : Int} {root : Node K n P} {l : List P}
    (h : LevelHistory start bx L root l) (p : P) (hn : n ≠ 0) (hb : ∀ d, (bx p).min d < (bx p).max d)
    (hfit : BoxIn root.box (bx p) ∨ ((∀ d, root.box.min d < root.box.max d) ∧
      (∀ d, (root.box.grow (bx p)).size d ≤ 2 ^ 30 * root.box.size d) ∧
      ∀ d, start ((root.box.grow (bx p)).size d / root.box.size d) ≤ 31)) :
    ∃ r, add start bx root p L = some r ∧ LevelHistory start bx L r (p :: l) := by
  have hbe : (bx p).empty = false := (nonempty_iff _).2 ⟨hn, hb⟩
  obtain ⟨r, e1, _⟩ := add_total start bx L root p h.history.spec.1 h.settled hbe (by
    rcases hfit with hf | ⟨h1, h2, h3⟩
    · exact Or.inl ((boxIn_iff _ _).2 hf)
    · exact Or.inr (growOnGrid_some start root.box (bx p) (fun d => sub_pos.2 (h1 d)) h2 h3))
  exact ⟨r, e1, .add p h hb e1⟩

/-- A tree made from a list of primitives whose boxes have an inside holds all of them, whatever the level. -/
theorem ofPrims_returns [FloorRing K] (start : K → Nat) (bx : P → Box K n) (L : Int) (prims : List P) (hne : prims ≠ [])
    (hn : n ≠ 0) (hb : ∀ p ∈ prims, ∀ d, (bx p).min d < (bx p).max d) :
    ∃ r, ofPrims start bx prims L = some r ∧ LevelHistory start bx L r prims.reverse := by
  -- the box
  have hbe : ∀ p ∈ prims, (bx p).empty = false := fun p hp => (nonempty_iff _).2 ⟨hn, hb p hp⟩
  have hsome : ∀ (l : List P) (b : Box K n), (∀ p ∈ l, (bx p).empty = false) →
      ∃ b', l.foldl (growStep bx) (some b) = some b' ∧
        (∀ d, b'.min d ≤ b.min d ∧ b.max d ≤ b'.max d) ∧ ∀ p ∈ l, BoxIn b' (bx p) := by
    intro l
    induction l with
    | nil => intro b _; exact ⟨b, rfl, fun d => ⟨le_refl _, le_refl _⟩, fun p hp => by cases hp⟩
    | cons p l ih =>
      intro b hl
      obtain ⟨b', e1, e2, e3⟩ := ih (b.grow (bx p)) fun p hp => hl p (List.mem_cons_of_mem _ hp)
      obtain ⟨g1, g2⟩ := grow_grows b (bx p)
      refine ⟨b', e1, fun d => ⟨(e2 d).1.trans (g1 d), (g2 d).trans (e2 d).2⟩, fun p' hp' => ?_⟩
      rcases List.mem_cons.1 hp' with rfl | hp'
      · have hc := (boxIn_iff _ _).1 (grow_contains b (bx p') (hl p' List.mem_cons_self))
        exact ⟨hc.1, fun d => ⟨(e2 d).1.trans (hc.2 d).1, (hc.2 d).2.trans (e2 d).2⟩⟩
      · exact e3 p' hp'
  have hbox : ∃ b', prims.foldl (growStep bx) none = some b' ∧ ∀ p ∈ prims, BoxIn b' (bx p) := by
    cases prims with
    | nil => exact absurd rfl hne
    | cons p l =>
      rw [List.foldl_cons]
      simp only [growStep, hbe p List.mem_cons_self, Bool.false_eq_true, if_false]
      obtain ⟨b', e1, e2, e3⟩ := hsome l (Box.grow ⟨(bx p).min, (bx p).min⟩ (bx p))
        fun p hp => hbe p (List.mem_cons_of_mem _ hp)
      refine ⟨b', e1, fun p' hp' => ?_⟩
      rcases List.mem_cons.1 hp' with rfl | hp'
      · have hc := (boxIn_iff _ _).1 (grow_contains ⟨(bx p').min, (bx p').min⟩ (bx p') (hbe p' List.mem_cons_self))
        exact ⟨hc.1, fun d => ⟨(e2 d).1.trans (hc.2 d).1, (hc.2 d).2.trans (e2 d).2⟩⟩
      · exact e3 p' hp'
  obtain ⟨b', e1, e2⟩ := hbox
  unfold ofPrims
  rw [e1, Option.bind_some]
  -- the calls of add
  have hadd : ∀ (l : List P) (root : Node K n P) (done : List P), LevelHistory start bx L root done → root.box = b' →
      (∀ p ∈ l, p ∈ prims) → ∃ r, l.foldlM (fun r p => add start bx r p L) root = some r ∧
        LevelHistory start bx L r (l.reverse ++ done) := by
    intro l
    induction l with
    | nil => intro root done hh _ _; exact ⟨root, rfl, by simpa using hh⟩
    | cons p l ih =>
      intro root done hh hrb hl
      have hp := hl p List.mem_cons_self
      have hc : root.box.containsBox (bx p) = true := by rw [hrb]; exact (boxIn_iff _ _).2 (e2 p hp)
      obtain ⟨r, f1, _, _, _, f5⟩ := add_total start bx L root p hh.history.spec.1 hh.settled (hbe p hp) (Or.inl hc)
      obtain ⟨r', g1, g2⟩ := ih r (p :: done) (.add p hh (hb p hp) f1) ((f5 hc).trans hrb)
        fun p hp => hl p (List.mem_cons_of_mem _ hp)
      refine ⟨r', ?_, by simpa using g2⟩
      rw [List.foldlM_cons, f1]
      exact g1
  have := hadd prims (ofBox b') [] (.empty b') rfl fun p hp => hp
  simpa using this

/-! ### Calls that do not return -/

theorem foldlM_at (b : Box K n) (path : Path n) (level : Nat) (g) (l : List (Fin (2 ^ n))) (hn : l.Nodup)
    (c c' : (Fin (2 ^ n) → Node K n P) × Found n) (h : l.foldlM (stepWith b path level g) c = some c') (i : Fin (2 ^ n))
    (hi : i ∈ l) : ∃ c1 c2, stepWith b path level g c1 i = some c2 ∧ c1.1 i = c.1 i := by
  induction l generalizing c with
  | nil => cases hi
  | cons j l ih =>
    obtain ⟨hj, hn⟩ := List.nodup_cons.1 hn
    rw [List.foldlM_cons] at h
    obtain ⟨c1, h1, h2⟩ := Option.bind_eq_some_iff.1 h
    rcases List.mem_cons.1 hi with rfl | hi'
    · exact ⟨c, c1, h1, rfl⟩
    · obtain ⟨d1, d2, e1, e2⟩ := ih hn c1 h2 hi'
      refine ⟨d1, d2, e1, e2.trans ?_⟩
      have hij : i ≠ j := by rintro rfl; exact hj hi'
      unfold stepWith at h1
      split at h1
      · obtain ⟨r, _, h3⟩ := Option.bind_eq_some_iff.1 h1
        rw [Option.some.injEq] at h3
        rw [← h3]
        exact Function.update_of_ne hij _ _
      · rw [Option.some.injEq] at h1; rw [h1]

/-- A point in a box is in a quadrant of it, however small the box is. -/
theorem point_quadrant {bb b : Box K n} {q : Fin (2 ^ n) → Box K n} (hq : quadrants bb = some q)
    (hpt : ∀ d, b.max d = b.min d) (hc : bb.containsBox b = true) : ∃ i, (q i).containsBox b = true := by
  obtain ⟨_, h1, h2⟩ := quadrants_eq hq
  obtain ⟨hn, c1, c2⟩ := (containsBox_iff _ _).1 hc
  obtain ⟨i, hi⟩ := exists_quadrant fun d => decide ((bb.min d + bb.max d) / 2 ≤ b.min d)
  refine ⟨i, (containsBox_iff _ _).2 ⟨hn, fun d => ?_, fun d => ?_⟩⟩
  · rw [h1, hi]
    by_cases h : (bb.min d + bb.max d) / 2 ≤ b.min d
    · simp only [h, decide_true, if_true]
    · simp only [h, decide_false, Bool.false_eq_true, if_false]; exact c1 d
  · rw [h2, hi]
    have := hpt d
    by_cases h : (bb.min d + bb.max d) / 2 ≤ b.min d
    · simp only [h, decide_true, if_true]; exact c2 d
    · simp only [h, decide_false, Bool.false_eq_true, if_false]; rw [this]; exact (lt_of_not_ge h).le

theorem descend_point (bx : P → Box K n) (L : Int) (hL : L < 0) (b : Box K n) (hpt : ∀ d, b.max d = b.min d)
    (nd : Node K n P) (level : Nat) (path : Path n) (a : Found n) (hw : nd.Wf bx) (hne : nd.box.empty = false)
    (hc : nd.box.containsBox b = true) : descend true L b nd level path a = none := by
  cases h : descend true L b nd level path a with
  | none => rfl
  | some r =>
    exfalso
    refine descend.partial_correctness true L b
      (fun nd _ _ _ _ => nd.Wf bx → nd.box.empty = false → nd.box.containsBox b = true → False) ?_ nd level path a r h hw hne hc
    clear h hw hne hc
    intro dsc ih nd level path a r h hw hne hc
    simp only [hc, Bool.not_true, Bool.false_eq_true, if_false] at h
    obtain ⟨nd1, a1, hv, hnode, hcases⟩ := visit_cases L b nd level path a
    rw [hv] at h
    have splitCase : ∀ (bb : Box K n) (l : List (Elem P)) (ch : Fin (2 ^ n) → Node K n P) (q : Fin (2 ^ n) → Box K n),
        nd1 = .split bb l ch → quadrants bb = some q → (∀ i, (ch i).box = q i) → (∀ i, (ch i).Wf bx) →
        bb.containsBox b = true → False := by
      intro bb l ch q hnd1 hq hch hcw hbb
      subst hnd1
      simp only at h
      obtain ⟨c', hfold, _⟩ := Option.bind_eq_some_iff.1 h
      obtain ⟨i, hi⟩ := point_quadrant hq hpt hbb
      obtain ⟨c1, c2, e1, e2⟩ := foldlM_at b path level dsc _ (List.nodup_reverse.2 (List.nodup_finRange _)) (ch, a1) c'
        hfold i (List.mem_reverse.2 (List.mem_finRange i))
      simp only at e2
      unfold stepWith at e1
      rw [e2, if_pos (by rw [hch]; exact hi)] at e1
      obtain ⟨r', e3, _⟩ := Option.bind_eq_some_iff.1 e1
      exact ih _ _ _ _ _ e3 (hcw i) (by rw [hch]; exact quadrant_nonempty hq i) (by rw [hch]; exact hi)
    rcases hcases with ⟨hl, _, _, _, _, hsub⟩ | ⟨_, h0, _⟩ | ⟨hl, rfl, _⟩
    · obtain ⟨q, hq⟩ := quadrants_some hne
      obtain ⟨i, hi⟩ := point_quadrant hq hpt hc
      rcases hsub with ⟨_, hnf⟩ | ⟨q', i', hq', hi', hnd1⟩
      · have := hnf q hq i
        rw [hi] at this; cases this
      · exact splitCase nd.box nd.list (fun i => .leaf (q' i) []) q' hnd1 hq' (fun _ => rfl) (fun _ e he => by cases he) hc
    · omega
    · cases nd1 with
      | leaf _ _ => simp [Node.isLeaf] at hl
      | split bb l ch =>
        obtain ⟨_, ⟨q, hq, hch⟩, hcw⟩ := hw
        exact splitCase bb l ch q rfl hq hch hcw hc

/-- A primitive that is a point is never added with the default level: the tree is split without end around it. -/
theorem point_never_added [FloorRing K] {start : K → Nat} {bx : P → Box K n} {root : Node K n P} {l : List P}
    (h : History start bx root l) (p : P) (hpt : ∀ d, (bx p).max d = (bx p).min d)
    (hne : ∀ d, root.box.min d < root.box.max d) (hin : BoxIn root.box (bx p)) (L : Int) (hL : L < 0) :
    add start bx root p L = none := by
  unfold add
  have hc : root.box.containsBox (bx p) = true := (boxIn_iff _ _).2 hin
  rw [if_pos hc, Option.bind_some,
    descend_point bx L hL (bx p) hpt root 0 [] {} h.spec.1 ((nonempty_iff _).2 ⟨hin.1, hne⟩) hc]
  rfl

/-- A primitive whose box has no inside and starts below the box of the tree is not added either: the box of the tree is
not grown to contain it, and a null pointer is used. -/
theorem flat_outside_never_added [FloorRing K] {start : K → Nat} {bx : P → Box K n} {root : Node K n P} {l : List P}
    (h : History start bx root l) (p : P) (hflat : ∃ d, (bx p).max d ≤ (bx p).min d)
    (hout : ∃ d, (bx p).min d < root.box.min d) (L : Int) : add start bx root p L = none := by
  cases ha : add start bx root p L with
  | none => rfl
  | some r =>
    exfalso
    have hw := h.spec.1
    obtain ⟨d, hd⟩ := hout
    have hc : ¬ root.box.containsBox (bx p) = true := by
      intro hc
      have := ((containsBox_iff _ _).1 hc).2.1 d
      linarith
    unfold add at ha
    rw [if_neg hc] at ha
    obtain ⟨root1, h1, ha⟩ := Option.bind_eq_some_iff.1 ha
    obtain ⟨⟨r1, a⟩, hdd, ha⟩ := Option.bind_eq_some_iff.1 ha
    obtain ⟨path, hp, _⟩ := Option.bind_eq_some_iff.1 ha
    obtain ⟨_, _, ⟨hg, _⟩, _⟩ := regrow_spec start bx root _ _ hw h1
    have hmin : root1.box.min d = root.box.min d := by
      have he : (bx p).empty = true := by
        obtain ⟨e, he⟩ := hflat
        unfold Box.empty
        simp only [ge_iff_le, Bool.or_eq_true, decide_eq_true_eq]
        exact Or.inl ⟨e, he⟩
      have hgr : root.box.grow (bx p) = root.box := by unfold Box.grow; simp only [he, if_true]
      unfold growOnGrid at hg
      split at hg
      · cases hg
      · dsimp only at hg
        rw [hgr] at hg
        obtain ⟨pp, _, e⟩ := gridLoop_spec _ _ _ _ hg
        rw [e]
        simp [extraNeeded]
    have hds := descend_spec bx true L (bx p) root1 0 [] {} _ hdd
    have hc1 : root1.box.containsBox (bx p) = false := by
      cases hx : root1.box.containsBox (bx p) with
      | false => rfl
      | true =>
        have := ((containsBox_iff _ _).1 hx).2.1 d
        rw [hmin] at this
        linarith
    have := hds.notFound hc1
    simp only at this hp
    rw [hp] at this
    cases this

/-- A tree cannot be made from primitives none of which has a box with an inside. -/
theorem ofPrims_flat [FloorRing K] (start : K → Nat) (bx : P → Box K n) (L : Int) (prims : List P)
    (hflat : ∀ p ∈ prims, ∃ d, (bx p).max d ≤ (bx p).min d) : ofPrims start bx prims L = none := by
  have : prims.foldl (growStep bx) none = none := by
    induction prims with
    | nil => rfl
    | cons p l ih =>
      rw [List.foldl_cons]
      have he : (bx p).empty = true := by
        obtain ⟨e, he⟩ := hflat p List.mem_cons_self
        unfold Box.empty
        simp only [ge_iff_le, Bool.or_eq_true, decide_eq_true_eq]
        exact Or.inl ⟨e, he⟩
      simp only [growStep, he, if_true]
      exact ih fun p hp => hflat p (List.mem_cons_of_mem _ hp)
  unfold ofPrims
  rw [this]; rfl

/-! ### Different levels -/

/-- Two primitives kept in quadrant `j` by the level. -/
def twoHeld (bb : Box K n) (q : Fin (2 ^ n) → Box K n) (j : Fin (2 ^ n)) (x y : P) : Node K n P :=
  .split bb [] fun i => .leaf (q i) (if i = j then [⟨x, true⟩, ⟨y, true⟩] else [])

theorem descend_leaf_false (L : Int) (b bb : Box K n) (l : List (Elem P)) (level : Nat) (path : Path n) (a : Found n)
    (hc : bb.containsBox b = true) :
    descend false L b (.leaf bb l) level path a = some (.leaf bb l, { a with node := some path }) := by
  rw [descend_eq false L b (.leaf bb l) level path a hc]
  rfl

theorem descend_twoHeld (bb : Box K n) (q : Fin (2 ^ n) → Box K n) (hq : quadrants bb = some q) (j : Fin (2 ^ n)) (x y : P)
    (b : Box K n) (hb : b.empty = false) (hj : (q j).containsBox b = true) :
    ∃ r a, descend false (-1) b (twoHeld bb q j x y) 0 [] {} = some (r, a) ∧ a.node = some [j] := by
  have hc : (twoHeld bb q j x y).box.containsBox b = true := containsBox_trans (quadrant_inside hq j) hj
  rw [descend_eq false (-1) b (twoHeld bb q j x y) 0 [] {} hc]
  have hv : visitNode false (-1) b (twoHeld bb q j x y) 0 [] {} =
      (.split bb [] (fun i => .leaf (q i) (if i = j then [⟨x, true⟩, ⟨y, true⟩] else [])), { node := some [] }) := rfl
  rw [hv]
  simp only
  rw [fold_single b [] 0 _ (fun i => .leaf (q i) (if i = j then [⟨x, true⟩, ⟨y, true⟩] else [])) _ j hj (fun i hi => by
    cases hx : (q i).containsBox b with
    | false => exact hx
    | true => exact absurd (quadrant_unique hq hb hx hj) hi) _
    (List.nodup_reverse.2 (List.nodup_finRange _)) (List.mem_reverse.2 (List.mem_finRange j))]
  rw [descend_leaf_false _ _ _ _ _ _ _ hj]
  exact ⟨_, _, rfl, rfl⟩

theorem settle_twoHeld (bx : P → Box K n) (bb : Box K n) (q qq : Fin (2 ^ n) → Box K n) (hq : quadrants bb = some q)
    (j k : Fin (2 ^ n)) (hqq : quadrants (q j) = some qq) (s : P → Prop)
    (hs : ∀ x, s x → (bx x).empty = false ∧ (qq k).containsBox (bx x) = true) (x y : P) (hx : s x) (hy : s y) :
    settle bx (twoHeld bb q j x y) [] [j] 1 = none := by
  cases h : settle bx (twoHeld bb q j x y) [] [j] 1 with
  | none => rfl
  | some r' =>
    exfalso
    refine settle.partial_correctness bx []
      (fun r cur m _ => (∃ x y, s x ∧ s y ∧ r = twoHeld bb q j x y) → cur = [j] → m = 1 → False) ?_ _ _ _ r' h
      ⟨x, y, hx, hy, rfl⟩ rfl rfl
    clear h hx hy x y r'
    rintro stl ih r cur m r' h ⟨x, y, hx, hy, rfl⟩ rfl rfl
    have hjy : (q j).containsBox (bx y) = true := containsBox_trans (quadrant_inside hqq k) (hs y hy).2
    have h1 : (twoHeld bb q j x y).get? [j] = some (.leaf (q j) [⟨x, true⟩, ⟨y, true⟩]) := by simp [twoHeld, Node.get?]
    obtain ⟨rr, a, hd, ha⟩ := descend_twoHeld bb q hq j x y (bx y) (hs y hy).1 hjy
    rw [h1] at h
    have h2 : (twoHeld bb q j x y).get? [] = some (twoHeld bb q j x y) := rfl
    simp only [bind, Option.bind_some, Node.list, List.getElem?_cons_succ, List.getElem?_cons_zero, Bool.not_true,
      Bool.false_eq_true, if_false, h2, hd, ha, h1, Node.isLeaf, Node.box, hqq, Bool.true_and] at h
    rw [if_neg (by simp)] at h
    have hx' : (∃ i, (qq i).containsBox (bx y) = true) := ⟨k, (hs y hy).2⟩
    rw [decide_eq_true hx'] at h
    refine ih _ _ _ _ h ⟨y, x, hy, hx, ?_⟩ rfl rfl
    simp only [twoHeld, Node.modify, Function.update_self, Node.split.injEq, true_and]
    funext i
    by_cases hi : i = j
    · subst hi
      simp [Node.mapList]
    · simp [hi]

/-- Two primitives added with different levels, the second one with a deeper level, and both in the same quadrant of the
same quadrant: the second call goes on for ever, the two primitives changing places. -/
theorem mixed_levels_hang [FloorRing K] (start : K → Nat) (bx : P → Box K n) (bb : Box K n) (q qq : Fin (2 ^ n) → Box K n)
    (hq : quadrants bb = some q) (j k : Fin (2 ^ n)) (hqq : quadrants (q j) = some qq) (x y : P)
    (hx : ∀ d, (bx x).min d < (bx x).max d) (hy : ∀ d, (bx y).min d < (bx y).max d)
    (hxk : BoxIn (qq k) (bx x)) (hyk : BoxIn (qq k) (bx y)) :
    ∃ r, add start bx (ofBox bb) x 0 = some r ∧ add start bx r y 1 = none := by
  have hn := hxk.1
  have hxe : (bx x).empty = false := (nonempty_iff _).2 ⟨hn, hx⟩
  have hye : (bx y).empty = false := (nonempty_iff _).2 ⟨hn, hy⟩
  have hxk := (boxIn_iff _ _).2 hxk
  have hyk := (boxIn_iff _ _).2 hyk
  have hxj : (q j).containsBox (bx x) = true := containsBox_trans (quadrant_inside hqq k) hxk
  have hyj : (q j).containsBox (bx y) = true := containsBox_trans (quadrant_inside hqq k) hyk
  have hxb : bb.containsBox (bx x) = true := containsBox_trans (quadrant_inside hq j) hxj
  have hyb : bb.containsBox (bx y) = true := containsBox_trans (quadrant_inside hq j) hyj
  refine ⟨.leaf bb [⟨x, true⟩], ?_, ?_⟩
  · unfold add
    rw [if_pos (show (ofBox bb : Node K n P).box.containsBox (bx x) = true from hxb), Option.bind_some,
      descend_eq true 0 (bx x) (ofBox bb) 0 [] {} hxb]
    have hv : visitNode true 0 (bx x) (ofBox bb : Node K n P) 0 [] {} = (.leaf bb [], { forced := true, node := some [] }) := by
      unfold visitNode
      rw [if_pos (by rfl), if_neg (by omega)]
      rfl
    rw [hv]
    rfl
  · unfold add
    rw [if_pos (show (Node.leaf bb [⟨x, true⟩] : Node K n P).box.containsBox (bx y) = true from hyb), Option.bind_some,
      descend_eq true 1 (bx y) (.leaf bb [⟨x, true⟩]) 0 [] {} hyb]
    have hv : visitNode true 1 (bx y) (.leaf bb [⟨x, true⟩] : Node K n P) 0 [] {} =
        (.split bb [⟨x, true⟩] (fun i => .leaf (q i) []), { first := some [], node := some [] }) := by
      unfold visitNode
      rw [if_pos (by rfl), if_pos (by omega)]
      simp only [Node.box, hq]
      rw [if_pos ⟨j, hyj⟩]
      rfl
    rw [hv]
    simp only
    rw [fold_single (bx y) [] 0 _ (fun i => .leaf (q i) []) _ j hyj (fun i hi => by
      cases hx : (q i).containsBox (bx y) with
      | false => exact hx
      | true => exact absurd (quadrant_unique hq hye hx hyj) hi) _
      (List.nodup_reverse.2 (List.nodup_finRange _)) (List.mem_reverse.2 (List.mem_finRange j))]
    rw [descend_eq true 1 (bx y) (.leaf (q j) []) _ _ _ hyj]
    have hv2 : visitNode true 1 (bx y) (.leaf (q j) [] : Node K n P) (0 + 1) ([] ++ [j]) { first := some [], node := some [] } =
        (.leaf (q j) [], { first := some [], forced := true, node := some [j] }) := by
      unfold visitNode
      rw [if_pos (by rfl), if_neg (by omega)]
      rfl
    rw [hv2]
    simp only [bind, Option.bind_some]
    -- the first primitive is moved next to the second
    set r1 : Node K n P := (Node.split bb [⟨x, true⟩] (Function.update (fun i => .leaf (q i) []) j (.leaf (q j) []))).modify
      (Node.mapList fun l => ⟨y, true⟩ :: l) [j] with hr1
    have hr1' : r1 = .split bb [⟨x, true⟩] fun i => .leaf (q i) (if i = j then [⟨y, true⟩] else []) := by
      rw [hr1]
      simp only [Node.modify, Function.update_self, Node.mapList, Node.split.injEq, true_and]
      funext i
      by_cases hi : i = j
      · subst hi; simp
      · simp [hi]
    rw [hr1', settle]
    simp only [Node.get?, bind, Option.bind_some, Node.list, List.getElem?_cons_zero, Bool.not_true, Bool.false_eq_true, if_false]
    have hd : ∃ r a, descend false (-1) (bx x)
        (.split bb [⟨x, true⟩] fun i => .leaf (q i) (if i = j then [⟨y, true⟩] else [])) 0 [] {} = some (r, a) ∧
        a.node = some [j] := by
      rw [descend_eq false (-1) (bx x)
        (.split bb [⟨x, true⟩] fun i => .leaf (q i) (if i = j then [⟨y, true⟩] else [])) 0 [] {} hxb]
      have hv : visitNode false (-1) (bx x)
          (.split bb [⟨x, true⟩] fun i => .leaf (q i) (if i = j then [⟨y, true⟩] else []) : Node K n P) 0 [] {} =
          (.split bb [⟨x, true⟩] (fun i => .leaf (q i) (if i = j then [⟨y, true⟩] else [])), { node := some [] }) := rfl
      rw [hv]
      simp only
      rw [fold_single (bx x) [] 0 _ (fun i => .leaf (q i) (if i = j then [⟨y, true⟩] else [])) _ j hxj (fun i hi => by
        cases hx : (q i).containsBox (bx x) with
        | false => exact hx
        | true => exact absurd (quadrant_unique hq hxe hx hxj) hi) _
        (List.nodup_reverse.2 (List.nodup_finRange _)) (List.mem_reverse.2 (List.mem_finRange j))]
      rw [descend_leaf_false _ _ _ _ _ _ _ hxj]
      exact ⟨_, _, rfl, rfl⟩
    obtain ⟨r, a, hd, ha⟩ := hd
    rw [hd]
    simp only [Option.bind_some, ha]
    rw [if_neg (by simp)]
    have hg : (Node.split bb [⟨x, true⟩] fun i => .leaf (q i) (if i = j then [⟨y, true⟩] else []) : Node K n P).get? [j] =
        some (.leaf (q j) [⟨y, true⟩]) := by simp [Node.get?]
    rw [hg]
    simp only [Node.isLeaf, Node.box, hqq, Bool.true_and, Option.bind_some]
    rw [decide_eq_true (show ∃ i, (qq i).containsBox (bx x) = true from ⟨k, hxk⟩)]
    have hfin := settle_twoHeld bx bb q qq hq j k hqq (fun z => (bx z).empty = false ∧ (qq k).containsBox (bx z) = true)
      (fun z hz => hz) x y ⟨hxe, hxk⟩ ⟨hye, hyk⟩
    rw [← hfin]
    congr 1
    simp only [twoHeld, Node.modify, Node.mapList, List.eraseIdx_cons_zero, Node.split.injEq, true_and]
    funext i
    by_cases hi : i = j
    · subst hi; simp
    · simp [hi]

/-! ### The default level -/

theorem fold_total (b : Box K n) (path : Path n) (level : Nat) (g) (ch : Fin (2 ^ n) → Node K n P)
    (hg : ∀ i a, (ch i).box.containsBox b = true → ∃ r, g (ch i) (level + 1) (path ++ [i]) a = some r ∧
      (a.forced = false → r.2.forced = false)) (l : List (Fin (2 ^ n))) (hn : l.Nodup)
    (c : (Fin (2 ^ n) → Node K n P) × Found n) (hc : ∀ i ∈ l, c.1 i = ch i) :
    ∃ c', l.foldlM (stepWith b path level g) c = some c' ∧ (c.2.forced = false → c'.2.forced = false) := by
  induction l generalizing c with
  | nil => exact ⟨c, rfl, id⟩
  | cons i l ih =>
    obtain ⟨hi, hn⟩ := List.nodup_cons.1 hn
    rw [List.foldlM_cons]
    unfold stepWith
    rw [hc i List.mem_cons_self]
    by_cases hx : (ch i).box.containsBox b = true
    · rw [if_pos hx]
      obtain ⟨r, e1, e2⟩ := hg i c.2 hx
      rw [e1]
      simp only [bind, Option.bind_some]
      obtain ⟨c', f1, f2⟩ := ih hn (Function.update c.1 i r.1, r.2) fun k hk => by
        have : k ≠ i := by rintro rfl; exact hi hk
        simp only [Function.update_of_ne this]
        exact hc k (List.mem_cons_of_mem _ hk)
      exact ⟨c', f1, fun h => f2 (e2 h)⟩
    · rw [if_neg hx]
      simp only [bind, Option.bind_some]
      exact ih hn c fun k hk => hc k (List.mem_cons_of_mem _ hk)

/-- The search for a node ends for a box that has some extent, even if it has no inside. -/
theorem descend_flat (bx : P → Box K n) (L : Int) (hL : L < 0) (b : Box K n) (d : Fin n) (m : Nat) :
    ∀ (nd : Node K n P) (level : Nat) (path : Path n) (a : Found n), nd.Wf bx → nd.box.size d < 2 ^ m * b.size d →
      nd.box.containsBox b = true → ∃ r, descend true L b nd level path a = some r ∧
        (a.forced = false → r.2.forced = false) := by
  induction m with
  | zero =>
    intro nd level path a _ hs hc
    exfalso
    obtain ⟨_, h1, h2⟩ := (containsBox_iff _ _).1 hc
    have := h1 d; have := h2 d
    unfold Box.size at hs
    rw [pow_zero, one_mul] at hs
    linarith
  | succ m ih =>
    intro nd level path a hw hs hc
    rw [descend_eq true L b nd level path a hc]
    obtain ⟨nd1, a1, hv, hnode, hcases⟩ := visit_cases L b nd level path a
    rw [hv]
    have splitCase : ∀ (bb : Box K n) (l : List (Elem P)) (ch : Fin (2 ^ n) → Node K n P) (q : Fin (2 ^ n) → Box K n),
        quadrants bb = some q → (∀ i, (ch i).box = q i) → (∀ i, (ch i).Wf bx) → bb = nd.box → a1.forced = a.forced →
        ∃ r, (((List.finRange (2 ^ n)).reverse.foldlM (stepWith b path level (descend true L b)) (ch, a1)) >>=
          fun r => some (Node.split bb l r.1, r.2)) = some r ∧ (a.forced = false → r.2.forced = false) := by
      intro bb l ch q hq hch hcw hbb hfo
      obtain ⟨c', f1, f2⟩ := fold_total b path level (descend true L b) ch (fun i a' hi => by
        refine ih (ch i) (level + 1) (path ++ [i]) a' (hcw i) ?_ hi
        rw [hch, quadrant_size hq i d, hbb]
        rw [pow_succ] at hs
        linarith) (List.finRange (2 ^ n)).reverse (List.nodup_reverse.2 (List.nodup_finRange _)) (ch, a1) fun _ _ => rfl
      rw [f1]
      refine ⟨_, rfl, fun h => f2 ?_⟩
      simp only
      rw [hfo]; exact h
    rcases hcases with ⟨hl, _, hfo, _, _, hsub⟩ | ⟨_, h0, _⟩ | ⟨hl, rfl, hfo, _⟩
    · rcases hsub with ⟨rfl, _⟩ | ⟨q, i, hq, hi, rfl⟩
      · cases nd1 with
        | split _ _ _ => simp [Node.isLeaf] at hl
        | leaf bb l => exact ⟨_, rfl, fun h => by simp only; rw [hfo]; exact h⟩
      · exact splitCase nd.box nd.list (fun i => .leaf (q i) []) q hq (fun _ => rfl) (fun _ e he => by cases he) rfl hfo
    · omega
    · cases nd1 with
      | leaf _ _ => simp [Node.isLeaf] at hl
      | split bb l ch =>
        obtain ⟨_, ⟨q, hq, hch⟩, hcw⟩ := hw
        exact splitCase bb l ch q hq hch hcw rfl hfo

/-- The trees made with the default level, for primitives inside the box of the tree. -/
inductive DefaultHistory [FloorRing K] (start : K → Nat) (bx : P → Box K n) (b : Box K n) : Node K n P → List P → Prop
  | empty : DefaultHistory start bx b (ofBox b) []
  | add {root r : Node K n P} {l : List P} (p : P) (h : DefaultHistory start bx b root l) (hb : BoxIn b (bx p))
      (hr : VW.SpatialTree.add start bx root p = some r) : DefaultHistory start bx b r (p :: l)

theorem DefaultHistory.history [FloorRing K] {start : K → Nat} {bx : P → Box K n} {b : Box K n} {root : Node K n P}
    {l : List P} (h : DefaultHistory start bx b root l) : History start bx root l := by
  induction h with
  | empty => exact .empty b
  | add p _ _ hr ih => exact .add p (-1) ih hr

/-- With the default level, and in a box with an inside, `add` returns exactly if the primitive is more than a point. -/
theorem default_returns_iff [FloorRing K] {start : K → Nat} {bx : P → Box K n} {b : Box K n} (hb : ∀ d, b.min d < b.max d)
    {root : Node K n P} {l : List P} (h : DefaultHistory start bx b root l) (p : P) (hp : BoxIn b (bx p))
    (hle : ∀ d, (bx p).min d ≤ (bx p).max d) :
    (∃ r, add start bx root p = some r) ↔ ∃ d, (bx p).min d < (bx p).max d := by
  -- no primitive is kept above its node
  have key : root.box = b ∧ ∀ path t, root.get? path = some t → ∀ e ∈ t.list, e.forced = false := by
    clear hp hle p
    induction h with
    | empty =>
      refine ⟨rfl, fun path t ht e he => ?_⟩
      cases path with
      | nil =>
        simp only [ofBox, Node.get?, Option.some.injEq] at ht
        subst ht
        cases he
      | cons i p => simp [ofBox, Node.get?] at ht
    | @add root r l p h hb' hr ih =>
      obtain ⟨hbox, hnf⟩ := ih
      have hw := h.history.spec.1
      have hc : root.box.containsBox (bx p) = true := by rw [hbox]; exact (boxIn_iff _ _).2 hb'
      unfold VW.SpatialTree.add at hr
      rw [if_pos hc, Option.bind_some] at hr
      obtain ⟨⟨r1, a⟩, hd, hr⟩ := Option.bind_eq_some_iff.1 hr
      obtain ⟨path, ha, hr⟩ := Option.bind_eq_some_iff.1 hr
      have hds := descend_spec bx true (-1) (bx p) root 0 [] {} _ hd
      have hfa : a.forced = false := by
        refine descend.partial_correctness true (-1) (bx p)
          (fun _ _ _ a r => a.forced = false → r.2.forced = false) ?_ root 0 [] {} (r1, a) hd rfl
        intro dsc ih nd level path a r h h0
        by_cases hc : nd.box.containsBox (bx p) = true
        · simp only [hc, Bool.not_true, Bool.false_eq_true, if_false] at h
          obtain ⟨nd1, a1, hv, hnode, hcases⟩ := visit_cases (-1) (bx p) nd level path a
          rw [hv] at h
          have hf1 : a1.forced = false := by
            rcases hcases with ⟨_, _, hfo, _⟩ | ⟨_, h0, _⟩ | ⟨_, _, hfo, _⟩
            · rw [hfo]; exact h0
            · omega
            · rw [hfo]; exact h0
          cases nd1 with
          | leaf bb l =>
            simp only [Option.some.injEq] at h
            subst h
            exact hf1
          | split bb l ch =>
            simp only [bind, Option.bind_eq_some_iff, Option.some.injEq] at h
            obtain ⟨c', hfold, rfl⟩ := h
            refine foldlM_inv (fun c : (Fin (2 ^ n) → Node K n P) × Found n => c.2.forced = false) _ ?_ _ (ch, a1) c' hf1 hfold
            intro c i c' hI hstep
            split at hstep
            · simp only [Option.bind_eq_some_iff, Option.some.injEq] at hstep
              obtain ⟨r, hr, rfl⟩ := hstep
              exact ih _ _ _ _ _ hr hI
            · simp only [Option.some.injEq] at hstep
              subst hstep; exact hI
        · simp only [Bool.not_eq_true] at hc
          simp only [hc, Bool.not_false, if_true, Option.some.injEq] at h
          subst h
          exact h0
      have hnf1 : ∀ path t, r1.get? path = some t → ∀ e ∈ t.list, e.forced = false := by
        intro q t ht e he
        rcases hds.ext.new q t ht with ⟨t0, e1, _, e3⟩ | h0
        · rw [e3] at he; exact hnf q t0 e1 e he
        · rw [h0] at he; cases he
      set r2 := r1.modify (Node.mapList fun l => ⟨p, a.forced⟩ :: l) path with hr2
      have hnf2 : ∀ path t, r2.get? path = some t → ∀ e ∈ t.list, e.forced = false := by
        intro q t' ht' e he
        obtain ⟨s, g1, _, _, g4⟩ := (get?_modify_list (fun l => ⟨p, a.forced⟩ :: l) r1 path q).2 t' ht'
        rw [g4] at he
        split at he
        · rcases List.mem_cons.1 he with rfl | he
          · exact hfa
          · exact hnf1 q s g1 e he
        · exact hnf1 q s g1 e he
      obtain ⟨rel, t, e1, e2, e3⟩ := hds.found hc
      simp only [List.nil_append] at e1 e2
      rw [ha, Option.some.injEq] at e1
      subst e1
      have hb2 : r2.box = b := ((push_spec bx r1 path t ⟨p, a.forced⟩ (hds.wf hw) e2 e3).2.1.trans hds.box).trans hbox
      cases hf : a.first with
      | none =>
        simp only [hf, Option.some.injEq] at hr
        subst hr
        exact ⟨hb2, hnf2⟩
      | some f =>
        simp only [hf] at hr
        have : r = r2 := by
          have hget : ∃ nd, r2.get? f = some nd := by
            rw [settle] at hr
            obtain ⟨nd, hnd, _⟩ := Option.bind_eq_some_iff.1 hr
            exact ⟨nd, hnd⟩
          obtain ⟨nd, hnd⟩ := hget
          rw [settle_id bx r2 f f nd hnd 0 (hnf2 f nd hnd), Option.some.injEq] at hr
          exact hr.symm
        rw [this]
        exact ⟨hb2, hnf2⟩
  obtain ⟨hbox, hnf⟩ := key
  have hw := h.history.spec.1
  constructor
  · rintro ⟨r, hr⟩
    by_contra hcon
    have hpt : ∀ d, (bx p).max d = (bx p).min d := fun d =>
      le_antisymm (le_of_not_gt fun hh => hcon ⟨d, hh⟩) (hle d)
    have := point_never_added h.history p hpt (by rw [hbox]; exact hb) (by rw [hbox]; exact hp) (-1) (by omega)
    rw [this] at hr; cases hr
  · rintro ⟨d, hd⟩
    have : Archimedean K := FloorRing.archimedean K
    have hpos : 0 < (bx p).size d := sub_pos.2 hd
    have hc : root.box.containsBox (bx p) = true := by rw [hbox]; exact (boxIn_iff _ _).2 hp
    obtain ⟨m, hm⟩ := pow_unbounded_of_one_lt (root.box.size d / (bx p).size d) (one_lt_two (α := K))
    obtain ⟨⟨r1, a⟩, hr1, hfa⟩ := descend_flat bx (-1) (by omega) (bx p) d m root 0 [] {} hw ((div_lt_iff₀ hpos).1 hm) hc
    have hds := descend_spec bx true (-1) (bx p) root 0 [] {} _ hr1
    obtain ⟨rel, t, e1, e2, e3⟩ := hds.found hc
    simp only [List.nil_append] at e1 e2
    unfold VW.SpatialTree.add
    rw [if_pos hc, Option.bind_some, hr1, Option.bind_some]
    simp only [e1, Option.bind_some]
    cases hf : a.first with
    | none => exact ⟨_, rfl⟩
    | some f =>
      simp only
      rcases hds.first with h0 | ⟨rel', s, f1, f2⟩
      · simp only at h0; rw [hf] at h0; cases h0
      · simp only [List.nil_append] at f1 f2
        rw [hf, Option.some.injEq] at f1
        subst f1
        obtain ⟨s2, m1, _, _, m4⟩ := (get?_modify_list (fun l => ⟨p, a.forced⟩ :: l) r1 rel f).1 s f2
        refine ⟨_, settle_id bx _ f f s2 m1 0 fun e he => ?_⟩
        have hnf1 : ∀ e ∈ s.list, e.forced = false := by
          intro e he
          rcases hds.ext.new f s f2 with ⟨t0, k1, _, k3⟩ | h0
          · rw [k3] at he; exact hnf f t0 k1 e he
          · rw [h0] at he; cases he
        rw [m4] at he
        split at he
        · rcases List.mem_cons.1 he with rfl | he
          · exact hfa rfl
          · exact hnf1 e he
        · exact hnf1 e he

/-! ### Examples -/

section
variable (start : ℚ → Nat)

/-- Five intervals. -/
def exBox (k : Fin 5) : Box ℚ 1 := ⟨fun _ => k.val, fun _ => k.val + 2⟩

/-- A tree of five intervals, and of what is in it those that contain the point 2: the intervals 1 and 2, not the interval
0, which ends there. -/
example : ∃ r out, ofPrims start exBox [0, 1, 2, 3, 4] 2 = some r ∧
    containsAll exBox (fun _ => true) r (fun _ => 2) [] = some out ∧ out.Perm [2, 1] := by
  obtain ⟨r, h1, h2⟩ := ofPrims_returns start exBox 2 [0, 1, 2, 3, 4] (by simp) (by omega)
    (by intro p _ d; simp [exBox])
  obtain ⟨out, h3, h4⟩ := contains_all h2.history (fun _ => true) (fun _ => 2) []
  refine ⟨r, out, h1, by simpa using h3, h4.trans (List.Perm.of_eq ?_)⟩
  have : ∀ k : Fin 5, PointIn (exBox k) (fun _ => 2) ↔ (k = 1 ∨ k = 2) := by
    intro k
    simp only [PointIn, exBox]
    fin_cases k <;> norm_num <;> decide
  simp [this]

example : ∃ r, ofPrims start exBox [0, 1, 2, 3, 4] = some r ∧ LevelHistory start exBox (-1) r [4, 3, 2, 1, 0] :=
  ofPrims_returns start exBox (-1) [0, 1, 2, 3, 4] (by simp) (by omega) (by intro p _ d; simp [exBox])

/-- A box from 0 to 8. -/
def exRoot : Box ℚ 1 := ⟨fun _ => 0, fun _ => 8⟩

example : ∃ r, add start (fun _ : Fin 5 => exBox 0) (ofBox exRoot) 0 0 = some r ∧ add start (fun _ => exBox 0) r 1 1 = none := by
  obtain ⟨q, hq⟩ := quadrants_some (b := exRoot) ((nonempty_iff _).2 ⟨by omega, fun d => by simp [exRoot]⟩)
  obtain ⟨_, h1, h2⟩ := quadrants_eq hq
  obtain ⟨qq, hqq⟩ := quadrants_some (b := q 0) (quadrant_nonempty hq 0)
  obtain ⟨_, h3, h4⟩ := quadrants_eq hqq
  have hin : BoxIn (qq 0) (exBox 0) := by
    refine ⟨by omega, fun d => ?_⟩
    have hu : upper 1 0 d = false := by fin_cases d; decide
    rw [h3, h4, hu]
    simp only [Bool.false_eq_true, if_false, h1, h2, hu]
    simp [exRoot, exBox]; norm_num
  exact mixed_levels_hang start (fun _ => exBox 0) exRoot q qq hq 0 0 hqq 0 1 (fun d => by simp [exBox])
    (fun d => by simp [exBox]) hin hin

example : add start (fun _ : Unit => (⟨fun _ => 3, fun _ => 3⟩ : Box ℚ 1)) (ofBox exRoot) () = none :=
  point_never_added (.empty exRoot) () (fun _ => rfl) (fun d => by simp [exRoot, ofBox, Node.box])
    ⟨by omega, fun d => by simp [exRoot, ofBox, Node.box]; norm_num⟩ (-1) (by omega)

example : add start (fun _ : Unit => (⟨fun _ => -1, fun _ => -1⟩ : Box ℚ 1)) (ofBox exRoot) () 5 = none :=
  flat_outside_never_added (.empty exRoot) () ⟨0, le_refl _⟩ ⟨0, by simp [exRoot, ofBox, Node.box]⟩ 5

/-- Growing: the interval from 8 to 10 is added to a tree from 0 to 8. -/
example : ∃ r, add (fun _ => 1) (fun _ : Unit => (⟨fun _ => 8, fun _ => 10⟩ : Box ℚ 1)) (ofBox exRoot) () = some r ∧
    LevelHistory (fun _ => 1) (fun _ : Unit => (⟨fun _ => 8, fun _ => 10⟩ : Box ℚ 1)) (-1) r [()] :=
  add_returns (.empty exRoot) () (by omega) (fun _ => by norm_num)
    (Or.inr ⟨fun d => by simp [exRoot, ofBox, Node.box], fun d => by
      simp only [ofBox, Node.box, exRoot, Box.size, Box.grow, Box.empty]
      norm_num, fun _ => by norm_num⟩)

/-- An edge of a square, which has no inside, can be added with the default level. -/
example : ∃ r, add start (fun _ : Unit => (⟨fun _ => 1, fun d => if d = 0 then 1 else 2⟩ : Box ℚ 2))
    (ofBox ⟨fun _ => 0, fun _ => 4⟩) () = some r :=
  (default_returns_iff (b := ⟨fun _ => 0, fun _ => 4⟩) (fun _ => by norm_num) .empty ()
    ⟨by omega, fun d => ⟨by norm_num, by dsimp only; split <;> norm_num⟩⟩
    (fun d => by dsimp only; split <;> norm_num)).2 ⟨1, by norm_num⟩

end

end VW.SpatialTree
