/-
`overlap_pairs` and `closest` of vw::geometry::SpatialTree, for any well formed tree.
-/
import Verif.Geom.SpatialTreeQuery

set_option linter.unusedSectionVars false

namespace VW.SpatialTree

variable {K : Type} [Field K] [LinearOrder K] {n : Nat} {P : Type}

/-! ### Traversal, node first -/

section
variable {τ : Type}

def preList (g : Node K n P → Elem P → List (Elem P) → List τ) (nd : Node K n P) : List (Elem P) → List τ
  | [] => []
  | e :: rest => g nd e rest ++ preList g nd rest

def preRec (t : Box K n → Bool) (g : Node K n P → Elem P → List (Elem P) → List τ) : Node K n P → List τ
  | .leaf b l => if t b then preList g (.leaf b l) l else []
  | .split b l ch => if t b then preList g (.split b l ch) l ++
      (List.finRange (2 ^ n)).reverse.flatMap (fun i => preRec t g (ch i)) else []

def kids (h : Node K n P → List τ) : Node K n P → List τ
  | .leaf _ _ => []
  | .split _ _ ch => (List.finRange (2 ^ n)).reverse.flatMap fun i => h (ch i)

/-- A functor that appends to a list, node first. -/
structure Pre (f : Functor K n P (List τ)) (t : Box K n → Bool) (g : Node K n P → Elem P → List (Elem P) → List τ) :
    Prop where
  order : f.order = .currentFirst
  should : ∀ x s, f.shouldProcess x s = some (x, t s.node.box)
  visit : ∀ x s e rest, f.visit x s e rest = some (x ++ g s.node e rest, true)
  child : ∀ x nd, f.child x nd = some (some 0)

theorem Pre.list {f : Functor K n P (List τ)} {t} {g} (h : Pre f t g) (s : State K n P) (l : List (Elem P)) (x : List τ) :
    applyList f s x l = some (x ++ preList g s.node l, true) := by
  induction l generalizing x with
  | nil => simp [applyList, preList]
  | cons e l ih =>
    unfold applyList
    rw [h.visit]
    simp only [Option.bind_some, if_true]
    rw [ih, preList, List.append_assoc]

theorem Pre.loop {f : Functor K n P (List τ)} {t} {g} (h : Pre f t g) (nd : Node K n P) (lst : Option (List (Elem P)))
    (qd : Bool) (lev : Nat) (pr : K) (q : List (State K n P)) (x : List τ) :
    loop f dfsPop (⟨nd, lst, qd, lev, pr⟩ :: q) x = loop f dfsPop q (x ++
      if t nd.box then preList g nd (match lst with | some l => l | none => nd.list) ++ kids (preRec t g) nd else []) := by
  induction nd generalizing lst qd lev pr q x with
  | leaf b l =>
    rw [VW.SpatialTree.loop]
    by_cases ht : t b = true
    · simp only [dfsPop, h.should, bind, Option.bind_some, Node.box, ht, Bool.not_true, Bool.false_eq_true, if_false, h.order,
        applyCurrent, h.list, if_true, applyChildren_leaf, kids, List.append_nil]
      cases lst <;> rfl
    · simp only [Bool.not_eq_true] at ht
      simp [dfsPop, h.should, Node.box, ht, bind]
  | split b l ch ih =>
    have hk : ∀ (is : List (Fin (2 ^ n))) lev q x,
        VW.SpatialTree.loop f dfsPop (is.map (fun i => ⟨ch i, none, false, lev, 0⟩) ++ q) x =
          VW.SpatialTree.loop f dfsPop q (x ++ is.flatMap fun i => preRec t g (ch i)) := by
      intro is
      induction is with
      | nil => intro lev q x; simp
      | cons i is ihs =>
        intro lev q x
        rw [List.map_cons, List.cons_append, ih, ihs, List.flatMap_cons, List.append_assoc]
        congr 3
        cases ch i with
        | leaf b l => simp only [preRec, Node.box, Node.list, kids, List.append_nil]
        | split b l ch => simp only [preRec, Node.box, Node.list, kids]; rfl
    rw [VW.SpatialTree.loop]
    by_cases ht : t b = true
    · simp only [dfsPop, h.should, bind, Option.bind_some, Node.box, ht, Bool.not_true, Bool.false_eq_true, if_false, h.order,
        applyCurrent, h.list, if_true, kids]
      rw [applyChildren_all f h.child, Option.bind_some, hk, List.append_assoc]
      cases lst <;> rfl
    · simp only [Bool.not_eq_true] at ht
      simp [dfsPop, h.should, Node.box, ht, bind]

theorem Pre.apply {f : Functor K n P (List τ)} {t} {g} (h : Pre f t g) (s : State K n P) (x : List τ) :
    apply f s x = some (x ++ if t s.node.box then preList g s.node (match s.list with | some l => l | none => s.node.list) ++
      kids (preRec t g) s.node else []) := by
  obtain ⟨nd, lst, qd, lev, pr⟩ := s
  unfold VW.SpatialTree.apply
  rw [h.loop, VW.SpatialTree.loop]
  rfl

end

/-! ### Overlapping pairs -/

/-- All pairs of elements of a list, the earlier one first. -/
def pairs : List P → List (P × P)
  | [] => []
  | p :: l => l.map (fun q => (p, q)) ++ pairs l

section
variable [DecidableEq P]

/-- Whether `overlap_pairs` reports a pair it comes across. -/
def meet (bx : P → Box K n) (meets : P → P → Bool) (pq : P × P) : Bool :=
  decide (pq.2 ≠ pq.1) && ((bx pq.2).intersects (bx pq.1) && meets pq.2 pq.1)

/-- What `AllOverlapsFunctor` appends. -/
def gAll (bx : P → Box K n) (meets : P → P → Bool) (p : P) (_ : Node K n P) (e : Elem P) (_ : List (Elem P)) :
    List (P × P) := if meet bx meets (p, e.prim) then [(p, e.prim)] else []

theorem pre_all (bx : P → Box K n) (meets : P → P → Bool) (p : P) :
    Pre (allOverlapsF bx meets p) (fun b => b.intersects (bx p)) (gAll bx meets p) where
  order := rfl
  should _ _ := rfl
  child _ _ := rfl
  visit x s e rest := by
    unfold allOverlapsF gAll meet
    simp only [Option.some.injEq, Prod.mk.injEq, and_true]
    by_cases h1 : e.prim = p
    · simp [h1]
    · by_cases h2 : ((bx e.prim).intersects (bx p) && meets e.prim p) = true
      · simp [h1, h2]
      · simp [h1, h2]

/-- What `OverlapPairsFunctor` appends. -/
def gPairs (bx : P → Box K n) (meets : P → P → Bool) (nd : Node K n P) (e : Elem P) (rest : List (Elem P)) : List (P × P) :=
  if nd.box.intersects (bx e.prim) then preList (gAll bx meets e.prim) nd (e :: rest) ++
    kids (preRec (fun b => b.intersects (bx e.prim)) (gAll bx meets e.prim)) nd else []

theorem pre_pairs (bx : P → Box K n) (meets : P → P → Bool) :
    Pre (overlapPairsF bx meets) (fun _ => true) (gPairs bx meets) where
  order := rfl
  should _ _ := rfl
  child _ _ := rfl
  visit x s e rest := by
    unfold overlapPairsF
    simp only
    rw [(pre_all bx meets e.prim).apply]
    rfl

omit [DecidableEq P] in
theorem intersects_of_meet [DecidableEq P] {bx : P → Box K n} {meets : P → P → Bool} {p q : P}
    (h : meet bx meets (p, q) = true) : (bx q).intersects (bx p) = true := by
  unfold meet at h
  simp only [Bool.and_eq_true] at h
  exact h.2.1

theorem gAll_list (bx : P → Box K n) (meets : P → P → Bool) (p : P) (nd : Node K n P) (l : List (Elem P)) :
    preList (gAll bx meets p) nd l = ((l.map Elem.prim).map fun q => (p, q)).filter (meet bx meets) := by
  induction l with
  | nil => rfl
  | cons e l ih =>
    rw [preList, ih, gAll]
    by_cases h : meet bx meets (p, e.prim) = true <;> simp [h]

/-- The primitives below a node. -/
def Node.under : Node K n P → List P
  | .leaf _ _ => []
  | .split _ _ ch => (List.finRange (2 ^ n)).flatMap fun i => (ch i).prims

omit [DecidableEq P] [Field K] [LinearOrder K] in
theorem prims_eq (nd : Node K n P) : nd.prims = nd.list.map Elem.prim ++ nd.under := by
  cases nd <;> simp [Node.prims, Node.list, Node.under]

theorem all_perm [IsStrictOrderedRing K] (bx : P → Box K n) (meets : P → P → Bool) (p : P) (nd : Node K n P) (h : nd.Wf bx) :
    (preRec (fun b => b.intersects (bx p)) (gAll bx meets p) nd).Perm
      ((nd.prims.map fun q => (p, q)).filter (meet bx meets)) := by
  have none_ : ∀ nd : Node K n P, nd.Wf bx → nd.box.intersects (bx p) = false →
      (nd.prims.map fun q => (p, q)).filter (meet bx meets) = [] := by
    intro nd h ht
    rw [List.filter_eq_nil_iff]
    intro pq hp ha
    obtain ⟨q, hq, rfl⟩ := List.mem_map.1 hp
    have := intersects_mono (prims_inside bx nd h q hq) (intersects_of_meet ha)
    rw [ht] at this; cases this
  induction nd with
  | leaf b l =>
    by_cases ht : b.intersects (bx p) = true
    · simp only [preRec, ht, if_true, gAll_list, Node.prims]
      exact List.Perm.refl _
    · simp only [Bool.not_eq_true] at ht
      rw [none_ _ h ht]
      simp [preRec, ht]
  | split b l ch ih =>
    by_cases ht : b.intersects (bx p) = true
    · simp only [preRec, ht, if_true, gAll_list, Node.prims, List.map_append, List.filter_append]
      refine List.Perm.append_left _ ?_
      rw [List.map_flatMap, List.filter_flatMap]
      refine (List.Perm.flatMap_right _ (List.reverse_perm _)).trans ?_
      exact List.Perm.flatMap_left _ fun i _ => ih i (h.2.2 i)
    · simp only [Bool.not_eq_true] at ht
      rw [none_ _ h ht]
      simp [preRec, ht]

theorem kids_perm [IsStrictOrderedRing K] (bx : P → Box K n) (meets : P → P → Bool) (p : P) (nd : Node K n P) (h : nd.Wf bx) :
    (kids (preRec (fun b => b.intersects (bx p)) (gAll bx meets p)) nd).Perm
      ((nd.under.map fun q => (p, q)).filter (meet bx meets)) := by
  cases nd with
  | leaf b l => simp [kids, Node.under]
  | split b l ch =>
    simp only [kids, Node.under]
    rw [List.map_flatMap, List.filter_flatMap]
    refine (List.Perm.flatMap_right _ (List.reverse_perm _)).trans ?_
    exact List.Perm.flatMap_left _ fun i _ => all_perm bx meets p (ch i) (h.2.2 i)

/-- What is appended for one primitive of a node. -/
theorem gPairs_perm [IsStrictOrderedRing K] (bx : P → Box K n) (meets : P → P → Bool) (nd : Node K n P) (h : nd.Wf bx)
    (e : Elem P) (rest : List (Elem P)) (hin : ∀ e' ∈ rest, e' ∈ nd.list) :
    (gPairs bx meets nd e rest).Perm (((rest.map Elem.prim ++ nd.under).map fun q => (e.prim, q)).filter (meet bx meets)) := by
  unfold gPairs
  by_cases ht : nd.box.intersects (bx e.prim) = true
  · rw [if_pos ht, gAll_list, List.map_append, List.filter_append, List.map_cons, List.map_cons, List.filter_cons,
      if_neg (by simp [meet])]
    exact List.Perm.append_left _ (kids_perm bx meets e.prim nd h)
  · rw [if_neg ht, List.filter_eq_nil_iff.2 ?_]
    intro pq hp ha
    obtain ⟨q, hq, rfl⟩ := List.mem_map.1 hp
    apply ht
    apply intersects_mono (prims_inside bx nd h q ?_) (intersects_of_meet ha)
    rw [prims_eq]
    rcases List.mem_append.1 hq with hq | hq
    · obtain ⟨e', he', rfl⟩ := List.mem_map.1 hq
      exact List.mem_append_left _ (List.mem_map_of_mem (hin e' he'))
    · exact List.mem_append_right _ hq

theorem list_perm [IsStrictOrderedRing K] (bx : P → Box K n) (meets : P → P → Bool) (nd : Node K n P) (h : nd.Wf bx)
    (l : List (Elem P)) (hin : ∀ e' ∈ l, e' ∈ nd.list) :
    (preList (gPairs bx meets) nd l ++ (pairs nd.under).filter (meet bx meets)).Perm
      ((pairs (l.map Elem.prim ++ nd.under)).filter (meet bx meets)) := by
  induction l with
  | nil => simp [preList]
  | cons e l ih =>
    rw [preList, List.map_cons, List.cons_append, pairs, List.filter_append, List.append_assoc]
    exact (gPairs_perm bx meets nd h e l fun e' he' => hin e' (List.mem_cons_of_mem _ he')).append
      (ih fun e' he' => hin e' (List.mem_cons_of_mem _ he'))

omit [DecidableEq P] in
theorem pairs_append (a b : List P) :
    (pairs (a ++ b)).Perm (pairs a ++ (a.flatMap fun p => b.map fun q => (p, q)) ++ pairs b) := by
  induction a with
  | nil => simp [pairs]
  | cons p a ih =>
    rw [List.cons_append, pairs, pairs, List.map_append, List.flatMap_cons]
    refine (List.Perm.append_left _ ih).trans ?_
    simp only [List.append_assoc]
    refine List.Perm.append_left _ ?_
    rw [← List.append_assoc, ← List.append_assoc (pairs a)]
    exact List.Perm.append_right _ List.perm_append_comm

omit [DecidableEq P] in
/-- Pairs from different parts that are not wanted can be left out. -/
theorem pairs_flatMap {ι : Type} (c : P × P → Bool) (f : ι → List P) (is : List ι) (hnd : is.Nodup)
    (hc : ∀ i ∈ is, ∀ j ∈ is, i ≠ j → ∀ p ∈ f i, ∀ q ∈ f j, c (p, q) = false) :
    ((pairs (is.flatMap f)).filter c).Perm (is.flatMap fun i => (pairs (f i)).filter c) := by
  induction is with
  | nil => simp [pairs]
  | cons i is ih =>
    rw [List.flatMap_cons, List.flatMap_cons]
    refine ((pairs_append _ _).filter c).trans ?_
    rw [List.filter_append, List.filter_append]
    have : ((f i).flatMap fun p => (is.flatMap f).map fun q => (p, q)).filter c = [] := by
      rw [List.filter_eq_nil_iff]
      intro pq hpq hcc
      obtain ⟨p, hp, hpq'⟩ := List.mem_flatMap.1 hpq
      obtain ⟨q, hq0, rfl⟩ := List.mem_map.1 hpq'
      obtain ⟨j, hj, hq⟩ := List.mem_flatMap.1 hq0
      have := hc i List.mem_cons_self j (List.mem_cons_of_mem _ hj) (fun e => (List.nodup_cons.1 hnd).1 (e ▸ hj)) p hp q hq
      rw [this] at hcc; cases hcc
    rw [this, List.append_nil]
    exact List.Perm.append_left _ (ih (List.nodup_cons.1 hnd).2 fun i hi j hj =>
      hc i (List.mem_cons_of_mem _ hi) j (List.mem_cons_of_mem _ hj))

theorem pairs_perm [IsStrictOrderedRing K] (bx : P → Box K n) (meets : P → P → Bool) (nd : Node K n P) (h : nd.Wf bx) :
    (preRec (fun _ => true) (gPairs bx meets) nd).Perm ((pairs nd.prims).filter (meet bx meets)) := by
  induction nd with
  | leaf b l =>
    have := list_perm bx meets (.leaf b l) h l fun e he => he
    simpa [Node.under, pairs, preRec, Node.prims] using this
  | split b l ch ih =>
    have h1 := list_perm bx meets (.split b l ch) h l fun e he => he
    simp only [preRec, if_true, Node.prims]
    refine List.Perm.trans ?_ h1
    refine List.Perm.append_left _ ?_
    refine (List.Perm.flatMap_right _ (List.reverse_perm _)).trans ?_
    refine (List.Perm.flatMap_left _ fun i _ => ih i (h.2.2 i)).trans ?_
    refine (pairs_flatMap _ _ _ (List.nodup_finRange _) ?_).symm
    obtain ⟨_, ⟨q, hq, hch⟩, hw⟩ := h
    intro i _ j _ hij p hp r hr
    have c1 := prims_inside bx (ch i) (hw i) p hp
    have c2 := prims_inside bx (ch j) (hw j) r hr
    rw [hch] at c1 c2
    have := quadrants_disjoint hq (Ne.symm hij) c2 c1
    by_contra hcon
    simp only [Bool.not_eq_false] at hcon
    rw [intersects_of_meet hcon] at this; cases this

/-- `overlap_pairs` of a well formed tree. -/
theorem overlapPairs_wf [IsStrictOrderedRing K] (bx : P → Box K n) (meets : P → P → Bool) (root : Node K n P) (h : root.Wf bx)
    (x : List (P × P)) : ∃ r, overlapPairs bx meets root x = some (x ++ r) ∧
      r.Perm ((pairs root.prims).filter (meet bx meets)) := by
  unfold overlapPairs
  rw [(pre_pairs bx meets).apply]
  refine ⟨_, rfl, ?_⟩
  have := pairs_perm bx meets root h
  refine List.Perm.trans ?_ this
  cases root <;> simp [rootState, preRec, kids, Node.list]

end

/-! ### The closest primitive -/

/-- `std::priority_queue`: an element of the greatest priority is taken, which one is not specified. -/
structure PopMax (pop : List (State K n P) → Option (State K n P × List (State K n P))) : Prop where
  empty : pop [] = none
  some : ∀ q, q ≠ [] → ∃ s q', pop q = some (s, q')
  perm : ∀ q s q', pop q = Option.some (s, q') → q.Perm (s :: q')
  max : ∀ q s q', pop q = Option.some (s, q') → ∀ s' ∈ q', s'.prio ≤ s.prio

/-- Number of nodes. -/
def Node.count : Node K n P → Nat
  | .leaf _ _ => 1
  | .split _ _ ch => 1 + ((List.finRange (2 ^ n)).map fun i => (ch i).count).sum

section
variable (distance : P → K) (thr : K)

/-- A primitive that does not matter any more. -/
def Beaten (c : Closest K P) (d : K) : Prop := c.test thr d = false

variable [IsStrictOrderedRing K]

theorem beaten_mono {c : Closest K P} {d d' : K} (h : Beaten thr c d) (hd : d ≤ d') : Beaten thr c d' := by
  unfold Beaten Closest.test at *
  simp only [Bool.and_eq_false_iff, Bool.or_eq_false_iff, decide_eq_false_iff_not, not_lt, not_le] at *
  rcases h with ⟨h1, h2⟩ | ⟨h1, h2⟩
  · exact Or.inl ⟨h1, lt_of_lt_of_le h2 hd⟩
  · exact Or.inr ⟨h1, le_trans h2 hd⟩

/-- What is known during the search: a best primitive was seen, and what is not in the queue is no better. -/
structure Inv (ps : List P) (c : Closest K P) : Prop where
  none : c.prim = none → c.dist = -1
  some : ∀ p, c.prim = some p → p ∈ ps ∧ c.dist = distance p ∧ (thr < 0 ∨ distance p ≤ thr)

/-- One step with a primitive. -/
def considered (c : Closest K P) (d : K) (p : P) : Closest K P :=
  if c.test thr d then if c.test thr (distance p) then { c with prim := some p, dist := distance p } else c else c

theorem considered_spec (ps : List P) (c : Closest K P) (h : Inv distance thr ps c) (d : K) (p : P) (hp : p ∈ ps)
    (hd : d ≤ distance p) :
    Inv distance thr ps (considered distance thr c d p) ∧ (considered distance thr c d p).cont = c.cont ∧
      Beaten thr (considered distance thr c d p) (distance p) ∧
      ∀ d', Beaten thr c d' → Beaten thr (considered distance thr c d p) d' := by
  unfold considered
  by_cases h1 : c.test thr d = true
  · rw [if_pos h1]
    by_cases h2 : c.test thr (distance p) = true
    · rw [if_pos h2]
      have h2' := h2
      unfold Closest.test at h2'
      simp only [Bool.and_eq_true, Bool.or_eq_true, decide_eq_true_eq] at h2'
      refine ⟨⟨fun h => (by cases h), ?_⟩, rfl, ?_, ?_⟩
      · intro p' hp'
        simp only [Option.some.injEq] at hp'
        subst hp'
        exact ⟨hp, rfl, h2'.1⟩
      · unfold Beaten Closest.test; simp
      · intro d' hd'
        unfold Beaten Closest.test at *
        simp only [Bool.and_eq_false_iff, Bool.or_eq_false_iff, decide_eq_false_iff_not, not_lt, not_le, Option.isNone_some,
          true_and] at *
        rcases hd' with h | ⟨h, h3⟩
        · exact Or.inl h
        · right
          rcases h2'.2 with h4 | h4
          · rw [h4] at h; cases h
          · exact le_trans h4.le h3
    · rw [if_neg h2]
      exact ⟨h, rfl, by simpa [Beaten] using h2, fun _ h => h⟩
  · rw [if_neg h1]
    exact ⟨h, rfl, beaten_mono thr (by simpa [Beaten] using h1) hd, fun _ h => h⟩

variable (bx : P → Box K n) (heur : Box K n → Option K)

/-- The list of a node. -/
theorem closest_list (ps : List P) (s : State K n P) (l : List (Elem P)) (hin : ∀ e ∈ l, e.prim ∈ ps)
    (htot : ∀ e ∈ l, ∃ d, heur (bx e.prim) = some d ∧ d ≤ distance e.prim)
    (c : Closest K P) (hc : c.cont = true) (h : Inv distance thr ps c) :
    ∃ c', applyList (closestF bx heur distance thr) s c l = some (c', true) ∧ c'.cont = true ∧ Inv distance thr ps c' ∧
      (∀ e ∈ l, Beaten thr c' (distance e.prim)) ∧ ∀ d', Beaten thr c d' → Beaten thr c' d' := by
  induction l generalizing c with
  | nil => exact ⟨c, rfl, hc, h, by simp, fun _ h => h⟩
  | cons e l ih =>
    obtain ⟨d, hd, hle⟩ := htot e List.mem_cons_self
    obtain ⟨i1, i2, i3, i4⟩ := considered_spec distance thr ps c h d e.prim (hin e List.mem_cons_self) hle
    obtain ⟨c', e1, e2, e3, e4, e5⟩ := ih (fun e he => hin e (List.mem_cons_of_mem _ he))
      (fun e he => htot e (List.mem_cons_of_mem _ he)) (considered distance thr c d e.prim) (by rw [i2, hc]) i1
    refine ⟨c', ?_, e2, e3, ?_, fun d' hd' => e5 d' (i4 d' hd')⟩
    · unfold applyList
      have : (closestF bx heur distance thr).visit c s e l = some (considered distance thr c d e.prim, true) := by
        have : (closestF bx heur distance thr).visit c s e l =
            if c.cont then (heur (bx e.prim)).map fun d => (considered distance thr c d e.prim, (considered distance thr c d e.prim).cont)
            else some (c, c.cont) := rfl
        rw [this, if_pos hc, hd, Option.map_some, i2, hc]
      rw [this]
      simp only [Option.bind_some, if_true]
      exact e1
    · intro e' he'
      rcases List.mem_cons.1 he' with rfl | he'
      · exact e5 _ i3
      · exact e4 e' he'

/-- The children that are put into the queue. -/
theorem closest_children (c : Closest K P) (s : State K n P) (b : Box K n) (l : List (Elem P)) (ch : Fin (2 ^ n) → Node K n P)
    (hs : s.node = .split b l ch) (htot : ∀ i, ∃ d, heur (ch i).box = some d) (q : List (State K n P)) :
    ∃ new : List (State K n P), applyChildren (closestF bx heur distance thr) c s q = some (new ++ q) ∧
      (new.map fun t => t.node.count).sum ≤ ((List.finRange (2 ^ n)).map fun i => (ch i).count).sum ∧
      (∀ t ∈ new, t.list = none ∧ ∃ i, t.node = ch i ∧ heur (ch i).box = some (-t.prio)) ∧
      ∀ i, (∃ t ∈ new, t.node = ch i) ∨ ∃ d, heur (ch i).box = some d ∧ Beaten thr c d := by
  unfold applyChildren
  rw [hs]
  simp only
  have : ∀ (is : List (Fin (2 ^ n))) q, ∃ new : List (State K n P),
      is.foldlM (fun q i => ((closestF bx heur distance thr).child c (ch i)).bind fun
        | some pr => some (⟨ch i, none, false, s.level + 1, pr⟩ :: q)
        | none => some q) q = some (new ++ q) ∧
      (new.map fun t => t.node.count).sum ≤ (is.map fun i => (ch i).count).sum ∧
      (∀ t ∈ new, t.list = none ∧ ∃ i, t.node = ch i ∧ heur (ch i).box = some (-t.prio)) ∧
      ∀ i ∈ is, (∃ t ∈ new, t.node = ch i) ∨ ∃ d, heur (ch i).box = some d ∧ Beaten thr c d := by
    intro is
    induction is with
    | nil => intro q; exact ⟨[], rfl, by simp, by simp, by simp⟩
    | cons i is ih =>
      intro q
      obtain ⟨d, hd⟩ := htot i
      by_cases ht : c.test thr d = true
      · obtain ⟨new, e1, e2, e3, e4⟩ := ih (⟨ch i, none, false, s.level + 1, -d⟩ :: q)
        refine ⟨new ++ [⟨ch i, none, false, s.level + 1, -d⟩], ?_, ?_, ?_, ?_⟩
        · rw [List.foldlM_cons]
          simp only [closestF, hd, Option.map_some, ht, if_true, Option.bind_some, bind] at e1 ⊢
          rw [List.append_assoc]
          exact e1
        · simp only [List.map_append, List.sum_append, List.map_cons, List.map_nil, List.sum_cons, List.sum_nil]
          omega
        · intro t ht'
          rcases List.mem_append.1 ht' with h | h
          · exact e3 t h
          · rw [List.mem_singleton] at h; subst h
            exact ⟨rfl, i, rfl, by simp [hd]⟩
        · intro j hj
          rcases List.mem_cons.1 hj with rfl | hj
          · exact Or.inl ⟨_, List.mem_append_right _ (List.mem_singleton.2 rfl), rfl⟩
          · rcases e4 j hj with ⟨t, ht, e⟩ | h
            · exact Or.inl ⟨t, List.mem_append_left _ ht, e⟩
            · exact Or.inr h
      · obtain ⟨new, e1, e2, e3, e4⟩ := ih q
        refine ⟨new, ?_, ?_, e3, ?_⟩
        · rw [List.foldlM_cons]
          simp only [Bool.not_eq_true] at ht
          simp only [closestF, hd, Option.map_some, ht, Bool.false_eq_true, if_false, Option.bind_some, bind] at e1 ⊢
          exact e1
        · simp only [List.map_cons, List.sum_cons]; omega
        · intro j hj
          rcases List.mem_cons.1 hj with rfl | hj
          · exact Or.inr ⟨d, hd, by simpa [Beaten] using ht⟩
          · exact e4 j hj
  obtain ⟨new, e1, e2, e3, e4⟩ := this (List.finRange (2 ^ n)) q
  exact ⟨new, e1, e2, e3, fun i => e4 i (List.mem_finRange i)⟩

/-- When the search has stopped the queue is only emptied. -/
theorem closest_stopped (pop) (hpop : PopMax (K := K) (n := n) (P := P) pop) (c : Closest K P) (hc : c.cont = false)
    (q : List (State K n P)) : loop (closestF bx heur distance thr) pop q c = some c := by
  generalize hm : q.length = m
  induction m generalizing q with
  | zero =>
    rw [List.length_eq_zero_iff] at hm; subst hm
    rw [loop, hpop.empty]
  | succ m ih =>
    obtain ⟨s, q', hq⟩ := hpop.some q (by rintro rfl; cases hm)
    rw [loop, hq]
    simp only [closestF, hc, Bool.false_eq_true, if_false, bind, Option.bind_some, Bool.not_false, if_true]
    have := ih q' (by have := (hpop.perm q s q' hq).length_eq; simp at this; omega)
    simpa only [closestF] using this

/-- The search. -/
theorem closest_loop (pop) (hpop : PopMax (K := K) (n := n) (P := P) pop) (ps : List P)
    (hb : ∀ b p d, b.containsBox (bx p) = true → heur b = some d → d ≤ distance p)
    (hne : ∀ b : Box K n, b.empty = false → ∃ d, heur b = some d)
    (hprims : ∀ p ∈ ps, (bx p).empty = false)
    (q : List (State K n P)) (c : Closest K P) (hc : c.cont = true) (hi : Inv distance thr ps c)
    (hq : ∀ s ∈ q, s.list = none ∧ s.node.Wf bx ∧ (∀ p ∈ s.node.prims, p ∈ ps ∧ -s.prio ≤ distance p))
    (hall : ∀ p ∈ ps, (∃ s ∈ q, p ∈ s.node.prims) ∨ Beaten thr c (distance p)) :
    ∃ c', loop (closestF bx heur distance thr) pop q c = some c' ∧ Inv distance thr ps c' ∧
      ∀ p ∈ ps, Beaten thr c' (distance p) := by
  generalize hm : (q.map fun s => s.node.count).sum = m
  induction m using Nat.strong_induction_on generalizing q c with
  | _ m ih =>
    by_cases hqe : q = []
    · subst hqe
      refine ⟨c, by rw [loop, hpop.empty], hi, ?_⟩
      intro p hp
      rcases hall p hp with ⟨s, hs, _⟩ | h
      · cases hs
      · exact h
    obtain ⟨s, q', hpq⟩ := hpop.some q hqe
    have hperm := hpop.perm q s q' hpq
    have hmem : s ∈ q := hperm.mem_iff.2 List.mem_cons_self
    have hmem' : ∀ t ∈ q', t ∈ q := fun t ht => hperm.mem_iff.2 (List.mem_cons_of_mem _ ht)
    obtain ⟨hsl, hswf, hsp⟩ := hq s hmem
    rw [loop, hpq]
    by_cases ht : c.test thr (-s.prio) = true
    · -- the node is processed
      have hlist : ∀ e ∈ s.node.list, e.prim ∈ s.node.prims := by
        intro e he; rw [prims_eq]; exact List.mem_append_left _ (List.mem_map_of_mem he)
      have hself : ∀ p, (bx p).empty = false → (bx p).containsBox (bx p) = true := by
        intro p hp
        rw [containsBox_iff]
        exact ⟨((nonempty_iff _).1 hp).1, fun _ => le_refl _, fun _ => le_refl _⟩
      obtain ⟨c1, e1, e2, e3, e4, e5⟩ := closest_list distance thr bx heur ps s s.node.list
        (fun e he => (hsp _ (hlist e he)).1)
        (fun e he => by
          have hp := hprims _ (hsp _ (hlist e he)).1
          obtain ⟨d, hd⟩ := hne _ hp
          exact ⟨d, hd, hb _ _ _ (hself _ hp) hd⟩) c hc hi
      -- the queue after the children
      have : ∃ new : List (State K n P), applyChildren (closestF bx heur distance thr) c1 s q' = some (new ++ q') ∧
          (new.map fun t => t.node.count).sum < s.node.count ∧
          (∀ t ∈ new, t.list = none ∧ t.node.Wf bx ∧ ∀ p ∈ t.node.prims, p ∈ ps ∧ -t.prio ≤ distance p) ∧
          ∀ p ∈ s.node.under, (∃ t ∈ new, p ∈ t.node.prims) ∨ Beaten thr c1 (distance p) := by
        cases hnode : s.node with
        | leaf b l =>
          refine ⟨[], ?_, ?_, by simp, ?_⟩
          · unfold applyChildren; rw [hnode]; rfl
          · simp [Node.count]
          · simp [Node.under]
        | split b l ch =>
          rw [hnode] at hswf
          obtain ⟨_, ⟨qd, hqd, hch⟩, hw⟩ := hswf
          obtain ⟨new, n1, n2, n3, n4⟩ := closest_children distance thr bx heur c1 s b l ch hnode
            (fun i => hne _ (by rw [hch]; exact quadrant_nonempty hqd i)) q'
          have hin : ∀ i, ∀ p ∈ (ch i).prims, p ∈ s.node.prims := by
            intro i p hp
            rw [hnode]
            simp only [Node.prims]
            exact List.mem_append_right _ (List.mem_flatMap.2 ⟨i, List.mem_finRange i, hp⟩)
          refine ⟨new, n1, ?_, ?_, ?_⟩
          · simp only [Node.count]; omega
          · intro t ht
            obtain ⟨tl, i, ti, th⟩ := n3 t ht
            refine ⟨tl, by rw [ti]; exact hw i, ?_⟩
            intro p hp
            rw [ti] at hp
            exact ⟨(hsp p (hin i p hp)).1, hb _ _ _ (prims_inside bx (ch i) (hw i) p hp) th⟩
          · intro p hp
            simp only [Node.under, List.mem_flatMap] at hp
            obtain ⟨i, _, hp⟩ := hp
            rcases n4 i with ⟨t, ht, hti⟩ | ⟨d, hd, hbd⟩
            · exact Or.inl ⟨t, ht, by rw [hti]; exact hp⟩
            · exact Or.inr (beaten_mono thr hbd (hb _ _ _ (prims_inside bx (ch i) (hw i) p hp) hd))
      obtain ⟨new, n1, n2, n3, n4⟩ := this
      have hsum : (q.map fun s => s.node.count).sum = s.node.count + (q'.map fun s => s.node.count).sum := by
        rw [(hperm.map _).sum_eq, List.map_cons, List.sum_cons]
      obtain ⟨c', f1, f2, f3⟩ := ih ((new ++ q').map fun s => s.node.count).sum (by
          rw [List.map_append, List.sum_append]; omega) (new ++ q') c1 e2 e3
        (by
          intro t ht
          rcases List.mem_append.1 ht with h | h
          · exact n3 t h
          · exact hq t (hmem' t h))
        (by
          intro p hp
          rcases hall p hp with ⟨t, ht, htp⟩ | h
          · rcases List.mem_cons.1 (hperm.mem_iff.1 ht) with rfl | ht
            · rw [prims_eq] at htp
              rcases List.mem_append.1 htp with h | h
              · obtain ⟨e, he, rfl⟩ := List.mem_map.1 h
                exact Or.inr (e4 e he)
              · rcases n4 p h with ⟨u, hu, hup⟩ | h
                · exact Or.inl ⟨u, List.mem_append_left _ hu, hup⟩
                · exact Or.inr h
            · exact Or.inl ⟨t, List.mem_append_right _ ht, htp⟩
          · exact Or.inr (e5 _ h)) rfl
      refine ⟨c', ?_, f2, f3⟩
      have hsh : (closestF bx heur distance thr).shouldProcess c s = some (c, true) := by
        simp [closestF, hc, ht]
      have hcur : applyCurrent (closestF bx heur distance thr) c s = some (c1, true) := by
        unfold applyCurrent; rw [hsl]; exact e1
      have hord : (closestF bx heur distance thr).order = Order.currentFirst := rfl
      simp only [hsh, bind, Option.bind_some, Bool.not_true, Bool.false_eq_true, if_false, hord, hcur, if_true, n1]
      exact f1
    · -- nothing in the queue is better
      simp only [Bool.not_eq_true] at ht
      have hsh : (closestF bx heur distance thr).shouldProcess c s = some ({ c with cont := false }, false) := by
        simp [closestF, hc, ht]
      simp only [hsh, bind, Option.bind_some, Bool.not_false, if_true]
      rw [closest_stopped distance thr bx heur pop hpop _ rfl]
      refine ⟨_, rfl, ⟨hi.none, hi.some⟩, ?_⟩
      intro p hp
      have : Beaten thr c (distance p) := by
        rcases hall p hp with ⟨t, ht', htp⟩ | h
        · have h1 := (hq t ht').2.2 p htp
          rcases List.mem_cons.1 (hperm.mem_iff.1 ht') with rfl | ht'
          · exact beaten_mono thr ht h1.2
          · exact beaten_mono thr ht (le_trans (neg_le_neg (hpop.max q s q' hpq t ht')) h1.2)
        · exact h
      exact this

/-- `closest` of a well formed tree: the primitive at the least distance, or none if there is none up to the threshold. -/
theorem closest_wf (pop) (hpop : PopMax (K := K) (n := n) (P := P) pop) (root : Node K n P) (hw : root.Wf bx)
    (h0 : ∀ p ∈ root.prims, 0 ≤ distance p)
    (hb : ∀ b p d, b.containsBox (bx p) = true → heur b = some d → d ≤ distance p)
    (hne : ∀ b : Box K n, b.empty = false → ∃ d, heur b = some d)
    (hprims : ∀ p ∈ root.prims, (bx p).empty = false) :
    ∃ r, closest bx heur distance pop root thr = some r ∧
      match r with
      | (some p, d) => p ∈ root.prims ∧ d = distance p ∧ (thr < 0 ∨ d ≤ thr) ∧ ∀ p' ∈ root.prims, d ≤ distance p'
      | (none, d) => d = -1 ∧ ∀ p ∈ root.prims, 0 ≤ thr ∧ thr < distance p := by
  obtain ⟨c, e1, e2, e3⟩ := closest_loop distance thr bx heur pop hpop root.prims hb hne hprims [rootState root] ⟨true, none, -1⟩ rfl
    ⟨fun _ => rfl, fun p h => by cases h⟩
    (by
      intro s hs
      rw [List.mem_singleton] at hs; subst hs
      exact ⟨rfl, hw, fun p hp => ⟨hp, by simpa [rootState] using h0 p hp⟩⟩)
    (fun p hp => Or.inl ⟨_, List.mem_singleton.2 rfl, hp⟩)
  refine ⟨(c.prim, c.dist), by unfold closest; rw [e1]; rfl, ?_⟩
  cases hp : c.prim with
  | some p =>
    obtain ⟨f1, f2, f3⟩ := e2.some p hp
    refine ⟨f1, f2, f2 ▸ f3, ?_⟩
    intro p' hp'
    have := e3 p' hp'
    unfold Beaten Closest.test at this
    rw [hp] at this
    simp only [Option.isNone_some, Bool.false_or, Bool.and_eq_false_iff, Bool.or_eq_false_iff, decide_eq_false_iff_not, not_lt,
      not_le] at this
    rcases this with ⟨h1, h2⟩ | h
    · rcases f3 with f3 | f3
      · exact absurd f3 (not_lt.2 h1)
      · rw [f2]; exact (lt_of_le_of_lt f3 h2).le
    · exact h
  | none =>
    refine ⟨e2.none hp, ?_⟩
    intro p' hp'
    have := e3 p' hp'
    unfold Beaten Closest.test at this
    rw [hp] at this
    simpa using this

end

end VW.SpatialTree
