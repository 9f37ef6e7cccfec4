/-
Queries of vw::geometry::SpatialTree: what they return for any well formed tree.
-/
import Verif.Geom.SpatialTree
import Mathlib.Algebra.Order.Ring.Basic
import Mathlib.Tactic.Linarith
import Mathlib.Tactic.Ring
import Mathlib.Tactic.FieldSimp

set_option linter.unusedSectionVars false

namespace VW.SpatialTree

variable {K : Type} [Field K] [LinearOrder K] {n : Nat} {P : Type}

/-! ### Boxes -/

theorem containsBox_iff (b c : Box K n) :
    b.containsBox c = true ↔ n ≠ 0 ∧ (∀ i, b.min i ≤ c.min i) ∧ ∀ i, c.max i ≤ b.max i := by
  simp [Box.containsBox, and_assoc]

theorem containsPt_iff (b : Box K n) (p : Fin n → K) :
    b.containsPt p = true ↔ n ≠ 0 ∧ (∀ i, b.min i ≤ p i) ∧ ∀ i, p i < b.max i := by
  simp [Box.containsPt, and_assoc]

theorem intersects_iff (b c : Box K n) :
    b.intersects c = true ↔ n ≠ 0 ∧ ∀ i, b.min i < c.max i ∧ c.min i < b.max i := by
  unfold Box.intersects
  split
  · rename_i h
    obtain ⟨i, hi⟩ := h
    constructor
    · intro hf; cases hf
    · intro hall
      exfalso
      rcases hi with h | h
      · exact absurd (hall.2 i).1 (not_lt.2 h)
      · exact absurd (hall.2 i).2 (not_lt.2 h)
  · rename_i h
    simp only [decide_eq_true_eq]
    constructor
    · intro hn
      refine ⟨hn, fun i => ?_⟩
      by_contra hc
      apply h
      refine ⟨i, ?_⟩
      by_cases h1 : b.min i < c.max i
      · right; exact not_lt.1 fun h2 => hc ⟨h1, h2⟩
      · left; exact not_lt.1 h1
    · exact fun h => h.1

theorem nonempty_iff (b : Box K n) : b.empty = false ↔ n ≠ 0 ∧ ∀ i, b.min i < b.max i := by
  simp [Box.empty, and_comm]

theorem containsBox_trans {a b c : Box K n} (h : a.containsBox b = true) (h' : b.containsBox c = true) :
    a.containsBox c = true := by
  rw [containsBox_iff] at *
  exact ⟨h.1, fun i => le_trans (h.2.1 i) (h'.2.1 i), fun i => le_trans (h'.2.2 i) (h.2.2 i)⟩

theorem containsPt_mono {b c : Box K n} {p : Fin n → K} (h : b.containsBox c = true) (hp : c.containsPt p = true) :
    b.containsPt p = true := by
  rw [containsBox_iff] at h
  rw [containsPt_iff] at *
  exact ⟨hp.1, fun i => le_trans (h.2.1 i) (hp.2.1 i), fun i => lt_of_lt_of_le (hp.2.2 i) (h.2.2 i)⟩

theorem intersects_mono {b c d : Box K n} (h : b.containsBox c = true) (hp : c.intersects d = true) :
    b.intersects d = true := by
  rw [containsBox_iff] at h
  rw [intersects_iff] at *
  exact ⟨hp.1, fun i => ⟨lt_of_le_of_lt (h.2.1 i) (hp.2 i).1, lt_of_lt_of_le (hp.2 i).2 (h.2.2 i)⟩⟩

theorem intersects_comm (b c : Box K n) : b.intersects c = c.intersects b := by
  rw [Bool.eq_iff_iff, intersects_iff, intersects_iff]
  constructor <;> exact fun h => ⟨h.1, fun i => ⟨(h.2 i).2, (h.2 i).1⟩⟩

/-! ### Quadrants -/

section
variable [IsStrictOrderedRing K]

/-- Which side of the center a quadrant is on. -/
def upper (n : Nat) (i : Fin (2 ^ n)) (d : Fin n) : Bool := decide (i.val / 2 ^ (n - 1 - d.val) % 2 ≠ 0)

theorem quadrants_eq {b : Box K n} {q : Fin (2 ^ n) → Box K n} (h : quadrants b = some q) :
    b.empty = false ∧ (∀ i d, (q i).min d = if upper n i d then (b.min d + b.max d) / 2 else b.min d) ∧
      ∀ i d, (q i).max d = if upper n i d then b.max d else (b.min d + b.max d) / 2 := by
  unfold quadrants Box.center at h
  by_cases he : b.empty = true
  · rw [if_pos he] at h; cases h
  rw [if_neg he] at h
  obtain rfl := Option.some.inj h
  have he : b.empty = false := by simpa using he
  have hb := ((nonempty_iff b).1 he).2
  refine ⟨he, fun i d => ?_, fun i d => ?_⟩ <;>
  · have := hb d
    dsimp only [Box.size]
    by_cases hu : i.val / 2 ^ (n - 1 - d.val) % 2 = 0
    · rw [if_pos hu, if_neg (show ¬ upper n i d = true by simp [upper, hu])]
      first
      | rw [min_eq_right (by linarith)]; ring
      | rw [max_eq_left (by linarith)]
    · rw [if_neg hu, if_pos (show upper n i d = true by unfold upper; exact decide_eq_true hu)]
      first
      | rw [min_eq_left (by linarith)]
      | rw [max_eq_right (by linarith)]; ring

theorem quadrant_inside {b : Box K n} {q : Fin (2 ^ n) → Box K n} (h : quadrants b = some q) (i : Fin (2 ^ n)) :
    b.containsBox (q i) = true := by
  obtain ⟨he, h1, h2⟩ := quadrants_eq h
  obtain ⟨hn, hb⟩ := (nonempty_iff b).1 he
  rw [containsBox_iff]
  refine ⟨hn, fun d => ?_, fun d => ?_⟩
  · rw [h1]; have := hb d; split <;> linarith
  · rw [h2]; have := hb d; split <;> linarith

theorem quadrant_nonempty {b : Box K n} {q : Fin (2 ^ n) → Box K n} (h : quadrants b = some q) (i : Fin (2 ^ n)) :
    (q i).empty = false := by
  obtain ⟨he, h1, h2⟩ := quadrants_eq h
  obtain ⟨hn, hb⟩ := (nonempty_iff b).1 he
  rw [nonempty_iff]
  refine ⟨hn, fun d => ?_⟩
  rw [h1, h2]; have := hb d; split <;> linarith

theorem quadrant_size {b : Box K n} {q : Fin (2 ^ n) → Box K n} (h : quadrants b = some q) (i : Fin (2 ^ n)) (d : Fin n) :
    (q i).size d = b.size d / 2 := by
  obtain ⟨he, h1, h2⟩ := quadrants_eq h
  unfold Box.size
  rw [h1, h2]; split <;> ring

/-- Numbers below `2 ^ n` with the same bits are equal. -/
theorem eq_of_upper {n : Nat} {i j : Fin (2 ^ n)} (h : ∀ d, upper n i d = upper n j d) : i = j := by
  apply Fin.ext
  apply Nat.eq_of_testBit_eq
  intro k
  by_cases hk : k < n
  · have := h ⟨n - 1 - k, by omega⟩
    unfold upper at this
    rw [show n - 1 - (n - 1 - k) = k by omega] at this
    rw [Nat.testBit_eq_decide_div_mod_eq, Nat.testBit_eq_decide_div_mod_eq]
    rw [decide_eq_decide] at this ⊢
    omega
  · rw [Nat.testBit_lt_two_pow (lt_of_lt_of_le i.isLt (Nat.pow_le_pow_right (by omega) (by omega))),
      Nat.testBit_lt_two_pow (lt_of_lt_of_le j.isLt (Nat.pow_le_pow_right (by omega) (by omega)))]

/-- Boxes in different quadrants do not intersect. -/
theorem quadrants_disjoint {b : Box K n} {q : Fin (2 ^ n) → Box K n} (h : quadrants b = some q) {i j : Fin (2 ^ n)}
    (hij : i ≠ j) {c d : Box K n} (hc : (q i).containsBox c = true) (hd : (q j).containsBox d = true) :
    c.intersects d = false := by
  obtain ⟨_, h1, h2⟩ := quadrants_eq h
  have : ∃ e, upper n i e ≠ upper n j e := by
    by_contra hcon
    exact hij (eq_of_upper fun d => by_contra fun hne => hcon ⟨d, hne⟩)
  obtain ⟨e, he⟩ := this
  rw [← Bool.not_eq_true, intersects_iff]
  rintro ⟨_, hint⟩
  obtain ⟨i1, i2⟩ := hint e
  rw [containsBox_iff] at hc hd
  have a1 := hc.2.1 e
  have a2 := hc.2.2 e
  have a3 := hd.2.1 e
  have a4 := hd.2.2 e
  rw [h1] at a1 a3
  rw [h2] at a2 a4
  cases hi : upper n i e <;> cases hj : upper n j e <;> rw [hi, hj] at he <;> simp [hi, hj] at he a1 a2 a3 a4 <;> linarith

end

/-! ### Well formed trees -/

/-- The primitives in a tree. -/
def Node.prims : Node K n P → List P
  | .leaf _ l => l.map Elem.prim
  | .split _ l ch => l.map Elem.prim ++ (List.finRange (2 ^ n)).flatMap fun i => (ch i).prims

/-- In a well formed tree the children are the quadrants of their parent, and the box of a node contains the boxes of its
primitives. -/
def Node.Wf (bx : P → Box K n) : Node K n P → Prop
  | .leaf b l => ∀ e ∈ l, b.containsBox (bx e.prim) = true
  | .split b l ch => (∀ e ∈ l, b.containsBox (bx e.prim) = true) ∧
      (∃ q, quadrants b = some q ∧ ∀ i, (ch i).box = q i) ∧ ∀ i, (ch i).Wf bx

theorem prims_inside [IsStrictOrderedRing K] (bx : P → Box K n) (nd : Node K n P) (h : nd.Wf bx) (p : P)
    (hp : p ∈ nd.prims) : nd.box.containsBox (bx p) = true := by
  induction nd with
  | leaf b l =>
    simp only [Node.prims, List.mem_map] at hp
    obtain ⟨e, he, rfl⟩ := hp
    exact h e he
  | split b l ch ih =>
    simp only [Node.prims, List.mem_append, List.mem_map, List.mem_flatMap] at hp
    obtain ⟨h1, ⟨q, hq, hch⟩, h2⟩ := h
    rcases hp with ⟨e, he, rfl⟩ | ⟨i, _, hi⟩
    · exact h1 e he
    · have := ih i (h2 i) hi
      rw [hch] at this
      exact containsBox_trans (quadrant_inside hq i) this

/-! ### Depth first traversal -/

/-- A functor that collects primitives, children first. -/
def collectF (t : Box K n → Bool) (a : P → Bool) : Functor K n P (List P) where
  dfs := true
  order := .childrenFirst
  shouldProcess x s := some (x, t s.node.box)
  visit x _ e _ := some (if a e.prim then x ++ [e.prim] else x, true)
  child _ _ := some (some 0)

theorem containsAllF_eq (bx : P → Box K n) (has : P → Bool) (pt : Fin n → K) :
    containsAllF bx has pt = collectF (fun b => b.containsPt pt) fun p => (bx p).containsPt pt && has p := rfl

theorem intersectsAllF_eq (bx : P → Box K n) (box : Box K n) :
    intersectsAllF bx box = collectF (fun b => b.intersects box) fun p => (bx p).intersects box := rfl

/-- What is collected. -/
def collectRec (t : Box K n → Bool) (a : P → Bool) : Node K n P → List P
  | .leaf b l => if t b then (l.map Elem.prim).filter a else []
  | .split b l ch => if t b then
      (List.finRange (2 ^ n)).reverse.flatMap (fun i => collectRec t a (ch i)) ++ (l.map Elem.prim).filter a else []

omit [LinearOrder K] in
/-- The children all go on the stack. -/
theorem applyChildren_all {σ : Type} (f : Functor K n P σ) (hf : ∀ x nd, f.child x nd = some (some 0)) (x : σ)
    (b : Box K n) (l : List (Elem P)) (ch : Fin (2 ^ n) → Node K n P) (lst : Option (List (Elem P))) (qd : Bool)
    (lev : Nat) (pr : K) (q : List (State K n P)) :
    applyChildren f x ⟨.split b l ch, lst, qd, lev, pr⟩ q =
      some ((List.finRange (2 ^ n)).reverse.map (fun i => ⟨ch i, none, false, lev + 1, 0⟩) ++ q) := by
  unfold applyChildren
  simp only [hf, Option.bind_some]
  generalize List.finRange (2 ^ n) = is
  induction is generalizing q with
  | nil => rfl
  | cons i is ih =>
    rw [List.foldlM_cons]
    simp only [Option.bind_some, bind]
    rw [ih]
    simp [List.map_reverse]

omit [LinearOrder K] in
theorem applyChildren_leaf {σ : Type} (f : Functor K n P σ) (x : σ) (b : Box K n) (l : List (Elem P))
    (lst : Option (List (Elem P))) (qd : Bool) (lev : Nat) (pr : K) (q : List (State K n P)) :
    applyChildren f x ⟨.leaf b l, lst, qd, lev, pr⟩ q = some q := rfl

theorem collect_list (t : Box K n → Bool) (a : P → Bool) (s : State K n P) (l : List (Elem P)) (x : List P) :
    applyList (collectF t a) s x l = some (x ++ (l.map Elem.prim).filter a, true) := by
  induction l generalizing x with
  | nil => simp [applyList]
  | cons e l ih =>
    unfold applyList
    simp only [collectF, Option.bind_some, if_true]
    have := fun x => ih x
    simp only [collectF] at this
    rw [this]
    by_cases h : a e.prim = true <;> simp [h]

theorem loop_collect (t : Box K n → Bool) (a : P → Bool) (nd : Node K n P) (lev : Nat) (pr : K) (q : List (State K n P))
    (x : List P) : loop (collectF t a) dfsPop (⟨nd, none, false, lev, pr⟩ :: q) x =
      loop (collectF t a) dfsPop q (x ++ collectRec t a nd) := by
  have second : ∀ (nd : Node K n P) lev pr q x, t nd.box = true →
      loop (collectF t a) dfsPop (⟨nd, none, true, lev, pr⟩ :: q) x =
        loop (collectF t a) dfsPop q (x ++ (nd.list.map Elem.prim).filter a) := by
    intro nd lev pr q x ht
    rw [loop]
    have := collect_list t a ⟨nd, none, true, lev, pr⟩ nd.list x
    simp only [dfsPop, collectF, bind, Option.bind_some, ht, Bool.not_true, if_false, applyCurrent, Bool.false_eq_true] at this ⊢
    rw [this]
    simp
  induction nd generalizing lev pr q x with
  | leaf b l =>
    rw [loop]
    by_cases ht : t b = true
    · have e := second (.leaf b l) lev pr q x ht
      simp only [dfsPop, collectF, bind, Option.bind_some, Node.box, ht, Bool.not_true, Bool.false_eq_true, if_false,
        Bool.not_false, if_true, applyChildren_leaf, collectRec, Node.list] at e ⊢
      exact e
    · simp only [Bool.not_eq_true] at ht
      simp [dfsPop, collectF, Node.box, ht, collectRec, bind]
  | split b l ch ih =>
    have kids : ∀ (is : List (Fin (2 ^ n))) lev q x,
        loop (collectF t a) dfsPop (is.map (fun i => ⟨ch i, none, false, lev, 0⟩) ++ q) x =
          loop (collectF t a) dfsPop q (x ++ is.flatMap fun i => collectRec t a (ch i)) := by
      intro is
      induction is with
      | nil => intro lev q x; simp
      | cons i is ihs =>
        intro lev q x
        rw [List.map_cons, List.cons_append, ih, ihs, List.flatMap_cons, List.append_assoc]
    by_cases ht : t b = true
    · have e := second (.split b l ch) lev pr q (x ++ (List.finRange (2 ^ n)).reverse.flatMap fun i => collectRec t a (ch i)) ht
      rw [loop]
      have hk := kids (List.finRange (2 ^ n)).reverse (lev + 1) (⟨.split b l ch, none, true, lev, pr⟩ :: q) x
      have hc := applyChildren_all (collectF t a) (fun _ _ => rfl) x b l ch none true lev pr (⟨.split b l ch, none, true, lev, pr⟩ :: q)
      rw [e] at hk
      simp only [dfsPop, collectF, bind, Option.bind_some, Node.box, ht, Bool.not_true, Bool.false_eq_true, if_false,
        Bool.not_false, if_true, collectRec, Node.list] at hk hc ⊢
      rw [hc, Option.bind_some, hk, List.append_assoc]
    · simp only [Bool.not_eq_true] at ht
      rw [loop]
      simp [dfsPop, collectF, Node.box, ht, collectRec, bind]

theorem apply_collect (t : Box K n → Bool) (a : P → Bool) (root : Node K n P) (x : List P) :
    apply (collectF t a) (rootState root) x = some (x ++ collectRec t a root) := by
  unfold apply rootState
  rw [loop_collect, loop]
  rfl

theorem collectRec_perm [IsStrictOrderedRing K] (bx : P → Box K n) (t : Box K n → Bool) (a : P → Bool)
    (hta : ∀ b p, b.containsBox (bx p) = true → a p = true → t b = true) (nd : Node K n P) (h : nd.Wf bx) :
    (collectRec t a nd).Perm (nd.prims.filter a) := by
  have none_ : ∀ nd : Node K n P, nd.Wf bx → t nd.box = false → nd.prims.filter a = [] := by
    intro nd h ht
    rw [List.filter_eq_nil_iff]
    intro p hp ha
    have := hta _ p (prims_inside bx nd h p hp) ha
    rw [ht] at this; cases this
  induction nd with
  | leaf b l =>
    by_cases ht : t b = true
    · simp [collectRec, ht, Node.prims]
    · simp only [Bool.not_eq_true] at ht
      rw [none_ _ h ht]
      simp [collectRec, ht]
  | split b l ch ih =>
    by_cases ht : t b = true
    · simp only [collectRec, ht, if_true, Node.prims, List.filter_append]
      refine List.perm_append_comm.trans (List.Perm.append_left _ ?_)
      rw [List.filter_flatMap]
      refine (List.Perm.flatMap_right _ (List.reverse_perm _)).trans ?_
      refine List.Perm.flatMap_left _ fun i _ => ih i (h.2.2 i)
    · simp only [Bool.not_eq_true] at ht
      rw [none_ _ h ht]
      simp [collectRec, ht]

/-- `contains(point, prims)` of a well formed tree. -/
theorem containsAll_wf [IsStrictOrderedRing K] (bx : P → Box K n) (has : P → Bool) (root : Node K n P) (h : root.Wf bx)
    (pt : Fin n → K) (prims : List P) : ∃ r, containsAll bx has root pt prims = some (prims ++ r) ∧
      r.Perm (root.prims.filter fun p => (bx p).containsPt pt && has p) := by
  unfold containsAll
  rw [containsAllF_eq, apply_collect]
  refine ⟨_, rfl, collectRec_perm bx _ _ ?_ root h⟩
  intro b p hb ha
  exact containsPt_mono hb (by simp only [Bool.and_eq_true] at ha; exact ha.1)

/-- `intersects(box, prims)` of a well formed tree. -/
theorem intersectsAll_wf [IsStrictOrderedRing K] (bx : P → Box K n) (root : Node K n P) (h : root.Wf bx)
    (box : Box K n) (prims : List P) : ∃ r, intersectsAll bx root box prims = some (prims ++ r) ∧
      r.Perm (root.prims.filter fun p => (bx p).intersects box) := by
  unfold intersectsAll
  rw [intersectsAllF_eq, apply_collect]
  refine ⟨_, rfl, collectRec_perm bx _ _ ?_ root h⟩
  intro b p hb ha
  exact intersects_mono hb ha

/-! ### The first primitive that contains a point -/

theorem containsOne_list (bx : P → Box K n) (has : P → Bool) (pt : Fin n → K) (s : State K n P) (l : List (Elem P)) :
    applyList (containsOneF bx has pt) s none l =
      some (match ((l.map Elem.prim).filter fun p => (bx p).containsPt pt && has p).head? with
        | some p => (some p, false)
        | none => (none, true)) := by
  induction l with
  | nil => simp [applyList]
  | cons e l ih =>
    unfold applyList
    by_cases h : ((bx e.prim).containsPt pt && has e.prim) = true
    · simp only [containsOneF, h, if_true, Option.bind_some, List.map_cons, List.filter_cons, List.head?_cons]
      rfl
    · have h' := h
      simp only [Bool.not_eq_true] at h'
      simp only [containsOneF, h, if_false, Option.bind_some, Bool.false_eq_true] at ih ⊢
      simp only [if_true, List.map_cons, List.filter_cons, h', Bool.false_eq_true, if_false]
      exact ih

theorem loop_containsOne (bx : P → Box K n) (has : P → Bool) (pt : Fin n → K) (nd : Node K n P) (lev : Nat) (pr : K)
    (q : List (State K n P)) : loop (containsOneF bx has pt) dfsPop (⟨nd, none, false, lev, pr⟩ :: q) none =
      match (collectRec (fun b => b.containsPt pt) (fun p => (bx p).containsPt pt && has p) nd).head? with
      | some p => some (some p)
      | none => loop (containsOneF bx has pt) dfsPop q none := by
  have second : ∀ (nd : Node K n P) lev pr q, nd.box.containsPt pt = true →
      loop (containsOneF bx has pt) dfsPop (⟨nd, none, true, lev, pr⟩ :: q) none =
        match ((nd.list.map Elem.prim).filter fun p => (bx p).containsPt pt && has p).head? with
        | some p => some (some p)
        | none => loop (containsOneF bx has pt) dfsPop q none := by
    intro nd lev pr q ht
    rw [loop]
    have := containsOne_list bx has pt ⟨nd, none, true, lev, pr⟩ nd.list
    simp only [dfsPop, bind, containsOneF, Option.bind_some, ht, Bool.not_true, Bool.false_eq_true, if_false, applyCurrent] at this ⊢
    rw [this]
    cases ((nd.list.map Elem.prim).filter fun p => (bx p).containsPt pt && has p).head? <;> simp
  induction nd generalizing lev pr q with
  | leaf b l =>
    rw [loop]
    by_cases ht : b.containsPt pt = true
    · have e := second (.leaf b l) lev pr q ht
      simp only [dfsPop, containsOneF, bind, Option.bind_some, Node.box, ht, Bool.not_true, Bool.false_eq_true, if_false,
        Bool.not_false, if_true, applyChildren_leaf, collectRec, Node.list] at e ⊢
      exact e
    · simp only [Bool.not_eq_true] at ht
      simp [dfsPop, containsOneF, Node.box, ht, collectRec, bind]
  | split b l ch ih =>
    have kids : ∀ (is : List (Fin (2 ^ n))) lev q,
        loop (containsOneF bx has pt) dfsPop (is.map (fun i => ⟨ch i, none, false, lev, 0⟩) ++ q) none =
          match (is.flatMap fun i => collectRec (fun b => b.containsPt pt) (fun p => (bx p).containsPt pt && has p) (ch i)).head? with
          | some p => some (some p)
          | none => loop (containsOneF bx has pt) dfsPop q none := by
      intro is
      induction is with
      | nil => intro lev q; simp
      | cons i is ihs =>
        intro lev q
        rw [List.map_cons, List.cons_append, ih, List.flatMap_cons, List.head?_append]
        cases h : (collectRec (fun b => b.containsPt pt) (fun p => (bx p).containsPt pt && has p) (ch i)).head? with
        | some p => simp
        | none => simp only [Option.none_or]; exact ihs lev q
    by_cases ht : b.containsPt pt = true
    · have e := second (.split b l ch) lev pr q ht
      rw [loop]
      have hk := kids (List.finRange (2 ^ n)).reverse (lev + 1) (⟨.split b l ch, none, true, lev, pr⟩ :: q)
      have hc := applyChildren_all (containsOneF bx has pt) (fun _ _ => rfl) none b l ch none true lev pr (⟨.split b l ch, none, true, lev, pr⟩ :: q)
      rw [e] at hk
      simp only [dfsPop, containsOneF, bind, Option.bind_some, Node.box, ht, Bool.not_true, Bool.false_eq_true, if_false,
        Bool.not_false, if_true, collectRec, Node.list] at hk hc ⊢
      rw [hc, Option.bind_some, hk, List.head?_append]
      cases h : ((List.finRange (2 ^ n)).reverse.flatMap fun i => collectRec (fun b => b.containsPt pt) (fun p => (bx p).containsPt pt && has p) (ch i)).head? <;> simp
    · simp only [Bool.not_eq_true] at ht
      rw [loop]
      simp [dfsPop, containsOneF, Node.box, ht, collectRec, bind]

/-- `contains(point)` of a well formed tree. -/
theorem containsOne_wf [IsStrictOrderedRing K] (bx : P → Box K n) (has : P → Bool) (root : Node K n P) (h : root.Wf bx)
    (pt : Fin n → K) : ∃ r, containsOne bx has root pt = some r ∧
      match r with
      | some p => p ∈ root.prims ∧ (bx p).containsPt pt = true ∧ has p = true
      | none => ∀ p ∈ root.prims, ¬ ((bx p).containsPt pt = true ∧ has p = true) := by
  have hp := collectRec_perm bx (fun b => b.containsPt pt) (fun p => (bx p).containsPt pt && has p) (by
    intro b p hb ha
    exact containsPt_mono hb (by simp only [Bool.and_eq_true] at ha; exact ha.1)) root h
  refine ⟨(collectRec (fun b => b.containsPt pt) (fun p => (bx p).containsPt pt && has p) root).head?, ?_, ?_⟩
  · unfold containsOne apply rootState
    rw [loop_containsOne]
    cases h : (collectRec (fun b => b.containsPt pt) (fun p => (bx p).containsPt pt && has p) root).head? with
    | some p => rfl
    | none => simp only; rw [loop]; rfl
  · cases hr : (collectRec (fun b => b.containsPt pt) (fun p => (bx p).containsPt pt && has p) root).head? with
    | some p =>
      have := hp.mem_iff.1 (List.mem_of_mem_head? (by rw [hr]; rfl) : p ∈ _)
      simpa using this
    | none =>
      rw [List.head?_eq_none_iff] at hr
      rw [hr] at hp
      have := List.filter_eq_nil_iff.1 hp.symm.eq_nil
      simpa using this

end VW.SpatialTree
