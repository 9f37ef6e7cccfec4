/-
Adding primitives to vw::geometry::SpatialTree keeps the tree well formed, loses no primitive, and puts each into the
smallest node that contains its box.
-/
import Verif.Geom.SpatialTreePairs
import Mathlib.Data.Fintype.Pi
import Mathlib.Data.Fintype.EquivFin
import Mathlib.Algebra.Order.Archimedean.Basic
import Mathlib.Algebra.Order.Floor.Semiring
import Mathlib.Algebra.Order.BigOperators.Ring.Finset
import Mathlib.Tactic.Positivity

set_option linter.unusedSectionVars false

namespace VW.SpatialTree

variable {K : Type} [Field K] [LinearOrder K] {n : Nat} {P : Type}

theorem Box.ext' {b c : Box K n} (h1 : ∀ i, b.min i = c.min i) (h2 : ∀ i, b.max i = c.max i) : b = c := by
  cases b; cases c
  simp only [Box.mk.injEq]
  exact ⟨funext h1, funext h2⟩

/-! ### Paths -/

theorem get?_append (nd : Node K n P) (p q : Path n) : nd.get? (p ++ q) = (nd.get? p).bind fun t => t.get? q := by
  induction p generalizing nd with
  | nil => simp [Node.get?]
  | cons i p ih =>
    cases nd with
    | leaf b l => simp [Node.get?]
    | split b l ch => simp only [List.cons_append, Node.get?]; exact ih (ch i)

theorem mapList_box (f) (nd : Node K n P) : (nd.mapList f).box = nd.box := by cases nd <;> rfl

theorem mapList_list (f) (nd : Node K n P) : (nd.mapList f).list = f nd.list := by cases nd <;> rfl

/-- An assignment through a pointer. -/
theorem modify_wf (bx : P → Box K n) (f : Node K n P → Node K n P) (nd : Node K n P) (p : Path n) (t : Node K n P)
    (ht : nd.get? p = some t) (hw : nd.Wf bx) (hf : (f t).Wf bx) (hb : (f t).box = t.box) :
    (nd.modify f p).Wf bx ∧ (nd.modify f p).box = nd.box := by
  induction p generalizing nd with
  | nil =>
    simp only [Node.get?, Option.some.injEq] at ht
    subst ht
    simp only [Node.modify]
    exact ⟨hf, hb⟩
  | cons i p ih =>
    cases nd with
    | leaf b l => simp [Node.get?] at ht
    | split b l ch =>
      simp only [Node.get?] at ht
      obtain ⟨h1, ⟨q, hq, hch⟩, h2⟩ := hw
      obtain ⟨w1, w2⟩ := ih (ch i) ht (h2 i)
      simp only [Node.modify, Node.box]
      refine ⟨⟨h1, ⟨q, hq, fun j => ?_⟩, fun j => ?_⟩, trivial⟩
      · by_cases hj : j = i
        · subst hj; rw [Function.update_self, w2, hch]
        · rw [Function.update_of_ne hj, hch]
      · by_cases hj : j = i
        · subst hj; rw [Function.update_self]; exact w1
        · rw [Function.update_of_ne hj]; exact h2 j

theorem modify_prims (f : Node K n P → Node K n P) (nd : Node K n P) (p : Path n) (t : Node K n P)
    (ht : nd.get? p = some t) :
    ∃ rest, nd.prims.Perm (t.prims ++ rest) ∧ (nd.modify f p).prims.Perm ((f t).prims ++ rest) := by
  induction p generalizing nd with
  | nil =>
    simp only [Node.get?, Option.some.injEq] at ht
    subst ht
    exact ⟨[], by simp, by simp [Node.modify]⟩
  | cons i p ih =>
    cases nd with
    | leaf b l => simp [Node.get?] at ht
    | split b l ch =>
      simp only [Node.get?] at ht
      obtain ⟨rest, h1, h2⟩ := ih (ch i) ht
      have key : ∀ c : Fin (2 ^ n) → Node K n P, (∀ j, j ≠ i → c j = ch j) →
          ((List.finRange (2 ^ n)).flatMap fun j => (c j).prims).Perm
            ((c i).prims ++ ((List.finRange (2 ^ n)).erase i).flatMap fun j => (ch j).prims) := by
        intro c hc
        have hp := List.perm_cons_erase (List.mem_finRange i)
        refine (List.Perm.flatMap_right _ hp).trans ?_
        rw [List.flatMap_cons]
        refine List.Perm.append_left _ ?_
        refine List.Perm.flatMap_left _ fun j hj => ?_
        rw [hc j]
        rintro rfl
        exact (List.Nodup.not_mem_erase (List.nodup_finRange _)) hj
      refine ⟨rest ++ (((List.finRange (2 ^ n)).erase i).flatMap fun j => (ch j).prims) ++ l.map Elem.prim, ?_, ?_⟩
      · simp only [Node.prims]
        refine List.perm_append_comm.trans ?_
        rw [← List.append_assoc]
        refine List.Perm.append_right _ ?_
        refine (key ch fun _ _ => rfl).trans ?_
        rw [← List.append_assoc]
        exact List.Perm.append_right _ h1
      · simp only [Node.modify, Node.prims]
        refine List.perm_append_comm.trans ?_
        rw [← List.append_assoc]
        refine List.Perm.append_right _ ?_
        refine (key _ fun j hj => Function.update_of_ne hj _ _).trans ?_
        rw [← List.append_assoc, Function.update_self]
        exact List.Perm.append_right _ h2

/-- Lists and boxes after an assignment to a list. -/
theorem get?_modify_mapList (f : List (Elem P) → List (Elem P)) (nd : Node K n P) (c p : Path n) :
    (nd.modify (Node.mapList f) c).get? p =
      (nd.get? p).map fun t => if p = c then t.mapList f else if p <+: c then t.modify (Node.mapList f) (c.drop p.length) else t := by
  induction c generalizing nd p with
  | nil =>
    cases p with
    | nil => simp [Node.modify, Node.get?]
    | cons i p => cases nd <;> simp [Node.modify, Node.get?, Node.mapList]
  | cons i c ih =>
    cases p with
    | nil => simp [Node.get?]
    | cons j p =>
      cases nd with
      | leaf b l => simp [Node.modify, Node.get?]
      | split b l ch =>
        simp only [Node.modify, Node.get?]
        by_cases hj : j = i
        · subst hj
          rw [Function.update_self, ih]
          simp
        · rw [Function.update_of_ne hj]
          have h2 : ¬ (j :: p <+: i :: c) := by
            intro hh; exact hj (List.cons_prefix_cons.1 hh).1
          simp [hj, h2]

theorem modify_mapList_node (f : List (Elem P) → List (Elem P)) (t : Node K n P) (p : Path n) (hp : p ≠ []) :
    (t.modify (Node.mapList f) p).box = t.box ∧ (t.modify (Node.mapList f) p).list = t.list ∧
      (t.modify (Node.mapList f) p).isLeaf = t.isLeaf := by
  cases p with
  | nil => exact absurd rfl hp
  | cons i p => cases t <;> exact ⟨rfl, rfl, rfl⟩

/-- What a reader of a node sees after an assignment to a list. -/
theorem get?_modify_list (f : List (Elem P) → List (Elem P)) (nd : Node K n P) (c p : Path n) :
    (∀ t, nd.get? p = some t → ∃ t', (nd.modify (Node.mapList f) c).get? p = some t' ∧ t'.box = t.box ∧
      t'.isLeaf = t.isLeaf ∧ t'.list = if p = c then f t.list else t.list) ∧
    (∀ t', (nd.modify (Node.mapList f) c).get? p = some t' → ∃ t, nd.get? p = some t ∧ t'.box = t.box ∧
      t'.isLeaf = t.isLeaf ∧ t'.list = if p = c then f t.list else t.list) := by
  have key : ∀ t : Node K n P, let t' := (if p = c then t.mapList f else
      if p <+: c then Node.modify (Node.mapList f) t (c.drop p.length) else t)
      t'.box = t.box ∧ t'.isLeaf = t.isLeaf ∧ t'.list = if p = c then f t.list else t.list := by
    intro t
    by_cases h1 : p = c
    · simp only [h1, if_true]
      cases t <;> exact ⟨rfl, rfl, rfl⟩
    · simp only [h1, if_false]
      by_cases h2 : p <+: c
      · simp only [h2, if_true]
        obtain ⟨r, rfl⟩ := h2
        obtain ⟨e1, e2, e3⟩ := modify_mapList_node f t ((p ++ r).drop p.length) (by
          rw [List.drop_left]
          rintro rfl
          exact h1 (by simp))
        exact ⟨e1, e3, e2⟩
      · simp [h2]
  rw [get?_modify_mapList]
  constructor
  · intro t ht
    rw [ht]
    exact ⟨_, rfl, key t⟩
  · intro t' ht'
    obtain ⟨t, ht, rfl⟩ := Option.map_eq_some_iff.1 ht'
    exact ⟨t, ht, key t⟩

theorem mapList_wf (bx : P → Box K n) (f : List (Elem P) → List (Elem P)) (t : Node K n P) (hw : t.Wf bx)
    (hf : ∀ e ∈ f t.list, t.box.containsBox (bx e.prim) = true) : (t.mapList f).Wf bx := by
  cases t with
  | leaf b l => exact hf
  | split b l ch => exact ⟨hf, hw.2⟩

theorem wf_list (bx : P → Box K n) (t : Node K n P) (hw : t.Wf bx) (e : Elem P) (he : e ∈ t.list) :
    t.box.containsBox (bx e.prim) = true := by
  cases t with
  | leaf b l => exact hw e he
  | split b l ch => exact hw.1 e he

theorem wf_get? (bx : P → Box K n) (nd : Node K n P) (hw : nd.Wf bx) (p : Path n) (t : Node K n P)
    (ht : nd.get? p = some t) : t.Wf bx := by
  induction p generalizing nd with
  | nil => simp only [Node.get?, Option.some.injEq] at ht; subst ht; exact hw
  | cons i p ih =>
    cases nd with
    | leaf b l => simp [Node.get?] at ht
    | split b l ch => exact ih (ch i) (hw.2.2 i) ht

/-- The prims of a node whose list was changed. -/
theorem mapList_prims (f : List (Elem P) → List (Elem P)) (t : Node K n P) :
    (t.mapList f).prims = (f t.list).map Elem.prim ++ t.under := by
  cases t <;> simp [Node.mapList, Node.prims, Node.list, Node.under]

/-! ### Finding the node for a box -/

/-- The second tree is the first one with empty nodes added. -/
structure Ext (nd nd' : Node K n P) : Prop where
  old : ∀ p t, nd.get? p = some t → ∃ t', nd'.get? p = some t' ∧ t'.box = t.box ∧ t'.list = t.list
  new : ∀ p t', nd'.get? p = some t' → (∃ t, nd.get? p = some t ∧ t'.box = t.box ∧ t'.list = t.list) ∨ t'.list = []

theorem Ext.refl (nd : Node K n P) : Ext nd nd :=
  ⟨fun _ t h => ⟨t, h, rfl, rfl⟩, fun _ t h => Or.inl ⟨t, h, rfl, rfl⟩⟩

theorem Ext.trans {a b c : Node K n P} (h1 : Ext a b) (h2 : Ext b c) : Ext a c := by
  constructor
  · intro p t ht
    obtain ⟨t', e1, e2, e3⟩ := h1.old p t ht
    obtain ⟨t'', f1, f2, f3⟩ := h2.old p t' e1
    exact ⟨t'', f1, f2.trans e2, f3.trans e3⟩
  · intro p t ht
    rcases h2.new p t ht with ⟨t', e1, e2, e3⟩ | h
    · rcases h1.new p t' e1 with ⟨t'', f1, f2, f3⟩ | h
      · exact Or.inl ⟨t'', f1, e2.trans f2, e3.trans f3⟩
      · exact Or.inr (e3.trans h)
    · exact Or.inr h

theorem Ext.split (b : Box K n) (l : List (Elem P)) (ch ch' : Fin (2 ^ n) → Node K n P) (h : ∀ i, Ext (ch i) (ch' i)) :
    Ext (.split b l ch) (.split b l ch') := by
  constructor
  · intro p t ht
    cases p with
    | nil =>
      simp only [Node.get?, Option.some.injEq] at ht
      subst ht
      exact ⟨_, rfl, rfl, rfl⟩
    | cons i p => exact (h i).old p t ht
  · intro p t ht
    cases p with
    | nil =>
      simp only [Node.get?, Option.some.injEq] at ht
      subst ht
      exact Or.inl ⟨_, rfl, rfl, rfl⟩
    | cons i p => exact (h i).new p t ht

theorem splitNode_ext (q : Fin (2 ^ n) → Box K n) (b : Box K n) (l : List (Elem P)) :
    Ext (.leaf b l) (Node.splitNode q (.leaf b l : Node K n P)) := by
  constructor
  · intro p t ht
    cases p with
    | nil =>
      simp only [Node.get?, Option.some.injEq] at ht
      subst ht
      exact ⟨_, rfl, rfl, rfl⟩
    | cons i p => simp [Node.get?] at ht
  · intro p t ht
    cases p with
    | nil =>
      simp only [Node.get?, Option.some.injEq] at ht
      subst ht
      exact Or.inl ⟨_, rfl, rfl, rfl⟩
    | cons i p =>
      right
      cases p with
      | nil =>
        simp only [Node.splitNode, Node.get?, Option.some.injEq] at ht
        subst ht
        rfl
      | cons j p => simp [Node.splitNode, Node.get?] at ht

/-- What is known of the result of visiting a node. -/
structure Visited (create : Bool) (maxLevel : Int) (level : Nat) (nd nd' : Node K n P) (bx : P → Box K n) : Prop where
  wf : nd.Wf bx → nd'.Wf bx
  box : nd'.box = nd.box
  prims : nd'.prims = nd.prims
  ext : Ext nd nd'
  keep : create = false → nd' = nd
  deep : 0 ≤ maxLevel → ∀ p t, nd.get? p = some t → t.isLeaf = true → maxLevel ≤ (level + p.length : Nat) →
    ∃ t', nd'.get? p = some t' ∧ t'.isLeaf = true

theorem visitNode_spec (bx : P → Box K n) (create : Bool) (maxLevel : Int) (b : Box K n) (nd : Node K n P) (level : Nat)
    (path : Path n) (a : Found n) :
    Visited create maxLevel level nd (visitNode create maxLevel b nd level path a).1 bx ∧
      (visitNode create maxLevel b nd level path a).2.node = some path ∧
      ((visitNode create maxLevel b nd level path a).2.first = a.first ∨
        (visitNode create maxLevel b nd level path a).2.first = some path) := by
  have same : Visited create maxLevel level nd nd bx :=
    ⟨id, rfl, rfl, Ext.refl _, fun _ => rfl, fun _ p t h1 h2 _ => ⟨t, h1, h2⟩⟩
  unfold visitNode
  by_cases h : (create && nd.isLeaf) = true
  · simp only [h, if_true]
    simp only [Bool.and_eq_true] at h
    by_cases hl : maxLevel < 0 ∨ (level : Int) < maxLevel
    · simp only [hl, if_true]
      refine ⟨?_, trivial, ?_⟩
      · cases hq : quadrants nd.box with
        | none => exact same
        | some q =>
          simp only
          by_cases hc : ∃ i, (q i).containsBox b = true
          · rw [if_pos hc]
            cases nd with
            | split _ _ _ => simp [Node.isLeaf] at h
            | leaf bb l =>
              refine ⟨?_, rfl, ?_, splitNode_ext q bb l, ?_, ?_⟩
              · intro hw
                exact ⟨hw, ⟨q, hq, fun i => rfl⟩, fun i e he => by cases he⟩
              · simp [Node.splitNode, Node.prims, Node.list]
              · intro hf; rw [h.1] at hf; cases hf
              · intro h0 p t ht _ hle
                cases p with
                | nil =>
                  exfalso
                  simp only [List.length_nil, Nat.add_zero] at hle
                  omega
                | cons i p => simp [Node.get?] at ht
          · rw [if_neg hc]; exact same
      · cases a.first <;> simp
    · simp only [hl, if_false]
      exact ⟨same, trivial, Or.inl trivial⟩
  · simp only [h, Bool.false_eq_true, if_false]
    exact ⟨same, trivial, Or.inl trivial⟩

theorem foldlM_inv {α β : Type} (I : β → Prop) (f : β → α → Option β) (hf : ∀ c i c', I c → f c i = some c' → I c')
    (l : List α) (c c' : β) (hc : I c) (h : l.foldlM f c = some c') : I c' := by
  induction l generalizing c with
  | nil => simp only [List.foldlM_nil, pure, Option.some.injEq] at h; exact h ▸ hc
  | cons i l ih =>
    rw [List.foldlM_cons] at h
    simp only [bind, Option.bind_eq_some_iff] at h
    obtain ⟨c1, h1, h2⟩ := h
    exact ih c1 (hf c i c1 hc h1) h2

/-- What is known of the result of `NodeContainsBBoxFunctor`. -/
structure Descended (create : Bool) (maxLevel : Int) (b : Box K n) (bx : P → Box K n) (nd : Node K n P) (level : Nat)
    (path : Path n) (a : Found n) (r : Node K n P × Found n) : Prop extends Visited create maxLevel level nd r.1 bx where
  found : nd.box.containsBox b = true →
    ∃ rel t, r.2.node = some (path ++ rel) ∧ r.1.get? rel = some t ∧ t.box.containsBox b = true
  notFound : nd.box.containsBox b = false → r.2.node = a.node
  first : r.2.first = a.first ∨ ∃ rel t, r.2.first = some (path ++ rel) ∧ r.1.get? rel = some t

theorem descend_spec (bx : P → Box K n) (create : Bool) (maxLevel : Int) (b : Box K n) (nd : Node K n P) (level : Nat)
    (path : Path n) (a : Found n) (r : Node K n P × Found n) (h : descend create maxLevel b nd level path a = some r) :
    Descended create maxLevel b bx nd level path a r := by
  refine descend.partial_correctness create maxLevel b (fun nd level path a r => Descended create maxLevel b bx nd level path a r)
    ?_ nd level path a r h
  intro dsc ih nd level path a r h
  by_cases hc : nd.box.containsBox b = true
  · simp only [hc, Bool.not_true, Bool.false_eq_true, if_false] at h
    obtain ⟨hv, hnode, hfirst⟩ := visitNode_spec bx create maxLevel b nd level path a
    revert h hv hnode hfirst
    generalize visitNode create maxLevel b nd level path a = va
    obtain ⟨nd1, a1⟩ := va
    intro h hv hnode hfirst
    simp only at hv hnode hfirst
    have hb1 : nd1.box.containsBox b = true := by rw [hv.box]; exact hc
    cases nd1 with
    | leaf bb l =>
      simp only [Option.some.injEq] at h
      subst h
      refine ⟨hv, fun _ => ⟨[], _, by simpa using hnode, rfl, hb1⟩, fun h => (by rw [hc] at h; cases h), ?_⟩
      rcases hfirst with h | h
      · exact Or.inl h
      · exact Or.inr ⟨[], _, by simpa using h, rfl⟩
    | split bb l ch =>
      simp only [bind, Option.bind_eq_some_iff, Option.some.injEq] at h
      obtain ⟨⟨ch', a'⟩, hfold, rfl⟩ := h
      -- the loop over the quadrants
      have inv := foldlM_inv (fun c : (Fin (2 ^ n) → Node K n P) × Found n =>
          (∀ i, Visited create maxLevel (level + 1) (ch i) (c.1 i) bx) ∧
          (∃ rel t, c.2.node = some (path ++ rel) ∧ (Node.split bb l c.1).get? rel = some t ∧ t.box.containsBox b = true) ∧
          (c.2.first = a1.first ∨ ∃ rel t, c.2.first = some (path ++ rel) ∧ (Node.split bb l c.1).get? rel = some t))
        _ ?step _ (ch, a1) (ch', a') ?init hfold
      · obtain ⟨i1, i2, i3⟩ := inv
        refine ⟨⟨?_, ?_, ?_, ?_, ?_, ?_⟩, fun _ => i2, fun h => (by rw [hc] at h; cases h), ?_⟩
        · intro hw
          obtain ⟨w1, ⟨q, hq, hch⟩, w2⟩ := hv.wf hw
          exact ⟨w1, ⟨q, hq, fun i => (i1 i).box.trans (hch i)⟩, fun i => (i1 i).wf (w2 i)⟩
        · exact hv.box
        · rw [← hv.prims]
          simp only [Node.prims]
          congr 1
          refine congrArg (List.flatMap · _) ?_
          funext i
          exact (i1 i).prims
        · exact hv.ext.trans (Ext.split bb l ch ch' fun i => (i1 i).ext)
        · intro hcr
          rw [← hv.keep hcr]
          simp only [Node.split.injEq, true_and]
          funext i
          exact (i1 i).keep hcr
        · intro h0 p t ht hleaf hle
          obtain ⟨t1, e1, e2⟩ := hv.deep h0 p t ht hleaf hle
          cases p with
          | nil =>
            simp only [Node.get?, Option.some.injEq] at e1
            subst e1
            cases e2
          | cons i p =>
            simp only [Node.get?] at e1 ⊢
            exact (i1 i).deep h0 p t1 e1 e2 (by simp only [List.length_cons] at hle; omega)
        · rcases i3 with h | ⟨rel, t, h1, h2⟩
          · rw [h]
            rcases hfirst with h | h
            · exact Or.inl h
            · exact Or.inr ⟨[], _, by simpa using h, rfl⟩
          · exact Or.inr ⟨rel, t, h1, h2⟩
      case init =>
        exact ⟨fun i => ⟨id, rfl, rfl, Ext.refl _, fun _ => rfl, fun _ p t h1 h2 _ => ⟨t, h1, h2⟩⟩,
          ⟨[], _, by simpa using hnode, rfl, hb1⟩, Or.inl rfl⟩
      case step =>
        intro c i c' hI hstep
        obtain ⟨i1, i2, i3⟩ := hI
        by_cases hci : (c.1 i).box.containsBox b = true
        · rw [if_pos hci] at hstep
          simp only [Option.bind_eq_some_iff, Option.some.injEq] at hstep
          obtain ⟨r, hr, rfl⟩ := hstep
          have hd := ih _ _ _ _ _ hr
          -- nodes known before are still there
          have stay : ∀ rel t, (Node.split bb l c.1).get? rel = some t →
              ∃ t', (Node.split bb l (Function.update c.1 i r.1)).get? rel = some t' ∧ t'.box = t.box := by
            intro rel t ht
            cases rel with
            | nil =>
              simp only [Node.get?, Option.some.injEq] at ht
              subst ht
              exact ⟨_, rfl, rfl⟩
            | cons j rel =>
              simp only [Node.get?] at ht ⊢
              by_cases hj : j = i
              · subst hj
                rw [Function.update_self]
                obtain ⟨t', e1, e2, _⟩ := hd.ext.old rel t ht
                exact ⟨t', e1, e2⟩
              · rw [Function.update_of_ne hj]; exact ⟨t, ht, rfl⟩
          refine ⟨?_, ?_, ?_⟩
          · intro j
            by_cases hj : j = i
            · subst hj
              simp only [Function.update_self]
              have h1 := i1 j
              have h2 := hd.toVisited
              refine ⟨fun hw => h2.wf (h1.wf hw), h2.box.trans h1.box, h2.prims.trans h1.prims, h1.ext.trans h2.ext,
                fun hcr => (h2.keep hcr).trans (h1.keep hcr), ?_⟩
              intro h0 p t ht hleaf hle
              obtain ⟨t1, e1, e2⟩ := h1.deep h0 p t ht hleaf hle
              exact h2.deep h0 p t1 e1 e2 hle
            · simp only [Function.update_of_ne hj]; exact i1 j
          · obtain ⟨rel, t, e1, e2, e3⟩ := hd.found hci
            refine ⟨i :: rel, t, ?_, ?_, e3⟩
            · simpa using e1
            · simp only [Node.get?, Function.update_self]; exact e2
          · rcases hd.first with h | ⟨rel, t, e1, e2⟩
            · rw [h]
              rcases i3 with h | ⟨rel, t, e1, e2⟩
              · exact Or.inl h
              · obtain ⟨t', e3, _⟩ := stay rel t e2
                exact Or.inr ⟨rel, t', e1, e3⟩
            · refine Or.inr ⟨i :: rel, t, by simpa using e1, ?_⟩
              simp only [Node.get?, Function.update_self]; exact e2
        · rw [if_neg hci] at hstep
          simp only [Option.some.injEq] at hstep
          subst hstep
          exact ⟨i1, i2, i3⟩
  · simp only [Bool.not_eq_true] at hc
    simp only [hc, Bool.not_false, if_true, Option.some.injEq] at h
    subst h
    exact ⟨⟨id, rfl, rfl, Ext.refl _, fun _ => rfl, fun _ p t h1 h2 _ => ⟨t, h1, h2⟩⟩, fun h => (by rw [hc] at h; cases h),
      fun _ => rfl, Or.inl rfl⟩

/-! ### Moving primitives down -/

/-- Putting an element at the front of the list of a node. -/
theorem push_spec (bx : P → Box K n) (r : Node K n P) (t : Path n) (tn : Node K n P) (e : Elem P) (hw : r.Wf bx)
    (ht : r.get? t = some tn) (hb : tn.box.containsBox (bx e.prim) = true) :
    (r.modify (Node.mapList fun l => e :: l) t).Wf bx ∧ (r.modify (Node.mapList fun l => e :: l) t).box = r.box ∧
      (r.modify (Node.mapList fun l => e :: l) t).prims.Perm (e.prim :: r.prims) := by
  have htw := wf_get? bx r hw t tn ht
  obtain ⟨w1, w2⟩ := modify_wf bx (Node.mapList fun l => e :: l) r t tn ht hw
    (mapList_wf bx _ tn htw fun e' he' => by
      rcases List.mem_cons.1 he' with rfl | h
      · exact hb
      · exact wf_list bx tn htw e' h) (mapList_box _ _)
  refine ⟨w1, w2, ?_⟩
  obtain ⟨rest, p1, p2⟩ := modify_prims (Node.mapList fun l => e :: l) r t tn ht
  refine p2.trans ?_
  rw [mapList_prims]
  simp only [List.map_cons, List.cons_append]
  refine List.Perm.cons _ ?_
  refine List.Perm.trans ?_ p1.symm
  refine List.Perm.append_right _ ?_
  rw [prims_eq]

/-- Taking an element out of the list of a node. -/
theorem erase_spec (bx : P → Box K n) (r : Node K n P) (c : Path n) (nd : Node K n P) (k : Nat) (e : Elem P) (hw : r.Wf bx)
    (hc : r.get? c = some nd) (he : nd.list[k]? = some e) :
    (r.modify (Node.mapList fun l => l.eraseIdx k) c).Wf bx ∧
      (r.modify (Node.mapList fun l => l.eraseIdx k) c).box = r.box ∧
      r.prims.Perm (e.prim :: (r.modify (Node.mapList fun l => l.eraseIdx k) c).prims) := by
  have hcw := wf_get? bx r hw c nd hc
  obtain ⟨w1, w2⟩ := modify_wf bx (Node.mapList fun l => l.eraseIdx k) r c nd hc hw
    (mapList_wf bx _ nd hcw fun e' he' => wf_list bx nd hcw e' (List.mem_of_mem_eraseIdx he')) (mapList_box _ _)
  refine ⟨w1, w2, ?_⟩
  obtain ⟨rest, p1, p2⟩ := modify_prims (Node.mapList fun l => l.eraseIdx k) r c nd hc
  refine p1.trans ?_
  refine List.Perm.trans ?_ (List.Perm.cons _ p2.symm)
  rw [mapList_prims, prims_eq, ← List.cons_append]
  refine List.Perm.append_right _ ?_
  rw [← List.cons_append]
  refine List.Perm.append_right _ ?_
  rw [← List.map_cons]
  refine List.Perm.map _ ?_
  obtain ⟨hk, rfl⟩ := List.getElem?_eq_some_iff.1 he
  exact (List.getElem_cons_eraseIdx_perm hk).symm

theorem settle_spec (bx : P → Box K n) (r : Node K n P) (first cur : Path n) (k : Nat) (r' : Node K n P)
    (h : settle bx r first cur k = some r') :
    r.Wf bx → r'.Wf bx ∧ r'.box = r.box ∧ r'.prims.Perm r.prims := by
  refine settle.partial_correctness bx first
    (fun r _ _ r' => r.Wf bx → r'.Wf bx ∧ r'.box = r.box ∧ r'.prims.Perm r.prims) ?_ r cur k r' h
  intro stl ih r cur k r' h hw
  simp only [bind, Option.bind_eq_some_iff] at h
  obtain ⟨nd, hnd, h⟩ := h
  cases he : nd.list[k]? with
  | none =>
    rw [he] at h
    simp only [Option.some.injEq] at h
    subst h
    exact ⟨hw, rfl, List.Perm.refl _⟩
  | some e =>
    rw [he] at h
    simp only at h
    by_cases hf : e.forced = true
    · simp only [hf, Bool.not_true, Bool.false_eq_true, if_false, Option.bind_eq_some_iff] at h
      obtain ⟨sub, hsub, ⟨r1, a⟩, hd, t, ha, h⟩ := h
      by_cases ht : t = first
      · rw [if_pos ht] at h
        exact ih _ _ _ _ h hw
      · rw [if_neg ht] at h
        simp only [Option.bind_eq_some_iff] at h
        obtain ⟨tn, htn, h⟩ := h
        have hds := descend_spec bx false (-1) (bx e.prim) sub 0 first {} _ hd
        have hk : r1 = sub := hds.keep rfl
        simp only at ha
        have hb : tn.box.containsBox (bx e.prim) = true := by
          cases hc : sub.box.containsBox (bx e.prim) with
          | false =>
            have := hds.notFound hc
            simp only at this
            rw [ha] at this; cases this
          | true =>
            obtain ⟨rel, t', e1, e2, e3⟩ := hds.found hc
            simp only at e1 e2
            rw [ha, Option.some.injEq] at e1
            subst e1
            rw [get?_append, hsub] at htn
            simp only [Option.bind_some] at htn
            rw [← hk, e2, Option.some.injEq] at htn
            rw [← htn]; exact e3
        obtain ⟨w1, b1, p1⟩ := erase_spec bx r cur nd k e hw hnd he
        obtain ⟨tn', g1, g2, _, _⟩ := (get?_modify_list (fun l => l.eraseIdx k) r cur t).1 tn htn
        have hps := fun fc : Bool => push_spec bx (r.modify (Node.mapList fun l => l.eraseIdx k) cur) t tn' ⟨e.prim, fc⟩ w1
          g1 (by rw [g2]; exact hb)
        obtain ⟨w2, b2, p2⟩ := hps _
        obtain ⟨x1, x2, x3⟩ := ih _ _ _ _ h w2
        exact ⟨x1, x2.trans (b2.trans b1), x3.trans (p2.trans p1.symm)⟩
    · simp only [Bool.not_eq_true] at hf
      simp only [hf, Bool.not_false, if_true] at h
      exact ih _ _ _ _ h hw

end VW.SpatialTree
