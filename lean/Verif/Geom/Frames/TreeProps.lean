import Verif.Geom.Frames.History
import Verif.Geom.Frames.Transform

/-
Claims about `TreeNode` (src/vw/Geometry/TreeNode.h).

Vocabulary: `Par h x p` says that the parent pointer of node `x` is `p`; `Below h n x` says that following parent
pointers from `x` (zero or more steps) leads to `n`.
-/

namespace Verif.Geom.Frames

variable {T : Type}

/-- The heaps a client can produce from nothing with the constructor, `set_parent`, `delete`,
`recursive_delete` and assignments to the payload, never moving a node under itself. -/
inductive TreeHist : Heap T → Prop
  | empty : TreeHist (fun _ => none)
  | new {h h' : Heap T} (a : Nat) (p : Option Nat) (name : Str) (t : T) : TreeHist h → h a = none →
      (∀ q, p = some q → ∃ nq, h q = some nq) → newNode h a p name t = some h' → TreeHist h'
  | move {h h' : Heap T} (n : Nat) (p : Option Nat) : TreeHist h → (∃ nd, h n = some nd) →
      (∀ q, p = some q → (∃ nq, h q = some nq) ∧ ¬ Below h n q) → setParent h n p = some h' → TreeHist h'
  | delete {h h' : Heap T} (n : Nat) : TreeHist h → (∃ nd, h n = some nd) → destroy h n = some h' → TreeHist h'
  | deleteAll {h h' : Heap T} (n : Nat) : TreeHist h → (∃ nd, h n = some nd) → recDelete h n = some h' →
      TreeHist h'
  | setData {h : Heap T} (n : Nat) (t : T) : TreeHist h → TreeHist (upd h n (fun nd => { nd with trans := t }))

theorem inv_empty : Inv (fun _ => none : Heap T) (fun _ => []) := by
  refine ⟨by simp, by simp, by simp, by simp, by simp, ⟨fun _ => 0, ?_⟩, ⟨0, by simp⟩⟩
  rintro n p ⟨nd, hh, _⟩
  cases hh

theorem setData_links (h : Heap T) (n : Nat) (t : T) (x : Nat) :
    (upd h n (fun nd => { nd with trans := t }) x).map (fun nd => (nd.parent, nd.first, nd.next, nd.name))
      = (h x).map (fun nd => (nd.parent, nd.first, nd.next, nd.name)) := by
  unfold upd
  split <;> cases h x <;> rfl

theorem TreeHist.inv {h : Heap T} (hh : TreeHist h) : ∃ kids, Inv h kids := by
  induction hh with
  | empty => exact ⟨_, inv_empty⟩
  | new a p name t _ ha hp he ih =>
    obtain ⟨kids, hi⟩ := ih
    obtain ⟨h', e1, e2, _⟩ := hi.newNode ha hp name t
    rw [he] at e1; cases e1; exact ⟨_, e2⟩
  | move n p _ hn hp he ih =>
    obtain ⟨kids, hi⟩ := ih
    obtain ⟨nd, hn⟩ := hn
    obtain ⟨h', e1, e2, _⟩ := hi.setParent hn hp
    rw [he] at e1; cases e1; exact ⟨_, e2⟩
  | delete n _ hn he ih =>
    obtain ⟨kids, hi⟩ := ih
    obtain ⟨nd, hn⟩ := hn
    obtain ⟨h', e1, e2, _⟩ := hi.destroy hn
    rw [he] at e1; cases e1; exact ⟨_, e2⟩
  | deleteAll n _ hn he ih =>
    obtain ⟨kids, hi⟩ := ih
    obtain ⟨nd, hn⟩ := hn
    obtain ⟨h', e1, e2, _⟩ := hi.recDelete hn
    rw [he] at e1; cases e1; exact ⟨_, e2⟩
  | setData n t _ ih =>
    obtain ⟨kids, hi⟩ := ih
    exact ⟨kids, hi.of_links (setData_links _ n t)⟩

/-! ### C75 -/

/-- The children of a node are the nodes whose parent it is, each once, and they are allocated. -/
theorem tree_children {h : Heap T} (hh : TreeHist h) {n : Nat} {nd} (hn : h n = some nd) :
    ∃ l, children h n = some l ∧ l.Nodup ∧ (∀ x, x ∈ l ↔ Par h x n) := by
  obtain ⟨kids, hi⟩ := hh.inv
  exact ⟨kids n, hi.children_eq hn, hi.nodup n, fun x => hi.par_iff.symm⟩

/-- No pointer dangles: the parent of an allocated node is allocated. -/
theorem tree_parent_alloc {h : Heap T} (hh : TreeHist h) {n p : Nat} {nd} (hn : h n = some nd)
    (hp : nd.parent = some p) : ∃ np, h p = some np := by
  obtain ⟨kids, hi⟩ := hh.inv
  exact hi.parent_alloc hn hp

/-- There are no cycles: `root` returns, and returns the one node without parent above the node. -/
theorem tree_root {h : Heap T} (hh : TreeHist h) {n : Nat} {nd} (hn : h n = some nd) :
    ∃ r nr, root h n = some r ∧ h r = some nr ∧ nr.parent = none ∧ Below h r n ∧
      ∀ s ns, h s = some ns → ns.parent = none → Below h s n → s = r := by
  obtain ⟨kids, hi⟩ := hh.inv
  obtain ⟨r, e1, e2, nr, e3, e4⟩ := hi.root_eq hn
  exact ⟨r, nr, e1, e3, e4, e2, fun s ns hs1 hs2 hs3 => hi.root_unique hn hs3 e2 hs1 hs2 e3 e4⟩

/-- The constructor registers the node at its parent; nothing else changes. -/
theorem tree_new {h : Heap T} (hh : TreeHist h) {a : Nat} (ha : h a = none) {p : Option Nat}
    (hp : ∀ q, p = some q → ∃ nq, h q = some nq) (name : Str) (t : T) :
    ∃ h', newNode h a p name t = some h' ∧
      (∃ nd, h' a = some nd ∧ nd.name = name ∧ nd.trans = t) ∧
      (∀ x q, Par h' x q ↔ (x = a ∧ p = some q) ∨ Par h x q) ∧
      (∀ x, x ≠ a → (h' x).map (fun nd => (nd.name, nd.trans)) = (h x).map (fun nd => (nd.name, nd.trans))) := by
  obtain ⟨kids, hi⟩ := hh.inv
  obtain ⟨h', e1, e2, ⟨nd, e3, e4, e5, _⟩, e6⟩ := hi.newNode ha hp name t
  refine ⟨h', e1, ⟨nd, e3, e4, e5⟩, ?_, e6⟩
  intro x q
  rw [e2.par_iff, hi.par_iff]
  unfold paste
  by_cases hq : p = some q
  · rw [if_pos hq, List.mem_cons]; simp [hq]
  · rw [if_neg hq]; simp [hq]

/-- `set_parent` changes the parent of that node only; no data change, no node appears or disappears. -/
theorem tree_set_parent {h : Heap T} (hh : TreeHist h) {n : Nat} {nd} (hn : h n = some nd) {p : Option Nat}
    (hp : ∀ q, p = some q → (∃ nq, h q = some nq) ∧ ¬ Below h n q) :
    ∃ h', setParent h n p = some h' ∧
      (∀ x q, Par h' x q ↔ (x = n ∧ p = some q) ∨ (x ≠ n ∧ Par h x q)) ∧
      (∀ x, (h' x).map (fun nd => (nd.name, nd.trans)) = (h x).map (fun nd => (nd.name, nd.trans))) := by
  obtain ⟨kids, hi⟩ := hh.inv
  obtain ⟨h', e1, e2, e3⟩ := hi.setParent hn hp
  exact ⟨h', e1, hi.par_moved e2, e3⟩

/-- `delete` frees the node alone; its children become roots, other parents stay. -/
theorem tree_delete {h : Heap T} (hh : TreeHist h) {n : Nat} {nd} (hn : h n = some nd) :
    ∃ h', destroy h n = some h' ∧ h' n = none ∧
      (∀ x q, Par h' x q ↔ x ≠ n ∧ q ≠ n ∧ Par h x q) ∧
      (∀ x, x ≠ n → (h' x).map (fun nd => (nd.name, nd.trans)) = (h x).map (fun nd => (nd.name, nd.trans))) := by
  obtain ⟨kids, hi⟩ := hh.inv
  obtain ⟨h', e1, e2, e3, e4⟩ := hi.destroy hn
  refine ⟨h', e1, e3, ?_, e4⟩
  intro x q
  rw [e2.par_iff, hi.par_iff]
  unfold orphaned
  by_cases hq : q = n
  · rw [if_pos hq]; simp [hq]
  · rw [if_neg hq, mem_cut hi]; simp [hq]

/-- `recursive_delete` frees exactly the node and everything below it. -/
theorem tree_recursive_delete {h : Heap T} (hh : TreeHist h) {n : Nat} {nd} (hn : h n = some nd) :
    ∃ h', recDelete h n = some h' ∧ (∀ x, Below h n x → h' x = none) ∧
      (∀ x q, Par h' x q ↔ ¬ Below h n x ∧ Par h x q) ∧
      (∀ x, ¬ Below h n x → (h' x).map (fun nd => (nd.name, nd.trans)) = (h x).map (fun nd => (nd.name, nd.trans))) := by
  obtain ⟨kids, hi⟩ := hh.inv
  obtain ⟨h', e1, e2, e3⟩ := hi.recDelete hn
  refine ⟨h', e1, fun x hx => (e3 x).1 hx, ?_, fun x hx => (e3 x).2 hx⟩
  intro x q
  rw [e2.par_iff, hi.par_iff]
  unfold pruned
  by_cases hq : Below h n q
  · rw [if_pos hq]
    constructor
    · intro hx; cases hx
    · rintro ⟨h1, h2⟩
      exact absurd (Relation.ReflTransGen.head (hi.par_iff.2 h2) hq) h1
  · rw [if_neg hq, (hi.nodup q).mem_erase_iff]
    constructor
    · rintro ⟨h1, h2⟩
      refine ⟨fun hb => ?_, h2⟩
      rcases Relation.ReflTransGen.cases_head hb with e | ⟨q', h3, h4⟩
      · exact h1 e
      · rw [par_unique h3 (hi.par_iff.2 h2)] at h4
        exact hq h4
    · rintro ⟨h1, h2⟩
      refine ⟨?_, h2⟩
      rintro rfl
      exact h1 Relation.ReflTransGen.refl

/-- `is_ancestor_of` is true for exactly the nodes strictly below. -/
theorem tree_is_ancestor_of {h : Heap T} (hh : TreeHist h) {s n : Nat} {nd} (hn : h n = some nd) :
    ∃ b, isAncestorOf h s (some n) = some b ∧ (b = true ↔ s ≠ n ∧ Below h s n) := by
  obtain ⟨kids, hi⟩ := hh.inv
  exact hi.isAncestorOf_eq hn

/-- `num_offsprings` is the number of nodes strictly below. -/
theorem tree_num_offsprings {h : Heap T} (hh : TreeHist h) {n : Nat} {nd} (hn : h n = some nd) :
    ∃ l : List Nat, numOffsprings h n = some l.length ∧ l.Nodup ∧ ∀ x, x ∈ l ↔ Below h n x ∧ x ≠ n := by
  obtain ⟨kids, hi⟩ := hh.inv
  exact hi.numOffsprings_eq hn

/-- `breadth_first_traverse` visits the node and everything below it, once each, in the order of depth. -/
theorem tree_breadth_first {h : Heap T} (hh : TreeHist h) {n : Nat} {nd} (hn : h n = some nd) :
    ∃ l, bfs h n = some l ∧ l.Nodup ∧ (∀ x, x ∈ l ↔ Below h n x) ∧
      l.Pairwise (fun a b => ∀ la lb, ancestry h a = some la → ancestry h b = some lb → la.length ≤ lb.length) := by
  obtain ⟨kids, hi⟩ := hh.inv
  obtain ⟨l, h1, h2, h3⟩ := hi.bfs_eq hn
  obtain ⟨l', h4, h5⟩ := hi.bfs_sorted hn (dep := fun n => ((ancestry h n).getD []).length) hi.depth_anc
  rw [h1] at h4
  cases h4
  refine ⟨l, h1, h2, h3, h5.imp ?_⟩
  intro a b hab la lb ha hb
  simpa only [ha, hb, Option.getD_some] using hab

/-- `pre_order_traverse` from a root visits the tree, each node once, and directly after a node those below it. -/
theorem tree_pre_order {h : Heap T} (hh : TreeHist h) {n : Nat} {nd} (hn : h n = some nd)
    (hp : nd.parent = none) : ∃ l, preOrder h n = some l ∧ l.Nodup ∧ (∀ x, x ∈ l ↔ Below h n x) ∧
      ∀ x ∈ l, ∃ u v w, l = u ++ (x :: v) ++ w ∧ ∀ y, y ∈ x :: v ↔ Below h x y := by
  obtain ⟨kids, hi⟩ := hh.inv
  obtain ⟨l, h1, h2, h3⟩ := hi.preOrder_root hn hp
  obtain ⟨l', h4, h5⟩ := hi.preOrder_blocks hn hp
  rw [h1] at h4
  cases h4
  exact ⟨l, h1, h2, h3, h5⟩

/-- `post_order_traverse` from a root visits the tree, each node once and after everything below it. -/
theorem tree_post_order {h : Heap T} (hh : TreeHist h) {n : Nat} {nd} (hn : h n = some nd)
    (hp : nd.parent = none) : ∃ l, postOrder h n = some l ∧ l.Nodup ∧ (∀ x, x ∈ l ↔ Below h n x) ∧
      l.Pairwise (fun a b => ¬ Below h a b) := by
  obtain ⟨kids, hi⟩ := hh.inv
  obtain ⟨l, e1, e2, e3, e4⟩ := hi.postOrder_eq (n := n) (L := [n]) ⟨rfl, nd, hn, hi.last n nd hn hp⟩
    (by unfold Apart; simp)
  exact ⟨l, e1, e2, by simpa using e3, e4⟩

theorem chain_suffix {h : Heap T} {a : Nat} {post : List Nat} : ∀ {pre : List Nat} {s : Option Nat},
    Chain h s (pre ++ a :: post) → Chain h (some a) (a :: post)
  | [], s, hc => by
    obtain ⟨h1, h2⟩ := hc
    exact ⟨rfl, h2⟩
  | b :: pre, s, hc => by
    obtain ⟨_, nd, _, h2⟩ := hc
    exact chain_suffix h2

/-- But it is not the post-order: a node is visited after its later siblings and what is below them, so not directly
after the nodes below it. -/
theorem tree_post_order_late {h : Heap T} (hh : TreeHist h) {a b : Nat} {na} (ha : h a = some na)
    (hb : na.next = some b) :
    ∃ l m r, postOrder h a = some (l ++ m ++ [a]) ∧ postOrder h b = some m ∧ m = r ++ [b] ∧
      (∀ x, x ∈ l ↔ Below h a x ∧ x ≠ a) := by
  obtain ⟨kids, hi⟩ := hh.inv
  obtain ⟨p, hp⟩ : ∃ p, na.parent = some p := by
    cases hp : na.parent with
    | some p => exact ⟨p, rfl⟩
    | none => have := hi.last a na ha hp; rw [hb] at this; cases this
  obtain ⟨np, hnp⟩ := hi.parent_alloc ha hp
  obtain ⟨pre, post, hk⟩ := List.append_of_mem ((hi.par a na p ha).1 hp)
  have hca : Chain h (some a) (a :: post) := by
    have := hi.chain p np hnp
    rw [hk] at this
    exact chain_suffix this
  have hapa : Apart h (a :: post) := by
    have := hi.apart_kids p
    rw [hk] at this
    exact (List.pairwise_append.1 this).2.1
  obtain ⟨_, nd', g1, g2⟩ := hca
  rw [ha] at g1
  cases g1
  rw [hb] at g2
  obtain ⟨m, e1, _⟩ := hi.postOrder_eq g2 (List.Pairwise.of_cons hapa)
  obtain ⟨k, hkk⟩ := hi.hgt_list (kids a)
  obtain ⟨l, f1, _, f3, _⟩ := hi.post_aux k (kids a) na.first (hi.chain a na ha) (hi.apart_kids a) hkk
  have hm : ∃ r, m = r ++ [b] := by
    rw [postOrder] at e1
    cases hnb : h b with
    | none => rw [hnb] at e1; cases e1
    | some nb =>
      simp only [hnb, Option.bind_eq_bind, Option.bind_some] at e1
      cases hf : nb.first <;> cases hn : nb.next <;> simp only [hf, hn, Option.bind_eq_some_iff] at e1
      · exact ⟨_, (Option.some.inj e1).symm⟩
      · obtain ⟨x, _, e1⟩ := e1
        exact ⟨_, (Option.some.inj e1).symm⟩
      · obtain ⟨x, _, e1⟩ := e1
        exact ⟨_, (Option.some.inj e1).symm⟩
      · obtain ⟨x, _, y, _, e1⟩ := e1
        exact ⟨_, (Option.some.inj e1).symm⟩
  obtain ⟨r, hr⟩ := hm
  refine ⟨l, m, r, postOrder_step ha f1 (by rw [hb]; exact e1), e1, hr, fun x => ?_⟩
  rw [f3, hi.below_cases]
  constructor
  · rintro ⟨c, h1, h2⟩
    refine ⟨Or.inr ⟨c, h1, h2⟩, ?_⟩
    rintro rfl
    exact hi.below_self_kid h1 h2
  · rintro ⟨h1 | h1, h2⟩
    · exact absurd h1 h2
    · exact h1

/-- From the first child of a node it visits the trees of all the children: not only the subtree of the node it
is called on. -/
theorem tree_pre_order_siblings {h : Heap T} (hh : TreeHist h) {n p : Nat} {np} (hp : h p = some np)
    (hf : np.first = some n) :
    ∃ l, preOrder h n = some l ∧ ∀ x, x ∈ l ↔ Below h p x ∧ x ≠ p := by
  obtain ⟨kids, hi⟩ := hh.inv
  have hc := hi.chain p np hp
  rw [hf] at hc
  obtain ⟨l, e1, _, e3⟩ := hi.preOrder_eq hc (hi.apart_kids p)
  refine ⟨l, e1, fun x => ?_⟩
  rw [e3, hi.below_cases]
  constructor
  · rintro ⟨c, h1, h2⟩
    refine ⟨Or.inr ⟨c, h1, h2⟩, ?_⟩
    rintro rfl
    exact hi.below_self_kid h1 h2
  · rintro ⟨h1 | h1, h2⟩
    · exact absurd h1 h2
    · exact h1

/-- Moving a node under a node of its own subtree is not refused, and afterwards walks to the root never
return. -/
theorem tree_cycle {h : Heap T} (hh : TreeHist h) {n p : Nat} {nd} (hn : h n = some nd) (hb : Below h n p) :
    ∃ h', setParent h n (some p) = some h' ∧ root h' n = none := by
  obtain ⟨kids, hi⟩ := hh.inv
  have hp : ∃ np, h p = some np := by
    by_cases e : p = n
    · rw [e]; exact ⟨nd, hn⟩
    · exact (hi.below_alloc hb e).2
  obtain ⟨np, hp⟩ := hp
  obtain ⟨h', e1, e2⟩ := hi.setParent_any hn hp
  refine ⟨h', e1, ?_⟩
  refine (cycle_diverges (C := fun x => Below h n x ∧ Below h x p) ?_
    ⟨Relation.ReflTransGen.refl, hb⟩).1
  rintro x ⟨k1, k2⟩
  by_cases hxf : x = n
  · subst hxf
    obtain ⟨nd', g1, _, g3⟩ := e2 x nd hn
    rw [if_pos rfl] at g3
    exact ⟨nd', p, g1, g3, k2, Relation.ReflTransGen.refl⟩
  · rcases Relation.ReflTransGen.cases_head k1 with e | ⟨q, l1, l2⟩
    · exact absurd e hxf
    · obtain ⟨nx, m1, m2⟩ := l1
      obtain ⟨nd', g1, _, g3⟩ := e2 x nx m1
      rw [if_neg hxf] at g3
      exact ⟨nd', q, g1, by rw [g3, m2], l2, Relation.ReflTransGen.tail k2 ⟨nx, m1, m2⟩⟩

/-! ### C76 -/

/-- `ancestry`: the nodes above and the node itself, each once, every node after its parent, the node last. -/
theorem tree_ancestry {h : Heap T} (hh : TreeHist h) {n : Nat} {nd} (hn : h n = some nd) :
    ∃ l, ancestry h n = some (l ++ [n]) ∧ (l ++ [n]).Nodup ∧ (∀ x, x ∈ l ++ [n] ↔ Below h x n) ∧
      (nd.parent = none → l = []) ∧ (∀ p, nd.parent = some p → ancestry h p = some l) := by
  obtain ⟨kids, hi⟩ := hh.inv
  exact hi.ancestry_eq hn

/-- `last_common_ancestor` is above both nodes and below every other node above both; NULL if the nodes are in
different trees. -/
theorem tree_last_common_ancestor {h : Heap T} (hh : TreeHist h) {a b : Nat} {na nb} (ha : h a = some na)
    (hb : h b = some nb) :
    (∃ c, lca h a b = some (some c) ∧ Below h c a ∧ Below h c b ∧
      ∀ x, Below h x a → Below h x b → Below h x c) ∨
    (lca h a b = some none ∧ ∀ x, Below h x a → ¬ Below h x b) := by
  obtain ⟨kids, hi⟩ := hh.inv
  exact hi.lca_eq ha hb

/-- It does not depend on the order of the two nodes. -/
theorem tree_last_common_ancestor_symm {h : Heap T} (hh : TreeHist h) {a b : Nat} {na nb} (ha : h a = some na)
    (hb : h b = some nb) : lca h a b = lca h b a := by
  obtain ⟨kids, hi⟩ := hh.inv
  rcases hi.lca_eq ha hb with ⟨c, h1, h2, h3, h4⟩ | ⟨h1, h2⟩ <;>
    rcases hi.lca_eq hb ha with ⟨d, k1, k2, k3, k4⟩ | ⟨k1, k2⟩
  · rw [h1, k1, hi.below_antisymm (h4 d k3 k2) (k4 c h3 h2)]
  · exact absurd h2 (k2 c h3)
  · exact absurd k2 (h2 d k3)
  · rw [h1, k1]

/-! ### A concrete forest -/

/-- A root 0 with children 1 and 2, and 3 below 2. -/
def demoTree (t : T) : Heap T := fun x =>
  if x = 0 then some ⟨['a'], t, none, some 2, none⟩
  else if x = 1 then some ⟨['b'], t, some 0, none, none⟩
  else if x = 2 then some ⟨['c'], t, some 0, some 3, some 1⟩
  else if x = 3 then some ⟨['b'], t, some 2, none, none⟩
  else none

theorem demoTree_hist (t : T) : TreeHist (demoTree t) := by
  have h0 : TreeHist (fun x => if x = 0 then some (⟨['a'], t, none, none, none⟩ : Node T) else none) :=
    TreeHist.new 0 none ['a'] t TreeHist.empty rfl (fun q hq => by cases hq) rfl
  have h1 : TreeHist (fun x => if x = 0 then some (⟨['a'], t, none, some 1, none⟩ : Node T)
      else if x = 1 then some ⟨['b'], t, some 0, none, none⟩ else none) := by
    refine TreeHist.new 1 (some 0) ['b'] t h0 rfl (fun q hq => by cases hq; exact ⟨_, rfl⟩) ?_
    show some _ = some _
    congr 1
    funext x
    by_cases e0 : x = 0
    · subst e0; rfl
    · by_cases e1 : x = 1
      · subst e1; rfl
      · simp [upd, e0, e1]
  have h2 : TreeHist (fun x => if x = 0 then some (⟨['a'], t, none, some 2, none⟩ : Node T)
      else if x = 1 then some ⟨['b'], t, some 0, none, none⟩
      else if x = 2 then some ⟨['c'], t, some 0, none, some 1⟩ else none) := by
    refine TreeHist.new 2 (some 0) ['c'] t h1 rfl (fun q hq => by cases hq; exact ⟨_, rfl⟩) ?_
    show some _ = some _
    congr 1
    funext x
    by_cases e0 : x = 0
    · subst e0; rfl
    · by_cases e1 : x = 1
      · subst e1; rfl
      · by_cases e2 : x = 2
        · subst e2; rfl
        · simp [upd, e0, e1, e2]
  refine TreeHist.new 3 (some 2) ['b'] t h2 rfl (fun q hq => by cases hq; exact ⟨_, rfl⟩) ?_
  show some _ = some _
  congr 1
  funext x
  by_cases e0 : x = 0
  · subst e0; rfl
  · by_cases e1 : x = 1
    · subst e1; rfl
    · by_cases e2 : x = 2
      · subst e2; rfl
      · by_cases e3 : x = 3
        · subst e3; rfl
        · simp [upd, demoTree, e0, e1, e2, e3]

theorem demo_par (t : T) (x p : Nat) : Par (demoTree t) x p ↔ (x = 1 ∧ p = 0) ∨ (x = 2 ∧ p = 0) ∨ (x = 3 ∧ p = 2) := by
  constructor
  · rintro ⟨nd, h1, h2⟩
    unfold demoTree at h1
    split_ifs at h1 with e0 e1 e2 e3 <;> (try cases h1) <;> cases h2
    · exact Or.inl ⟨e1, rfl⟩
    · exact Or.inr (Or.inl ⟨e2, rfl⟩)
    · exact Or.inr (Or.inr ⟨e3, rfl⟩)
  · rintro (⟨rfl, rfl⟩ | ⟨rfl, rfl⟩ | ⟨rfl, rfl⟩)
    · exact ⟨_, rfl, rfl⟩
    · exact ⟨_, rfl, rfl⟩
    · exact ⟨_, rfl, rfl⟩

theorem demo_below_up (t : T) : Below (demoTree t) 0 3 :=
  Relation.ReflTransGen.head ((demo_par t 3 2).2 (by simp)) (Relation.ReflTransGen.single ((demo_par t 2 0).2 (by simp)))

/-- The last common ancestor of 1 and 3 is 0: the first alternative occurs with a node that is neither. -/
example (t : T) : lca (demoTree t) 1 3 = some (some 0) := by
  obtain ⟨kids, hi⟩ := (demoTree_hist t).inv
  have h10 : Below (demoTree t) 0 1 := Relation.ReflTransGen.single ((demo_par t 1 0).2 (by simp))
  rcases tree_last_common_ancestor (demoTree_hist t) (a := 1) (b := 3) rfl rfl with ⟨c, h1, h2, h3, h4⟩ | ⟨h1, h2⟩
  · rw [h1]
    rw [(below_root (h := demoTree t) (n := 0) (nd := ⟨['a'], t, none, some 2, none⟩) rfl rfl c).1 ?_]
    rcases Relation.ReflTransGen.cases_head h2 with e | ⟨q, k1, k2⟩
    · exfalso
      rw [← e] at h3
      rcases Relation.ReflTransGen.cases_head h3 with e' | ⟨q, k1, k2⟩
      · cases e'
      · rw [demo_par] at k1
        have hq : q = 2 := by omega
        rw [hq] at k2
        rcases Relation.ReflTransGen.cases_head k2 with e' | ⟨q', k3, k4⟩
        · cases e'
        · rw [demo_par] at k3
          have hq' : q' = 0 := by omega
          rw [hq'] at k4
          have := (below_root (h := demoTree t) (n := 0) (nd := ⟨['a'], t, none, some 2, none⟩) rfl rfl 1).1 k4
          cases this
    · rw [demo_par] at k1
      have hq : q = 0 := by omega
      rw [← hq]; exact k2
  · exact absurd (demo_below_up t) (h2 0 h10)

/-- Deleting node 2 with everything below it in the concrete forest: 3 is freed, 1 is not. -/
example (t : T) : ∃ h', recDelete (demoTree t) 2 = some h' ∧ h' 3 = none ∧ h' 1 ≠ none := by
  obtain ⟨h', e1, e2, _, e4⟩ := tree_recursive_delete (demoTree_hist t) (n := 2) rfl
  refine ⟨h', e1, e2 3 (Relation.ReflTransGen.single ((demo_par t 3 2).2 (by simp))), ?_⟩
  have hn : ¬ Below (demoTree t) 2 1 := by
    intro hb
    rcases Relation.ReflTransGen.cases_head hb with e | ⟨q, k1, k2⟩
    · cases e
    · rw [demo_par] at k1
      have hq : q = 0 := by omega
      rw [hq] at k2
      have := (below_root (h := demoTree t) (n := 0) (nd := ⟨['a'], t, none, some 2, none⟩) rfl rfl 2).1 k2
      cases this
  have := e4 1 hn
  intro hh
  rw [hh] at this
  cases this

/-- The concrete forest meets the hypotheses of `tree_cycle` (0 moved below 3) and of
`tree_pre_order_siblings` (2 is the first child of 0, 1 a later one). -/
example (t : T) : ∃ h', setParent (demoTree t) 0 (some 3) = some h' ∧ root h' 0 = none :=
  tree_cycle (demoTree_hist t) rfl (demo_below_up t)

example (t : T) : ∃ l, preOrder (demoTree t) 2 = some l ∧ 1 ∈ l := by
  obtain ⟨l, e1, e2⟩ := tree_pre_order_siblings (demoTree_hist t) (n := 2) (p := 0) rfl rfl
  exact ⟨l, e1, (e2 1).2 ⟨Relation.ReflTransGen.single ((demo_par t 1 0).2 (by simp)), by decide⟩⟩

/-- The post-order of the forest would visit 2 directly after 3. -/
example (t : T) : postOrder (demoTree t) 0 = some [3, 1, 2, 0] := by
  have h1 : postOrder (demoTree t) 1 = some [1] :=
    postOrder_step (nd := ⟨['b'], t, some 0, none, none⟩) rfl (m := []) (l := []) rfl rfl
  have h3 : postOrder (demoTree t) 3 = some [3] :=
    postOrder_step (nd := ⟨['b'], t, some 2, none, none⟩) rfl (m := []) (l := []) rfl rfl
  have h2 : postOrder (demoTree t) 2 = some [3, 1, 2] :=
    postOrder_step (nd := ⟨['c'], t, some 0, some 3, some 1⟩) rfl (m := [3]) (l := [1]) h3 h1
  exact postOrder_step (nd := ⟨['a'], t, none, some 2, none⟩) rfl (m := [3, 1, 2]) (l := []) h2 rfl

/-- It meets the hypotheses of `tree_post_order_late`. -/
example (t : T) : ∃ l m r, postOrder (demoTree t) 2 = some (l ++ m ++ [2]) ∧ postOrder (demoTree t) 1 = some m ∧
    m = r ++ [1] ∧ (∀ x, x ∈ l ↔ Below (demoTree t) 2 x ∧ x ≠ 2) :=
  tree_post_order_late (demoTree_hist t) rfl rfl

end Verif.Geom.Frames
