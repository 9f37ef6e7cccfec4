import Mathlib.Data.List.Perm.Subperm
import Verif.Geom.Frames.StoreInv

/-
What the traversals of a forest visit: `pre_order_traverse`, `num_offsprings`, `breadth_first_traverse`.
-/

namespace Verif.Geom.Frames

variable {T : Type}

theorem Inv.below_cases {h : Heap T} {kids} (hi : Inv h kids) {n x : Nat} :
    Below h n x ↔ x = n ∨ ∃ c ∈ kids n, Below h c x := by
  constructor
  · intro hb
    rcases Relation.ReflTransGen.cases_tail hb with e | ⟨c, h1, h2⟩
    · exact Or.inl e.symm
    · exact Or.inr ⟨c, hi.par_iff.1 h2, h1⟩
  · rintro (rfl | ⟨c, h1, h2⟩)
    · exact Relation.ReflTransGen.refl
    · exact Relation.ReflTransGen.tail h2 (hi.par_iff.2 h1)

/-- The subtrees of the nodes of a list do not overlap. -/
def Apart (h : Heap T) (L : List Nat) : Prop := L.Pairwise (fun a b => ∀ x, Below h a x → ¬ Below h b x)

theorem Inv.apart_kids {h : Heap T} {kids} (hi : Inv h kids) (n : Nat) : Apart h (kids n) := by
  have := hi.nodup n
  refine List.Pairwise.imp_of_mem ?_ this
  intro a b ha hb hne x h1 h2
  exact hne (hi.sib_below ha hb h1 h2)

theorem Hgt.kid {h : Heap T} {k n c : Nat} {nc} (hk : Hgt h (k + 1) n) (hc : h c = some nc)
    (hp : nc.parent = some n) : Hgt h k c := by
  intro p m hr
  have := hk _ _ (Reach.cons n c nc p m hc hp hr)
  simpa using this

theorem Hgt.zero {h : Heap T} {kids} (hi : Inv h kids) {n : Nat} (hk : Hgt h 0 n) : kids n = [] := by
  cases hc : kids n with
  | nil => rfl
  | cons c l =>
    have hc' : c ∈ kids n := by rw [hc]; simp
    obtain ⟨nc, h1, h2⟩ := hi.par_iff.2 hc'
    have := hk _ _ (Reach.cons n c nc [] c h1 h2 (Reach.nil c))
    simp at this

/-- `pre_order_traverse` from a pointer that may be NULL. -/
def preFrom (h : Heap T) : Option Nat → Option (List Nat)
  | none => some []
  | some n => preOrder h n

theorem exists_cons {P : Nat → Prop} {a : Nat} {L : List Nat} : (∃ b ∈ a :: L, P b) ↔ P a ∨ ∃ b ∈ L, P b := by
  simp

theorem preOrder_step {h : Heap T} {a : Nat} {nd} (hnd : h a = some nd) {m l} (h1 : preFrom h nd.first = some m)
    (h2 : preFrom h nd.next = some l) : preOrder h a = some (a :: (m ++ l)) := by
  rw [preOrder]
  simp only [hnd, Option.bind_eq_bind, Option.bind_some]
  cases hf : nd.first <;> cases hn : nd.next <;> rw [hf] at h1 <;> rw [hn] at h2 <;>
    simp only [preFrom] at h1 h2 <;> simp [h1, h2] <;> simp_all

/-- `pre_order_traverse` and `num_offsprings` over a list of siblings. -/
theorem Inv.pre_aux {h : Heap T} {kids} (hi : Inv h kids) : ∀ (k : Nat) (L : List Nat) (s : Option Nat),
    Chain h s L → Apart h L → (∀ a ∈ L, Hgt h k a) →
    ∃ l, preFrom h s = some l ∧ countFrom h s = some l.length ∧
      l.Nodup ∧ ∀ x, x ∈ l ↔ ∃ a ∈ L, Below h a x := by
  intro k
  induction k with
  | zero =>
    intro L
    induction L with
    | nil =>
      intro s hc _ _
      have : s = none := hc
      subst this
      exact ⟨[], rfl, by rw [countFrom]; rfl, List.nodup_nil, by simp⟩
    | cons a L ih =>
      intro s hc hap hk
      obtain ⟨hs, nd, hnd, hc'⟩ := hc
      subst hs
      obtain ⟨l, e1, e2, e3, e4⟩ := ih nd.next hc' (List.Pairwise.of_cons hap)
        (fun b hb => hk b (List.mem_cons_of_mem _ hb))
      have hz : kids a = [] := Hgt.zero hi (hk a (by simp))
      have hf : nd.first = none := by
        have := hi.chain a nd hnd
        rw [hz] at this
        exact this
      refine ⟨a :: l, ?_, ?_, ?_, ?_⟩
      · show preOrder h a = _
        exact preOrder_step hnd (m := []) (by rw [hf]; rfl) e1
      · rw [countFrom]
        simp only [hnd, hf, Option.bind_eq_bind, Option.bind_some, e2]
        rw [countFrom]
        simp
        omega
      · rw [List.nodup_cons]
        refine ⟨fun hm => ?_, e3⟩
        obtain ⟨b, hb, hb'⟩ := (e4 a).1 hm
        exact (List.pairwise_cons.1 hap).1 b hb a Relation.ReflTransGen.refl hb'
      · intro x
        rw [List.mem_cons, e4, exists_cons, hi.below_cases, hz]
        simp
  | succ k ihk =>
    intro L
    induction L with
    | nil =>
      intro s hc _ _
      have : s = none := hc
      subst this
      exact ⟨[], rfl, by rw [countFrom]; rfl, List.nodup_nil, by simp⟩
    | cons a L ih =>
      intro s hc hap hk
      obtain ⟨hs, nd, hnd, hc'⟩ := hc
      subst hs
      obtain ⟨l, e1, e2, e3, e4⟩ := ih nd.next hc' (List.Pairwise.of_cons hap)
        (fun b hb => hk b (List.mem_cons_of_mem _ hb))
      obtain ⟨m, f1, f2, f3, f4⟩ := ihk (kids a) nd.first (hi.chain a nd hnd) (hi.apart_kids a) (by
        intro c hc
        obtain ⟨nc, h1, h2⟩ := hi.par_iff.2 hc
        exact Hgt.kid (hk a (by simp)) h1 h2)
      have hbel : ∀ x, x ∈ a :: m ↔ Below h a x := by
        intro x
        rw [List.mem_cons, f4, hi.below_cases]
      refine ⟨a :: (m ++ l), ?_, ?_, ?_, ?_⟩
      · show preOrder h a = _
        exact preOrder_step hnd f1 e1
      · rw [countFrom]
        simp only [hnd, Option.bind_eq_bind, Option.bind_some, e2, f2, List.length_cons, List.length_append]
        congr 1
        omega
      · rw [← List.cons_append, List.nodup_append']
        refine ⟨?_, e3, ?_⟩
        · rw [List.nodup_cons]
          refine ⟨fun hm => ?_, f3⟩
          obtain ⟨c, h1, h2⟩ := (f4 a).1 hm
          exact hi.below_self_kid h1 h2
        · intro x h1 h2
          obtain ⟨b, hb, hb'⟩ := (e4 x).1 h2
          exact (List.pairwise_cons.1 hap).1 b hb x ((hbel x).1 h1) hb'
      · intro x
        rw [← List.cons_append, List.mem_append, hbel, e4, exists_cons]

theorem Inv.hgt_list {h : Heap T} {kids} (hi : Inv h kids) : ∀ L : List Nat, ∃ k, ∀ a ∈ L, Hgt h k a
  | [] => ⟨0, by simp⟩
  | a :: L => by
    obtain ⟨k, hk⟩ := hi.hgt a
    obtain ⟨j, hj⟩ := hi.hgt_list L
    refine ⟨k + j, ?_⟩
    intro b hb p m hr
    rcases List.mem_cons.1 hb with rfl | hb
    · have := hk p m hr; omega
    · have := hj b hb p m hr; omega

/-- `num_offsprings` counts the nodes strictly below. -/
theorem Inv.numOffsprings_eq {h : Heap T} {kids} (hi : Inv h kids) {n : Nat} {nd} (hn : h n = some nd) :
    ∃ l : List Nat, numOffsprings h n = some l.length ∧ l.Nodup ∧ ∀ x, x ∈ l ↔ Below h n x ∧ x ≠ n := by
  obtain ⟨k, hk⟩ := hi.hgt_list (kids n)
  obtain ⟨l, _, e2, e3, e4⟩ := hi.pre_aux k (kids n) nd.first (hi.chain n nd hn) (hi.apart_kids n) hk
  refine ⟨l, ?_, e3, ?_⟩
  · unfold numOffsprings
    simp only [hn, Option.bind_eq_bind, Option.bind_some, e2]
  · intro x
    rw [e4, hi.below_cases]
    constructor
    · rintro ⟨c, h1, h2⟩
      refine ⟨Or.inr ⟨c, h1, h2⟩, ?_⟩
      rintro rfl
      exact hi.below_self_kid h1 h2
    · rintro ⟨h1 | h1, h2⟩
      · exact absurd h1 h2
      · exact h1

/-- Pre-order from a node: the node, the nodes below it, and those of its later siblings. -/
theorem Inv.preOrder_eq {h : Heap T} {kids} (hi : Inv h kids) {n : Nat} {L : List Nat}
    (hc : Chain h (some n) L) (ha : Apart h L) :
    ∃ l, preOrder h n = some l ∧ l.Nodup ∧ ∀ x, x ∈ l ↔ ∃ a ∈ L, Below h a x := by
  obtain ⟨k, hk⟩ := hi.hgt_list L
  obtain ⟨l, e1, _, e3, e4⟩ := hi.pre_aux k L (some n) hc ha hk
  exact ⟨l, e1, e3, e4⟩

theorem Inv.preOrder_root {h : Heap T} {kids} (hi : Inv h kids) {n : Nat} {nd} (hn : h n = some nd)
    (hp : nd.parent = none) : ∃ l, preOrder h n = some l ∧ l.Nodup ∧ ∀ x, x ∈ l ↔ Below h n x := by
  obtain ⟨l, e1, e2, e3⟩ := hi.preOrder_eq (n := n) (L := [n]) ⟨rfl, nd, hn, hi.last n nd hn hp⟩
    (by unfold Apart; simp)
  exact ⟨l, e1, e2, by simpa using e3⟩

/-! ### The order of the visits -/

/-- Every node of the list is followed at once by the nodes below it. -/
def Blocks (h : Heap T) (l : List Nat) : Prop :=
  ∀ x ∈ l, ∃ u v w, l = u ++ (x :: v) ++ w ∧ ∀ y, y ∈ x :: v ↔ Below h x y

theorem Inv.pre_blocks {h : Heap T} {kids} (hi : Inv h kids) : ∀ (k : Nat) (L : List Nat) (s : Option Nat),
    Chain h s L → Apart h L → (∀ a ∈ L, Hgt h k a) → ∃ l, preFrom h s = some l ∧ Blocks h l := by
  intro k
  induction k with
  | zero =>
    intro L
    induction L with
    | nil =>
      intro s hc _ _
      have : s = none := hc
      subst this
      exact ⟨[], rfl, by intro x hx; cases hx⟩
    | cons a L ih =>
      intro s hc hap hk
      obtain ⟨hs, nd, hnd, hc'⟩ := hc
      subst hs
      obtain ⟨l, e1, e2⟩ := ih nd.next hc' (List.Pairwise.of_cons hap)
        (fun b hb => hk b (List.mem_cons_of_mem _ hb))
      have hz : kids a = [] := Hgt.zero hi (hk a (by simp))
      have hf : nd.first = none := by
        have := hi.chain a nd hnd
        rw [hz] at this
        exact this
      refine ⟨a :: l, preOrder_step hnd (m := []) (by rw [hf]; rfl) e1, ?_⟩
      intro x hx
      rcases List.mem_cons.1 hx with rfl | hx
      · refine ⟨[], [], l, rfl, fun y => ?_⟩
        rw [hi.below_cases, hz]
        simp
      · obtain ⟨u, v, w, h1, h2⟩ := e2 x hx
        exact ⟨a :: u, v, w, by rw [h1]; rfl, h2⟩
  | succ k ihk =>
    intro L
    induction L with
    | nil =>
      intro s hc _ _
      have : s = none := hc
      subst this
      exact ⟨[], rfl, by intro x hx; cases hx⟩
    | cons a L ih =>
      intro s hc hap hk
      obtain ⟨hs, nd, hnd, hc'⟩ := hc
      subst hs
      obtain ⟨l, e1, e2⟩ := ih nd.next hc' (List.Pairwise.of_cons hap)
        (fun b hb => hk b (List.mem_cons_of_mem _ hb))
      have hkids : ∀ c ∈ kids a, Hgt h k c := by
        intro c hc
        obtain ⟨nc, h1, h2⟩ := hi.par_iff.2 hc
        exact Hgt.kid (hk a (by simp)) h1 h2
      obtain ⟨m, f1, f2⟩ := ihk (kids a) nd.first (hi.chain a nd hnd) (hi.apart_kids a) hkids
      obtain ⟨m', g1, _, _, g4⟩ := hi.pre_aux k (kids a) nd.first (hi.chain a nd hnd) (hi.apart_kids a) hkids
      rw [f1] at g1
      cases g1
      refine ⟨a :: (m ++ l), preOrder_step hnd f1 e1, ?_⟩
      intro x hx
      rcases List.mem_cons.1 hx with rfl | hx
      · refine ⟨[], m, l, rfl, fun y => ?_⟩
        rw [List.mem_cons, g4, hi.below_cases]
      · rcases List.mem_append.1 hx with hx | hx
        · obtain ⟨u, v, w, h1, h2⟩ := f2 x hx
          exact ⟨a :: u, v, w ++ l, by rw [h1]; simp, h2⟩
        · obtain ⟨u, v, w, h1, h2⟩ := e2 x hx
          exact ⟨a :: (m ++ u), v, w, by rw [h1]; simp, h2⟩

/-- `post_order_traverse` from a pointer that may be NULL. -/
def postFrom (h : Heap T) : Option Nat → Option (List Nat)
  | none => some []
  | some n => postOrder h n

theorem postOrder_step {h : Heap T} {a : Nat} {nd} (hnd : h a = some nd) {m l} (h1 : postFrom h nd.first = some m)
    (h2 : postFrom h nd.next = some l) : postOrder h a = some (m ++ l ++ [a]) := by
  rw [postOrder]
  simp only [hnd, Option.bind_eq_bind, Option.bind_some]
  cases hf : nd.first <;> cases hn : nd.next <;> rw [hf] at h1 <;> rw [hn] at h2 <;>
    simp only [postFrom] at h1 h2 <;> simp [h1, h2] <;> simp_all

/-- The values of `post_order_traverse` on a list of siblings: the nodes below the first, then those of the later
siblings, then the first. -/
theorem Inv.post_aux {h : Heap T} {kids} (hi : Inv h kids) : ∀ (k : Nat) (L : List Nat) (s : Option Nat),
    Chain h s L → Apart h L → (∀ a ∈ L, Hgt h k a) →
    ∃ l, postFrom h s = some l ∧ l.Nodup ∧ (∀ x, x ∈ l ↔ ∃ a ∈ L, Below h a x) ∧
      l.Pairwise (fun a b => ¬ Below h a b) := by
  have single : ∀ (a : Nat) (m l : List Nat), m.Nodup → l.Nodup →
      (∀ x, x ∈ m ↔ Below h a x ∧ x ≠ a) → (∀ x ∈ l, ¬ Below h a x) → (∀ x ∈ l, ∀ y, Below h x y → ¬ Below h a y) →
      m.Pairwise (fun a b => ¬ Below h a b) → l.Pairwise (fun a b => ¬ Below h a b) →
      (m ++ l ++ [a]).Nodup ∧ (m ++ l ++ [a]).Pairwise (fun a b => ¬ Below h a b) := by
    intro a m l hm hl hm' hl' hl'' pm pl
    constructor
    · rw [List.nodup_append', List.nodup_append']
      refine ⟨⟨hm, hl, ?_⟩, List.nodup_singleton a, ?_⟩
      · intro x h1 h2
        exact hl' x h2 ((hm' x).1 h1).1
      · intro x h1 h2
        rw [List.mem_singleton] at h2
        subst h2
        rcases List.mem_append.1 h1 with h1 | h1
        · exact ((hm' x).1 h1).2 rfl
        · exact hl' x h1 Relation.ReflTransGen.refl
    · rw [List.pairwise_append, List.pairwise_append]
      refine ⟨⟨pm, pl, ?_⟩, List.pairwise_singleton _ _, ?_⟩
      · intro x hx y hy hb
        exact hl' y hy (Relation.ReflTransGen.trans hb ((hm' x).1 hx).1)
      · intro x hx y hy hb
        rw [List.mem_singleton] at hy
        subst hy
        rcases List.mem_append.1 hx with hx | hx
        · obtain ⟨h1, h2⟩ := (hm' x).1 hx
          exact h2 (hi.below_antisymm hb h1)
        · exact hl'' x hx y hb Relation.ReflTransGen.refl
  have step : ∀ (a : Nat) (L m l : List Nat), Apart h (a :: L) → m.Nodup → l.Nodup →
      (∀ x, x ∈ m ↔ ∃ c ∈ kids a, Below h c x) → (∀ x, x ∈ l ↔ ∃ b ∈ L, Below h b x) →
      m.Pairwise (fun a b => ¬ Below h a b) → l.Pairwise (fun a b => ¬ Below h a b) →
      (m ++ l ++ [a]).Nodup ∧ (∀ x, x ∈ m ++ l ++ [a] ↔ ∃ b ∈ a :: L, Below h b x) ∧
        (m ++ l ++ [a]).Pairwise (fun a b => ¬ Below h a b) := by
    intro a L m l hap hm hl hm' hl' pm pl
    have hA := (List.pairwise_cons.1 hap).1
    have := single a m l hm hl (by
      intro x
      rw [hm', hi.below_cases]
      constructor
      · rintro ⟨c, h1, h2⟩
        refine ⟨Or.inr ⟨c, h1, h2⟩, ?_⟩
        rintro rfl
        exact hi.below_self_kid h1 h2
      · rintro ⟨h1 | h1, h2⟩
        · exact absurd h1 h2
        · exact h1) (by
      intro x hx hb
      obtain ⟨b, h1, h2⟩ := (hl' x).1 hx
      exact hA b h1 x hb h2) (by
      intro x hx y hb hb'
      obtain ⟨b, h1, h2⟩ := (hl' x).1 hx
      exact hA b h1 y hb' (Relation.ReflTransGen.trans hb h2)) pm pl
    refine ⟨this.1, ?_, this.2⟩
    intro x
    rw [List.mem_append, List.mem_append, hm', hl', exists_cons, hi.below_cases, List.mem_singleton]
    constructor
    · rintro ((h1 | h1) | h1)
      · exact Or.inl (Or.inr h1)
      · exact Or.inr h1
      · exact Or.inl (Or.inl h1)
    · rintro ((h1 | h1) | h1)
      · exact Or.inr h1
      · exact Or.inl (Or.inl h1)
      · exact Or.inl (Or.inr h1)
  intro k
  induction k with
  | zero =>
    intro L
    induction L with
    | nil =>
      intro s hc _ _
      have : s = none := hc
      subst this
      exact ⟨[], rfl, List.nodup_nil, by simp, List.Pairwise.nil⟩
    | cons a L ih =>
      intro s hc hap hk
      obtain ⟨hs, nd, hnd, hc'⟩ := hc
      subst hs
      obtain ⟨l, e1, e2, e3, e4⟩ := ih nd.next hc' (List.Pairwise.of_cons hap)
        (fun b hb => hk b (List.mem_cons_of_mem _ hb))
      have hz : kids a = [] := Hgt.zero hi (hk a (by simp))
      have hf : nd.first = none := by
        have := hi.chain a nd hnd
        rw [hz] at this
        exact this
      exact ⟨_, postOrder_step hnd (m := []) (by rw [hf]; rfl) e1,
        step a L [] l hap List.nodup_nil e2 (by rw [hz]; simp) e3 List.Pairwise.nil e4⟩
  | succ k ihk =>
    intro L
    induction L with
    | nil =>
      intro s hc _ _
      have : s = none := hc
      subst this
      exact ⟨[], rfl, List.nodup_nil, by simp, List.Pairwise.nil⟩
    | cons a L ih =>
      intro s hc hap hk
      obtain ⟨hs, nd, hnd, hc'⟩ := hc
      subst hs
      obtain ⟨l, e1, e2, e3, e4⟩ := ih nd.next hc' (List.Pairwise.of_cons hap)
        (fun b hb => hk b (List.mem_cons_of_mem _ hb))
      obtain ⟨m, f1, f2, f3, f4⟩ := ihk (kids a) nd.first (hi.chain a nd hnd) (hi.apart_kids a) (by
        intro c hc
        obtain ⟨nc, h1, h2⟩ := hi.par_iff.2 hc
        exact Hgt.kid (hk a (by simp)) h1 h2)
      exact ⟨_, postOrder_step hnd f1 e1, step a L m l hap f2 e2 f3 e3 f4 e4⟩

theorem Inv.preOrder_blocks {h : Heap T} {kids} (hi : Inv h kids) {n : Nat} {nd} (hn : h n = some nd)
    (hp : nd.parent = none) : ∃ l, preOrder h n = some l ∧ Blocks h l := by
  obtain ⟨k, hk⟩ := hi.hgt_list [n]
  exact hi.pre_blocks k [n] (some n) ⟨rfl, nd, hn, hi.last n nd hn hp⟩ (by unfold Apart; simp) hk

theorem Inv.postOrder_eq {h : Heap T} {kids} (hi : Inv h kids) {n : Nat} {L : List Nat}
    (hc : Chain h (some n) L) (ha : Apart h L) :
    ∃ l, postOrder h n = some l ∧ l.Nodup ∧ (∀ x, x ∈ l ↔ ∃ a ∈ L, Below h a x) ∧
      l.Pairwise (fun a b => ¬ Below h a b) := by
  obtain ⟨k, hk⟩ := hi.hgt_list L
  exact hi.post_aux k L (some n) hc ha hk

/-! ### Breadth first -/

theorem Inv.below_list {h : Heap T} {kids} (hi : Inv h kids) {n : Nat} {nd} (hn : h n = some nd) :
    ∃ l : List Nat, l.Nodup ∧ ∀ x, x ∈ l ↔ Below h n x := by
  obtain ⟨l, _, e2, e3⟩ := hi.numOffsprings_eq hn
  refine ⟨n :: l, ?_, ?_⟩
  · rw [List.nodup_cons]
    exact ⟨fun hm => ((e3 n).1 hm).2 rfl, e2⟩
  · intro x
    rw [List.mem_cons, e3]
    constructor
    · rintro (rfl | hx)
      · exact Relation.ReflTransGen.refl
      · exact hx.1
    · intro hx
      by_cases e : x = n
      · exact Or.inl e
      · exact Or.inr ⟨hx, e⟩

/-- The state of the queue of a breadth-first traversal: `rem` are the nodes still to be visited. -/
structure Queue (h : Heap T) (Q rem : List Nat) : Prop where
  apart : Apart h Q
  alloc : ∀ q ∈ Q, ∃ nd, h q = some nd
  nodup : rem.Nodup
  mem : ∀ x, x ∈ rem ↔ ∃ q ∈ Q, Below h q x

theorem Inv.queue_step {h : Heap T} {kids} (hi : Inv h kids) {n : Nat} {Q rem : List Nat}
    (hq : Queue h (n :: Q) rem) : Queue h (Q ++ kids n) (rem.erase n) := by
  refine ⟨?_, ?_, hq.nodup.erase n, ?_⟩
  · have hap := hq.apart
    unfold Apart at hap
    rw [List.pairwise_cons] at hap
    refine List.pairwise_append.2 ⟨hap.2, hi.apart_kids n, ?_⟩
    intro a ha c hc x h1 h2
    exact hap.1 a ha x (hi.below_cases.2 (Or.inr ⟨c, hc, h2⟩)) h1
  · intro q hq'
    rcases List.mem_append.1 hq' with hq' | hq'
    · exact hq.alloc q (List.mem_cons_of_mem _ hq')
    · obtain ⟨nd, h1, _⟩ := hi.par_iff.2 hq'
      exact ⟨nd, h1⟩
  · intro x
    rw [hq.nodup.mem_erase_iff, hq.mem, exists_cons]
    have hap := List.pairwise_cons.1 hq.apart
    constructor
    · rintro ⟨hne, h1 | ⟨q, h1, h2⟩⟩
      · rcases hi.below_cases.1 h1 with e | ⟨c, h2, h3⟩
        · exact absurd e hne
        · exact ⟨c, List.mem_append.2 (Or.inr h2), h3⟩
      · exact ⟨q, List.mem_append.2 (Or.inl h1), h2⟩
    · rintro ⟨q, h1, h2⟩
      rcases List.mem_append.1 h1 with h3 | h3
      · refine ⟨?_, Or.inr ⟨q, h3, h2⟩⟩
        intro e
        rw [e] at h2
        exact hap.1 q h3 n Relation.ReflTransGen.refl h2
      · refine ⟨?_, Or.inl (hi.below_cases.2 (Or.inr ⟨q, h3, h2⟩))⟩
        intro e
        rw [e] at h2
        exact hi.below_self_kid h3 h2

theorem Queue.head {h : Heap T} {n : Nat} {Q rem : List Nat} (hq : Queue h (n :: Q) rem) : n ∈ rem :=
  (hq.mem n).2 ⟨n, by simp, Relation.ReflTransGen.refl⟩

theorem Inv.bfsLoop_eq {h : Heap T} {kids} (hi : Inv h kids) : ∀ (N : Nat) (Q rem : List Nat), rem.length = N →
    Queue h Q rem → ∃ l, bfsLoop h Q = some l ∧ l.Perm rem := by
  intro N
  induction N with
  | zero =>
    intro Q rem hN hq
    cases Q with
    | nil =>
      rw [bfsLoop]
      refine ⟨[], rfl, ?_⟩
      rw [List.length_eq_zero_iff.1 hN]
    | cons n Q =>
      have := hq.head
      rw [List.length_eq_zero_iff.1 hN] at this
      cases this
  | succ N ih =>
    intro Q rem hN hq
    cases Q with
    | nil =>
      exfalso
      obtain ⟨a, l, rfl⟩ := List.exists_cons_of_length_pos (l := rem) (by omega)
      obtain ⟨q, hq', _⟩ := (hq.mem a).1 (by simp)
      cases hq'
    | cons n Q =>
      obtain ⟨nd, hn⟩ := hq.alloc n (by simp)
      obtain ⟨l, e1, e2⟩ := ih _ _ (by rw [List.length_erase_of_mem hq.head]; omega) (hi.queue_step hq)
      rw [bfsLoop]
      simp only [hi.children_eq hn, Option.bind_eq_bind, Option.bind_some, e1]
      exact ⟨n :: l, rfl, (List.Perm.cons n e2).trans (List.perm_cons_erase hq.head).symm⟩

theorem Inv.queue_one {h : Heap T} {kids} (hi : Inv h kids) {n : Nat} {nd} (hn : h n = some nd) :
    ∃ rem, Queue h [n] rem := by
  obtain ⟨l, h1, h2⟩ := hi.below_list hn
  refine ⟨l, by unfold Apart; simp, by simpa using ⟨nd, hn⟩, h1, by simpa using h2⟩

/-- Breadth first visits the node and everything below it, once each. -/
theorem Inv.bfs_eq {h : Heap T} {kids} (hi : Inv h kids) {n : Nat} {nd} (hn : h n = some nd) :
    ∃ l, bfs h n = some l ∧ l.Nodup ∧ ∀ x, x ∈ l ↔ Below h n x := by
  obtain ⟨rem, hq⟩ := hi.queue_one hn
  obtain ⟨l, e1, e2⟩ := hi.bfsLoop_eq _ [n] rem rfl hq
  refine ⟨l, e1, e2.nodup_iff.2 hq.nodup, fun x => ?_⟩
  rw [e2.mem_iff, hq.mem]
  simp

/-- There is a depth that grows by one from a node to its children. -/
theorem Inv.depth_anc {h : Heap T} {kids} (hi : Inv h kids) (n p : Nat) (hnp : Par h n p) :
    ((ancestry h n).getD []).length = ((ancestry h p).getD []).length + 1 := by
  revert n p
  rintro n p ⟨nd, hn, hp⟩
  obtain ⟨np, hnp⟩ := hi.parent_alloc hn hp
  obtain ⟨lp, h1, _⟩ := hi.ancestry_eq hnp
  have h2 : ancestry h n = some ((lp ++ [p]) ++ [n]) := by
    unfold ancestry at h1 ⊢
    rw [upward]
    simp only [hn, hp, Option.bind_eq_bind, Option.bind_some]
    cases hu : upward h (some p) with
    | none => rw [hu] at h1; cases h1
    | some l =>
      rw [hu] at h1
      simp only [Option.bind_eq_bind, Option.bind_some, Option.some.injEq] at h1
      simp [h1]
  simp only [h1, h2, Option.getD_some, List.length_append, List.length_cons, List.length_nil]

theorem Inv.depth {h : Heap T} {kids} (hi : Inv h kids) :
    ∃ dep : Nat → Nat, ∀ n p, Par h n p → dep n = dep p + 1 :=
  ⟨fun n => ((ancestry h n).getD []).length, hi.depth_anc⟩

theorem dep_below {h : Heap T} {dep : Nat → Nat} (hd : ∀ n p, Par h n p → dep n = dep p + 1) {n x : Nat}
    (hb : Below h n x) : dep n ≤ dep x := by
  induction hb with
  | refl => exact Nat.le_refl _
  | tail _ hp ih => have := hd _ _ hp; omega

theorem Reach.depth {h : Heap T} {dep : Nat → Nat} (hd : ∀ n p, Par h n p → dep n = dep p + 1) {n x : Nat}
    {p : List Str} (hr : Reach h n p x) : dep x = dep n + p.length := by
  induction hr with
  | nil n => rfl
  | cons n c nc p m h1 h2 _ ih =>
    have := hd c n ⟨nc, h1, h2⟩
    simp only [List.length_cons]
    omega

/-- The visits of a breadth-first traversal are in the order of depth. -/
theorem Inv.bfsLoop_sorted {h : Heap T} {kids} (hi : Inv h kids) {dep : Nat → Nat}
    (hd : ∀ n p, Par h n p → dep n = dep p + 1) : ∀ (N : Nat) (Q rem : List Nat), rem.length = N → Queue h Q rem →
    Q.Pairwise (fun a b => dep a ≤ dep b) → (∀ a ∈ Q, ∀ b ∈ Q, dep b ≤ dep a + 1) →
    ∃ l, bfsLoop h Q = some l ∧ l.Pairwise (fun a b => dep a ≤ dep b) := by
  intro N
  induction N with
  | zero =>
    intro Q rem hN hq _ _
    cases Q with
    | nil =>
      rw [bfsLoop]
      exact ⟨[], rfl, List.Pairwise.nil⟩
    | cons n Q =>
      have := hq.head
      rw [List.length_eq_zero_iff.1 hN] at this
      cases this
  | succ N ih =>
    intro Q rem hN hq hsort hnear
    cases Q with
    | nil =>
      exfalso
      obtain ⟨a, l, rfl⟩ := List.exists_cons_of_length_pos (l := rem) (by omega)
      obtain ⟨q, hq', _⟩ := (hq.mem a).1 (by simp)
      cases hq'
    | cons n Q =>
      obtain ⟨nd, hn⟩ := hq.alloc n (by simp)
      rw [List.pairwise_cons] at hsort
      have hkd : ∀ c ∈ kids n, dep c = dep n + 1 := fun c hc => hd c n (hi.par_iff.2 hc)
      have hlen : (rem.erase n).length = N := by rw [List.length_erase_of_mem hq.head]; omega
      obtain ⟨l, e1, e2⟩ := ih _ _ hlen (hi.queue_step hq) (by
          refine List.pairwise_append.2 ⟨hsort.2, ?_, ?_⟩
          · refine List.Pairwise.imp_of_mem ?_ (hi.nodup n)
            intro a b ha hb _
            rw [hkd a ha, hkd b hb]
          · intro a ha c hc
            rw [hkd c hc]
            exact hnear n (by simp) a (by simp [ha])) (by
          intro a ha b hb
          rcases List.mem_append.1 ha with ha | ha <;> rcases List.mem_append.1 hb with hb | hb
          · exact hnear a (by simp [ha]) b (by simp [hb])
          · rw [hkd b hb]; have := hsort.1 a ha; omega
          · rw [hkd a ha]; have := hnear n (by simp) b (by simp [hb]); omega
          · rw [hkd a ha, hkd b hb]; omega)
      obtain ⟨l', f1, f2⟩ := hi.bfsLoop_eq _ _ _ hlen (hi.queue_step hq)
      rw [e1] at f1
      cases f1
      rw [bfsLoop]
      simp only [hi.children_eq hn, Option.bind_eq_bind, Option.bind_some, e1]
      refine ⟨n :: l, rfl, List.pairwise_cons.2 ⟨?_, e2⟩⟩
      intro y hy
      obtain ⟨q, h1, h2⟩ := (hq.mem y).1 (List.mem_of_mem_erase (f2.mem_iff.1 hy))
      have h3 := dep_below hd h2
      rcases List.mem_cons.1 h1 with rfl | h1
      · exact h3
      · have := hsort.1 q h1; omega

theorem Inv.bfs_sorted {h : Heap T} {kids} (hi : Inv h kids) {n : Nat} {nd} (hn : h n = some nd) {dep : Nat → Nat}
    (hd : ∀ n p, Par h n p → dep n = dep p + 1) :
    ∃ l, bfs h n = some l ∧ l.Pairwise (fun a b => dep a ≤ dep b) := by
  obtain ⟨rem, hq⟩ := hi.queue_one hn
  exact hi.bfsLoop_sorted hd _ [n] rem rfl hq (List.pairwise_singleton _ _) (by simp)

/-- The breadth-first search returns the value of `f` at a node of the subtrees where it is not NULL, none being
nearer to the top, and NULL if there is no such node. -/
theorem Inv.searchBfs_eq {h : Heap T} {kids} (hi : Inv h kids) {f : Nat → Option (Option Nat)}
    {dep : Nat → Nat} (hd : ∀ n p, Par h n p → dep n = dep p + 1) :
    ∀ (N : Nat) (Q rem : List Nat), rem.length = N → Queue h Q rem → (∀ x ∈ rem, ∃ r, f x = some r) →
    Q.Pairwise (fun a b => dep a ≤ dep b) → (∀ a ∈ Q, ∀ b ∈ Q, dep b ≤ dep a + 1) →
    (∃ x m, x ∈ rem ∧ f x = some (some m) ∧ searchBfs h f Q = some (some m) ∧
      ∀ y ∈ rem, ∀ m', f y = some (some m') → dep x ≤ dep y) ∨
    (searchBfs h f Q = some none ∧ ∀ x ∈ rem, f x = some none) := by
  intro N
  induction N with
  | zero =>
    intro Q rem hN hq _ _ _
    have hr := List.length_eq_zero_iff.1 hN
    cases Q with
    | nil =>
      rw [searchBfs]
      exact Or.inr ⟨rfl, by rw [hr]; simp⟩
    | cons n Q =>
      have := hq.head
      rw [hr] at this
      cases this
  | succ N ih =>
    intro Q rem hN hq hf hsort hnear
    cases Q with
    | nil =>
      exfalso
      obtain ⟨a, l, rfl⟩ := List.exists_cons_of_length_pos (l := rem) (by omega)
      obtain ⟨q, hq', _⟩ := (hq.mem a).1 (by simp)
      cases hq'
    | cons n Q =>
      obtain ⟨nd, hn⟩ := hq.alloc n (by simp)
      obtain ⟨r, hr⟩ := hf n hq.head
      rw [List.pairwise_cons] at hsort
      cases r with
      | some m =>
        refine Or.inl ⟨n, m, hq.head, hr, ?_, ?_⟩
        · rw [searchBfs]
          simp only [hr, Option.bind_eq_bind, Option.bind_some]
        · intro y hy m' _
          obtain ⟨q, h1, h2⟩ := (hq.mem y).1 hy
          have h3 := dep_below hd h2
          rcases List.mem_cons.1 h1 with rfl | h1
          · exact h3
          · have := hsort.1 q h1; omega
      | none =>
        have hstep : searchBfs h f (n :: Q) = searchBfs h f (Q ++ kids n) := by
          rw [searchBfs]
          simp only [hr, hi.children_eq hn, Option.bind_eq_bind, Option.bind_some]
        rw [hstep]
        have hkd : ∀ c ∈ kids n, dep c = dep n + 1 := fun c hc => hd c n (hi.par_iff.2 hc)
        rcases ih _ _ (by rw [List.length_erase_of_mem hq.head]; omega) (hi.queue_step hq)
          (fun x hx => hf x (List.mem_of_mem_erase hx)) (by
            refine List.pairwise_append.2 ⟨hsort.2, ?_, ?_⟩
            · refine List.Pairwise.imp_of_mem ?_ (hi.nodup n)
              intro a b ha hb _
              rw [hkd a ha, hkd b hb]
            · intro a ha c hc
              rw [hkd c hc]
              exact hnear n (by simp) a (by simp [ha])) (by
            intro a ha b hb
            rcases List.mem_append.1 ha with ha | ha <;> rcases List.mem_append.1 hb with hb | hb
            · exact hnear a (by simp [ha]) b (by simp [hb])
            · rw [hkd b hb]; have := hsort.1 a ha; omega
            · rw [hkd a ha]; have := hnear n (by simp) b (by simp [hb]); omega
            · rw [hkd a ha, hkd b hb]; omega) with ⟨x, m, h1, h2, h3, h4⟩ | ⟨h1, h2⟩
        · refine Or.inl ⟨x, m, List.mem_of_mem_erase h1, h2, h3, ?_⟩
          intro y hy m' hm'
          by_cases e : y = n
          · rw [e, hr] at hm'; cases hm'
          · exact h4 y (hq.nodup.mem_erase_iff.2 ⟨e, hy⟩) m' hm'
        · refine Or.inr ⟨h1, fun x hx => ?_⟩
          by_cases e : x = n
          · rw [e]; exact hr
          · exact h2 x (hq.nodup.mem_erase_iff.2 ⟨e, hx⟩)

end Verif.Geom.Frames
