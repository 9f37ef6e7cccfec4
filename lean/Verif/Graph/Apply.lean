import Verif.Graph.Mst
/-
C44: `MinimumSpanningTree::apply` reports every edge of the tree once, outward from the start node.
-/
namespace VW.Graph

variable {R : Type}

/-- The edges of a list of functor calls. -/
def logEdges (l : List (Edge R × Int)) : List (Edge R) := l.map Prod.fst

theorem logEdges_append (a b : List (Edge R × Int)) : logEdges (a ++ b) = logEdges a ++ logEdges b := by
  simp [logEdges]

abbrev St (R : Type) := (Int → Bool) × List (Edge R × Int)

/-- All reported edges have visited ends, except perhaps `node`. -/
def EndsOk (vis : Int → Bool) (node : Int) (log : List (Edge R × Int)) : Prop :=
  ∀ e ∈ logEdges log, (vis e.a = true ∨ e.a = node) ∧ (vis e.b = true ∨ e.b = node)

/-- The far end of every reported edge touches no edge reported before. -/
def Fresh (log : List (Edge R × Int)) : Prop :=
  ∀ A e t B, log = A ++ (e, t) :: B → ∀ f ∈ logEdges A, f.a ≠ e.other t ∧ f.b ≠ e.other t

/-- What one call of `apply_` on `node` (or part of its loop) adds: from `s` to `s'`. -/
structure Grow (T : List (Edge R)) (node : Int) (s s' : St R) : Prop where
  mono : ∀ x, s.1 x = true → s'.1 x = true
  log : ∃ D, s'.2 = s.2 ++ D ∧ (∀ e ∈ logEdges D, e ∈ T) ∧
    (∀ x, s'.1 x = true → s.1 x = false → Conn (pairs (logEdges D)) node x) ∧
    (∀ A e t B, D = A ++ (e, t) :: B → (t = e.a ∨ t = e.b) ∧ Conn (pairs (logEdges A)) node t)
  ends : EndsOk s.1 node s.2 → ∀ e ∈ logEdges s'.2, s'.1 e.a = true ∧ s'.1 e.b = true
  fresh : EndsOk s.1 node s.2 → Fresh s.2 → Fresh s'.2

/-- Splitting a list at an element of an append. -/
theorem split_append {α : Type} {L D A B : List α} {x : α} (h : L ++ D = A ++ x :: B) :
    (∃ B', L = A ++ x :: B' ∧ B = B' ++ D) ∨ (∃ A', D = A' ++ x :: B ∧ A = L ++ A') := by
  rcases List.append_eq_append_iff.1 h with ⟨C, h1, h2⟩ | ⟨C, h1, h2⟩
  · exact Or.inr ⟨C, h2, h1⟩
  · cases C with
    | nil => exact Or.inr ⟨[], by simpa using h2.symm, by simpa using h1.symm⟩
    | cons c C =>
      simp only [List.cons_append, List.cons.injEq] at h2
      obtain ⟨rfl, h2⟩ := h2
      exact Or.inl ⟨C, h1, h2⟩

theorem other_end {e : Edge R} {t : Int} (h : t = e.a ∨ t = e.b) :
    (e.a = t ∧ e.b = e.other t) ∨ (e.b = t ∧ e.a = e.other t) := by
  unfold Edge.other
  by_cases g : t = e.a
  · rw [if_pos g]; exact Or.inl ⟨g.symm, rfl⟩
  · rw [if_neg g]; exact Or.inr ⟨(h.resolve_left g).symm, rfl⟩

theorem conn_edge {e : Edge R} {t : Int} (h : t = e.a ∨ t = e.b) {P : List (Int × Int)} (hm : (e.a, e.b) ∈ P) :
    Conn P t (e.other t) := by
  rcases other_end h with ⟨h1, h2⟩ | ⟨h1, h2⟩
  · rw [← h2, ← h1]; exact .of_mem hm
  · rw [← h2, ← h1]; exact (Conn.of_mem hm).symm

/-- Continue with a nested call along edge `e` from `node`. -/
theorem Grow.nested {T : List (Edge R)} {node : Int} {s s1 s2 : St R} {e : Edge R} (h : Grow T node s s1)
    (he : e ∈ T) (hn : node = e.a ∨ node = e.b) (hvis : s1.1 node = true) (hfar : s1.1 (e.other node) = false)
    (g : Grow T (e.other node) (s1.1, s1.2 ++ [(e, node)]) s2) : Grow T node s s2 := by
  obtain ⟨D, d1, d2, d3, d4⟩ := h.log
  obtain ⟨E, e1, e2, e3, e4⟩ := g.log
  dsimp only at e1
  refine ⟨fun x hx => g.mono x (h.mono x hx), ⟨D ++ (e, node) :: E, ?_, ?_, ?_, ?_⟩, ?_, ?_⟩
  · rw [e1, d1]; simp
  · intro f hf
    rw [logEdges_append, List.mem_append] at hf
    rcases hf with hf | hf
    · exact d2 f hf
    · simp only [logEdges, List.map_cons, List.mem_cons] at hf
      rcases hf with rfl | hf
      · exact he
      · exact e2 f hf
  · intro x h1 h2
    have mem : (e.a, e.b) ∈ pairs (logEdges (D ++ (e, node) :: E)) := by simp [pairs, logEdges]
    have inE : ∀ {u v}, Conn (pairs (logEdges E)) u v → Conn (pairs (logEdges (D ++ (e, node) :: E))) u v := fun c =>
      c.mono fun p hp => by
        rw [logEdges_append, pairs_append, List.mem_append]; right
        exact List.mem_cons_of_mem _ hp
    by_cases hx : s1.1 x = true
    · exact (d3 x hx h2).mono fun p hp => by
        rw [logEdges_append, pairs_append, List.mem_append]; exact Or.inl hp
    · exact (conn_edge hn mem).trans (inE (e3 x h1 (by simpa using hx)))
  · intro A f t B hs
    rcases split_append hs with ⟨B', h1, _⟩ | ⟨A', h1, h2⟩
    · exact d4 A f t B' h1
    · cases A' with
      | nil =>
        simp only [List.nil_append, List.cons.injEq, Prod.mk.injEq] at h1
        obtain ⟨⟨rfl, rfl⟩, _⟩ := h1
        exact ⟨hn, .refl _ _⟩
      | cons a A' =>
        simp only [List.cons_append, List.cons.injEq] at h1
        obtain ⟨rfl, h1⟩ := h1
        have ⟨q1, q2⟩ := e4 A' f t B h1
        refine ⟨q1, (conn_edge hn ?_).trans (q2.mono fun p hp => ?_)⟩
        · rw [h2]; simp [pairs, logEdges]
        · rw [h2, logEdges_append, pairs_append, List.mem_append]; right
          exact List.mem_cons_of_mem _ hp
  · intro hyp
    have h1 := h.ends hyp
    refine g.ends fun f hf => ?_
    dsimp only at hf ⊢
    rw [logEdges_append, List.mem_append] at hf
    rcases hf with hf | hf
    · exact ⟨Or.inl (h1 f hf).1, Or.inl (h1 f hf).2⟩
    · simp [logEdges] at hf
      subst hf
      rcases other_end hn with ⟨p, q⟩ | ⟨p, q⟩
      · rw [p]; exact ⟨Or.inl hvis, Or.inr q⟩
      · rw [p]; exact ⟨Or.inr q, Or.inl hvis⟩
  · intro hyp hfr
    have h1 := h.ends hyp
    have h2 := h.fresh hyp hfr
    refine g.fresh (fun f hf => ?_) ?_
    · dsimp only at hf ⊢
      rw [logEdges_append, List.mem_append] at hf
      rcases hf with hf | hf
      · exact ⟨Or.inl (h1 f hf).1, Or.inl (h1 f hf).2⟩
      · simp [logEdges] at hf
        subst hf
        rcases other_end hn with ⟨p, q⟩ | ⟨p, q⟩
        · rw [p]; exact ⟨Or.inl hvis, Or.inr q⟩
        · rw [p]; exact ⟨Or.inr q, Or.inl hvis⟩
    · intro A f t B hs
      dsimp only at hs
      rcases split_append hs with ⟨B', q1, _⟩ | ⟨A', q1, q2⟩
      · exact h2 A f t B' q1
      · cases A' with
        | nil =>
          simp only [List.nil_append, List.cons.injEq, Prod.mk.injEq] at q1
          obtain ⟨⟨rfl, rfl⟩, _⟩ := q1
          rw [List.append_nil] at q2
          subst q2
          intro f hf
          have := h1 f hf
          constructor <;> intro q <;> rw [q] at this <;> simp [hfar] at this
        | cons a A' => simp at q1

/-- All edges at the newly visited nodes lead to visited nodes. -/
def Closed (T : List (Edge R)) (s s' : St R) : Prop :=
  ∀ x, s'.1 x = true → s.1 x = false → ∀ e ∈ T, (x = e.a ∨ x = e.b) → s'.1 (e.other x) = true

/-- The same, leaving out one node whose edges are still being followed. -/
def ClosedBut (T : List (Edge R)) (node : Int) (s s' : St R) : Prop :=
  ∀ x, x ≠ node → s'.1 x = true → s.1 x = false → ∀ e ∈ T, (x = e.a ∨ x = e.b) → s'.1 (e.other x) = true

/-- The nodes still to be visited. -/
def todo (m : Mst R) (vis : Int → Bool) : Finset Nat := (Finset.range m.num).filter fun i => vis (m.lo + i) = false

/-- A node number that `apply_` accepts. -/
def Mst.node (m : Mst R) (x : Int) : Prop := m.lo ≤ x ∧ x < m.lo + m.num ∧ m.used (x - m.lo).toNat = true

theorem todo_mono {m : Mst R} {v w : Int → Bool} (h : ∀ x, v x = true → w x = true) : (todo m w).card ≤ (todo m v).card := by
  apply Finset.card_le_card
  intro i hi
  simp only [todo, Finset.mem_filter] at hi ⊢
  refine ⟨hi.1, ?_⟩
  cases hv : v (m.lo + i) with
  | false => rfl
  | true => rw [h _ hv] at hi; simp at hi

theorem todo_lt {m : Mst R} {v w : Int → Bool} (h : ∀ x, v x = true → w x = true) {x : Int} (hx : m.node x)
    (hv : v x = false) (hw : w x = true) : (todo m w).card < (todo m v).card := by
  have e : m.lo + ((x - m.lo).toNat : Int) = x := by have := hx.1; omega
  have hmem : (x - m.lo).toNat ∈ todo m v := by
    simp only [todo, Finset.mem_filter, Finset.mem_range, e]
    exact ⟨by have := hx.1; have := hx.2.1; omega, hv⟩
  apply Finset.card_lt_card
  refine ⟨fun i hi => ?_, fun hsub => ?_⟩
  · simp only [todo, Finset.mem_filter] at hi ⊢
    refine ⟨hi.1, ?_⟩
    cases hv : v (m.lo + i) with
    | false => rfl
    | true => rw [h _ hv] at hi; simp at hi
  · have := hsub hmem
    simp only [todo, Finset.mem_filter, e, hw] at this
    simp at this

theorem todo_pos {m : Mst R} {v : Int → Bool} {x : Int} (hx : m.node x) (hv : v x = false) : 0 < (todo m v).card := by
  have := todo_lt (m := m) (v := v) (w := fun _ => true) (fun _ _ => rfl) hx hv rfl
  omega

/-- The loop over the edges of a node, given that nested calls behave. -/
theorem loop_spec {m : Mst R} (hT : ∀ e ∈ m.tree, m.node e.a ∧ m.node e.b) {k : Nat} {node : Int} {s : St R}
    (hs0 : s.1 node = false)
    (ih : ∀ x (s : St R), m.node x → s.1 x = false → (todo m s.1).card ≤ k → ∃ s', Mst.dfs m k x s = some s' ∧
      s'.1 x = true ∧ Grow m.tree x s s' ∧ Closed m.tree s s') :
    ∀ (es : List (Edge R)) (s1 : St R), (∀ e ∈ es, e ∈ m.tree ∧ (node = e.a ∨ node = e.b)) →
    Grow m.tree node s s1 → s1.1 node = true → ClosedBut m.tree node s s1 → (todo m s1.1).card ≤ k →
    ∃ s2, es.foldlM (fun (s : St R) e => if s.1 (e.other node) = true then some s
        else Mst.dfs m k (e.other node) (s.1, s.2 ++ [(e, node)])) s1 = some s2 ∧
      Grow m.tree node s s2 ∧ s2.1 node = true ∧ ClosedBut m.tree node s s2 ∧
      (∀ x, s1.1 x = true → s2.1 x = true) ∧ ∀ e ∈ es, s2.1 (e.other node) = true
  | [], s1, _, h2, h3, h4, _ => ⟨s1, rfl, h2, h3, h4, fun _ h => h, by simp⟩
  | e :: es, s1, h1, h2, h3, h4, h5 => by
    have ⟨he, hn⟩ := h1 e (List.mem_cons_self ..)
    have h1' : ∀ e ∈ es, e ∈ m.tree ∧ (node = e.a ∨ node = e.b) := fun f hf => h1 f (List.mem_cons_of_mem _ hf)
    rw [List.foldlM_cons]
    by_cases hv : s1.1 (e.other node) = true
    · rw [if_pos hv]
      obtain ⟨s2, q1, q2, q3, q4, q5, q6⟩ := loop_spec hT hs0 ih es s1 h1' h2 h3 h4 h5
      refine ⟨s2, q1, q2, q3, q4, q5, fun f hf => ?_⟩
      rcases List.mem_cons.1 hf with rfl | hf
      · exact q5 _ hv
      · exact q6 f hf
    · have hv' : s1.1 (e.other node) = false := by simpa using hv
      rw [if_neg hv]
      have hnode : m.node (e.other node) := by
        rcases other_end hn with ⟨_, q⟩ | ⟨_, q⟩
        · rw [← q]; exact (hT e he).2
        · rw [← q]; exact (hT e he).1
      obtain ⟨s2, q1, q2, q3, q4⟩ := ih (e.other node) (s1.1, s1.2 ++ [(e, node)]) hnode hv' h5
      have hmono := q3.mono
      dsimp only at hmono
      have g2 := h2.nested he hn h3 hv' q3
      have c2 : ClosedBut m.tree node s s2 := by
        intro x hx hx2 hx0 f hf hxf
        by_cases hx1 : s1.1 x = true
        · exact hmono _ (h4 x hx hx1 hx0 f hf hxf)
        · exact q4 x hx2 (by simpa using hx1) f hf hxf
      obtain ⟨s3, r1, r2, r3, r4, r5, r6⟩ := loop_spec hT hs0 ih es s2 h1' g2 (hmono _ h3) c2
        ((todo_mono hmono).trans h5)
      refine ⟨s3, by rw [q1]; exact r1, r2, r3, r4, fun x hx => r5 x (hmono x hx), fun f hf => ?_⟩
      rcases List.mem_cons.1 hf with rfl | hf
      · exact r5 _ q2
      · exact r6 f hf

theorem dfs_spec {m : Mst R} (hT : ∀ e ∈ m.tree, m.node e.a ∧ m.node e.b) :
    ∀ k x (s : St R), m.node x → s.1 x = false → (todo m s.1).card ≤ k → ∃ s', Mst.dfs m k x s = some s' ∧
      s'.1 x = true ∧ Grow m.tree x s s' ∧ Closed m.tree s s' := by
  intro k
  induction k with
  | zero => intro x s hx hv hc; have := todo_pos hx hv; omega
  | succ k ih =>
    intro x s hx hv hc
    unfold Mst.dfs
    rw [if_pos ⟨hx.1, hx.2.1, hx.2.2, hv⟩]
    have hm : ∀ y, s.1 y = true → (fun y => if y = x then true else s.1 y) y = true := fun y hy => by
      dsimp only; split
      · rfl
      · exact hy
    have g : Grow m.tree x s ((fun y => if y = x then true else s.1 y), s.2) := by
      refine ⟨hm, ⟨[], by simp, by simp [logEdges], ?_, fun A e t B h => by simp at h⟩, ?_, fun _ h => h⟩
      · intro y h1 h2
        dsimp only at h1
        split at h1
        · rename_i e; rw [e]; exact .refl _ _
        · rw [h1] at h2; cases h2
      · intro h e he
        have := h e he
        dsimp only
        constructor <;> split <;> first | rfl | (rcases this with ⟨a | a, b | b⟩ <;> first | assumption | contradiction)
    have lt := todo_lt (m := m) hm hx hv (by simp)
    obtain ⟨s2, q1, q2, q3, q4, q5, q6⟩ := loop_spec hT hv ih (m.adj x) _
      (fun e he => by
        simp only [Mst.adj, List.mem_filter, Bool.or_eq_true, decide_eq_true_eq] at he
        exact ⟨he.1, he.2.imp Eq.symm Eq.symm⟩) g (by simp)
      (fun y hy h1 h2 => by
        dsimp only at h1
        rw [if_neg hy] at h1; rw [h1] at h2; cases h2) (by dsimp only; omega)
    refine ⟨s2, q1, q3, q2, fun y h1 h2 e he hy => ?_⟩
    by_cases e' : y = x
    · subst e'
      apply q6
      simp only [Mst.adj, List.mem_filter, Bool.or_eq_true, decide_eq_true_eq]
      exact ⟨he, hy.imp Eq.symm Eq.symm⟩
    · exact q4 y e' h1 h2 e he hy

/-! ### The outer loop -/

/-- State of the outer loop: `rs` are the nodes it called `apply_` on. -/
structure Top (m : Mst R) (rs : List Int) (s : St R) : Prop where
  closed : ∀ x, s.1 x = true → ∀ e ∈ m.tree, (x = e.a ∨ x = e.b) → s.1 (e.other x) = true
  inT : ∀ e ∈ logEdges s.2, e ∈ m.tree
  ends : ∀ e ∈ logEdges s.2, s.1 e.a = true ∧ s.1 e.b = true
  fresh : Fresh s.2
  rooted : ∀ x, s.1 x = true → ∃ r ∈ rs, Conn (pairs (logEdges s.2)) r x
  vis : ∀ r ∈ rs, s.1 r = true
  sep : ∀ r ∈ rs, ∀ r' ∈ rs, Conn (pairs m.tree) r r' → r = r'
  entries : ∀ A e t B, s.2 = A ++ (e, t) :: B → (t = e.a ∨ t = e.b) ∧ ∃ r ∈ rs, Conn (pairs (logEdges A)) r t

theorem Top.conn_vis {m : Mst R} {rs : List Int} {s : St R} (h : Top m rs s) {x y : Int}
    (c : Conn (pairs m.tree) x y) : s.1 x = true ↔ s.1 y = true := by
  induction c with
  | rel x y k =>
    obtain ⟨e, he, q⟩ := List.mem_map.1 k
    simp only [Prod.mk.injEq] at q
    obtain ⟨rfl, rfl⟩ := q
    have h1 := fun hv => h.closed e.a hv e he (Or.inl rfl)
    have h2 := fun hv => h.closed e.b hv e he (Or.inr rfl)
    rw [show e.other e.a = e.b by simp [Edge.other]] at h1
    refine ⟨h1, fun hv => ?_⟩
    have h2 := h2 hv
    unfold Edge.other at h2
    split at h2
    · rename_i q; rw [← q]; exact hv
    · exact h2
  | refl x => exact Iff.rfl
  | symm x y _ ih => exact ih.symm
  | trans x y z _ _ ih1 ih2 => exact ih1.trans ih2

theorem top_loop {m : Mst R} (hT : ∀ e ∈ m.tree, m.node e.a ∧ m.node e.b) : ∀ (l : List Nat) (rs : List Int) (s : St R),
    (∀ i ∈ l, i < m.num) → Top m rs s →
    ∃ rs' s', l.foldlM (fun (s : St R) (i : Nat) =>
        if m.used i = true ∧ s.1 (m.lo + i) = false then Mst.dfs m (m.num + 1) (m.lo + i) s else some s) s = some s' ∧
      Top m rs' s' ∧ (∀ x, s.1 x = true → s'.1 x = true) ∧ (∀ r ∈ rs, r ∈ rs') ∧
      (∀ i ∈ l, m.used i = true → s'.1 (m.lo + i) = true) ∧
      (∀ i l', l = i :: l' → m.used i = true → s.1 (m.lo + i) = false → m.lo + (i : Int) ∈ rs')
  | [], rs, s, _, h => ⟨rs, s, rfl, h, fun _ h => h, fun _ h => h, by simp, by simp⟩
  | i :: l, rs, s, hl, h => by
    have hl' : ∀ i ∈ l, i < m.num := fun j hj => hl j (List.mem_cons_of_mem _ hj)
    have hi := hl i (List.mem_cons_self ..)
    rw [List.foldlM_cons]
    by_cases hv : m.used i = true ∧ s.1 (m.lo + i) = false
    · rw [if_pos hv]
      have hnode : m.node (m.lo + i) := ⟨by omega, by omega, by
        rw [show (m.lo + (i : Int) - m.lo).toNat = i by omega]; exact hv.1⟩
      have hcard : (todo m s.1).card ≤ m.num + 1 := by
        have := Finset.card_filter_le (Finset.range m.num) (fun i => s.1 (m.lo + i) = false)
        rw [Finset.card_range] at this
        unfold todo; omega
      obtain ⟨s1, q1, q2, q3, q4⟩ := dfs_spec hT (m.num + 1) (m.lo + i) s hnode hv.2 hcard
      obtain ⟨D, d1, d2, d3, d4⟩ := q3.log
      have eo : EndsOk s.1 (m.lo + i) s.2 := fun e he => ⟨Or.inl (h.ends e he).1, Or.inl (h.ends e he).2⟩
      have top1 : Top m (rs ++ [m.lo + (i : Int)]) s1 := by
        refine ⟨?_, ?_, q3.ends eo, q3.fresh eo h.fresh, ?_, ?_, ?_, ?_⟩
        · intro x hx e he hxe
          by_cases h0 : s.1 x = true
          · exact q3.mono _ (h.closed x h0 e he hxe)
          · exact q4 x hx (by simpa using h0) e he hxe
        · intro e he
          rw [d1, logEdges_append, List.mem_append] at he
          exact he.elim (h.inT e) (d2 e)
        · intro x hx
          by_cases h0 : s.1 x = true
          · obtain ⟨r, hr, c⟩ := h.rooted x h0
            refine ⟨r, List.mem_append_left _ hr, c.mono fun p hp => ?_⟩
            rw [d1, logEdges_append, pairs_append]; exact List.mem_append_left _ hp
          · refine ⟨m.lo + i, by simp, (d3 x hx (by simpa using h0)).mono fun p hp => ?_⟩
            rw [d1, logEdges_append, pairs_append]; exact List.mem_append_right _ hp
        · intro r hr
          rcases List.mem_append.1 hr with hr | hr
          · exact q3.mono _ (h.vis r hr)
          · simp at hr; rw [hr]; exact q2
        · have nc : ∀ r ∈ rs, ¬ Conn (pairs m.tree) r (m.lo + i) := fun r hr c => by
            have := (h.conn_vis c).1 (h.vis r hr)
            rw [this] at hv; simp at hv
          intro r hr r' hr' c
          rcases List.mem_append.1 hr with hr | hr <;> rcases List.mem_append.1 hr' with hr' | hr'
          · exact h.sep r hr r' hr' c
          · simp at hr'; rw [hr'] at c; exact absurd c (nc r hr)
          · simp at hr; rw [hr] at c; exact absurd c.symm (nc r' hr')
          · simp at hr hr'; rw [hr, hr']
        · intro A e t B hs
          rw [d1] at hs
          rcases split_append hs with ⟨B', p1, _⟩ | ⟨A', p1, p2⟩
          · have ⟨a, r, hr, c⟩ := h.entries A e t B' p1
            exact ⟨a, r, List.mem_append_left _ hr, c⟩
          · have ⟨a, c⟩ := d4 A' e t B p1
            refine ⟨a, m.lo + i, by simp, c.mono fun p hp => ?_⟩
            rw [p2, logEdges_append, pairs_append]; exact List.mem_append_right _ hp
      obtain ⟨rs', s', r1, r2, r3, r4, r5, _⟩ := top_loop hT l _ s1 hl' top1
      refine ⟨rs', s', by rw [q1]; exact r1, r2, fun x hx => r3 x (q3.mono x hx),
        fun r hr => r4 r (List.mem_append_left _ hr), fun j hj hu => ?_, fun j l' he _ _ => ?_⟩
      · rcases List.mem_cons.1 hj with rfl | hj
        · exact r3 _ q2
        · exact r5 j hj hu
      · simp only [List.cons.injEq] at he
        rw [← he.1]
        exact r4 _ (by simp)
    · rw [if_neg hv]
      obtain ⟨rs', s', r1, r2, r3, r4, r5, _⟩ := top_loop hT l rs s hl' h
      refine ⟨rs', s', r1, r2, r3, r4, fun j hj hu => ?_, fun j l' he hu hf => ?_⟩
      · rcases List.mem_cons.1 hj with rfl | hj
        · apply r3
          cases hs : s.1 (m.lo + j) with
          | true => rfl
          | false => exact absurd ⟨hu, hs⟩ hv
        · exact r5 j hj hu
      · simp only [List.cons.injEq] at he
        rw [← he.1] at hu hf
        exact absurd ⟨hu, hf⟩ hv

theorem startIdx_lt {m : Mst R} {start : Int} {j : Nat} (h : m.startIdx start = some j) : j < m.num := by
  unfold Mst.startIdx at h
  dsimp only at h
  split at h
  · rename_i i hi
    simp only [Option.some.injEq] at h
    subst h
    exact List.mem_range.1 (List.drop_subset _ _ (List.mem_of_find?_eq_some hi))
  · exact List.mem_range.1 (List.mem_of_find?_eq_some h)

/-- A used start node is where the traversal starts; otherwise it starts at some used node. -/
theorem startIdx_spec {m : Mst R} (start : Int) (hex : ∃ x, m.node x) :
    ∃ j, m.startIdx start = some j ∧ (m.node start → m.lo + (j : Int) = start) := by
  obtain ⟨x, hx⟩ := hex
  unfold Mst.startIdx
  dsimp only
  by_cases hs : m.node start
  · have h1 := hs.1; have h2 := hs.2.1
    rw [if_neg (by omega)]
    have hd : (List.range m.num).drop (start - m.lo).toNat
        = (start - m.lo).toNat :: (List.range m.num).drop ((start - m.lo).toNat + 1) := by
      rw [List.drop_eq_getElem_cons (by simp; omega)]; simp
    rw [hd, List.find?_cons_of_pos hs.2.2]
    exact ⟨_, rfl, fun _ => by omega⟩
  · have hex : ∃ j, (List.range m.num).find? m.used = some j := by
      rw [← Option.isSome_iff_exists, List.find?_isSome]
      have := hx.1; have := hx.2.1
      exact ⟨(x - m.lo).toNat, List.mem_range.2 (by omega), hx.2.2⟩
    obtain ⟨j, hj⟩ := hex
    split
    · exact ⟨_, rfl, fun h => absurd h hs⟩
    · exact ⟨j, hj, fun h => absurd h hs⟩

theorem nodup_of_split {α : Type} : ∀ (l : List α), (∀ A x B, l = A ++ x :: B → x ∉ A) → l.Nodup
  | [], _ => .nil
  | y :: l, h => by
    refine List.nodup_cons.2 ⟨fun hy => ?_, nodup_of_split l fun A x B e hx => ?_⟩
    · obtain ⟨A, B, rfl⟩ := List.append_of_mem hy
      exact h (y :: A) y B rfl (List.mem_cons_self ..)
    · exact h (y :: A) x B (by rw [e]; rfl) (List.mem_cons_of_mem _ hx)

theorem Acyclic.nodup {T : List (Edge R)} (h : Acyclic T) : T.Nodup := by
  refine nodup_of_split T fun A e B hT he => h A e B hT (.of_mem ?_)
  exact List.mem_map.2 ⟨e, List.mem_append_left _ he, rfl⟩

theorem Fresh.nodup {l : List (Edge R × Int)} (h : Fresh l) : (logEdges l).Nodup := by
  refine nodup_of_split _ fun A e B hl he => ?_
  obtain ⟨A', B', rfl, rfl, hB⟩ := List.map_eq_append_iff.1 hl
  cases B' with
  | nil => simp at hB
  | cons b B' =>
    obtain ⟨e', t⟩ := b
    simp only [List.map_cons, List.cons.injEq] at hB
    obtain ⟨rfl, _⟩ := hB
    have := h A' e' t B' rfl e' he
    unfold Edge.other at this
    split at this <;> simp at this

/-- One traversal of a forest: `apply` returns without failing an assertion; it calls the functor exactly once
for every edge; and there is a root in every component, the start node for its own component, such that each
edge is reported with the end that is already connected to that root by the edges reported before, while its
other end is not touched by any of them. -/
theorem apply_forest {m : Mst R} (hT : ∀ e ∈ m.tree, m.node e.a ∧ m.node e.b) (hA : Acyclic m.tree)
    (hex : ∃ x, m.node x) (start : Int) :
    ∃ log, m.apply start = some log ∧ (logEdges log).Perm m.tree ∧
      ∃ root : Int → Int, (∀ x y, Conn (pairs m.tree) x y → root x = root y) ∧
        (m.node start → root start = start) ∧
        ∀ A e t B, log = A ++ (e, t) :: B →
          (t = e.a ∨ t = e.b) ∧ Conn (pairs (logEdges A)) (root t) t ∧
          ∀ f ∈ logEdges A, f.a ≠ e.other t ∧ f.b ≠ e.other t := by
  obtain ⟨j, hj, hstart⟩ := startIdx_spec start hex
  have hjn := startIdx_lt hj
  have top0 : Top m [] ((fun _ => false), ([] : List (Edge R × Int))) := by
    refine ⟨?_, ?_, ?_, ?_, ?_, ?_, ?_, ?_⟩
    · intro x hx; cases hx
    · intro e he; cases he
    · intro e he; cases he
    · intro A e t B h; simp at h
    · intro x hx; cases hx
    · intro r hr; cases hr
    · intro r hr; cases hr
    · intro A e t B h; simp at h
  obtain ⟨rs, s, q1, q2, q3, q4, q5, q6⟩ := top_loop hT
    ((List.range m.num).drop j ++ (List.range m.num).take j) [] _ (fun i hi => by
      rcases List.mem_append.1 hi with hi | hi
      · exact List.mem_range.1 (List.drop_subset _ _ hi)
      · exact List.mem_range.1 (List.take_subset _ _ hi)) top0
  have hall : ∀ x, m.node x → s.1 x = true := by
    intro x hx
    have h1 := hx.1; have h2 := hx.2.1
    have := q5 (x - m.lo).toNat (by
      rw [List.mem_append]
      have : (x - m.lo).toNat ∈ (List.range m.num).take j ++ (List.range m.num).drop j := by
        rw [List.take_append_drop]; exact List.mem_range.2 (by omega)
      exact (List.mem_append.1 this).symm) hx.2.2
    rwa [show m.lo + ((x - m.lo).toNat : Int) = x by omega] at this
  have logT : ∀ {x y}, Conn (pairs (logEdges s.2)) x y → Conn (pairs m.tree) x y := fun c => c.mono fun p hp => by
    obtain ⟨e, he, rfl⟩ := List.mem_map.1 hp
    exact List.mem_map.2 ⟨e, q2.inT e he, rfl⟩
  refine ⟨s.2, ?_, ?_, fun x => Classical.epsilon fun r => r ∈ rs ∧ Conn (pairs m.tree) r x, ?_, ?_, ?_⟩
  · unfold Mst.apply
    rw [if_neg (by omega), hj]
    simp only [Option.bind_eq_bind, Option.bind_some]
    rw [q1]; rfl
  · refine (List.perm_ext_iff_of_nodup q2.fresh.nodup hA.nodup).2 fun e => ⟨q2.inT e, fun he => ?_⟩
    by_contra hn
    obtain ⟨A, B, hAB⟩ := List.append_of_mem he
    obtain ⟨r, hr, c⟩ := q2.rooted e.a (hall _ (hT e he).1)
    obtain ⟨r', hr', c'⟩ := q2.rooted e.b (hall _ (hT e he).2)
    have hrr : r = r' := q2.sep r hr r' hr'
      (((logT c).trans (.of_mem (List.mem_map.2 ⟨e, he, rfl⟩))).trans (logT c').symm)
    rw [← hrr] at c'
    refine hA A e B hAB ((c.symm.trans c').mono fun p hp => ?_)
    obtain ⟨f, hf, rfl⟩ := List.mem_map.1 hp
    have hfT := q2.inT f hf
    have hne : f ≠ e := fun h => hn (h ▸ hf)
    rw [hAB] at hfT
    refine List.mem_map.2 ⟨f, ?_, rfl⟩
    simp only [List.mem_append, List.mem_cons] at hfT ⊢
    tauto
  · intro x y c
    dsimp only
    congr 1
    funext r
    refine propext ⟨fun h => ⟨h.1, h.2.trans c⟩, fun h => ⟨h.1, h.2.trans c.symm⟩⟩
  · intro hs
    have hlo := hstart hs
    have hmem : start ∈ rs := by
      have hd : (List.range m.num).drop j = j :: (List.range m.num).drop (j + 1) := by
        rw [List.drop_eq_getElem_cons (by simpa using hjn)]; simp
      have := q6 j ((List.range m.num).drop (j + 1) ++ (List.range m.num).take j) (by rw [hd]; rfl)
        (by have := hs.2.2; rwa [show (start - m.lo).toNat = j by omega] at this) rfl
      rwa [hlo] at this
    have := Classical.epsilon_spec (p := fun r => r ∈ rs ∧ Conn (pairs m.tree) r start) ⟨start, hmem, .refl _ _⟩
    exact q2.sep _ this.1 _ hmem this.2
  · intro A e t B hl
    obtain ⟨ht, r, hr, c⟩ := q2.entries A e t B hl
    refine ⟨ht, ?_, q2.fresh A e t B hl⟩
    have cT : Conn (pairs m.tree) r t := logT (c.mono fun p hp => by
      rw [hl, logEdges_append, pairs_append]; exact List.mem_append_left _ hp)
    have := Classical.epsilon_spec (p := fun r => r ∈ rs ∧ Conn (pairs m.tree) r t) ⟨r, hr, cT⟩
    have e : Classical.epsilon (fun r => r ∈ rs ∧ Conn (pairs m.tree) r t) = r :=
      q2.sep _ this.1 _ hr (this.2.trans cT.symm)
    show Conn _ (Classical.epsilon fun r => r ∈ rs ∧ Conn (pairs m.tree) r t) t
    rw [e]; exact c

/-- C44 for the tree the constructor built: traversal from any start node. -/
theorem mst_apply {g : Int} {e : Edge R} {es T : List (Edge R)} (h : mstCtor g (e :: es) = .tree T) (start : Int) :
    ∃ log, (mkMst e es T).apply start = some log ∧ (logEdges log).Perm T ∧
      ∃ root : Int → Int, (∀ x y, Conn (pairs (e :: es)) x y → root x = root y) ∧
        ((∃ f ∈ e :: es, start = f.a ∨ start = f.b) → root start = start) ∧
        ∀ A f t B, log = A ++ (f, t) :: B →
          (t = f.a ∨ t = f.b) ∧ Conn (pairs (logEdges A)) (root t) t ∧
          ∀ f' ∈ logEdges A, f'.a ≠ f.other t ∧ f'.b ≠ f.other t := by
  have hg : 0 < g := by
    by_contra hg
    rw [mstCtor, if_neg hg] at h
    cases h
  rw [mstCtor_eq_greedy hg (by simp)] at h
  simp only [MstResult.tree.injEq] at h
  have hsub := greedy_sublist [] (e :: es)
  rw [h] at hsub
  have hAc := (greedy_indep [] (e :: es)).acyclic
  rw [h] at hAc
  have hnode : ∀ x, (∃ f ∈ e :: es, x = f.a ∨ x = f.b) → (mkMst e es T).node x := by
    rintro x ⟨f, hf, hx⟩
    have hr := nodeRange_spec e es f hf
    refine ⟨?_, ?_, ?_⟩ <;> simp only [mkMst]
    · rcases hx with rfl | rfl <;> omega
    · rcases hx with rfl | rfl <;> omega
    · unfold nodeUsed
      rw [List.any_eq_true]
      exact ⟨f, hf, by rcases hx with rfl | rfl <;> simp⟩
  obtain ⟨log, h1, h2, root, h3, h4, h5⟩ := apply_forest (m := mkMst e es T)
    (fun f hf => ⟨hnode _ ⟨f, hsub.subset hf, Or.inl rfl⟩, hnode _ ⟨f, hsub.subset hf, Or.inr rfl⟩⟩) hAc
    ⟨e.a, hnode _ ⟨e, List.mem_cons_self .., Or.inl rfl⟩⟩ start
  refine ⟨log, h1, h2, root, fun x y c => h3 x y (c.le fun p hp => ?_), fun hs => h4 (hnode start hs), h5⟩
  obtain ⟨f, hf, rfl⟩ := List.mem_map.1 hp
  have := greedy_spans [] (e :: es) f hf
  rw [h, List.append_nil] at this
  exact this

/-! ### Non-vacuity -/

example : ((mkMst (⟨-3, 0, 1⟩ : Edge Int) exGraph.tail [⟨-3, 0, 1⟩, ⟨5, 6, 1⟩, ⟨0, 2, 2⟩]).apply 2)
    = some [(⟨0, 2, 2⟩, 2), (⟨-3, 0, 1⟩, 0), (⟨5, 6, 1⟩, 5)] := by rfl

end VW.Graph
