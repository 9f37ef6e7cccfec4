import Verif.Graph.DSetProps
import Mathlib.Algebra.Order.Monoid.Defs
import Mathlib.Algebra.BigOperators.Group.List.Basic
import Mathlib.Data.List.Perm.Subperm
import Mathlib.Data.List.Perm.Basic
import Mathlib.Order.Lattice
/-
C30: the minimum spanning tree constructor selects a minimum spanning forest.
-/
namespace VW.Graph

variable {R : Type}

/-! ### Specification -/

/-- The node pairs of a list of edges. -/
def pairs (es : List (Edge R)) : List (Int × Int) := es.map fun e => (e.a, e.b)

/-- No edge of the list is redundant: without it its end points are not connected. -/
def Acyclic (es : List (Edge R)) : Prop :=
  ∀ A e B, es = A ++ e :: B → ¬ Conn (pairs (A ++ B)) e.a e.b

/-- `S` connects the same nodes as `es`. -/
def Spans (S es : List (Edge R)) : Prop := ∀ x y, Conn (pairs S) x y ↔ Conn (pairs es) x y

/-- Total cost. -/
def total [AddCommMonoid R] (es : List (Edge R)) : R := (es.map Edge.cost).sum

/-! ### The greedy selection, abstractly -/

open Classical in
/-- Keep an edge iff its ends are not connected by `P` and the edges kept before. -/
noncomputable def greedy : List (Int × Int) → List (Edge R) → List (Edge R)
  | _, [] => []
  | P, e :: es => if Conn P e.a e.b then greedy P es else e :: greedy ((e.a, e.b) :: P) es

/-- Each edge joins nodes not connected by `P` and the edges before it. -/
def Indep : List (Int × Int) → List (Edge R) → Prop
  | _, [] => True
  | P, e :: es => ¬ Conn P e.a e.b ∧ Indep ((e.a, e.b) :: P) es

theorem conn_cons_congr {P Q : List (Int × Int)} (h : ∀ x y, Conn P x y ↔ Conn Q x y) (p : Int × Int) (x y : Int) :
    Conn (p :: P) x y ↔ Conn (p :: Q) x y := by
  obtain ⟨a, b⟩ := p
  rw [conn_cons, conn_cons]
  simp only [h]

theorem Indep.congr : ∀ {S : List (Edge R)} {P Q : List (Int × Int)}, (∀ x y, Conn P x y ↔ Conn Q x y) →
    (Indep P S → Indep Q S)
  | [], _, _, _, _ => trivial
  | _ :: _, _, _, h, ⟨h1, h2⟩ => ⟨fun c => h1 ((h _ _).2 c), h2.congr (conn_cons_congr h _)⟩

theorem greedy_sublist : ∀ (P : List (Int × Int)) (es : List (Edge R)), (greedy P es).Sublist es
  | _, [] => .slnil
  | P, e :: es => by
    unfold greedy
    split
    · exact (greedy_sublist P es).cons e
    · exact (greedy_sublist _ es).cons_cons e

theorem greedy_indep : ∀ (P : List (Int × Int)) (es : List (Edge R)), Indep P (greedy P es)
  | _, [] => trivial
  | P, e :: es => by
    unfold greedy
    split
    · exact greedy_indep P es
    · rename_i h; exact ⟨h, greedy_indep _ es⟩

/-- Every edge is connected by the selected edges. -/
theorem greedy_spans : ∀ (P : List (Int × Int)) (es : List (Edge R)), ∀ e ∈ es,
    Conn (pairs (greedy P es) ++ P) e.a e.b
  | _, [], e, h => by cases h
  | P, f :: es, e, h => by
    unfold greedy
    split
    · rename_i hc
      rcases List.mem_cons.1 h with rfl | h
      · exact hc.mono fun p hp => List.mem_append_right _ hp
      · exact greedy_spans P es e h
    · rcases List.mem_cons.1 h with rfl | h
      · exact .of_mem (by simp [pairs])
      · refine (greedy_spans ((f.a, f.b) :: P) es e h).mono fun p hp => ?_
        simp only [pairs, List.map_cons, List.cons_append, List.mem_cons, List.mem_append] at hp ⊢
        tauto

theorem pairs_append (A B : List (Edge R)) : pairs (A ++ B) = pairs A ++ pairs B := by simp [pairs]
@[simp] theorem pairs_cons (e : Edge R) (B : List (Edge R)) : pairs (e :: B) = (e.a, e.b) :: pairs B := rfl

/-- The exchange step: an edge (u,v) not connected by P but connected by P and the independent S can replace
an edge of S. -/
theorem exchange {u v : Int} : ∀ (S : List (Edge R)) (P : List (Int × Int)), ¬ Conn P u v → Indep P S →
    Conn (pairs S ++ P) u v → ∃ S1 f S2, S = S1 ++ f :: S2 ∧ Indep ((u, v) :: P) (S1 ++ S2) ∧
      ∀ x y, Conn (pairs S ++ P) x y → Conn (pairs (S1 ++ S2) ++ (u, v) :: P) x y
  | [], P, hn, _, hc => absurd hc hn
  | s :: S, P, hn, ⟨hs, hi⟩, hc => by
    by_cases h : Conn ((s.a, s.b) :: P) u v
    · have e : ∀ x y, Conn ((s.a, s.b) :: P) x y ↔ Conn ((u, v) :: P) x y := fun x y => by
        have e1 := conn_exchange h hn
        constructor
        · exact Conn.le fun p hp => by
            rcases List.mem_cons.1 hp with rfl | hp
            · exact e1
            · exact .of_mem (List.mem_cons_of_mem _ hp)
        · exact Conn.le fun p hp => by
            rcases List.mem_cons.1 hp with rfl | hp
            · exact h
            · exact .of_mem (List.mem_cons_of_mem _ hp)
      refine ⟨[], s, S, rfl, hi.congr e, fun x y => Conn.le fun p hp => ?_⟩
      have up : ∀ {x y}, Conn ((u, v) :: P) x y → Conn (pairs ([] ++ S) ++ (u, v) :: P) x y := fun c =>
        c.mono fun p hp => List.mem_append_right _ hp
      simp only [pairs_cons, List.cons_append, List.mem_cons, List.mem_append] at hp
      rcases hp with rfl | hp | hp
      · exact up ((e _ _).1 (.of_mem (List.mem_cons_self ..)))
      · exact .of_mem (List.mem_append_left _ hp)
      · exact up (.of_mem (List.mem_cons_of_mem _ hp))
    · obtain ⟨S1, f, S2, rfl, h1, h2⟩ := exchange S ((s.a, s.b) :: P) h hi
        (hc.mono fun p hp => by
          simp only [pairs_cons, List.cons_append, List.mem_cons, List.mem_append] at hp ⊢; tauto)
      refine ⟨s :: S1, f, S2, rfl, ⟨fun c => h (conn_exchange c hs), h1.congr fun x y => conn_congr fun p => ?_⟩, ?_⟩
      · simp only [List.mem_cons]; tauto
      · intro x y c
        refine (h2 x y (c.mono fun p hp => ?_)).mono fun p hp => ?_
        · simp only [pairs_cons, List.cons_append, List.mem_cons, List.mem_append] at hp ⊢; tauto
        · simp only [pairs_cons, List.cons_append, List.mem_cons, List.mem_append] at hp ⊢; tauto

section cost
variable [AddCommMonoid R]

theorem total_append (A B : List (Edge R)) : total (A ++ B) = total A + total B := by simp [total]
@[simp] theorem total_cons (e : Edge R) (B : List (Edge R)) : total (e :: B) = e.cost + total B := by simp [total]

variable [LinearOrder R] [IsOrderedAddMonoid R]

/-- Greedy selection from an ordered list is cheapest. -/
theorem greedy_min : ∀ (es : List (Edge R)) (P : List (Int × Int)) (S : List (Edge R)),
    es.Pairwise (fun e f => e.cost ≤ f.cost) → S.Sublist es → Indep P S →
    (∀ e ∈ es, Conn (pairs S ++ P) e.a e.b) → total (greedy P es) ≤ total S
  | [], P, S, _, hs, _, _ => by
    cases hs; exact le_refl _
  | e :: es, P, S, ho, hs, hi, hc => by
    have ⟨ho1, ho2⟩ := List.pairwise_cons.1 ho
    unfold greedy
    split
    · rename_i h
      refine greedy_min es P S ho2 ?_ hi fun f hf => hc f (List.mem_cons_of_mem _ hf)
      cases hs with
      | cons _ hs => exact hs
      | cons_cons _ hs => exact absurd h hi.1
    · rename_i h
      rw [total_cons]
      cases hs with
      | cons_cons _ hs =>
        rename_i S'
        rw [total_cons]
        refine add_le_add_right (greedy_min es _ S' ho2 hs hi.2 fun f hf => ?_) _
        refine (hc f (List.mem_cons_of_mem _ hf)).mono fun p hp => ?_
        simp only [pairs_cons, List.cons_append, List.mem_cons, List.mem_append] at hp ⊢; tauto
      | cons _ hs =>
        obtain ⟨S1, f, S2, rfl, h1, h2⟩ := exchange S P h hi (hc e (List.mem_cons_self ..))
        have hf : f ∈ es := hs.subset (by simp)
        have hsub : (S1 ++ S2).Sublist es :=
          (List.Sublist.append_left (List.sublist_cons_self f S2) S1).trans hs
        have := greedy_min es ((e.a, e.b) :: P) (S1 ++ S2) ho2 hsub h1
          fun g hg => h2 _ _ (hc g (List.mem_cons_of_mem _ hg))
        calc e.cost + total (greedy ((e.a, e.b) :: P) es) ≤ f.cost + total (S1 ++ S2) := add_le_add (ho1 f hf) this
          _ = total (S1 ++ f :: S2) := by
            rw [total_append, total_append, total_cons, add_left_comm]

end cost

/-! ### Independence and acyclicity -/

theorem Indep.append_left : ∀ {A B : List (Edge R)} {P : List (Int × Int)}, Indep P (A ++ B) → Indep P A
  | [], _, _, _ => trivial
  | _ :: _, _, _, ⟨h1, h2⟩ => ⟨h1, h2.append_left⟩

theorem Indep.append_right : ∀ {A B : List (Edge R)} {P : List (Int × Int)}, Indep P (A ++ B) → Indep (pairs A ++ P) B
  | [], _, _, h => h
  | a :: A, B, P, ⟨_, h2⟩ => by
    refine (Indep.append_right h2).congr fun x y => conn_congr fun p => ?_
    simp only [pairs_cons, List.cons_append, List.mem_cons, List.mem_append]; tauto

/-- If the later edges B do not depend on P and e, and P does not connect e, then P and B do not connect e. -/
theorem Indep.not_conn {e : Edge R} : ∀ {B : List (Edge R)} {P : List (Int × Int)}, ¬ Conn P e.a e.b →
    Indep ((e.a, e.b) :: P) B → ¬ Conn (pairs B ++ P) e.a e.b
  | [], _, h, _ => h
  | f :: B, P, h, ⟨h1, h2⟩ => by
    have hf : ¬ Conn ((f.a, f.b) :: P) e.a e.b := fun c => h1 (conn_exchange c h)
    have := Indep.not_conn (B := B) (P := (f.a, f.b) :: P) hf
      (h2.congr fun x y => conn_congr fun p => by simp only [List.mem_cons]; tauto)
    intro c
    exact this (c.mono fun p hp => by
      simp only [pairs_cons, List.cons_append, List.mem_cons, List.mem_append] at hp ⊢; tauto)

theorem Indep.acyclic {S : List (Edge R)} (h : Indep [] S) : Acyclic S := by
  rintro A e B rfl
  have ⟨h1, h2⟩ := h.append_right
  have := Indep.not_conn h1 h2
  intro c
  exact this (c.mono fun p hp => by simpa [pairs_append, or_comm] using hp)

theorem Acyclic.indep_aux : ∀ (B A : List (Edge R)), Acyclic (A ++ B) → Indep (pairs A) B
  | [], _, _ => trivial
  | b :: B, A, h => by
    refine ⟨fun c => h A b B rfl (c.mono fun p hp => by rw [pairs_append]; exact List.mem_append_left _ hp), ?_⟩
    have := Acyclic.indep_aux B (A ++ [b]) (by simpa using h)
    refine this.congr fun x y => conn_congr fun p => ?_
    rw [pairs_append, List.mem_append, List.mem_cons]; simp [pairs, or_comm]

theorem Acyclic.indep {S : List (Edge R)} (h : Acyclic S) : Indep [] S := Acyclic.indep_aux S [] h

theorem Acyclic.perm {S T : List (Edge R)} (h : Acyclic S) (p : S.Perm T) : Acyclic T := by
  rintro A e B rfl c
  obtain ⟨A', B', rfl⟩ := List.append_of_mem (p.symm.subset (List.mem_append_right A (List.mem_cons_self (a := e) (l := B))))
  have q : (A' ++ B').Perm (A ++ B) := ((List.perm_middle.symm.trans p).trans List.perm_middle).cons_inv
  exact h A' e B' rfl (c.mono fun z hz => ((q.map _).symm.subset hz))

/-! ### The constructor's loop performs the greedy selection -/

theorem nodeRange_fold (es : List (Edge R)) : ∀ m : Int × Int,
    let r := es.foldl (fun (m : Int × Int) (f : Edge R) => (min (min m.1 f.a) f.b, max (max m.2 f.a) f.b)) m
    r.1 ≤ m.1 ∧ m.2 ≤ r.2 ∧ ∀ f ∈ es, r.1 ≤ f.a ∧ r.1 ≤ f.b ∧ f.a ≤ r.2 ∧ f.b ≤ r.2 := by
  induction es with
  | nil => intro m; exact ⟨le_refl _, le_refl _, fun f hf => by cases hf⟩
  | cons e es ih =>
    intro m
    obtain ⟨h1, h2, h3⟩ := ih (min (min m.1 e.a) e.b, max (max m.2 e.a) e.b)
    simp only [List.foldl_cons]
    dsimp only at h1 h2
    refine ⟨by omega, by omega, fun f hf => ?_⟩
    rcases List.mem_cons.1 hf with rfl | hf
    · omega
    · exact h3 f hf

theorem nodeRange_spec (e : Edge R) (es : List (Edge R)) : ∀ f ∈ e :: es,
    (nodeRange e es).1 ≤ f.a ∧ (nodeRange e es).1 ≤ f.b ∧ f.a ≤ (nodeRange e es).2 ∧ f.b ≤ (nodeRange e es).2 := by
  obtain ⟨h1, h2, h3⟩ := nodeRange_fold es (min e.a e.b, max e.a e.b)
  intro f hf
  rcases List.mem_cons.1 hf with rfl | hf
  · simp only [nodeRange]; dsimp only at h1 h2; omega
  · exact h3 f hf

/-- What the node set-up loop produces. -/
theorem mkNodes_spec (lo : Int) (used : Nat → Bool) : ∀ k, ∃ rep lf, (mkNodes lo used k).1.Ok rep lf ∧
    (∀ x, x < (mkNodes lo used k).1.n → rep x = x) ∧
    (∀ j, j < k → used j = true → ∃ x, x < (mkNodes lo used k).1.n ∧ (mkNodes lo used k).2 j = some x) ∧
    (∀ i j x, i < k → j < k → (mkNodes lo used k).2 i = some x → (mkNodes lo used k).2 j = some x → i = j) ∧
    (∀ j x, j < k → (mkNodes lo used k).2 j = some x → x < (mkNodes lo used k).1.n) := by
  intro k
  induction k with
  | zero =>
    refine ⟨id, fun _ => False, DSet.new_ok 0, fun x _ => rfl, ?_, ?_, ?_⟩
    · intro j hj; omega
    · intro i j x hi; omega
    · intro j x hj; omega
  | succ k ih =>
    obtain ⟨rep, lf, I, h1, h2, h3, h4⟩ := ih
    simp only [mkNodes]
    cases hu : used k with
    | true =>
      simp only [if_true]
      refine ⟨_, _, I.insert _, ?_, ?_, ?_, ?_⟩
      · intro x hx
        simp only [DSet.insert] at hx
        by_cases e : x = (mkNodes lo used k).1.n
        · rw [e]; simp
        · rw [upd_ne _ _ e]; exact h1 x (by omega)
      · intro j hj hj'
        by_cases e : j = k
        · subst e; exact ⟨(mkNodes lo used j).1.n, by simp [DSet.insert], by simp⟩
        · obtain ⟨x, hx, hx'⟩ := h2 j (by omega) hj'
          exact ⟨x, by simp only [DSet.insert]; omega, by rw [upd_ne _ _ e]; exact hx'⟩
      · intro i j x hi hj ei ej
        by_cases e1 : i = k <;> by_cases e2 : j = k
        · omega
        · rw [e1, upd_self] at ei; rw [upd_ne _ _ e2] at ej
          have := h4 j x (by omega) ej
          simp at ei; omega
        · rw [e2, upd_self] at ej; rw [upd_ne _ _ e1] at ei
          have := h4 i x (by omega) ei
          simp at ej; omega
        · rw [upd_ne _ _ e1] at ei; rw [upd_ne _ _ e2] at ej
          exact h3 i j x (by omega) (by omega) ei ej
      · intro j x hj ej
        simp only [DSet.insert]
        by_cases e : j = k
        · rw [e, upd_self] at ej; simp at ej; omega
        · rw [upd_ne _ _ e] at ej; have := h4 j x (by omega) ej; omega
    | false =>
      simp only [Bool.false_eq_true, if_false]
      refine ⟨rep, lf, I, h1, ?_, ?_, ?_⟩
      · intro j hj hj'
        by_cases e : j = k
        · subst e; rw [hu] at hj'; cases hj'
        · obtain ⟨x, hx, hx'⟩ := h2 j (by omega) hj'
          exact ⟨x, hx, by rw [upd_ne _ _ e]; exact hx'⟩
      · intro i j x hi hj ei ej
        by_cases e1 : i = k
        · rw [e1, upd_self] at ei; cases ei
        by_cases e2 : j = k
        · rw [e2, upd_self] at ej; cases ej
        rw [upd_ne _ _ e1] at ei; rw [upd_ne _ _ e2] at ej
        exact h3 i j x (by omega) (by omega) ei ej
      · intro j x hj ej
        by_cases e : j = k
        · rw [e, upd_self] at ej; cases ej
        · rw [upd_ne _ _ e] at ej; exact h4 j x (by omega) ej

/-- `nd` gives the disjoint set node of every node of the graph. -/
theorem kruskal_eq_greedy {lo : Int} {el : Nat → Option Nat} {nd : Int → Nat} :
    ∀ (es : List (Edge R)) (P : List (Int × Int)) (d : DSet Int) (rep : Nat → Nat) (lf : Nat → Prop) (U : Int → Prop),
    d.Ok rep lf → (∀ u, U u → el (u - lo).toNat = some (nd u) ∧ nd u < d.n) → (∀ e ∈ es, U e.a ∧ U e.b) →
    (∀ u v, U u → U v → (rep (nd u) = rep (nd v) ↔ Conn P u v)) →
    kruskal lo el d es = some (greedy P es)
  | [], P, d, rep, lf, U, I, he, hu, hr => by simp [kruskal, greedy]
  | e :: es, P, d, rep, lf, U, I, he, hu, hr => by
    have ⟨ua, ub⟩ := hu e (List.mem_cons_self ..)
    have hu' : ∀ f ∈ es, U f.a ∧ U f.b := fun f hf => hu f (List.mem_cons_of_mem _ hf)
    have ⟨ea, la⟩ := he _ ua
    have ⟨eb, lb⟩ := he _ ub
    obtain ⟨d1, f1, I1, n1, _, _, np1, _⟩ := I.find la
    obtain ⟨d2, f2, I2, n2, _, _, np2, _⟩ := I1.find (x := nd e.b) (by omega)
    unfold kruskal greedy
    simp only [ea, eb, f1, f2, Option.bind_eq_bind, Option.bind_some]
    by_cases hc : Conn P e.a e.b
    · have hrab := (hr _ _ ua ub).2 hc
      rw [if_pos hc, if_neg (by simp [hrab])]
      exact kruskal_eq_greedy es P d2 rep lf U I2 (fun u h => ⟨(he u h).1, by have := (he u h).2; omega⟩) hu' hr
    · have hrab : rep (nd e.a) ≠ rep (nd e.b) := fun h => hc ((hr _ _ ua ub).1 h)
      rw [if_neg hc, if_pos hrab]
      have ra := I.rep_lt _ la
      have rb := I.rep_lt _ lb
      have pa := np2 _ (np1 _ (I.rep_root _ la))
      have pb := np2 _ (np1 _ (I.rep_root _ lb))
      obtain ⟨rep', ok, hn, _, _, _, hrel⟩ := I2.combine (a := rep (nd e.a)) (b := rep (nd e.b)) (by omega) (by omega) pa pb
      have := kruskal_eq_greedy es ((e.a, e.b) :: P) (d2.combine (rep (nd e.a)) (rep (nd e.b))).1 rep' lf U ok
        (fun u h => ⟨(he u h).1, by have := (he u h).2; omega⟩) hu' (fun u v h1 h2 => by
          rw [hrel, conn_cons, hr u v h1 h2, hr u e.a h1 ua, hr v e.b h2 ub, hr u e.b h1 ub, hr v e.a h2 ua]
          constructor
          · rintro (h | ⟨h, g⟩ | ⟨h, g⟩)
            · exact Or.inl h
            · exact Or.inr (Or.inl ⟨h, g.symm⟩)
            · exact Or.inr (Or.inr ⟨h, g.symm⟩)
          · rintro (h | ⟨h, g⟩ | ⟨h, g⟩)
            · exact Or.inl h
            · exact Or.inr (Or.inl ⟨h, g.symm⟩)
            · exact Or.inr (Or.inr ⟨h, g.symm⟩))
      rw [this]
      rfl

theorem mstCtor_eq_greedy {g : Int} (hg : 0 < g) {sorted : List (Edge R)} (hne : sorted ≠ []) :
    mstCtor g sorted = .tree (greedy [] sorted) := by
  cases sorted with
  | nil => exact absurd rfl hne
  | cons e es =>
    unfold mstCtor
    rw [if_pos hg]
    dsimp only
    generalize hlo : (nodeRange e es).1 = lo
    generalize hhi : (nodeRange e es).2 = hi
    have hrange := nodeRange_spec e es
    rw [hlo, hhi] at hrange
    obtain ⟨rep, lf, I, h1, h2, h3, h4⟩ := mkNodes_spec lo (nodeUsed lo (e :: es)) (hi - lo + 1).toNat
    generalize mkNodes lo (nodeUsed lo (e :: es)) (hi - lo + 1).toNat = dl at *
    obtain ⟨d, el⟩ := dl
    dsimp only at *
    let U : Int → Prop := fun u => ∃ f ∈ e :: es, u = f.a ∨ u = f.b
    let nd : Int → Nat := fun u => (el (u - lo).toNat).getD 0
    have hlt : ∀ u, U u → lo ≤ u ∧ (u - lo).toNat < (hi - lo + 1).toNat := by
      rintro u ⟨f, hf, rfl | rfl⟩ <;> have := hrange f hf <;> omega
    have hel : ∀ u, U u → el (u - lo).toNat = some (nd u) ∧ nd u < d.n := by
      intro u hU
      have ⟨_, hl⟩ := hlt u hU
      have hused : nodeUsed lo (e :: es) (u - lo).toNat = true := by
        obtain ⟨f, hf, hh⟩ := hU
        unfold nodeUsed
        rw [List.any_eq_true]
        refine ⟨f, hf, ?_⟩
        rcases hh with rfl | rfl <;> simp
      obtain ⟨x, hx, hx'⟩ := h2 _ hl hused
      have : nd u = x := by simp only [nd, hx']; rfl
      rw [this]
      exact ⟨hx', hx⟩
    rw [kruskal_eq_greedy (e :: es) [] d rep lf U I hel (fun f hf => ⟨⟨f, hf, Or.inl rfl⟩, ⟨f, hf, Or.inr rfl⟩⟩) ?_]
    intro u v hu hv
    have ⟨eu, lu⟩ := hel u hu
    have ⟨ev, lv⟩ := hel v hv
    rw [h1 _ lu, h1 _ lv]
    constructor
    · intro h
      rw [← h] at ev
      have := h3 _ _ _ (hlt u hu).2 (hlt v hv).2 eu ev
      have := (hlt u hu).1; have := (hlt v hv).1
      have : u = v := by omega
      rw [this]; exact .refl _ _
    · intro h; rw [h.nil]

/-! ### C30 -/

section
variable [AddCommMonoid R] [LinearOrder R] [IsOrderedAddMonoid R]

/-- `sorted` is a result of `qsort` on `es` with the cost comparison. -/
def SortedCopy (sorted es : List (Edge R)) : Prop :=
  sorted.Perm es ∧ sorted.Pairwise (fun e f => e.cost ≤ f.cost)

/-- If the uninitialised member read by the assertion happens to be positive: the selected edges are input
edges, acyclic, connect exactly what the input connects, and no other acyclic selection that connects the same
nodes is cheaper. -/
theorem mst_minimal_partial {g : Int} (hg : 0 < g) {es sorted : List (Edge R)} (hs : SortedCopy sorted es)
    (hne : es ≠ []) :
    ∃ T, mstCtor g sorted = .tree T ∧ T.Subperm es ∧ Acyclic T ∧ Spans T es ∧
      ∀ S, S.Subperm es → Acyclic S → Spans S es → total T ≤ total S := by
  have hne' : sorted ≠ [] := fun h => hne (by have := hs.1; rw [h] at this; exact this.symm.eq_nil)
  refine ⟨_, mstCtor_eq_greedy hg hne', ?_, (greedy_indep [] sorted).acyclic, ?_, ?_⟩
  · exact (greedy_sublist [] sorted).subperm.trans hs.1.subperm
  · intro x y
    constructor
    · exact Conn.mono fun p hp => ((hs.1.map _).subset (((greedy_sublist [] sorted).map _).subset hp))
    · intro h
      refine h.le fun p hp => ?_
      obtain ⟨f, hf, rfl⟩ := List.mem_map.1 hp
      have := greedy_spans [] sorted f (hs.1.symm.subset hf)
      simpa using this
  · intro S hS hA hSp
    obtain ⟨S', p, hsub⟩ := hS.trans hs.1.symm.subperm
    have hA' := hA.perm p.symm
    have : total S' = total S := by unfold total; exact (p.map _).sum_eq
    rw [← this]
    refine greedy_min sorted [] S' hs.2 hsub hA'.indep fun e he => ?_
    have h1 : Conn (pairs es) e.a e.b := .of_mem (List.mem_map.2 ⟨e, hs.1.subset he, rfl⟩)
    exact ((hSp _ _).2 h1).mono fun q hq => by
      rw [List.append_nil]; exact (p.map _).symm.subset hq

/-- With costs that are not negative it is the cheapest of all selections that connect the same nodes, also
of those with cycles. -/
theorem mst_minimal_nonneg_partial {g : Int} (hg : 0 < g) {es sorted : List (Edge R)} (hs : SortedCopy sorted es)
    (hne : es ≠ []) (h0 : ∀ e ∈ es, 0 ≤ e.cost) :
    ∃ T, mstCtor g sorted = .tree T ∧ ∀ S, S.Subperm es → Spans S es → total T ≤ total S := by
  obtain ⟨T, h1, _, _, _, h5⟩ := mst_minimal_partial hg hs hne
  refine ⟨T, h1, fun S hS hSp => ?_⟩
  have sub := greedy_sublist [] S
  refine (h5 (greedy [] S) (sub.subperm.trans hS) (greedy_indep [] S).acyclic fun x y => ?_).trans ?_
  · rw [← hSp]
    constructor
    · exact Conn.mono fun p hp => (sub.map _).subset hp
    · intro h
      refine h.le fun p hp => ?_
      obtain ⟨f, hf, rfl⟩ := List.mem_map.1 hp
      simpa using greedy_spans [] S f hf
  · have h0' : ∀ e ∈ S, 0 ≤ e.cost := fun e he => h0 e (hS.subset he)
    clear h5 hSp hS
    generalize greedy [] S = W at sub ⊢
    induction sub with
    | slnil => exact le_refl _
    | cons a _ ih =>
      rw [total_cons]
      exact (ih (fun e he => h0' e (List.mem_cons_of_mem _ he))).trans
        (le_add_of_nonneg_left (h0' a (List.mem_cons_self ..)))
    | cons_cons a _ ih =>
      rw [total_cons, total_cons]
      exact add_le_add_right (ih fun e he => h0' e (List.mem_cons_of_mem _ he)) _

end

/-- What is missing: the constructor tests an uninitialised member, so it may reject every input. -/
theorem mst_ctor_may_reject (es : List (Edge R)) : mstCtor 0 es = .argErr := rfl

/-- ... and the check it should make is not made: with no primitives it reads `prims[0]` of an empty array. -/
theorem mst_ctor_empty_unchecked : mstCtor (R := R) 1 [] = .fail := rfl

/-! ### Non-vacuity: a graph with a cycle, a parallel edge, a second component and negative node numbers -/

def exGraph : List (Edge Int) :=
  [⟨-3, 0, 1⟩, ⟨5, 6, 1⟩, ⟨0, 2, 2⟩, ⟨2, -3, 3⟩, ⟨2, 0, 3⟩, ⟨2, 2, 9⟩]

theorem exGraph_sorted : SortedCopy exGraph exGraph := ⟨.refl _, by simp [exGraph]⟩

example : mstCtor 7 exGraph = .tree [⟨-3, 0, 1⟩, ⟨5, 6, 1⟩, ⟨0, 2, 2⟩] := by rfl

end VW.Graph
