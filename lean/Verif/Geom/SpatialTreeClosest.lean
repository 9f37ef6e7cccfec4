/-
Properties of vw::geometry::SpatialTree::closest, with the heuristic of the code, over the real numbers.
-/
import Verif.Geom.SpatialTreeProps
import Mathlib.Analysis.InnerProductSpace.PiL2

set_option linter.unusedSectionVars false

namespace VW.SpatialTree

variable {n : Nat} {P : Type}

/-- `norm_2`, Math/Vector.h:1296-1300. -/
noncomputable def norm2 (v : Fin n → ℝ) : ℝ := Real.sqrt (∑ i, v i ^ 2)

/-- `point_to_bbox_distance_heuristic`, SpatialTree.cc:477-486. `eps` is the machine epsilon. The difference of a point and
the center of an empty box, which has no components, throws. -/
noncomputable def heuristic (eps : ℝ) (pt : Fin n → ℝ) (b : Box ℝ n) : Option ℝ :=
  if b.containsPt pt then some 0
  else b.center.map fun c => Max.max (norm2 (fun i => pt i - c i) - norm2 (fun i => b.size i) / 2) eps

theorem norm2_eq (v : Fin n → ℝ) : norm2 v = ‖(WithLp.toLp 2 v : EuclideanSpace ℝ (Fin n))‖ := by
  rw [EuclideanSpace.norm_eq]
  unfold norm2
  congr 1
  refine Finset.sum_congr rfl fun i _ => ?_
  simp

/-- The Euclidean distance. -/
noncomputable def euclid (x y : Fin n → ℝ) : ℝ := norm2 fun i => x i - y i

theorem euclid_triangle (x y z : Fin n → ℝ) : euclid x z ≤ euclid x y + euclid y z := by
  unfold euclid
  rw [norm2_eq, norm2_eq, norm2_eq]
  have : (WithLp.toLp 2 (fun i => x i - z i) : EuclideanSpace ℝ (Fin n)) =
      WithLp.toLp 2 (fun i => x i - y i) + WithLp.toLp 2 (fun i => y i - z i) := by
    ext i
    simp
  rw [this]
  exact norm_add_le _ _

theorem heuristic_le (eps : ℝ) (pt : Fin n → ℝ) (b : Box ℝ n) (d : ℝ) (h : heuristic eps pt b = some d) (dist : ℝ)
    (h0 : 0 ≤ dist) (x : Fin n → ℝ) (hx : ∀ i, b.min i ≤ x i ∧ x i ≤ b.max i) (hd : euclid pt x ≤ dist)
    (heps : b.containsPt pt = false → eps ≤ dist) : d ≤ dist := by
  unfold heuristic at h
  cases hc : b.containsPt pt with
  | true =>
    rw [if_pos hc, Option.some.injEq] at h
    rw [← h]; exact h0
  | false =>
    rw [if_neg (by rw [hc]; simp)] at h
    obtain ⟨c, hcen, rfl⟩ := Option.map_eq_some_iff.1 h
    unfold Box.center at hcen
    split at hcen
    · cases hcen
    · rw [Option.some.injEq] at hcen
      subst hcen
      refine max_le ?_ (heps hc)
      have h1 := euclid_triangle pt x fun i => (b.min i + b.max i) / 2
      have h2 : euclid x (fun i => (b.min i + b.max i) / 2) ≤ norm2 (fun i => b.size i) / 2 := by
        unfold euclid norm2
        rw [show (Real.sqrt (∑ i, b.size i ^ 2)) / 2 = Real.sqrt (∑ i, (b.size i / 2) ^ 2) by
          rw [show (∑ i, (b.size i / 2) ^ 2) = (∑ i, b.size i ^ 2) / 2 ^ 2 by
            rw [Finset.sum_div]
            exact Finset.sum_congr rfl fun i _ => by ring]
          rw [Real.sqrt_div' _ (by positivity), Real.sqrt_sq (by norm_num)]]
        refine Real.sqrt_le_sqrt (Finset.sum_le_sum fun i _ => ?_)
        have := hx i
        unfold Box.size
        refine sq_le_sq' ?_ ?_ <;> linarith
      unfold euclid at h1 hd
      have h3 : norm2 (fun i => pt i - (b.min i + b.max i) / 2) ≤ dist + norm2 (fun i => b.size i) / 2 := by
        unfold euclid at h2
        linarith
      linarith

/-- `closest` returns a primitive of the least distance if there is one within the threshold (any, for a negative
threshold), and null otherwise. A primitive is at least as far away as some point of its box, and not closer than the
machine epsilon if the point asked for is not in its box; boxes have an inside. -/
theorem closest_correct {start : ℝ → Nat} {bx : P → Box ℝ n} {root : Node ℝ n P} {l : List P}
    (h : History start bx root l) (pop) (hpop : PopMax (K := ℝ) (n := n) (P := P) pop) (eps : ℝ) (pt : Fin n → ℝ)
    (distance : P → ℝ) (thr : ℝ) (hn : n ≠ 0) (hb : ∀ p d, (bx p).min d < (bx p).max d)
    (hdist : ∀ p, 0 ≤ distance p ∧ ∃ x, (∀ i, (bx p).min i ≤ x i ∧ x i ≤ (bx p).max i) ∧ euclid pt x ≤ distance p)
    (heps : ∀ p, ¬ PointIn (bx p) pt → eps ≤ distance p) :
    (∃ p, closest bx (heuristic eps pt) distance pop root thr = some (some p, distance p) ∧ p ∈ l ∧
        (thr < 0 ∨ distance p ≤ thr) ∧ ∀ p' ∈ l, distance p ≤ distance p') ∨
      (closest bx (heuristic eps pt) distance pop root thr = some (none, -1) ∧
        ∀ p ∈ l, 0 ≤ thr ∧ thr < distance p) := by
  obtain ⟨hw, hp⟩ := h.spec
  obtain ⟨⟨r, d⟩, e1, e2⟩ := closest_wf distance thr bx (heuristic eps pt) pop hpop root hw (fun p _ => (hdist p).1)
    (by
      intro b p d hbp hd
      obtain ⟨h0, x, hx, hxd⟩ := hdist p
      refine heuristic_le eps pt b d hd _ h0 x (fun i => ?_) hxd fun hc => heps p fun hpi => ?_
      · obtain ⟨_, c1, c2⟩ := (containsBox_iff _ _).1 hbp
        exact ⟨(c1 i).trans (hx i).1, (hx i).2.trans (c2 i)⟩
      · rw [containsPt_mono hbp ((pointIn_iff _ _).2 hpi)] at hc
        cases hc)
    (by
      intro b hbe
      unfold heuristic Box.center
      rw [hbe]
      split
      · exact ⟨_, rfl⟩
      · exact ⟨_, rfl⟩)
    (fun p _ => (nonempty_iff _).2 ⟨hn, hb p⟩)
  cases r with
  | some p =>
    simp only at e2
    obtain ⟨f1, rfl, f3, f4⟩ := e2
    exact Or.inl ⟨p, e1, hp.mem_iff.1 f1, f3, fun p' hp' => f4 p' (hp.mem_iff.2 hp')⟩
  | none =>
    simp only at e2
    obtain ⟨rfl, f2⟩ := e2
    exact Or.inr ⟨e1, fun p hp' => f2 p (hp.mem_iff.2 hp')⟩

/-- A `pop` as specified exists. -/
noncomputable def maxPop (q : List (State ℝ n P)) : Option (State ℝ n P × List (State ℝ n P)) :=
  match q with
  | [] => none
  | s :: q => match maxPop q with
    | none => some (s, [])
    | some (m, r) => if m.prio ≤ s.prio then some (s, m :: r) else some (m, s :: r)

theorem maxPop_spec : PopMax (K := ℝ) (n := n) (P := P) maxPop := by
  have key : ∀ q : List (State ℝ n P), (q = [] → maxPop q = none) ∧ (q ≠ [] → ∃ s q', maxPop q = some (s, q')) ∧
      ∀ s q', maxPop q = some (s, q') → q.Perm (s :: q') ∧ ∀ s' ∈ q', s'.prio ≤ s.prio := by
    intro q
    induction q with
    | nil => exact ⟨fun _ => rfl, fun h => absurd rfl h, fun s q' h => by simp [maxPop] at h⟩
    | cons s q ih =>
      obtain ⟨i1, i2, i3⟩ := ih
      refine ⟨fun h => (by cases h), fun _ => ?_, fun t q' h => ?_⟩
      · unfold maxPop
        cases hm : maxPop q with
        | none => exact ⟨_, _, rfl⟩
        | some mr => simp only; split <;> exact ⟨_, _, rfl⟩
      · unfold maxPop at h
        cases hm : maxPop q with
        | none =>
          rw [hm] at h
          simp only [Option.some.injEq, Prod.mk.injEq] at h
          obtain ⟨rfl, rfl⟩ := h
          have : q = [] := by
            by_contra hq
            obtain ⟨a, b, hab⟩ := i2 hq
            rw [hm] at hab; cases hab
          subst this
          exact ⟨List.Perm.refl _, fun s' hs' => by cases hs'⟩
        | some mr =>
          obtain ⟨m, r⟩ := mr
          rw [hm] at h
          simp only at h
          obtain ⟨p1, p2⟩ := i3 m r hm
          split at h
          · rename_i hle
            simp only [Option.some.injEq, Prod.mk.injEq] at h
            obtain ⟨rfl, rfl⟩ := h
            refine ⟨p1.cons _, fun s' hs' => ?_⟩
            rcases List.mem_cons.1 hs' with rfl | hs'
            · exact hle
            · exact (p2 s' hs').trans hle
          · rename_i hle
            simp only [Option.some.injEq, Prod.mk.injEq] at h
            obtain ⟨rfl, rfl⟩ := h
            refine ⟨(p1.cons s).trans (List.Perm.swap _ _ _), fun s' hs' => ?_⟩
            rcases List.mem_cons.1 hs' with rfl | hs'
            · exact (lt_of_not_ge hle).le
            · exact p2 s' hs'
  exact ⟨(key []).1 rfl, fun q => (key q).2.1, fun q s q' h => ((key q).2.2 s q' h).1, fun q s q' h => ((key q).2.2 s q' h).2⟩

/-- What `closest` does in a tree of one node that holds one primitive. -/
theorem closest_single (bx : P → Box ℝ n) (heur : Box ℝ n → Option ℝ) (distance : P → ℝ) (pop)
    (hpop : PopMax (K := ℝ) (n := n) (P := P) pop) (b : Box ℝ n) (p : P) (f : Bool) (thr : ℝ) (hthr : 0 ≤ thr) :
    closest bx heur distance pop (.leaf b [⟨p, f⟩]) thr = (heur (bx p)).map fun d =>
      if d ≤ thr ∧ distance p ≤ thr then (some p, distance p) else (none, -1) := by
  have h1 : ∀ s : State ℝ n P, pop [s] = some (s, []) := by
    intro s
    obtain ⟨t, q', h⟩ := hpop.some [s] (by simp)
    have := hpop.perm _ _ _ h
    have := List.perm_singleton.1 this.symm
    simp only [List.cons.injEq] at this
    obtain ⟨rfl, rfl⟩ := this
    exact h
  unfold closest
  rw [loop, h1]
  have hneg : ¬ thr < 0 := by linarith
  simp only [closestF, rootState, Closest.test, neg_zero, hthr, decide_true, Bool.or_true, Option.isNone_none, Bool.true_or,
    Bool.and_self, if_true, bind, Option.bind_some, Bool.not_true, Bool.false_eq_true, if_false, applyCurrent, Node.list,
    applyList, applyChildren]
  cases hh : heur (bx p) with
  | none => rfl
  | some d =>
    simp only [Option.map_some, Option.bind_some, hneg, decide_false, Bool.false_or, Bool.and_true,
      decide_eq_true_eq]
    by_cases hd : d ≤ thr
    · by_cases hd2 : distance p ≤ thr
      · simp only [hd, hd2, if_true, and_self]
        rw [Option.bind_some, if_pos rfl, loop, hpop.empty]
        simp
      · simp only [hd, hd2, if_true, if_false, and_false]
        rw [Option.bind_some, if_pos rfl, loop, hpop.empty]
        simp
    · simp only [hd, if_false, false_and]
      rw [if_pos trivial, Option.bind_some, if_pos rfl, loop, hpop.empty]
      simp

/-- A primitive within the threshold is not found if the point is on an upper face of its box and the threshold is less
than the machine epsilon, for example 0. -/
theorem closest_misses (bx : P → Box ℝ n) (pop) (hpop : PopMax (K := ℝ) (n := n) (P := P) pop) (eps : ℝ) (b : Box ℝ n)
    (p : P) (f : Bool) (pt : Fin n → ℝ) (i : Fin n) (hpt : (bx p).max i ≤ pt i) (hb : ∀ d, (bx p).min d < (bx p).max d)
    (distance : P → ℝ) (thr : ℝ) (h0 : 0 ≤ thr) (hthr : thr < eps) :
    closest bx (heuristic eps pt) distance pop (.leaf b [⟨p, f⟩]) thr = some (none, -1) := by
  rw [closest_single bx _ distance pop hpop b p f thr h0]
  have hc : (bx p).containsPt pt = false := by
    cases hx : (bx p).containsPt pt with
    | false => rfl
    | true =>
      have := ((containsPt_iff _ _).1 hx).2.2 i
      linarith
  have hbe : (bx p).empty = false := (nonempty_iff _).2 ⟨by rintro rfl; exact i.elim0, hb⟩
  unfold heuristic Box.center
  rw [hc, hbe]
  simp only [Bool.false_eq_true, if_false, Option.map_some]
  rw [if_neg]
  rintro ⟨h1, _⟩
  have := (le_max_right _ _).trans h1
  linarith

/-- It throws for a primitive whose box has no inside. -/
theorem closest_flat_throws (bx : P → Box ℝ n) (pop) (hpop : PopMax (K := ℝ) (n := n) (P := P) pop) (eps : ℝ) (b : Box ℝ n)
    (p : P) (f : Bool) (pt : Fin n → ℝ) (i : Fin n) (hb : (bx p).max i ≤ (bx p).min i) (distance : P → ℝ) (thr : ℝ)
    (h0 : 0 ≤ thr) : closest bx (heuristic eps pt) distance pop (.leaf b [⟨p, f⟩]) thr = none := by
  rw [closest_single bx _ distance pop hpop b p f thr h0]
  have hc : (bx p).containsPt pt = false := by
    cases hx : (bx p).containsPt pt with
    | false => rfl
    | true =>
      have h1 := ((containsPt_iff _ _).1 hx).2.2 i
      have h2 := ((containsPt_iff _ _).1 hx).2.1 i
      linarith
  have hbe : (bx p).empty = true := by
    unfold Box.empty
    simp only [ge_iff_le, Bool.or_eq_true, decide_eq_true_eq]
    exact Or.inl ⟨i, hb⟩
  unfold heuristic Box.center
  rw [hc, hbe]
  simp

/-! ### Examples -/

/-- One interval from 0 to 1, and the point 1, which is at distance 0. -/
example : closest (fun _ : Unit => (⟨fun _ => 0, fun _ => 1⟩ : Box ℝ 1)) (heuristic (1 / 2 ^ 52) fun _ => 1) (fun _ => 0)
    maxPop (.leaf ⟨fun _ => 0, fun _ => 1⟩ [⟨(), false⟩]) 0 = some (none, -1) :=
  closest_misses _ maxPop maxPop_spec _ _ () false _ 0 (by norm_num) (fun _ => by norm_num) _ 0 (le_refl _) (by norm_num)

/-- The point 3 and the intervals from 0 to 1 and from 1 to 2. -/
example (start : ℝ → Nat) {root : Node ℝ 1 Bool}
    (h : History start (fun p => (⟨fun _ => if p then 1 else 0, fun _ => if p then 2 else 1⟩ : Box ℝ 1)) root [true, false]) :
    closest (fun p => (⟨fun _ => if p then 1 else 0, fun _ => if p then 2 else 1⟩ : Box ℝ 1))
      (heuristic (1 / 2 ^ 52) fun _ => 3) (fun p => if p then 1 else 2) maxPop root (-1) = some (some true, 1) := by
  rcases closest_correct h maxPop maxPop_spec (1 / 2 ^ 52) (fun _ => 3) (fun p => if p then 1 else 2) (-1) (by omega)
    (by intro p d; cases p <;> norm_num)
    (by
      intro p
      refine ⟨by cases p <;> norm_num, fun _ => if p then 2 else 1, fun i => by cases p <;> norm_num, ?_⟩
      unfold euclid norm2
      rw [Real.sqrt_le_left (by cases p <;> norm_num)]
      cases p <;> simp <;> norm_num)
    (by intro p _; cases p <;> norm_num) with ⟨p, e1, _, _, e4⟩ | ⟨_, e2⟩
  · rw [e1]
    have := e4 true (by simp)
    cases p
    · norm_num at this
    · simp
  · have := (e2 true (by simp)).1
    norm_num at this

end VW.SpatialTree
