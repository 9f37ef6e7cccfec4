import Mathlib.Algebra.Order.Field.Basic
import Mathlib.Tactic.Linarith
import Mathlib.Tactic.Ring
import Mathlib.Tactic.Abel
import Mathlib.Tactic.LinearCombination
import Mathlib.Algebra.BigOperators.Group.List.Basic
import Verif.Geom.Poly.Cut

/-
Specification for polygons: edges, segments, and the winding number of a closed polygon around a point, as the signed number
of crossings of a ray.  Theorem: the direction of the ray (up, left, down, right) does not matter.
-/

namespace Verif.Geom.Poly

variable {K : Type} [Field K] [LinearOrder K] [IsStrictOrderedRing K]

/-- The directed edges of a closed polygon. -/
def edges (l : List (Pt K)) : List (Pt K × Pt K) :=
  (List.range l.length).map fun i => (vert l i, vert l ((i + 1) % l.length))

/-- The point is on the segment. -/
def OnSeg (e : Pt K × Pt K) (p : Pt K) : Prop :=
  ∃ t : K, 0 ≤ t ∧ t ≤ 1 ∧ p = ((1 - t) * e.1.1 + t * e.2.1, (1 - t) * e.1.2 + t * e.2.2)

/-- The point is on no edge. -/
def Off (es : List (Pt K × Pt K)) (q : Pt K) : Prop := ∀ e ∈ es, ¬ OnSeg e q

/-- How an edge, relative to the origin, crosses the vertical ray upwards from the origin: `1` counterclockwise, that is from
right to left, `-1` clockwise, `0` not at all. -/
def up (a b : Pt K) : ℤ :=
  if a.1 ≤ 0 ∧ 0 < b.1 ∧ a.1 * b.2 - a.2 * b.1 < 0 then -1
  else if b.1 ≤ 0 ∧ 0 < a.1 ∧ 0 < a.1 * b.2 - a.2 * b.1 then 1
  else 0

/-- A quarter turn clockwise, `k` times: the ray `k` quarter turns counterclockwise from upwards becomes the upward one. -/
def turn : Nat → Pt K → Pt K
  | 0, p => p
  | k + 1, p => ((turn k p).2, -(turn k p).1)

/-- The position relative to `q`. -/
def rel (q p : Pt K) : Pt K := (p.1 - q.1, p.2 - q.2)

/-- The winding number of closed polygons with these edges around `q`, counted along the ray that is `k` quarter turns
counterclockwise from upwards. -/
def windRay (k : Nat) (q : Pt K) (es : List (Pt K × Pt K)) : ℤ :=
  (es.map fun e => up (turn k (rel q e.1)) (turn k (rel q e.2))).sum

/-- The winding number. -/
def wind (q : Pt K) (polys : List (List (Pt K))) : ℤ := windRay 0 q (polys.flatMap edges)

/-! ### The direction of the ray does not matter -/

/-- The quadrant between the ray up and the ray left. -/
def quad (p : Pt K) : ℤ := if p.1 ≤ 0 ∧ 0 < p.2 then 1 else 0

theorem seg_origin (a b : Pt K) (h1 : a.1 * b.2 - a.2 * b.1 = 0) (h2 : a.1 * b.1 ≤ 0) (h3 : a.2 * b.2 ≤ 0) : OnSeg (a, b) (0, 0) := by
  obtain ⟨a1, a2⟩ := a
  obtain ⟨b1, b2⟩ := b
  dsimp only at *
  by_cases h0 : a1 = b1 ∧ a2 = b2
  · obtain ⟨rfl, rfl⟩ := h0
    have e1 : a1 = 0 := by
      have := mul_self_nonneg a1
      exact mul_self_eq_zero.1 (le_antisymm h2 this)
    have e2 : a2 = 0 := by
      have := mul_self_nonneg a2
      exact mul_self_eq_zero.1 (le_antisymm h3 this)
    exact ⟨0, le_rfl, zero_le_one, by simp [e1, e2]⟩
  · have hd : 0 < (a1 - b1) * (a1 - b1) + (a2 - b2) * (a2 - b2) := by
      rcases not_and_or.1 h0 with h | h
      · have := mul_self_pos.2 (sub_ne_zero.2 h)
        have := mul_self_nonneg (a2 - b2)
        linarith
      · have := mul_self_pos.2 (sub_ne_zero.2 h)
        have := mul_self_nonneg (a1 - b1)
        linarith
    set D := (a1 - b1) * (a1 - b1) + (a2 - b2) * (a2 - b2) with hD
    refine ⟨(a1 * (a1 - b1) + a2 * (a2 - b2)) / D, ?_, ?_, ?_⟩
    · refine div_nonneg ?_ hd.le
      nlinarith [mul_self_nonneg a1, mul_self_nonneg a2]
    · rw [div_le_one hd]
      nlinarith [mul_self_nonneg b1, mul_self_nonneg b2]
    · have e : ∀ T, (1 - T / D) = (D - T) / D := fun T => by rw [sub_div, div_self hd.ne']
      rw [e]
      refine Prod.ext ?_ ?_
      · dsimp only
        rw [eq_comm, div_mul_eq_mul_div, div_mul_eq_mul_div, ← add_div, div_eq_zero_iff]
        left
        rw [hD]
        linear_combination (b2 - a2) * h1
      · dsimp only
        rw [eq_comm, div_mul_eq_mul_div, div_mul_eq_mul_div, ← add_div, div_eq_zero_iff]
        left
        rw [hD]
        linear_combination (a1 - b1) * h1

theorem up_turn (a b : Pt K) (h : ¬ OnSeg (a, b) (0, 0)) : up a b - up (turn 1 a) (turn 1 b) = quad b - quad a := by
  have hseg := seg_origin a b
  obtain ⟨a1, a2⟩ := a
  obtain ⟨b1, b2⟩ := b
  have hc : a1 * b2 - a2 * b1 = 0 → a1 * b1 ≤ 0 → a2 * b2 ≤ 0 → False := fun h1 h2 h3 => h (hseg h1 h2 h3)
  clear hseg h
  have ec : a2 * -b1 - -a1 * b2 = a1 * b2 - a2 * b1 := by ring
  unfold up quad turn turn
  dsimp only
  rw [ec]
  generalize hC : a1 * b2 - a2 * b1 = C at hc
  rcases le_or_gt a1 0 with ha1 | ha1 <;> rcases le_or_gt a2 0 with ha2 | ha2 <;> rcases le_or_gt b1 0 with hb1 | hb1 <;>
    rcases le_or_gt b2 0 with hb2 | hb2 <;> rcases lt_trichotomy C 0 with hC0 | hC0 | hC0 <;>
    simp only [ha1, ha2, hb1, hb2, hC0, not_le.2, not_lt.2, if_true, if_false, and_self, and_true, true_and, and_false, false_and,
      lt_irrefl, lt_asymm, hC0.not_gt] <;> first
    | rfl
    | (exfalso; nlinarith)
    | (exfalso; exact hc hC0 (by nlinarith) (by nlinarith))
    | (exfalso
       have e1 : a1 * b2 = 0 := le_antisymm (by nlinarith) (by nlinarith)
       rcases mul_eq_zero.1 e1 with e | e
       · exact hc hC0 (by rw [e, zero_mul]) (by nlinarith)
       · linarith)
    | (exfalso
       have e1 : a2 * b1 = 0 := le_antisymm (by nlinarith) (by nlinarith)
       rcases mul_eq_zero.1 e1 with e | e
       · linarith
       · exact hc hC0 (by rw [e, mul_zero]) (by nlinarith))

/-- Going once around a cycle. -/
theorem range_rot (n : Nat) : ((List.range n).map fun i => (i + 1) % n).Perm (List.range n) := by
  cases n with
  | zero => simp
  | succ m =>
    have e : (List.range (m + 1)).map (fun i => (i + 1) % (m + 1)) = (List.range m).map (· + 1) ++ [0] := by
      rw [List.range_succ, List.map_append]
      congr 1
      · refine List.map_congr_left fun i hi => ?_
        have := List.mem_range.1 hi
        exact Nat.mod_eq_of_lt (by omega)
      · simp
    rw [e, List.range_succ_eq_map]
    exact (List.perm_append_comm).trans (by simp)

theorem map_rot {α : Type} (n : Nat) (f : Nat → α) : ((List.range n).map fun i => f ((i + 1) % n)).Perm ((List.range n).map f) := by
  have := (range_rot n).map f
  rwa [List.map_map] at this

theorem sum_closed {A : Type} [AddCommGroup A] (l : List (Pt K)) (f : Pt K → A) : ((edges l).map fun e => f e.2 - f e.1).sum = 0 := by
  unfold edges
  rw [List.map_map]
  have h : ∀ (L : List Nat) (u v : Nat → A), (L.map fun i => u i - v i).sum = (L.map u).sum - (L.map v).sum := by
    intro L u v
    induction L with
    | nil => simp
    | cons a t ih => simp only [List.map_cons, List.sum_cons, ih]; abel
  have e := h (List.range l.length) (fun i => f (vert l ((i + 1) % l.length))) (fun i => f (vert l i))
  refine Eq.trans ?_ (e.trans ?_)
  · rfl
  · rw [(map_rot l.length fun i => f (vert l i)).sum_eq, sub_self]

theorem turn_inj (k : Nat) (p r : Pt K) (h : turn k p = turn k r) : p = r := by
  induction k with
  | zero => exact h
  | succ k ih =>
    refine ih (Prod.ext ?_ ?_)
    · have := congrArg Prod.snd h
      exact neg_injective this
    · exact congrArg Prod.fst h

theorem turn_add (k : Nat) (p : Pt K) : turn (k + 1) p = turn 1 (turn k p) := rfl

/-- Turning and translating keep points on a segment. -/
theorem onSeg_turn (k : Nat) (q : Pt K) (e : Pt K × Pt K) : OnSeg (turn k (rel q e.1), turn k (rel q e.2)) (0, 0) → OnSeg e q := by
  rintro ⟨t, h0, h1, h⟩
  refine ⟨t, h0, h1, ?_⟩
  induction k with
  | zero =>
    have e1 := congrArg Prod.fst h
    have e2 := congrArg Prod.snd h
    simp only [turn, rel] at e1 e2
    exact Prod.ext (by linear_combination e1) (by linear_combination e2)
  | succ k ih =>
    apply ih
    have e1 := congrArg Prod.fst h
    have e2 := congrArg Prod.snd h
    simp only [turn] at e1 e2
    exact Prod.ext (by dsimp only; linear_combination -e2) (by dsimp only; linear_combination e1)

theorem windRay_append (k : Nat) (q : Pt K) (a b : List (Pt K × Pt K)) : windRay k q (a ++ b) = windRay k q a + windRay k q b := by
  simp [windRay]

theorem windRay_perm (k : Nat) (q : Pt K) {a b : List (Pt K × Pt K)} (h : a.Perm b) : windRay k q a = windRay k q b :=
  (h.map _).sum_eq

theorem windRay_succ (k : Nat) (q : Pt K) (l : List (Pt K)) (h : Off (edges l) q) :
    windRay k q (edges l) = windRay (k + 1) q (edges l) := by
  have h1 : ∀ es : List (Pt K × Pt K), (∀ e ∈ es, ¬ OnSeg e q) → windRay k q es - windRay (k + 1) q es
      = (es.map fun e => quad (turn k (rel q e.2)) - quad (turn k (rel q e.1))).sum := by
    intro es
    induction es with
    | nil => intro _; rfl
    | cons e t ih =>
      intro he
      have h2 := ih fun x hx => he x (List.mem_cons_of_mem _ hx)
      have h3 := up_turn (turn k (rel q e.1)) (turn k (rel q e.2)) fun hs => he e (List.mem_cons_self ..) (onSeg_turn k q e hs)
      simp only [windRay, List.map_cons, List.sum_cons] at *
      have e1 : up (turn (k + 1) (rel q e.1)) (turn (k + 1) (rel q e.2))
        = up (turn 1 (turn k (rel q e.1))) (turn 1 (turn k (rel q e.2))) := rfl
      rw [← h2, ← h3, e1]
      omega
  have h2 := h1 (edges l) h
  have h3 := sum_closed l fun p => quad (turn k (rel q p))
  rw [h3] at h2
  omega

/-- For a point on no edge, the direction of the ray does not matter. -/
theorem windRay_eq (k : Nat) (q : Pt K) (polys : List (List (Pt K))) (h : Off (polys.flatMap edges) q) :
    windRay k q (polys.flatMap edges) = wind q polys := by
  unfold wind
  induction polys with
  | nil => rfl
  | cons l t ih =>
    rw [List.flatMap_cons, windRay_append, windRay_append]
    rw [List.flatMap_cons] at h
    rw [ih fun e he => h e (List.mem_append_right _ he)]
    congr 1
    have h1 : Off (edges l) q := fun e he => h e (List.mem_append_left _ he)
    clear ih h
    induction k with
    | zero => rfl
    | succ k ih => rw [← windRay_succ k q l h1, ih]

end Verif.Geom.Poly
