import Verif.Line.Model
import Mathlib.Tactic.Ring
import Mathlib.Tactic.Linarith
import Mathlib.Tactic.Zify
import Mathlib.Algebra.Order.Ring.Int
import Mathlib.Algebra.Order.Ring.Abs
/-
C31: tracing a line.
-/
namespace VW.Line

/-- Invariant after `k` increments, with `m` minor-axis steps. -/
structure LInv (b s : Bres) (k : Nat) (m : Int) : Prop where
  x0 : s.x0 = b.x0
  x1 : s.x1 = b.x1
  y0 : s.y0 = b.y0
  y1 : s.y1 = b.y1
  st : s.steep = b.steep
  dx : s.deltax = b.deltax
  dy : s.deltay = b.deltay
  ys : s.ystep = b.ystep
  x : s.x = b.x0 + k
  y : s.y = b.y0 + b.ystep * m
  err : s.error = b.deltax / 2 - k * b.deltay + m * b.deltax
  lo : 0 ≤ s.error
  hi : s.error < b.deltax

theorem LInv.step {b s : Bres} {k : Nat} {m : Int} (h : LInv b s k m) (hd0 : 0 ≤ b.deltay) (hd : b.deltay ≤ b.deltax) :
    ∃ m', LInv b s.next (k + 1) m' ∧ (m' = m ∨ m' = m + 1) := by
  have e := h.err; have e0 := h.lo; have e1 := h.hi
  unfold Bres.next
  by_cases hn : s.error - s.deltay < 0
  · refine ⟨m + 1, ?_, Or.inr rfl⟩
    have hdy := h.dy; have hdx := h.dx
    simp only [hn, if_true]
    refine ⟨h.x0, h.x1, h.y0, h.y1, h.st, h.dx, h.dy, h.ys, ?_, ?_, ?_, ?_, ?_⟩
    · simp only [h.x]; push_cast; ring
    · simp only [h.y, h.ys]; ring
    · simp only [h.err, hdy, hdx]; push_cast; ring
    · dsimp only; omega
    · dsimp only; omega
  · refine ⟨m, ?_, Or.inl rfl⟩
    have hdy := h.dy
    simp only [hn, if_false]
    refine ⟨h.x0, h.x1, h.y0, h.y1, h.st, h.dx, h.dy, h.ys, ?_, h.y, ?_, ?_, ?_⟩
    · simp only [h.x]; push_cast; ring
    · simp only [h.err, hdy]; push_cast; ring
    · dsimp only; omega
    · dsimp only; omega

/-- What `setup` establishes. -/
structure Setup (ax ay bx by' : Int) (b : Bres) : Prop where
  dx : b.deltax = b.x1 - b.x0
  dx0 : 0 ≤ b.deltax
  dy : b.deltay = |b.y1 - b.y0|
  le : b.deltay ≤ b.deltax
  step : b.ystep = if b.y0 < b.y1 then 1 else -1
  err : b.error = b.deltax / 2
  x : b.x = b.x0
  y : b.y = b.y0
  steep : b.steep = decide (|by' - ay| > |bx - ax|)
  ends : (b.steep = true ∧ ((b.y0 = ax ∧ b.x0 = ay ∧ b.y1 = bx ∧ b.x1 = by') ∨ (b.y0 = bx ∧ b.x0 = by' ∧ b.y1 = ax ∧ b.x1 = ay))) ∨
    (b.steep = false ∧ ((b.x0 = ax ∧ b.y0 = ay ∧ b.x1 = bx ∧ b.y1 = by') ∨ (b.x0 = bx ∧ b.y0 = by' ∧ b.x1 = ax ∧ b.y1 = ay)))

theorem iabs_eq (a : Int) : iabs a = |a| := by
  unfold iabs
  split
  · rw [abs_of_neg (by assumption)]
  · rw [abs_of_nonneg (by omega)]

theorem setup_ok (ax ay bx by' : Int) : Setup ax ay bx by' (Bres.mk' ax ay bx by') := by
  have key : ∀ p q r s : Int, |s - q| ≤ |r - p| →
      ∀ (st : Bool), let u := if p > r then (r, s, p, q) else (p, q, r, s)
      0 ≤ u.2.2.1 - u.1 ∧ |u.2.2.2 - u.2.1| ≤ u.2.2.1 - u.1 := by
    intro p q r s h _
    dsimp only
    split
    · dsimp only
      rw [abs_sub_comm q s]
      rcases abs_cases (r - p) with ⟨e, _⟩ | ⟨e, _⟩ <;> rw [e] at h <;> constructor <;> omega
    · dsimp only
      rcases abs_cases (r - p) with ⟨e, _⟩ | ⟨e, _⟩ <;> rw [e] at h <;> constructor <;> omega
  unfold Bres.mk'
  simp only [iabs_eq]
  by_cases hs : |by' - ay| > |bx - ax|
  · have k := key ay ax by' bx (le_of_lt hs) true
    simp only [hs, decide_true, if_true]
    dsimp only at k
    by_cases hx : ay > by'
    · simp only [hx, if_true] at k ⊢
      refine ⟨rfl, k.1, rfl, k.2, rfl, ?_, rfl, rfl, by simp [hs], Or.inl ⟨rfl, Or.inr ⟨rfl, rfl, rfl, rfl⟩⟩⟩
      exact Int.tdiv_eq_ediv_of_nonneg k.1
    · simp only [hx, if_false] at k ⊢
      refine ⟨rfl, k.1, rfl, k.2, rfl, ?_, rfl, rfl, by simp [hs], Or.inl ⟨rfl, Or.inl ⟨rfl, rfl, rfl, rfl⟩⟩⟩
      exact Int.tdiv_eq_ediv_of_nonneg k.1
  · have k := key ax ay bx by' (not_lt.1 hs) true
    simp only [hs, decide_false, Bool.false_eq_true, if_false]
    dsimp only at k
    by_cases hx : ax > bx
    · simp only [hx, if_true] at k ⊢
      refine ⟨rfl, k.1, rfl, k.2, rfl, ?_, rfl, rfl, by simp [hs], Or.inr ⟨rfl, Or.inr ⟨rfl, rfl, rfl, rfl⟩⟩⟩
      exact Int.tdiv_eq_ediv_of_nonneg k.1
    · simp only [hx, if_false] at k ⊢
      refine ⟨rfl, k.1, rfl, k.2, rfl, ?_, rfl, rfl, by simp [hs], Or.inr ⟨rfl, Or.inl ⟨rfl, rfl, rfl, rfl⟩⟩⟩
      exact Int.tdiv_eq_ediv_of_nonneg k.1

/-- The number of increments to the far end. -/
theorem Setup.deltax_eq {ax ay bx by' : Int} {b : Bres} (S : Setup ax ay bx by' b) :
    b.deltax = max |bx - ax| |by' - ay| := by
  have hst := S.steep
  have hdx := S.dx; have hdx0 := S.dx0
  rcases S.ends with ⟨h1, h2⟩ | ⟨h1, h2⟩
  · have hs := of_decide_eq_true (h1 ▸ hst).symm
    rw [max_eq_right (le_of_lt hs)]
    rcases h2 with ⟨e1, e2, e3, e4⟩ | ⟨e1, e2, e3, e4⟩
    · rw [abs_of_nonneg (by omega)]; omega
    · rw [abs_of_nonpos (by omega)]; omega
  · have hs := of_decide_eq_false (h1 ▸ hst).symm
    rw [max_eq_left (not_lt.1 hs)]
    rcases h2 with ⟨e1, e2, e3, e4⟩ | ⟨e1, e2, e3, e4⟩
    · rw [abs_of_nonneg (by omega)]; omega
    · rw [abs_of_nonpos (by omega)]; omega

theorem next_x (b : Bres) : b.next.x = b.x + 1 := by unfold Bres.next; dsimp only; split <;> rfl
theorem next_x1 (b : Bres) : b.next.x1 = b.x1 := by unfold Bres.next; dsimp only; split <;> rfl

section
variable {ax ay bx by' : Int} {b : Bres}

/-- After every number of increments of a line that is not a single point. -/
theorem inv_all (S : Setup ax ay bx by' b) (hpos : 0 < b.deltax) (k : Nat) :
    ∃ m, LInv b (Bres.next^[k] b) k m ∧
      (∃ m', LInv b (Bres.next^[k + 1] b) (k + 1) m' ∧ (m' = m ∨ m' = m + 1)) := by
  have hdy0 : 0 ≤ b.deltay := by rw [S.dy]; exact abs_nonneg _
  have base : LInv b b 0 0 := by
    refine ⟨rfl, rfl, rfl, rfl, rfl, rfl, rfl, rfl, ?_, ?_, ?_, ?_, ?_⟩
    · rw [S.x]; simp
    · rw [S.y]; simp
    · rw [S.err]; simp
    · rw [S.err]; omega
    · rw [S.err]; omega
  have all : ∀ k, ∃ m, LInv b (Bres.next^[k] b) k m := by
    intro k
    induction k with
    | zero => exact ⟨0, base⟩
    | succ k ih =>
      obtain ⟨m, hm⟩ := ih
      obtain ⟨m', h, _⟩ := hm.step hdy0 S.le
      rw [Function.iterate_succ_apply']
      exact ⟨m', h⟩
  obtain ⟨m, hm⟩ := all k
  obtain ⟨m', h, h'⟩ := hm.step hdy0 S.le
  refine ⟨m, hm, m', ?_, h'⟩
  rw [Function.iterate_succ_apply']
  exact h

/-- The minor offset is within half a step of the ideal one. -/
theorem LInv.close {s : Bres} {k : Nat} {m : Int} (h : LInv b s k m) : 2 * |m * b.deltax - k * b.deltay| ≤ b.deltax := by
  have e := h.err; have e0 := h.lo; have e1 := h.hi
  generalize m * b.deltax = u at *
  generalize (k : Int) * b.deltay = v at *
  rcases abs_cases (u - v) with ⟨q, _⟩ | ⟨q, _⟩ <;> rw [q] <;> omega

/-- `m` stays between 0 and deltay for `k` up to deltax. -/
theorem LInv.bounds {s : Bres} {k : Nat} {m : Int} (h : LInv b s k m) (hdx : 0 < b.deltax) (hdy : 0 ≤ b.deltay)
    (hk : (k : Int) ≤ b.deltax) : 0 ≤ m ∧ m ≤ b.deltay := by
  have c := h.close
  constructor
  · by_contra hm
    have h1 : m * b.deltax ≤ -1 * b.deltax := by nlinarith
    have h2 : 0 ≤ (k : Int) * b.deltay := by positivity
    rw [abs_of_neg (by linarith)] at c
    linarith
  · by_contra hm
    have h1 : (b.deltay + 1) * b.deltax ≤ m * b.deltax := by nlinarith
    have h2 : (k : Int) * b.deltay ≤ b.deltax * b.deltay := by nlinarith
    rw [abs_of_pos (by nlinarith)] at c
    nlinarith

theorem LInv.last {s : Bres} {k : Nat} {m : Int} (h : LInv b s k m) (hdx : 0 < b.deltax)
    (hk : (k : Int) = b.deltax) : m = b.deltay := by
  have c := h.close
  rw [hk, mul_comm b.deltax b.deltay, ← sub_mul, abs_mul, abs_of_pos hdx] at c
  have : |m - b.deltay| < 1 := by nlinarith [abs_nonneg (m - b.deltay)]
  have := Int.abs_lt_one_iff.1 this
  omega

end

/-! ### C31, in terms of the two end points -/

/-- The number of pixels visited is max(|dx|,|dy|): the iterator is good exactly for that many increments. -/
theorem visits_exactly (ax ay bx by' : Int) (k : Nat) :
    (Bres.mk' ax ay bx by').goodAt k = true ↔ (k : Int) < max |bx - ax| |by' - ay| := by
  have S := setup_ok ax ay bx by'
  have hx : ∀ k, (Bres.next^[k] (Bres.mk' ax ay bx by')).x = (Bres.mk' ax ay bx by').x0 + k ∧
      (Bres.next^[k] (Bres.mk' ax ay bx by')).x1 = (Bres.mk' ax ay bx by').x1 := by
    intro k
    induction k with
    | zero => exact ⟨by rw [Function.iterate_zero_apply, S.x]; simp, rfl⟩
    | succ k ih =>
      rw [Function.iterate_succ_apply']
      rw [next_x, next_x1, ih.1, ih.2]
      exact ⟨by push_cast; ring, rfl⟩
  unfold Bres.goodAt Bres.good
  rw [decide_eq_true_iff, (hx k).1, (hx k).2]
  have hd := S.dx
  rw [← S.deltax_eq]
  omega

/-- The first pixel is one of the end points, and one increment past the last pixel is the other one. -/
theorem starts_and_stops (ax ay bx by' : Int) :
    ((Bres.mk' ax ay bx by').at 0 = (ax, ay) ∧
      ∀ k : Nat, (k : Int) = max |bx - ax| |by' - ay| → (Bres.mk' ax ay bx by').at k = (bx, by')) ∨
    ((Bres.mk' ax ay bx by').at 0 = (bx, by') ∧
      ∀ k : Nat, (k : Int) = max |bx - ax| |by' - ay| → (Bres.mk' ax ay bx by').at k = (ax, ay)) := by
  have S := setup_ok ax ay bx by'
  generalize hb : Bres.mk' ax ay bx by' = b at *
  have hst := S.steep
  have hdx := S.dx; have hdx0 := S.dx0
  -- the far end in internal coordinates
  have far : ∀ k : Nat, (k : Int) = b.deltax → (Bres.next^[k] b).x = b.x1 ∧ (Bres.next^[k] b).y = b.y1 ∧
      (Bres.next^[k] b).steep = b.steep := by
    intro k hk
    by_cases hpos : 0 < b.deltax
    · obtain ⟨m, hm, _⟩ := inv_all S hpos k
      have hl := hm.last hpos hk
      refine ⟨by rw [hm.x]; omega, ?_, hm.st⟩
      rw [hm.y, hl, S.dy, S.step]
      split
      · rw [abs_of_pos (by omega)]; ring
      · rw [abs_of_nonpos (by omega)]; ring
    · have : k = 0 := by omega
      subst this
      have hle := S.le
      have : |b.y1 - b.y0| = 0 := le_antisymm (by rw [← S.dy]; omega) (abs_nonneg _)
      rw [abs_eq_zero] at this
      rw [Function.iterate_zero_apply]
      refine ⟨by rw [S.x]; omega, by rw [S.y]; omega, rfl⟩
  have hx := S.x; have hy := S.y
  rcases S.ends with ⟨h1, h2⟩ | ⟨h1, h2⟩
  · rcases h2 with ⟨e1, e2, e3, e4⟩ | ⟨e1, e2, e3, e4⟩
    · left
      refine ⟨by simp [Bres.at, Bres.pixel, h1, hx, hy, e1, e2], fun k hk => ?_⟩
      have := far k (by rw [hk, S.deltax_eq])
      simp [Bres.at, Bres.pixel, this.1, this.2.1, this.2.2, h1, e3, e4]
    · right
      refine ⟨by simp [Bres.at, Bres.pixel, h1, hx, hy, e1, e2], fun k hk => ?_⟩
      have := far k (by rw [hk, S.deltax_eq])
      simp [Bres.at, Bres.pixel, this.1, this.2.1, this.2.2, h1, e3, e4]
  · rcases h2 with ⟨e1, e2, e3, e4⟩ | ⟨e1, e2, e3, e4⟩
    · left
      refine ⟨by simp [Bres.at, Bres.pixel, h1, hx, hy, e1, e2], fun k hk => ?_⟩
      have := far k (by rw [hk, S.deltax_eq])
      simp [Bres.at, Bres.pixel, this.1, this.2.1, this.2.2, h1, e3, e4]
    · right
      refine ⟨by simp [Bres.at, Bres.pixel, h1, hx, hy, e1, e2], fun k hk => ?_⟩
      have := far k (by rw [hk, S.deltax_eq])
      simp [Bres.at, Bres.pixel, this.1, this.2.1, this.2.2, h1, e3, e4]

/-- Every pixel is within half a pixel of the ideal line, measured along the minor axis, and consecutive
pixels advance by one along the major axis and by at most one along the other. -/
theorem near_line (ax ay bx by' : Int) (k : Nat) (hk : (k : Int) < max |bx - ax| |by' - ay|) :
    let b := Bres.mk' ax ay bx by'
    (2 * |((b.at k).1 - ax) * (by' - ay) - ((b.at k).2 - ay) * (bx - ax)| ≤ max |bx - ax| |by' - ay|) ∧
    (if |by' - ay| > |bx - ax| then (b.at (k + 1)).2 = (b.at k).2 + 1 ∧ |(b.at (k + 1)).1 - (b.at k).1| ≤ 1
      else (b.at (k + 1)).1 = (b.at k).1 + 1 ∧ |(b.at (k + 1)).2 - (b.at k).2| ≤ 1) := by
  have S := setup_ok ax ay bx by'
  dsimp only
  generalize hb : Bres.mk' ax ay bx by' = b at *
  have hst := S.steep
  have hdx := S.dx; have hdx0 := S.dx0
  have step1 : b.ystep = 1 ∨ b.ystep = -1 := by rw [S.step]; split <;> simp
  have sy : b.ystep * b.deltay = b.y1 - b.y0 := by
    rw [S.dy, S.step]
    split
    · rw [abs_of_pos (by omega)]; ring
    · rw [abs_of_nonpos (by omega)]; ring
  have sabs : |b.ystep| = 1 := by rcases step1 with h | h <;> rw [h] <;> rfl
  -- distance in internal coordinates
  have dist : ∀ m : Int, |b.ystep * m * b.deltax - k * (b.y1 - b.y0)| = |m * b.deltax - k * b.deltay| := by
    intro m
    rw [← sy, show b.ystep * m * b.deltax - k * (b.ystep * b.deltay) = b.ystep * (m * b.deltax - k * b.deltay) by ring,
      abs_mul, sabs, one_mul]
  have minor : ∀ m m' : Int, (m' = m ∨ m' = m + 1) → |b.y0 + b.ystep * m' - (b.y0 + b.ystep * m)| ≤ 1 := by
    rintro m m' (rfl | rfl)
    · simp
    · rw [show b.y0 + b.ystep * (m + 1) - (b.y0 + b.ystep * m) = b.ystep by ring, sabs]
  rcases S.ends with ⟨h1, h2⟩ | ⟨h1, h2⟩
  · have hs := of_decide_eq_true (h1 ▸ hst).symm
    rw [max_eq_right (le_of_lt hs)] at hk ⊢
    rw [if_pos hs]
    have hD : b.deltax = |by' - ay| := by rw [S.deltax_eq, max_eq_right (le_of_lt hs)]
    obtain ⟨m, hm, m', hm', hor⟩ := inv_all S (by omega) k
    have p : b.at k = (b.y0 + b.ystep * m, b.x0 + k) := by simp [Bres.at, Bres.pixel, hm.st, h1, hm.x, hm.y]
    have p' : b.at (k + 1) = (b.y0 + b.ystep * m', b.x0 + ((k + 1 : Nat) : Int)) := by
      simp only [Bres.at, Bres.pixel, hm'.st, h1, hm'.x, hm'.y]; rfl
    refine ⟨?_, ?_, ?_⟩
    · rw [← hD]
      refine le_trans (le_of_eq ?_) hm.close
      rw [← dist m, hdx, p]
      dsimp only
      rcases h2 with ⟨e1, e2, e3, e4⟩ | ⟨e1, e2, e3, e4⟩ <;> rw [e1, e2, e3, e4]
      · congr 2; ring
      · rw [← abs_neg]; congr 2; ring
    · rw [p, p']; dsimp only; push_cast; ring
    · rw [p, p']; exact minor m m' hor
  · have hs := of_decide_eq_false (h1 ▸ hst).symm
    rw [max_eq_left (not_lt.1 hs)] at hk ⊢
    rw [if_neg hs]
    have hD : b.deltax = |bx - ax| := by rw [S.deltax_eq, max_eq_left (not_lt.1 hs)]
    obtain ⟨m, hm, m', hm', hor⟩ := inv_all S (by omega) k
    have p : b.at k = (b.x0 + k, b.y0 + b.ystep * m) := by simp [Bres.at, Bres.pixel, hm.st, h1, hm.x, hm.y]
    have p' : b.at (k + 1) = (b.x0 + ((k + 1 : Nat) : Int), b.y0 + b.ystep * m') := by
      simp only [Bres.at, Bres.pixel, hm'.st, h1, hm'.x, hm'.y]; rfl
    refine ⟨?_, ?_, ?_⟩
    · rw [← hD]
      refine le_trans (le_of_eq ?_) hm.close
      rw [← dist m, hdx, p]
      dsimp only
      rcases h2 with ⟨e1, e2, e3, e4⟩ | ⟨e1, e2, e3, e4⟩ <;> rw [e1, e2, e3, e4]
      · rw [← abs_neg]; congr 2; ring
      · congr 2; ring
    · rw [p, p']; dsimp only; push_cast; ring
    · rw [p, p']; exact minor m m' hor

/-- All pixels lie in the bounding box of the two end points. -/
theorem inside_box (ax ay bx by' : Int) (k : Nat) (hk : (k : Int) < max |bx - ax| |by' - ay|) :
    let p := (Bres.mk' ax ay bx by').at k
    min ax bx ≤ p.1 ∧ p.1 ≤ max ax bx ∧ min ay by' ≤ p.2 ∧ p.2 ≤ max ay by' := by
  have S := setup_ok ax ay bx by'
  dsimp only
  generalize hb : Bres.mk' ax ay bx by' = b at *
  have hst := S.steep
  have hdx := S.dx; have hdx0 := S.dx0
  have hdy0 : 0 ≤ b.deltay := by rw [S.dy]; exact abs_nonneg _
  have hD := S.deltax_eq
  rw [← hD] at hk
  obtain ⟨m, hm, _⟩ := inv_all S (by omega) k
  have ⟨m0, m1⟩ := hm.bounds (by omega) hdy0 (le_of_lt hk)
  have ybox : min b.y0 b.y1 ≤ b.y0 + b.ystep * m ∧ b.y0 + b.ystep * m ≤ max b.y0 b.y1 := by
    have hdy := S.dy
    rw [S.step]
    split
    · rw [abs_of_pos (by omega)] at hdy; omega
    · rw [abs_of_nonpos (by omega)] at hdy; omega
  rcases S.ends with ⟨h1, h2⟩ | ⟨h1, h2⟩
  · have p : b.at k = (b.y0 + b.ystep * m, b.x0 + k) := by simp [Bres.at, Bres.pixel, hm.st, h1, hm.x, hm.y]
    rw [p]; dsimp only
    generalize b.ystep * m = q at *
    rcases h2 with ⟨e1, e2, e3, e4⟩ | ⟨e1, e2, e3, e4⟩ <;> omega
  · have p : b.at k = (b.x0 + k, b.y0 + b.ystep * m) := by simp [Bres.at, Bres.pixel, hm.st, h1, hm.x, hm.y]
    rw [p]; dsimp only
    generalize b.ystep * m = q at *
    rcases h2 with ⟨e1, e2, e3, e4⟩ | ⟨e1, e2, e3, e4⟩ <;> omega

/-- The header says that the stop point is the point after the last pixel.  When the line runs towards
smaller coordinates along its major axis this is false: the trace starts at the stop point and the start
point is the one left out. -/
theorem reversed_line_drops_start :
    (Bres.mk' 3 0 0 0).at 0 = (0, 0) ∧ ∀ k, (Bres.mk' 3 0 0 0).goodAt k = true → (Bres.mk' 3 0 0 0).at k ≠ (3, 0) := by
  refine ⟨by decide, fun k hk => ?_⟩
  have := (visits_exactly 3 0 0 0 k).1 hk
  have h3 : max |(0 : Int) - 3| |(0 : Int) - 0| = 3 := by decide
  rw [h3] at this
  have hk' : k = 0 ∨ k = 1 ∨ k = 2 := by omega
  rcases hk' with rfl | rfl | rfl <;> decide

/-! ### Non-vacuity -/

example : ((List.range 5).map fun k => (Bres.mk' 0 0 5 2).at k) = [(0, 0), (1, 0), (2, 1), (3, 1), (4, 2)] := by decide
example : ((List.range 4).map fun k => (Bres.mk' 2 3 1 7).at k) = [(2, 3), (2, 4), (2, 5), (1, 6)] := by decide

end VW.Line
