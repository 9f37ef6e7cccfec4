import Verif.Opt.Descent
import Mathlib.Tactic.Linarith
import Mathlib.Tactic.Ring
import Mathlib.Tactic.NormNum
import Mathlib.Algebra.Order.Ring.Rat
import Mathlib.Algebra.BigOperators.Fin
import Mathlib.Algebra.Order.BigOperators.Ring.Finset

/-
C88: steepest descent and conjugate gradients.
-/

namespace Verif.Opt

set_option linter.unusedSectionVars false

variable {n : Type} [Fintype n] {K : Type} [Field K] [LinearOrder K] [IsStrictOrderedRing K]

/-! ## The Armijo rule -/

/-- The step of length `s` decreases the value enough: by a fraction `sigma` of what the slope promises. -/
def Enough (F : Func n K) (sigma : K) (pos grad dir : n → K) (s : K) : Prop :=
  F.val (pos + s • dir) - F.val pos ≤ sigma * s * (grad ⬝ᵥ dir)

/-- **C88.** The step taken is the first of the lengths `step0 beta^j` that decreases the value enough; after 1001 that do
not, the next is taken anyway. -/
theorem armijo_spec (F : Func n K) (step0 beta sigma : K) (pos grad dir : n → K) :
    ∃ j ≤ 1001, armijo step0 beta sigma F pos (F.val pos) grad dir = pos + (step0 * beta ^ j) • dir ∧
      (∀ i < j, ¬ Enough F sigma pos grad dir (step0 * beta ^ i)) ∧
      (j < 1001 → Enough F sigma pos grad dir (step0 * beta ^ j)) := by
  have key : ∀ (k : Nat) (i : Nat) (st th : K), st = step0 * beta ^ i → th = sigma * st * (grad ⬝ᵥ dir) →
      ∃ j, i ≤ j ∧ j ≤ i + k ∧ armijoLoop F beta pos dir (F.val pos) k st th = pos + (step0 * beta ^ j) • dir ∧
        (∀ m, i ≤ m → m < j → ¬ Enough F sigma pos grad dir (step0 * beta ^ m)) ∧
        (j < i + k → Enough F sigma pos grad dir (step0 * beta ^ j)) := by
    intro k
    induction k with
    | zero =>
      intro i st th hs ht
      exact ⟨i, le_rfl, le_rfl, by rw [← hs]; rfl, fun m h1 h2 => absurd h2 (by omega), fun h => absurd h (by omega)⟩
    | succ k ih =>
      intro i st th hs ht
      unfold armijoLoop
      by_cases h : F.val (pos + st • dir) - F.val pos ≤ th
      · simp only [h, if_true]
        refine ⟨i, le_rfl, by omega, by rw [← hs], fun m h1 h2 => absurd h2 (by omega), fun _ => ?_⟩
        unfold Enough
        rw [← hs, ← ht]; exact h
      · simp only [h, if_false]
        obtain ⟨j, h1, h2, h3, h4, h5⟩ := ih (i + 1) (st * beta) (th * beta) (by rw [hs, pow_succ]; ring) (by rw [ht]; ring)
        refine ⟨j, by omega, by omega, h3, fun m hm hmj => ?_, fun hj => h5 (by omega)⟩
        rcases Nat.eq_or_lt_of_le hm with e | e
        · subst e
          unfold Enough
          rw [← hs, ← ht]; exact h
        · exact h4 m e hmj
  obtain ⟨j, h1, h2, h3, h4, h5⟩ := key 1001 0 step0 (sigma * step0 * (grad ⬝ᵥ dir)) (by simp) rfl
  exact ⟨j, by omega, h3, fun i hi => h4 i (by omega) hi, fun hj => h5 (by omega)⟩

/-- **C88.** Along a direction that does not go up, the value does not increase, unless 1001 lengths were tried in vain. -/
theorem armijo_descends (F : Func n K) (step0 beta sigma : K) (hs : 0 ≤ step0) (hb : 0 ≤ beta) (hg : 0 ≤ sigma)
    (pos grad dir : n → K) (hd : grad ⬝ᵥ dir ≤ 0)
    (hok : ∃ j ≤ 1000, Enough F sigma pos grad dir (step0 * beta ^ j)) :
    F.val (armijo step0 beta sigma F pos (F.val pos) grad dir) ≤ F.val pos := by
  obtain ⟨j, h1, h2, h3, h4⟩ := armijo_spec F step0 beta sigma pos grad dir
  obtain ⟨i, hi, hi'⟩ := hok
  have hji : j ≤ i := by
    by_contra hc
    exact h3 i (by omega) hi'
  have h := h4 (by omega)
  unfold Enough at h
  rw [h2]
  have : sigma * (step0 * beta ^ j) * (grad ⬝ᵥ dir) ≤ 0 :=
    mul_nonpos_of_nonneg_of_nonpos (mul_nonneg hg (mul_nonneg hs (pow_nonneg hb j))) hd
  linarith

/-! ## The Charalambous rule -/

/-- **C88.** Whenever the rule ends, the value has decreased by at least `mu` times what the slope promises and the slope
has become flat to within a factor `sigma` (the strong Wolfe conditions), at some step length. -/
theorem charalambous_wolfe (F : Func n K) (root : K → K) (step0 mu sigma gamma : K) (fuel : Nat) (pos grad dir r : n → K)
    (h : charalambous root step0 mu sigma gamma fuel F pos (F.val pos) grad dir = some r) :
    ∃ s, r = pos + s • dir ∧ F.val r ≤ F.val pos + mu * s * (grad ⬝ᵥ dir) ∧
      |F.grad r ⬝ᵥ dir| ≤ sigma * -(grad ⬝ᵥ dir) := by
  unfold charalambous at h
  generalize (⟨step0, 0, F.val pos, grad ⬝ᵥ dir⟩ : ChState K) = st at h
  induction fuel generalizing st with
  | zero => cases h
  | succ k ih =>
    unfold charalambousLoop at h
    simp only at h
    by_cases h1 : F.val (pos + (st.curStep + st.stepdelta) • dir) ≤ F.val pos + mu * (st.curStep + st.stepdelta) * (grad ⬝ᵥ dir) ∧
        |F.grad (pos + (st.curStep + st.stepdelta) • dir) ⬝ᵥ dir| ≤ -sigma * (grad ⬝ᵥ dir)
    · rw [if_pos h1] at h
      cases h
      exact ⟨_, rfl, h1.1, by rw [mul_neg, ← neg_mul]; exact h1.2⟩
    · rw [if_neg h1] at h
      by_cases h2 : F.grad (pos + (st.curStep + st.stepdelta) • dir) ⬝ᵥ dir ≤ 0
      · rw [if_pos h2] at h
        by_cases h3 : F.val pos ≤ F.val (pos + (st.curStep + st.stepdelta) • dir)
        · rw [if_pos h3] at h; exact ih _ h
        · rw [if_neg h3] at h; exact ih _ h
      · rw [if_neg h2] at h; exact ih _ h

/-- Refuted: the rule ends.  Along a direction that goes up it never does. -/
theorem charalambous_never (F : Func n K) (root : K → K) (step0 mu sigma gamma : K) (hs : 0 < sigma) (fuel : Nat)
    (pos grad dir : n → K) (hd : 0 < grad ⬝ᵥ dir) :
    charalambous root step0 mu sigma gamma fuel F pos (F.val pos) grad dir = none := by
  cases h : charalambous root step0 mu sigma gamma fuel F pos (F.val pos) grad dir with
  | none => rfl
  | some r =>
    obtain ⟨s, -, -, h3⟩ := charalambous_wolfe F root step0 mu sigma gamma fuel pos grad dir r h
    have h4 := abs_nonneg (F.grad r ⬝ᵥ dir)
    have h5 : 0 < sigma * (grad ⬝ᵥ dir) := mul_pos hs hd
    linarith

/-! ## Smooth functions -/

/-- The squared norm of the gradient. -/
def gradSq (F : Func n K) (pos : n → K) : K := F.grad pos ⬝ᵥ F.grad pos

theorem gradSq_nonneg (F : Func n K) (pos : n → K) : 0 ≤ gradSq F pos :=
  Finset.sum_nonneg (fun _ _ => mul_self_nonneg _)

/-- Along the steepest descent the function lies below a parabola whose slope is the gradient's and whose curvature is
bounded by `c`: true of functions whose gradient is right and has Lipschitz constant `2 c`. -/
def Smooth (F : Func n K) (c : K) : Prop :=
  ∀ pos s, 0 ≤ s → F.val (pos - s • F.grad pos) ≤ F.val pos - s * gradSq F pos + c * s ^ 2 * gradSq F pos

theorem smooth_enough (F : Func n K) (c sigma s : K) (hF : Smooth F c) (pos : n → K) (hs : 0 ≤ s) (h : s * c ≤ 1 - sigma) :
    Enough F sigma pos (F.grad pos) (-(F.grad pos)) s := by
  unfold Enough
  have h1 := hF pos s hs
  rw [smul_neg, ← sub_eq_add_neg, dotProduct_neg]
  have hg := gradSq_nonneg F pos
  have h2 : s * gradSq F pos * (s * c) ≤ s * gradSq F pos * (1 - sigma) :=
    mul_le_mul_of_nonneg_left h (mul_nonneg hs hg)
  unfold gradSq at h1 h2
  nlinarith

/-- **C88.** For a smooth function the Armijo rule decreases the value along the steepest descent, by at least `sigma`
times the shortest step it can have taken times the squared norm of the gradient. -/
theorem armijo_smooth (F : Func n K) (c step0 beta sigma smin : K) (hF : Smooth F c) (hs : 0 ≤ step0)
    (hb : 0 ≤ beta) (hg : 0 ≤ sigma) (hc : 0 ≤ c)
    (hk : ∃ k ≤ 1000, step0 * beta ^ k * c ≤ 1 - sigma) (hm : smin ≤ step0) (hm' : smin * c ≤ beta * (1 - sigma))
    (pos : n → K) :
    F.val (armijo step0 beta sigma F pos (F.val pos) (F.grad pos) (-(F.grad pos))) ≤
      F.val pos - sigma * smin * gradSq F pos := by
  obtain ⟨j, h1, h2, h3, h4⟩ := armijo_spec F step0 beta sigma pos (F.grad pos) (-(F.grad pos))
  obtain ⟨k, hk, hk'⟩ := hk
  have hsp : ∀ i, 0 ≤ step0 * beta ^ i := fun i => mul_nonneg hs (pow_nonneg hb i)
  have hji : j ≤ k := by
    by_contra hcon
    exact h3 k (by omega) (smooth_enough F c sigma _ hF pos (hsp k) hk')
  have h := h4 (by omega)
  have hlen : smin ≤ step0 * beta ^ j := by
    cases j with
    | zero => simpa using hm
    | succ j =>
      have hn := h3 j (by omega)
      have hlt : 1 - sigma < step0 * beta ^ j * c := by
        by_contra hcon
        exact hn (smooth_enough F c sigma _ hF pos (hsp j) (not_lt.1 hcon))
      have h5 : beta * (1 - sigma) ≤ beta * (step0 * beta ^ j * c) := mul_le_mul_of_nonneg_left hlt.le hb
      have h6 : smin * c ≤ step0 * beta ^ (j + 1) * c := by rw [pow_succ]; linarith
      rcases hc.lt_or_eq with hc' | hc'
      · exact le_of_mul_le_mul_right h6 hc'
      · -- without curvature the first step is taken
        exfalso
        have h0 := h3 0 (by omega)
        refine h0 (smooth_enough F c sigma _ hF pos (hsp 0) ?_)
        rw [← hc'] at hk' ⊢
        simpa using hk'
  unfold Enough at h
  rw [h2]
  rw [dotProduct_neg] at h
  have : sigma * smin * gradSq F pos ≤ sigma * (step0 * beta ^ j) * gradSq F pos :=
    mul_le_mul_of_nonneg_right (mul_le_mul_of_nonneg_left hlen hg) (gradSq_nonneg F pos)
  have e : sigma * (step0 * beta ^ j) * -(F.grad pos ⬝ᵥ F.grad pos) = - (sigma * (step0 * beta ^ j) * gradSq F pos) := by
    unfold gradSq; ring
  rw [e] at h
  linarith

/-! ## Steepest descent -/

theorem steepest_succ (F : Func n K) (rule : StepRule n K) (k : Nat) (pos : n → K) :
    steepest F rule (k + 1) pos =
      rule F (steepest F rule k pos) (F.val (steepest F rule k pos)) (F.grad (steepest F rule k pos))
        (-(F.grad (steepest F rule k pos))) := by
  induction k generalizing pos with
  | zero => rfl
  | succ k ih =>
    rw [steepest, ih]
    rfl

/-- **C88.** Steepest descent never increases the value if the step rule never does along the steepest descent. -/
theorem steepest_descends (F : Func n K) (rule : StepRule n K)
    (hr : ∀ pos, F.val (rule F pos (F.val pos) (F.grad pos) (-(F.grad pos))) ≤ F.val pos) (k : Nat) (seed : n → K) :
    F.val (steepest F rule (k + 1) seed) ≤ F.val (steepest F rule k seed) ∧
      F.val (steepest F rule k seed) ≤ F.val seed := by
  have h1 : ∀ k, F.val (steepest F rule (k + 1) seed) ≤ F.val (steepest F rule k seed) := fun k => by
    rw [steepest_succ]; exact hr _
  refine ⟨h1 k, ?_⟩
  induction k with
  | zero => exact le_rfl
  | succ k ih => exact (h1 k).trans ih

/-- **C88.** For a smooth function, after `N` iterations of steepest descent with the Armijo rule the value has decreased
by at least `sigma smin` times the sum of the squared norms of the gradients on the way. -/
theorem steepest_smooth (F : Func n K) (c step0 beta sigma smin : K) (hF : Smooth F c) (hs : 0 ≤ step0)
    (hb : 0 ≤ beta) (hg : 0 ≤ sigma) (hc : 0 ≤ c)
    (hk : ∃ k ≤ 1000, step0 * beta ^ k * c ≤ 1 - sigma) (hm : smin ≤ step0) (hm' : smin * c ≤ beta * (1 - sigma))
    (N : Nat) (seed : n → K) :
    F.val (steepest F (armijo step0 beta sigma) N seed) +
      sigma * smin * ∑ i ∈ Finset.range N, gradSq F (steepest F (armijo step0 beta sigma) i seed) ≤ F.val seed := by
  induction N with
  | zero => simp [steepest]
  | succ N ih =>
    have := armijo_smooth F c step0 beta sigma smin hF hs hb hg hc hk hm hm' (steepest F (armijo step0 beta sigma) N seed)
    rw [← steepest_succ F (armijo step0 beta sigma)] at this
    rw [Finset.sum_range_succ, mul_add]
    linarith

/-- **C88.** So for a smooth function that is bounded below, the gradient becomes small on the way: among `N` iterations
there is one where `N sigma smin |grad|^2` is at most the distance of the value at the seed from the bound. -/
theorem steepest_gradient (F : Func n K) (c step0 beta sigma smin bound : K) (hF : Smooth F c) (hs : 0 ≤ step0)
    (hb : 0 ≤ beta) (hg : 0 ≤ sigma) (hc : 0 ≤ c)
    (hk : ∃ k ≤ 1000, step0 * beta ^ k * c ≤ 1 - sigma) (hm : smin ≤ step0) (hm' : smin * c ≤ beta * (1 - sigma))
    (h0 : 0 ≤ smin) (hbound : ∀ pos, bound ≤ F.val pos) (N : Nat) (hN : 0 < N) (seed : n → K) :
    ∃ i < N, (N : K) * (sigma * smin * gradSq F (steepest F (armijo step0 beta sigma) i seed)) ≤ F.val seed - bound := by
  have h1 := steepest_smooth F c step0 beta sigma smin hF hs hb hg hc hk hm hm' N seed
  have h2 := hbound (steepest F (armijo step0 beta sigma) N seed)
  obtain ⟨i, hi, hmin⟩ := Finset.exists_min_image (Finset.range N)
    (fun i => gradSq F (steepest F (armijo step0 beta sigma) i seed)) ⟨0, Finset.mem_range.2 hN⟩
  refine ⟨i, Finset.mem_range.1 hi, ?_⟩
  have h3 : (N : K) * gradSq F (steepest F (armijo step0 beta sigma) i seed) ≤
      ∑ j ∈ Finset.range N, gradSq F (steepest F (armijo step0 beta sigma) j seed) := by
    have := Finset.card_nsmul_le_sum (Finset.range N) (fun j => gradSq F (steepest F (armijo step0 beta sigma) j seed))
      (gradSq F (steepest F (armijo step0 beta sigma) i seed)) (fun j hj => hmin j hj)
    simpa using this
  have h4 := mul_le_mul_of_nonneg_left h3 (mul_nonneg hg h0)
  nlinarith

/-- **C88.** The constant rule decreases the value of a smooth function if its step is at most `1 / c`. -/
theorem constant_smooth (F : Func n K) (c s : K) (hF : Smooth F c) (hs : 0 ≤ s) (h : s * c ≤ 1) (N : Nat) (seed : n → K) :
    F.val (steepest F (constantStep s) N seed) ≤ F.val seed := by
  refine (steepest_descends F (constantStep s) (fun pos => ?_) N seed).2
  have h1 := hF pos s hs
  have h2 : s * gradSq F pos * (s * c) ≤ s * gradSq F pos * 1 :=
    mul_le_mul_of_nonneg_left h (mul_nonneg hs (gradSq_nonneg F pos))
  show F.val (pos + s • -(F.grad pos)) ≤ _
  rw [smul_neg, ← sub_eq_add_neg]
  nlinarith

/-! ## Conjugate gradients -/

/-- The way of `conjugate_gradient`: the positions and the directions taken from them.  Every twentieth direction, and all
of them for a function of dimension 0, is the steepest descent; the others are the steepest descent plus the last one times
the ratio of the squared norms of the gradients. -/
inductive CGWay (F : Func n K) (rule : StepRule n K) :
    Nat → (n → K) → K → (n → K) → List ((n → K) × (n → K)) → (n → K) → Prop
  | stop (i pos l d) : CGWay F rule i pos l d [] pos
  | spacer (i pos l d way final) : (i % 20 = 0 ∨ F.dim = 0) →
      CGWay F rule (i + 1) (rule F pos (F.val pos) (F.grad pos) (-(F.grad pos))) (gradSq F pos) (-(F.grad pos)) way final →
      CGWay F rule i pos l d ((pos, -(F.grad pos)) :: way) final
  | conj (i pos l d way final) : i % 20 ≠ 0 → F.dim ≠ 0 → l ≠ 0 →
      CGWay F rule (i + 1) (rule F pos (F.val pos) (F.grad pos) (-(F.grad pos) + (gradSq F pos / l) • d)) (gradSq F pos)
        (-(F.grad pos) + (gradSq F pos / l) • d) way final →
      CGWay F rule i pos l d ((pos, -(F.grad pos) + (gradSq F pos / l) • d) :: way) final

/-- **C88.** The result of `conjugate_gradient` is the end of such a way of the given number of steps. -/
theorem cg_way (F : Func n K) (rule : StepRule n K) (iters : Nat) (seed r : n → K)
    (h : conjugateGradient F rule iters seed = some r) :
    ∃ way, way.length = iters ∧ CGWay F rule 0 seed 0 0 way r := by
  have key : ∀ (k i : Nat) (pos : n → K) (l : K) (d : n → K), cgLoop F rule k i pos l d = some r →
      ∃ way, way.length = k ∧ CGWay F rule i pos l d way r := by
    intro k
    induction k with
    | zero => intro i pos l d h; cases h; exact ⟨[], rfl, CGWay.stop _ _ _ _⟩
    | succ k ih =>
      intro i pos l d h
      unfold cgLoop at h
      by_cases hc : i % 20 ≠ 0 ∧ F.dim ≠ 0
      · simp only [hc, ne_eq, not_false_eq_true, and_self, if_true] at h
        by_cases hl : l = 0
        · simp [hl] at h
        · simp only [hl, if_false] at h
          obtain ⟨way, hw, hway⟩ := ih _ _ _ _ h
          exact ⟨_, by simp [hw], CGWay.conj i pos l d way r hc.1 hc.2 hl hway⟩
      · simp only [hc, if_false] at h
        obtain ⟨way, hw, hway⟩ := ih _ _ _ _ h
        refine ⟨_, by simp [hw], CGWay.spacer i pos l d way r ?_ hway⟩
        by_cases h1 : i % 20 = 0
        · exact Or.inl h1
        · exact Or.inr (by by_contra h2; exact hc ⟨h1, h2⟩)
  exact key iters 0 seed 0 0 h

/-- **C88.** Conjugate gradients do not increase the value as long as the step rule does not along the directions taken. -/
theorem cg_descends (F : Func n K) (rule : StepRule n K) (i : Nat) (pos : n → K) (l : K) (d : n → K)
    (way : List ((n → K) × (n → K))) (r : n → K) (h : CGWay F rule i pos l d way r)
    (hr : ∀ p ∈ way, F.val (rule F p.1 (F.val p.1) (F.grad p.1) p.2) ≤ F.val p.1) : F.val r ≤ F.val pos := by
  induction h with
  | stop => exact le_rfl
  | spacer i pos l d way final _ _ ih =>
    exact (ih (fun p hp => hr p (List.mem_cons_of_mem _ hp))).trans (hr _ List.mem_cons_self)
  | conj i pos l d way final _ _ _ _ ih =>
    exact (ih (fun p hp => hr p (List.mem_cons_of_mem _ hp))).trans (hr _ List.mem_cons_self)

/-- **C88.** With the Armijo rule and directions that do not go up, along which one of the first 1001 lengths decreases the
value enough, the value does not increase. -/
theorem cg_armijo (F : Func n K) (step0 beta sigma : K) (hs : 0 ≤ step0) (hb : 0 ≤ beta) (hg : 0 ≤ sigma)
    (i : Nat) (pos : n → K) (l : K) (d : n → K) (way : List ((n → K) × (n → K))) (r : n → K)
    (h : CGWay F (armijo step0 beta sigma) i pos l d way r)
    (hd : ∀ p ∈ way, F.grad p.1 ⬝ᵥ p.2 ≤ 0 ∧ ∃ j ≤ 1000, Enough F sigma p.1 (F.grad p.1) p.2 (step0 * beta ^ j)) :
    F.val r ≤ F.val pos :=
  cg_descends F _ i pos l d way r h (fun p hp => armijo_descends F step0 beta sigma hs hb hg _ _ _ (hd p hp).1 (hd p hp).2)

/-- **C88.** One iteration of conjugate gradients is one of steepest descent; for a function that says it has dimension 0
all of them are. -/
theorem cg_steepest (F : Func n K) (rule : StepRule n K) (seed : n → K) :
    conjugateGradient F rule 1 seed = some (steepest F rule 1 seed) ∧
      (F.dim = 0 → ∀ iters, conjugateGradient F rule iters seed = some (steepest F rule iters seed)) := by
  refine ⟨rfl, fun h0 iters => ?_⟩
  have key : ∀ (k i : Nat) (pos : n → K) (l : K) (d : n → K), cgLoop F rule k i pos l d = some (steepest F rule k pos) := by
    intro k
    induction k with
    | zero => intro i pos l d; rfl
    | succ k ih =>
      intro i pos l d
      unfold cgLoop
      simp only [h0, ne_eq, not_true_eq_false, and_false, if_false]
      rw [ih]; rfl
  exact key _ _ _ _ _

/-- Refuted: from a point where the gradient vanishes, two iterations divide zero by zero. -/
theorem cg_stationary (F : Func n K) (rule : StepRule n K) (seed : n → K) (hd : F.dim ≠ 0) (h : F.grad seed = 0)
    (k : Nat) : conjugateGradient F rule (k + 2) seed = none := by
  unfold conjugateGradient
  unfold cgLoop
  simp only [Nat.zero_mod, ne_eq, not_true_eq_false, false_and, if_false]
  unfold cgLoop
  simp [hd, h]

/-! ## Cases -/

/-- The square of one variable. -/
def square : Func (Fin 1) ℚ := ⟨fun x => x 0 * x 0, fun x _ => 2 * x 0, 1⟩

theorem square_smooth : Smooth square 1 := by
  intro pos s _
  simp [square, gradSq, dotProduct]
  nlinarith

/-- The hypotheses of `steepest_gradient` are met with the default parameters of the rule: after 100 iterations from 10
there was a gradient with a square below 14. -/
example : ∃ i < 100, (100 : ℚ) * ((1 / 1000) * (9 / 100) * gradSq square (steepest square (armijo 1 (1 / 10) (1 / 1000)) i (fun _ => 10)))
    ≤ square.val (fun _ => 10) - 0 := by
  have := steepest_gradient square 1 1 (1 / 10) (1 / 1000) (9 / 100) 0 square_smooth (by norm_num) (by norm_num) (by norm_num)
    (by norm_num) ⟨1, by norm_num, by norm_num⟩ (by norm_num) (by norm_num) (by norm_num)
    (fun pos => mul_self_nonneg _) 100 (by norm_num) (fun _ => 10)
  exact_mod_cast this

example : Enough square (1 / 1000) (fun _ => 1) (fun _ => 2) (fun _ => -2) (1 * (1 / 10) ^ 1) := by
  simp [Enough, square, dotProduct]
  norm_num

/-- The Charalambous rule ends for the square: from 1, along -2, the first step of 1/2 ends at the bottom. -/
example : charalambous id (1 / 2) (1 / 1000) (1 / 100) (1 / 100) 1 square (fun _ => 1) 1 (fun _ => 2) (fun _ => -2) =
    some (fun _ => 0) := by
  decide +kernel

/-- A valley that is steeper on the left, with a plateau further left. -/
def valley : Func (Fin 1) ℚ :=
  ⟨fun x => if 0 ≤ x 0 then x 0 * x 0 else if -1 ≤ x 0 then 4 * (x 0 * x 0) else 643 / 1000,
   fun x _ => if 0 ≤ x 0 then 2 * x 0 else if -1 ≤ x 0 then 8 * x 0 else 0, 1⟩

/-- Refuted: with the Armijo rule, conjugate gradients never increase the value.  The second direction goes up here, and a
step that increases the value is taken. -/
theorem cg_uphill :
    ((conjugateGradient valley (armijo (7 / 10) (1 / 10) (1 / 1000)) 1 (fun _ => 1)).map valley.val = some (64 / 100)) ∧
    ((conjugateGradient valley (armijo (7 / 10) (1 / 10) (1 / 1000)) 2 (fun _ => 1)).map valley.val = some (643 / 1000)) := by
  constructor <;> decide +kernel

/-- A function whose gradient has the wrong sign. -/
def wrongSign : Func (Fin 1) ℚ := ⟨fun x => x 0, fun _ _ => -1, 1⟩

/-- Refuted: the Armijo rule never increases the value.  After 1001 lengths in vain the next is taken. -/
theorem armijo_gives_up :
    wrongSign.val (fun _ => 0) <
      wrongSign.val (armijo 1 (1 / 10) (1 / 1000) wrongSign (fun _ => 0) 0 (wrongSign.grad (fun _ => 0)) (fun _ => 1)) := by
  obtain ⟨j, -, h, -⟩ := armijo_spec wrongSign (1 : ℚ) (1 / 10) (1 / 1000) (fun _ => 0) (wrongSign.grad (fun _ => 0)) (fun _ => 1)
  have e : wrongSign.val (fun _ => 0) = 0 := rfl
  rw [e] at h ⊢
  rw [h]
  simp [wrongSign]

end Verif.Opt
